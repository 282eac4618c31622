import Verif.Spec.TypeConv
import Verif.Lemmas.FreezeMask
import Verif.Lemmas.Good
import Verif.Lemmas.Layout
import Verif.Lemmas.NoPanicOps
/-
C74: the types that miniutil builds for Rust types are well-formed and have the layout of Rust.
-/
namespace MiniRust

/-! ### References with default markers -/

theorem fromFrozenLayout_wf : ∀ l : LayoutStrategy, (fromFrozenLayout l).checkWf l = .ok ()
  | .sized .. => rfl
  | .slice .. => rfl
  | .traitObject _ => rfl
  | .tuple _ tail => fromFrozenLayout_wf tail

theorem cellsToFreezeMask_nil (n : Nat) : cellsToFreezeMask [] n = .ok (List.replicate n true) := by
  simp [cellsToFreezeMask, freezeMaskLoop, replicateInt]

theorem repeatMask_replicate (m n : Nat) : repeatMask (List.replicate m true) n = List.replicate (m * n) true := by
  induction n with
  | zero => rfl
  | succ n ih => rw [repeatMask, ih, Nat.mul_succ, List.replicate_append_replicate]

/-- C74: the helpers assume that the pointee has no `UnsafeCell`. The mask of bytes outside of `UnsafeCell`s that results from this
covers everything, for sized types and for slices of any length. -/
theorem C74_no_cells {P : Type} (vt : ThinPtr P → Res VTable) (l : LayoutStrategy) (m : Option (PtrMeta P)) (size : Nat) (a : Align)
    (hl : l.isSized = true ∨ ∃ n, m = some (.elementCount n)) (hs : l.computeSizeAndAlign vt m = .ok (size, a))
    (ht : ∀ hd tl, l ≠ .tuple hd tl) : (fromFrozenLayout l).freezeMask vt l m = .ok (List.replicate size true) := by
  cases l with
  | sized s al =>
    cases m <;> simp [LayoutStrategy.computeSizeAndAlign, panic] at hs
    obtain ⟨rfl, rfl⟩ := hs
    exact cellsToFreezeMask_nil _
  | slice s al =>
    obtain h | ⟨n, rfl⟩ := hl
    · cases h
    · simp only [LayoutStrategy.computeSizeAndAlign, Res.bind_eq_ok] at hs
      obtain ⟨k, hk, hs⟩ := hs
      cases hs
      have hk := @sizeMul_eq x86_64 _ _ _ hk
      simp only [fromFrozenLayout, UnsafeCellStrategy.freezeMask, cellsToFreezeMask_nil, Res.bind_ok, repeatMask_replicate]
      congr 2
      by_cases h0 : s = 0
      · subst h0; simp at hk ⊢; omega
      · have hn : 0 ≤ n := by
          by_contra hc
          have : (s : Int) * n < 0 := Int.mul_neg_of_pos_of_neg (by omega) (by omega)
          omega
        obtain ⟨n, rfl⟩ := Int.eq_ofNat_of_zero_le hn
        have : ((s * n : Nat) : Int) = (size : Int) := by push_cast; exact hk
        simpa using Int.ofNat.inj this
  | traitObject t =>
    obtain h | ⟨n, rfl⟩ := hl
    · cases h
    · simp [LayoutStrategy.computeSizeAndAlign, panic] at hs
  | tuple hd tl => exact absurd rfl (ht hd tl)

theorem checkLayout_sized [T : Target] {prog : Program} {ty : Ty} {n a} (hl : ty.layout = .ok (.sized n a)) (hm : ty.metaKind = .none) (hv : T.validSize n = true)
    (ha : n % a.bytes = 0) : checkLayout prog ty = .ok () := by
  simp only [checkLayout, hl, Res.bind_ok, LayoutStrategy.checkWf, hv, LayoutStrategy.checkAligned, ha, LayoutStrategy.metaKind, hm]
  simp

theorem checkLayout_slice [T : Target] {prog : Program} {ty : Ty} {n a} (hl : ty.layout = .ok (.slice n a)) (hm : ty.metaKind = .elementCount)
    (hv : T.validSize n = true) (ha : n % a.bytes = 0) : checkLayout prog ty = .ok () := by
  simp only [checkLayout, hl, Res.bind_ok, LayoutStrategy.checkWf, hv, LayoutStrategy.checkAligned, ha, LayoutStrategy.metaKind, hm]
  simp

theorem int_wf [T : Target] {prog : Program} {sg n a} (h : isPowerOfTwo n = true) (hl : (Ty.int ⟨sg, n⟩).layout = .ok (.sized n a)) (hv : T.validSize n = true)
    (ha : n % a.bytes = 0) : (Ty.int ⟨sg, n⟩).checkWf prog = .ok () := by
  simp only [Ty.checkWf, IntType.checkWf, h, checkLayout_sized hl rfl hv ha]
  rfl

section
attribute [local instance] x86_64
variable {prog : Program} {ty : Ty}

theorem convPtr_wf {p : PtrType} (h : p.checkWf prog = .ok ()) : (Ty.ptr p).checkWf prog = .ok () := by
  unfold Ty.checkWf
  rw [h]
  simp only [Res.bind_ok, checkLayout, Ty.layout]
  split <;> simp [LayoutStrategy.checkWf, LayoutStrategy.checkAligned, LayoutStrategy.metaKind, Ty.metaKind] <;> decide

/-- C74: the reference type that the helpers build for a type that is well-formed is well-formed itself; it points to something with the
layout of the type, is wide if the type calls for it, and asserts that the pointee is inhabited, frozen and `Unpin`. -/
theorem C74_default_markers (h : ty.checkWf prog = .ok ()) : ∃ info : PointeeInfo,
    ty.layout = .ok info.layout ∧ info.inhabited = true ∧ info.freeze = true ∧ info.unpin = true ∧
    info.unsafeCells = fromFrozenLayout info.layout ∧
    refTyDefaultMarkersFor ty = .ok (.ptr (.ref .imm info)) ∧ refMutTyDefaultMarkersFor ty = .ok (.ptr (.ref .mut info)) ∧
    ∀ m, (Ty.ptr (.ref m info)).checkWf prog = .ok () ∧ (PtrType.ref m info).metaKind = ty.metaKind := by
  have hl := Ty.checkLayout_of_checkWf h
  simp only [checkLayout, Res.bind_eq_ok] at hl
  obtain ⟨l, hl, _, hw, _, _, hm⟩ := hl
  refine ⟨⟨l, true, fromFrozenLayout l, true, true⟩, hl, rfl, rfl, rfl, rfl, by simp only [refTyDefaultMarkersFor, hl, Res.bind_ok, refTyOf], by simp only [refMutTyDefaultMarkersFor, hl, Res.bind_ok, refMutTyOf], fun m => ⟨?_, ?_⟩⟩
  · exact convPtr_wf (by simp only [PtrType.checkWf, PointeeInfo.checkWf, hw, fromFrozenLayout_wf, Res.bind_ok])
  · simpa [rassert, PtrType.metaKind] using hm

/-! ### Rust types -/

namespace ConvTy

/-- What is known about the type built for a Rust type. -/
structure Good (t : ConvTy) (ty : Ty) : Prop where
  conv : t.getType = .ok ty
  sized : t.Sized → ty.layout = .ok (.sized t.rustSize ⟨Nat.log2 t.rustAlign⟩) ∧ ty.metaKind = .none
  slice : ∀ e, t = .slice e → ty.layout = .ok (.slice e.rustSize ⟨Nat.log2 e.rustAlign⟩) ∧ ty.metaKind = .elementCount
  pow : t.rustAlign = 2 ^ Nat.log2 t.rustAlign
  dvd : t.rustSize % t.rustAlign = 0
  wf : t.Fits → ∀ prog : Program, ty.checkWf prog = .ok ()

theorem Good.pointee {t : ConvTy} {ty : Ty} (h : t.Good ty) : ∃ l, ty.layout = .ok l ∧ l.metaKind = ty.metaKind ∧
    (Ty.ptr (.raw ty.metaKind)).layout = .ok (.sized t.pointerSize ⟨3⟩) := by
  cases t with
  | slice e =>
    obtain ⟨h1, h2⟩ := h.slice e rfl
    exact ⟨_, h1, by rw [h2]; rfl, by rw [h2]; rfl⟩
  | _ =>
    obtain ⟨h1, h2⟩ := h.sized trivial
    exact ⟨_, h1, by rw [h2]; rfl, by rw [h2]; rfl⟩

theorem pointerSize_mod (t : ConvTy) : t.pointerSize % 8 = 0 := by cases t <;> simp [pointerSize]

theorem Good.raw {t t' : ConvTy} {ty : Ty} (h : t.Good ty) (hc : t'.getType = .ok (.ptr (.raw ty.metaKind)))
    (h1 : t'.rustSize = t.pointerSize) (h2 : t'.rustAlign = 8) (h3 : ∀ e, t' ≠ .slice e) : t'.Good (.ptr (.raw ty.metaKind)) := by
  obtain ⟨l, _, _, hp⟩ := h.pointee
  refine ⟨hc, fun _ => ⟨by rw [hp, h1, h2]; rfl, rfl⟩, fun e he => absurd he (h3 e), by rw [h2]; decide, by rw [h1, h2]; exact t.pointerSize_mod,
    fun _ prog => convPtr_wf rfl⟩

theorem Good.reference {t t' : ConvTy} {ty : Ty} {m : Mutability} {l : LayoutStrategy} (h : t.Good ty) (hl : ty.layout = .ok l)
    (hc : t'.getType = .ok (.ptr (.ref m ⟨l, true, fromFrozenLayout l, true, true⟩)))
    (h1 : t'.rustSize = t.pointerSize) (h2 : t'.rustAlign = 8) (h3 : ∀ e, t' ≠ .slice e) (h4 : t'.Fits → t.Fits) :
    t'.Good (.ptr (.ref m ⟨l, true, fromFrozenLayout l, true, true⟩)) := by
  obtain ⟨l', hl', hm, hp⟩ := h.pointee
  rw [hl] at hl'; cases hl'
  refine ⟨hc, fun _ => ⟨?_, rfl⟩, fun e he => absurd he (h3 e), by rw [h2]; decide, by rw [h1, h2]; exact t.pointerSize_mod,
    fun hf prog => convPtr_wf ?_⟩
  · rw [h1, h2]
    refine Eq.trans ?_ hp
    simp only [Ty.layout, PtrType.metaKind, hm]; rfl
  · have hl2 := Ty.checkLayout_of_checkWf (h.wf (h4 hf) prog)
    simp only [checkLayout, Res.bind_eq_ok] at hl2
    obtain ⟨l2, hl2, _, hw, _⟩ := hl2
    rw [hl] at hl2; cases hl2
    simp only [PtrType.checkWf, PointeeInfo.checkWf, hw, fromFrozenLayout_wf, Res.bind_ok]

theorem Good.small {t : ConvTy} {ty : Ty} (h : t.Good ty) (hs : t.Sized) (hf : t.Fits) : x86_64.validSize t.rustSize = true := by
  have hl2 := Ty.checkLayout_of_checkWf (h.wf hf ⟨[], 0, [], [], []⟩)
  simp only [checkLayout, Res.bind_eq_ok, (h.sized hs).1, Except.ok.injEq] at hl2
  obtain ⟨l2, rfl, _, hw, _⟩ := hl2
  simpa [LayoutStrategy.checkWf] using hw

theorem Good.aligned {t : ConvTy} {ty : Ty} (h : t.Good ty) : t.rustSize % (⟨Nat.log2 t.rustAlign⟩ : Align).bytes = 0 := by
  have := h.dvd
  rw [h.pow] at this
  exact this

theorem bool_wf : Ty.bool.checkWf prog = .ok () := by
  simp only [Ty.checkWf]
  exact checkLayout_sized rfl rfl (by decide) rfl

theorem unit_wf : (Ty.tuple [] ⟨0, Align.one, none⟩ none).checkWf prog = .ok () := by
  simp only [Ty.checkWf, Ty.fieldChecks]
  rw [checkLayout_sized (n := 0) (a := Align.one) rfl rfl (by decide) rfl]
  decide

theorem good : ∀ {t : ConvTy}, t.Exists → ∃ ty, t.Good ty := by
  intro t
  induction t with
  | constPtr t ih =>
    intro h
    obtain ⟨ty, hg⟩ := ih h
    exact ⟨_, hg.raw (by simp only [getType, hg.conv, Res.bind_ok]) rfl rfl (fun _ h => by cases h)⟩
  | mutPtr t ih =>
    intro h
    obtain ⟨ty, hg⟩ := ih h
    exact ⟨_, hg.raw (by simp only [getType, hg.conv, Res.bind_ok]) rfl rfl (fun _ h => by cases h)⟩
  | ref t ih =>
    intro h
    obtain ⟨ty, hg⟩ := ih h
    obtain ⟨l, hl, _⟩ := hg.pointee
    exact ⟨_, hg.reference (m := .imm) hl (by simp only [getType, hg.conv, Res.bind_ok, hl, freeze, unpin, rassert_true, refTyOf]) rfl rfl (fun _ h => by cases h) id⟩
  | refMut t ih =>
    intro h
    obtain ⟨ty, hg⟩ := ih h
    obtain ⟨l, hl, _⟩ := hg.pointee
    exact ⟨_, hg.reference (m := .mut) hl (by simp only [getType, hg.conv, Res.bind_ok, hl, freeze, unpin, refMutTyOf]) rfl rfl (fun _ h => by cases h) id⟩
  | array t n ih =>
    intro h
    obtain ⟨ty, hg⟩ := ih h.1
    obtain ⟨hl, hm⟩ := hg.sized h.2
    have hl' : (Ty.array ty n).layout = .ok (.sized (n * t.rustSize) ⟨Nat.log2 t.rustAlign⟩) := by
      simp only [Ty.layout, hl, Res.bind_ok, LayoutStrategy.expectSize, LayoutStrategy.expectAlign, sizeMul_ok (Int.natCast_nonneg n), Int.toNat_natCast, Nat.mul_comm]
    refine ⟨.array ty n, by simp only [getType, hg.conv, Res.bind_ok], fun _ => ⟨hl', rfl⟩, fun _ h => (by cases h), hg.pow, ?_, fun hf prog => ?_⟩
    · show n * t.rustSize % t.rustAlign = 0
      exact Nat.mod_eq_zero_of_dvd (Dvd.dvd.mul_left (Nat.dvd_of_mod_eq_zero hg.dvd) n)
    · have ha := hg.aligned
      have : n * t.rustSize % (⟨Nat.log2 t.rustAlign⟩ : Align).bytes = 0 := Nat.mod_eq_zero_of_dvd (Dvd.dvd.mul_left (Nat.dvd_of_mod_eq_zero ha) n)
      have hv : x86_64.validSize (n * t.rustSize) = true := by
        have := hf.2
        show inBounds .signed 8 ((n * t.rustSize : Nat) : Int) = true
        simp only [inBounds, decide_eq_true_eq] at *
        omega
      simp only [Ty.checkWf, hl, Res.bind_ok, hg.wf hf.1 prog, checkLayout_sized hl' rfl hv this, LayoutStrategy.isSized]
      simp
  | slice t ih =>
    intro h
    obtain ⟨ty, hg⟩ := ih h.1
    obtain ⟨hl, hm⟩ := hg.sized h.2
    have hl' : (Ty.slice ty).layout = .ok (.slice t.rustSize ⟨Nat.log2 t.rustAlign⟩) := by
      simp only [Ty.layout, hl, Res.bind_ok, LayoutStrategy.expectSize, LayoutStrategy.expectAlign]
    refine ⟨.slice ty, by simp only [getType, hg.conv, Res.bind_ok], fun h => h.elim, fun e he => ?_, hg.pow, by simp [rustSize], fun hf prog => ?_⟩
    · cases he; exact ⟨hl', rfl⟩
    · simp only [Ty.checkWf, hl, Res.bind_ok, hg.wf hf prog, checkLayout_slice hl' rfl (hg.small h.2 hf) hg.aligned, LayoutStrategy.isSized]
      simp
  | bool => exact fun _ => ⟨.bool, rfl, fun _ => ⟨by decide, rfl⟩, (fun _ h => by cases h), by decide, by decide, fun _ prog => bool_wf⟩
  | unit => exact fun _ => ⟨_, rfl, fun _ => ⟨by decide, rfl⟩, (fun _ h => by cases h), by decide, by decide, fun _ prog => unit_wf⟩
  | _ => exact fun _ => ⟨_, rfl, fun _ => ⟨by decide, rfl⟩, (fun _ h => by cases h), by decide, by decide, fun _ prog =>
      int_wf (by decide) rfl (by decide) (by decide)⟩

/-- C74: the conversion of a type that exists in Rust does not panic, and its result is well-formed in any program as long as its
arrays are not too large for Rust. -/
theorem C74_well_formed {t : ConvTy} (h : t.Exists) : ∃ ty, t.getType = .ok ty ∧ (t.Fits → ∀ prog : Program, ty.checkWf prog = .ok ()) := by
  obtain ⟨ty, hg⟩ := good h
  exact ⟨ty, hg.conv, hg.wf⟩

/-- C74: it has the size and alignment of the Rust type. -/
theorem C74_layout {t : ConvTy} (h : t.Exists) (hs : t.Sized) :
    t.getSize = .ok t.rustSize ∧ ∃ a, t.getAlign = .ok a ∧ a.bytes = t.rustAlign := by
  obtain ⟨ty, hg⟩ := good h
  obtain ⟨hl, hm⟩ := hg.sized hs
  refine ⟨?_, ⟨Nat.log2 t.rustAlign⟩, ?_, hg.pow.symm⟩
  · simp only [getSize, getLayout, hg.conv, Res.bind_ok, hl, LayoutStrategy.expectSize]
  · simp only [getAlign, getLayout, hg.conv, Res.bind_ok, hl, LayoutStrategy.expectAlign]

/-- C74: for a slice the element has the layout of the Rust type. -/
theorem C74_slice_layout {t : ConvTy} (h : (slice t).Exists) : ∃ a, (slice t).getLayout = .ok (.slice t.rustSize a) ∧ a.bytes = t.rustAlign := by
  obtain ⟨ty, hg⟩ := good h
  obtain ⟨hl, hm⟩ := hg.slice t rfl
  refine ⟨⟨Nat.log2 t.rustAlign⟩, ?_, hg.pow.symm⟩
  simp only [getLayout, hg.conv, Res.bind_ok, hl]

/-- C74: references and raw pointers to the type. They carry an element count exactly if the type is a slice, and
references promise the layout of the pointee. -/
theorem C74_pointers {t : ConvTy} (h : t.Exists) : ∃ info : PointeeInfo, t.getLayout = .ok info.layout ∧
    info.inhabited = true ∧ info.freeze = true ∧ info.unpin = true ∧ info.unsafeCells = fromFrozenLayout info.layout ∧
    (ref t).getType = .ok (.ptr (.ref .imm info)) ∧ (refMut t).getType = .ok (.ptr (.ref .mut info)) ∧
    ((∃ e, t = slice e) → info.layout.metaKind = .elementCount) ∧ (t.Sized → info.layout.metaKind = .none) ∧
    (constPtr t).getType = .ok (.ptr (.raw info.layout.metaKind)) ∧ (mutPtr t).getType = .ok (.ptr (.raw info.layout.metaKind)) := by
  obtain ⟨ty, hg⟩ := good h
  obtain ⟨l, hl, hm, hp⟩ := hg.pointee
  refine ⟨⟨l, true, fromFrozenLayout l, true, true⟩, by simp only [getLayout, hg.conv, Res.bind_ok, hl], rfl, rfl, rfl, rfl, ?_, ?_, ?_, ?_, ?_, ?_⟩
  · simp only [getType, hg.conv, Res.bind_ok, hl, freeze, unpin, rassert_true, refTyOf]
  · simp only [getType, hg.conv, Res.bind_ok, hl, freeze, unpin, refMutTyOf]
  · rintro ⟨e, rfl⟩; exact hm.trans (hg.slice e rfl).2
  · exact fun hs => hm.trans (hg.sized hs).2
  · simp only [getType, hg.conv, Res.bind_ok, hm]
  · simp only [getType, hg.conv, Res.bind_ok, hm]

/-- C74: globals for a type have as many zero bytes as the Rust type, and its alignment. -/
theorem C74_globals {t : ConvTy} (h : t.Exists) :
    (t.Sized → ∃ g, globalInt t = .ok g ∧ g.bytes = List.replicate t.rustSize (some 0) ∧ g.relocations = [] ∧ g.align.bytes = t.rustAlign) ∧
    ∃ g, globalPtr t = .ok g ∧ g.bytes = List.replicate t.pointerSize (some 0) ∧ g.relocations = [] ∧ g.align.bytes = 8 := by
  refine ⟨fun hs => ?_, ?_⟩
  · obtain ⟨h1, a, h2, h3⟩ := C74_layout h hs
    exact ⟨⟨_, _, a⟩, by simp only [globalInt, h1, h2, Res.bind_ok], rfl, rfl, h3⟩
  · obtain ⟨h1, a, h2, h3⟩ := C74_layout (t := constPtr t) h trivial
    simp only [getSize, Res.bind_eq_ok] at h1
    obtain ⟨l, hl, h1⟩ := h1
    exact ⟨⟨_, _, a⟩, by simp only [globalPtr, h1, h2, hl, Res.bind_ok, rustSize], rfl, rfl, h3⟩

theorem checkElems_mem {P : Type} {chk : Value P → Res Unit} {vs : List (Value P)} :
    checkElems chk vs = .ok () ↔ ∀ v ∈ vs, chk v = .ok () := by
  induction vs with
  | nil => simp [checkElems]
  | cons v vs ih =>
    simp only [checkElems, Res.bind_eq_ok, ih, List.forall_mem_cons]
    exact ⟨fun ⟨_, h, h'⟩ => ⟨h, h'⟩, fun ⟨h, h'⟩ => ⟨(), h, h'⟩⟩

/-- C74: the values of the type that a Rust type without pointers is converted to are the values of the Rust type. -/
theorem C74_values {P : Type} (env : ValEnv P) : ∀ {t : ConvTy}, t.Plain → ∃ ty, t.getType = .ok ty ∧
    ∀ v : Value P, checkValue env ty v = .ok () ↔ t.HasValue v
  | u8, _ | u16, _ | u32, _ | u64, _ | u128, _ | i8, _ | i16, _ | i32, _ | i64, _ | i128, _ | usize, _ | isize, _ => by
    refine ⟨_, rfl, fun v => ?_⟩
    have hp : x86_64.ptrSize = 8 := rfl
    simp only [checkValue_int, HasValue, hp, rustRange, IntType.canRepresent, inBounds, Option.some.injEq, Prod.mk.injEq, decide_eq_true_eq]
    constructor
    · rintro ⟨i, rfl, h⟩
      refine ⟨i, _, _, rfl, ⟨rfl, rfl⟩, ?_⟩
      norm_num at h
      omega
    · rintro ⟨i, _, _, rfl, ⟨rfl, rfl⟩, h⟩
      refine ⟨i, rfl, ?_⟩
      norm_num
      omega
  | bool, _ => ⟨_, rfl, fun _ => checkValue_bool⟩
  | unit, _ => ⟨_, rfl, fun _ => checkValue_unit⟩
  | array t n, h => by
    obtain ⟨ty, h1, h2⟩ := C74_values env (t := t) h
    refine ⟨.array ty n, by simp only [getType, h1, Res.bind_ok], fun v => ?_⟩
    cases v with
    | tuple vs =>
      simp only [checkValue, Res.bind_eq_ok, ensureUb_eq_ok, HasValue, Value.tuple.injEq]
      constructor
      · rintro ⟨_, hl, h⟩
        exact ⟨vs, rfl, by simpa using hl, fun x hx => (h2 x).1 (checkElems_mem.1 h x hx)⟩
      · rintro ⟨vs, rfl, hl, h⟩
        exact ⟨(), by simpa using hl, checkElems_mem.2 fun x hx => (h2 x).2 (h x hx)⟩
    | _ => simp [checkValue, HasValue]

-- A slice of three elements of four bytes.
example : (fromFrozenLayout (.slice 4 ⟨2⟩)).freezeMask (P := Nat) (fun _ => panic) (.slice 4 ⟨2⟩) (some (.elementCount 3)) =
    .ok (List.replicate 12 true) :=
  C74_no_cells _ _ _ 12 ⟨2⟩ (.inr ⟨3, rfl⟩) (by decide) (by simp)
-- `&[u16]`.
example : ∃ info : PointeeInfo, refTyDefaultMarkersFor (.slice (.int ⟨.unsigned, 2⟩)) = .ok (.ptr (.ref .imm info)) ∧
    (PtrType.ref .imm info).metaKind = .elementCount := by
  obtain ⟨info, _, _, _, _, _, h, _, h'⟩ := C74_default_markers (ty := .slice (.int ⟨.unsigned, 2⟩)) (prog := ⟨[], 0, [], [], []⟩)
    (by decide +kernel)
  exact ⟨info, h, (h' .imm).2⟩

/-- `&[[*const [u16]; 3]]`: a slice of arrays of wide pointers. -/
def example1 : ConvTy := ref (slice (array (constPtr (slice u16)) 3))

example : example1.Exists ∧ example1.Fits ∧ example1.Sized ∧ example1.rustSize = 16 ∧
    (slice (array (constPtr (slice u16)) 3)).getLayout = .ok (.slice 48 ⟨3⟩) := by
  refine ⟨?_, ?_, ?_, rfl, rfl⟩ <;> simp [example1, Exists, Fits, Sized, rustSize, pointerSize]

-- `[[i8; 2]; 1]` has -128 but not 128.
example : (array (array i8 2) 1).Plain ∧ (array (array i8 2) 1).HasValue (P := Nat) (.tuple [.tuple [.int (-128), .int 127]]) ∧
    ¬ (array (array i8 2) 1).HasValue (P := Nat) (.tuple [.tuple [.int 128, .int 0]]) := by
  simp [Plain, HasValue, rustRange]

-- An array that is too large for Rust is not well-formed.
example : ∃ ty, (array u8 (2 ^ 63)).getType = .ok ty ∧ ty.checkWf ⟨[], 0, [], [], []⟩ = .error .illFormed := ⟨_, rfl, by decide +kernel⟩

end ConvTy
end
end MiniRust
