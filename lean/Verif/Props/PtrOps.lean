import Verif.Spec.PtrOps
import Verif.Spec.Operators
import Verif.Lemmas.Operators
import Verif.Props.Pointers
/-
C44: pointer arithmetic. C58: wide pointers, casts and vtables.

The theorems hold for every memory model built on the basic one, in particular for both memory models of the
specification.
-/
set_option linter.unusedSectionVars false
namespace MiniRust

section
variable {M PE AE F : Type} [T : Target] [DecidableEq PE] [Memory M (AllocId × PE) F]
  [SoftMem M (AllocId × PE) F] [B : BasicBacked M PE AE F]
variable {s s' : Machine M (AllocId × PE) F} {prog : Program}
include B

theorem signedDeref_exact {h : MemHistory PE} {m : M} (hr : MemReach (F := F) h m) {p : ThinPtr (AllocId × PE)}
    (hg : Genuine h p) (d : Int) :
    (d = 0 ∨ Spans h p d → Memory.signedDereferenceable (F := F) m p d = .ok ()) ∧
    (¬ (d = 0 ∨ Spans h p d) → Memory.signedDereferenceable (F := F) m p d = .error .ub) := by
  unfold Memory.signedDereferenceable
  by_cases hd : d > 0
  · rw [if_pos hd]
    obtain ⟨n, rfl⟩ := Int.eq_ofNat_of_zero_le (by omega : 0 ≤ d)
    have e : unwrap (sizeFromBytes (n : Int)) = .ok n := by simp [sizeFromBytes, unwrap]
    have c : ((n : Int) = 0 ∨ Spans h p n) ↔ (n = 0 ∨ Accessible h p n) := by
      refine or_congr (by omega) ⟨?_, ?_⟩
      · rintro ⟨id, i, h1, h2, h3, h4⟩; exact ⟨id, i, h1, h2, by omega, by omega⟩
      · rintro ⟨id, i, h1, h2, h3, h4⟩; exact ⟨id, i, h1, h2, by omega, by omega⟩
    rw [e, c]
    obtain ⟨x1, x2⟩ := C18_dereferenceable_exact (F := F) hr hg (n := n)
    exact ⟨x1.2, x2.2⟩
  · rw [if_neg hd]
    obtain ⟨n, hn⟩ := Int.eq_ofNat_of_zero_le (by omega : 0 ≤ -d)
    obtain rfl : d = -(n : Int) := by omega
    have e : unwrap (sizeFromBytes (-(-(n : Int)))) = .ok n := by simp [sizeFromBytes, unwrap]
    have c : (-(n : Int) = 0 ∨ Spans h p (-n)) ↔ (n = 0 ∨ Accessible h ⟨p.addr + -n, p.prov⟩ n) := by
      refine or_congr (by omega) ⟨?_, ?_⟩
      · rintro ⟨id, i, h1, h2, h3, h4⟩; exact ⟨id, i, h1, h2, by simp only; omega, by simp only; omega⟩
      · rintro ⟨id, i, h1, h2, h3, h4⟩
        simp only at h3 h4
        exact ⟨id, i, h1, h2, by omega, by omega⟩
    rw [e, c]
    obtain ⟨x1, x2⟩ := C18_dereferenceable_exact (F := F) hr (p := ⟨p.addr + -n, p.prov⟩) hg (n := n)
    exact ⟨x1.2, x2.2⟩

/-! ### C44: pointer arithmetic -/

/-- C44: wrapping pointer arithmetic always succeeds: the address wraps around at the size of the address space, the
provenance stays the same, and so does the type. -/
theorem C44_offset_wraps [LawfulTarget T] (l : ThinPtr (AllocId × PE)) (r : Int) (lTy rTy : Ty) :
    ∃ a, s.evalBinOp (.ptrOffset false) (.ptr ⟨l, none⟩, lTy) (.int r, rTy) = .ok (.ptr ⟨⟨a, l.prov⟩, none⟩, lTy) ∧
      IntType.usize.IsWrap (l.addr + r) a :=
  ⟨_, rfl, isWrap_bring (t := IntType.usize) (isPowerOfTwo_pos LawfulTarget.ptr_pow) _⟩

/-- C44: in-bounds pointer arithmetic with a pointer in the address space whose provenance is real gives the pointer
at the given distance, with the same provenance, if this does not leave the allocation the pointer belongs to (or
the distance is zero). Otherwise it is UB. -/
theorem C44_offset_inbounds [LawfulTarget T] {h : MemHistory PE} (hm : MemReach (F := F) h s.mem.memory)
    {l : ThinPtr (AllocId × PE)} (hg : Genuine h l) (hl : IntType.usize.Fits l.addr) (d : Int) (lTy rTy : Ty) :
    (d = 0 ∨ Spans h l d → s.evalBinOp (.ptrOffset true) (.ptr ⟨l, none⟩, lTy) (.int d, rTy) =
      .ok (.ptr ⟨⟨l.addr + d, l.prov⟩, none⟩, lTy)) ∧
    (¬ (d = 0 ∨ Spans h l d) →
      s.evalBinOp (.ptrOffset true) (.ptr ⟨l, none⟩, lTy) (.int d, rTy) = .error .ub) := by
  obtain ⟨x1, x2⟩ := signedDeref_exact hm hg d
  constructor
  · intro hc
    have hd : inBounds .signed T.ptrSize d = true ∧ inBounds .unsigned T.ptrSize (l.addr + d) = true := by
      by_cases h0 : d = 0
      · subst h0
        refine ⟨?_, by rw [inBounds_unsigned_iff, add_zero]; exact hl⟩
        simp only [inBounds, decide_eq_true_eq]
        have := two_pow_pos' (8 * T.ptrSize)
        omega
      · obtain ⟨id, i, _, h2, h3, h4⟩ := hc.resolve_left h0
        obtain ⟨p1, _, p3, p4⟩ := C16_placement hm h2
        have := LawfulTarget.valid_isize _ p4
        rw [inBounds_unsigned_iff]
        simp only [inBounds, decide_eq_true_eq] at this ⊢
        omega
    have : s.mem.signedDereferenceable l d = .ok () := x1 hc
    show (s.ptrOffsetInbounds l d >>= _) = _
    unfold Machine.ptrOffsetInbounds
    rw [this, hd.1, hd.2]
    rfl
  · intro hc
    have : s.mem.signedDereferenceable l d = .error .ub := x2 hc
    show (s.ptrOffsetInbounds l d >>= _) = _
    unfold Machine.ptrOffsetInbounds
    rw [this]
    rfl

/-- C44: the in-bounds distance of two pointers with real provenance is the difference of their addresses, if each
of them belongs to a live allocation that the way to the other one does not leave (or they have the same address).
Otherwise it is UB, and so is a negative distance if the program promised a non-negative one. -/
theorem C44_distance_inbounds {h : MemHistory PE} (hm : MemReach (F := F) h s.mem.memory)
    {l r : ThinPtr (AllocId × PE)} (hgl : Genuine h l) (hgr : Genuine h r) (nonneg : Bool) (lTy rTy : Ty) :
    let good := (l.addr = r.addr ∨ Spans h l (r.addr - l.addr) ∧ Spans h r (l.addr - r.addr)) ∧
      (nonneg = true → r.addr ≤ l.addr)
    (good → s.evalBinOp (.ptrOffsetFrom true nonneg) (.ptr ⟨l, none⟩, lTy) (.ptr ⟨r, none⟩, rTy) =
      .ok (.int (l.addr - r.addr), .int isize)) ∧
    (¬ good → s.evalBinOp (.ptrOffsetFrom true nonneg) (.ptr ⟨l, none⟩, lTy) (.ptr ⟨r, none⟩, rTy) = .error .ub) := by
  intro good
  obtain ⟨x1, x2⟩ := signedDeref_exact hm hgl (-(l.addr - r.addr))
  obtain ⟨y1, y2⟩ := signedDeref_exact hm hgr (l.addr - r.addr)
  have e : -(l.addr - r.addr) = r.addr - l.addr := by omega
  rw [e] at x1 x2
  have fold : s.evalBinOp (.ptrOffsetFrom true nonneg) (.ptr ⟨l, none⟩, lTy) (.ptr ⟨r, none⟩, rTy) =
      (do
        s.mem.signedDereferenceable l (r.addr - l.addr)
        s.mem.signedDereferenceable r (l.addr - r.addr)
        if nonneg && decide (l.addr - r.addr < 0) then ub
        else .ok (.int (l.addr - r.addr), .int isize) : Res (Value (AllocId × PE) × Ty)) := by
    rw [← e]
    show (s.ptrDistance true l r >>= _) = _
    unfold Machine.ptrDistance
    simp only [if_true]
    cases s.mem.signedDereferenceable l (-(l.addr - r.addr)) with
    | error e => rfl
    | ok _ =>
      show ((do _; _ : Res Int) >>= _) = _
      cases s.mem.signedDereferenceable r (l.addr - r.addr) <;> rfl
  rw [fold]
  by_cases hs : l.addr = r.addr ∨ Spans h l (r.addr - l.addr) ∧ Spans h r (l.addr - r.addr)
  · have d1 : s.mem.signedDereferenceable l (r.addr - l.addr) = .ok () :=
      x1 (hs.imp (fun h => by omega) (·.1))
    have d2 : s.mem.signedDereferenceable r (l.addr - r.addr) = .ok () :=
      y1 (hs.imp (fun h => by omega) (·.2))
    rw [d1, d2]
    constructor
    · rintro ⟨_, g2⟩
      have : (nonneg && decide (l.addr - r.addr < 0)) = false := by
        cases nonneg
        · rfl
        · have := g2 rfl; simp; omega
      simp only [this]
      rfl
    · intro hng
      have : (nonneg && decide (l.addr - r.addr < 0)) = true := by
        cases nonneg
        · exact absurd ⟨hs, fun h => by cases h⟩ hng
        · have : ¬ r.addr ≤ l.addr := fun h => hng ⟨hs, fun _ => h⟩
          simp; omega
      simp only [this]
      rfl
  · refine ⟨fun g => absurd g.1 hs, fun _ => ?_⟩
    by_cases h1 : r.addr - l.addr = 0 ∨ Spans h l (r.addr - l.addr)
    · have d1 : s.mem.signedDereferenceable l (r.addr - l.addr) = .ok () := x1 h1
      have d2 : s.mem.signedDereferenceable r (l.addr - r.addr) = .error .ub := y2 (by
        rintro (h2 | h2)
        · exact hs (.inl (by omega))
        · rcases h1 with h1 | h1
          · exact hs (.inl (by omega))
          · exact hs (.inr ⟨h1, h2⟩))
      rw [d1, d2]; rfl
    · have d1 : s.mem.signedDereferenceable l (r.addr - l.addr) = .error .ub := x2 h1
      rw [d1]; rfl

/-- C44: the wrapping distance of two pointers is the difference of their addresses, wrapped; it is UB exactly if it
is negative although the program promised a non-negative one. -/
theorem C44_distance_wraps [LawfulTarget T] (l r : ThinPtr (AllocId × PE)) (nonneg : Bool) (lTy rTy : Ty) :
    ∃ d, isize.IsWrap (l.addr - r.addr) d ∧
      s.evalBinOp (.ptrOffsetFrom false nonneg) (.ptr ⟨l, none⟩, lTy) (.ptr ⟨r, none⟩, rTy) =
        if nonneg = true ∧ d < 0 then .error .ub else .ok (.int d, .int isize) := by
  refine ⟨_, isWrap_bring (t := isize) (isPowerOfTwo_pos LawfulTarget.ptr_pow) _, ?_⟩
  show (if _ then _ else _ : Res _) = _
  congr 1
  simp only [Bool.and_eq_true, decide_eq_true_eq]
  rfl

/-- C44: the distance from a pointer to the pointer obtained from it by in-bounds arithmetic is the distance that
went into that arithmetic. -/
theorem C44_offset_distance_inverse [LawfulTarget T] {h : MemHistory PE} (hm : MemReach (F := F) h s.mem.memory)
    {l : ThinPtr (AllocId × PE)} (hg : Genuine h l) (hl : IntType.usize.Fits l.addr) {d : Int} {lTy rTy : Ty}
    {v : Value (AllocId × PE)} {ty : Ty}
    (ho : s.evalBinOp (.ptrOffset true) (.ptr ⟨l, none⟩, lTy) (.int d, rTy) = .ok (v, ty)) :
    s.evalBinOp (.ptrOffsetFrom true false) (v, ty) (.ptr ⟨l, none⟩, lTy) = .ok (.int d, .int isize) := by
  obtain ⟨x1, x2⟩ := C44_offset_inbounds (s := s) hm hg hl d lTy rTy
  by_cases hc : d = 0 ∨ Spans h l d
  · rw [x1 hc] at ho
    cases ho
    have e : l.addr + d - l.addr = d := by omega
    have e' : l.addr - (l.addr + d) = -d := by omega
    have := (C44_distance_inbounds (s := s) hm (l := ⟨l.addr + d, l.prov⟩) (r := l) hg hg false lTy lTy).1 (by
      refine ⟨?_, fun h => by cases h⟩
      rcases hc with rfl | hc
      · left; simp
      · right
        simp only [e, e']
        obtain ⟨id, i, h1, h2, h3, h4⟩ := hc
        exact ⟨⟨id, i, h1, h2, h4, by simp only; omega⟩, id, i, h1, h2, h3, h4⟩)
    rw [this]
    simp only [e]
  · rw [x2 hc] at ho; cases ho

/-! ### C58: wide pointers, casts, vtables -/

omit T [DecidableEq PE] [Memory M (AllocId × PE) F] [SoftMem M (AllocId × PE) F] B in
theorem decodeValue_eq {k : MetaKind} {m : Option (PtrMeta (AllocId × PE))} (h : MetaShape k m) :
    k.decodeValue (MetaValue m) = .ok m := by
  cases k <;> rcases m with _ | (_ | _) <;> first | rfl | cases h

omit [DecidableEq PE] [Memory M (AllocId × PE) F] [SoftMem M (AllocId × PE) F] B in
theorem metaShape_of_ok {k : MetaKind} {m : Option (PtrMeta (AllocId × PE))} (h : s.MetaOk k m) : MetaShape k m := by
  cases k
  · cases (h : m = none); trivial
  · obtain ⟨n, rfl, _⟩ := h; trivial
  · obtain ⟨p, v, rfl, _⟩ := h; trivial

theorem construct_wide_exact (hvt : s.VTablesOk) {h : MemHistory PE}
    (hm : MemReach (F := F) h s.mem.memory) {p : ThinPtr (AllocId × PE)} (hg : Genuine h p) {t : PtrType}
    (hw : t.checkWf prog = .ok ()) {m : Option (PtrMeta (AllocId × PE))} (hs : MetaShape t.metaKind m) (lTy rTy : Ty) :
    (s.ValidPtr h ⟨p, m⟩ t → s.evalBinOp (.constructWidePointer t) (.ptr ⟨p, none⟩, lTy) (MetaValue m, rTy) =
      .ok (.ptr ⟨p, m⟩, .ptr t)) ∧
    (¬ s.ValidPtr h ⟨p, m⟩ t →
      s.evalBinOp (.constructWidePointer t) (.ptr ⟨p, none⟩, lTy) (MetaValue m, rTy) = .error .ub) := by
  have hi := checkPtr_iff hvt hm (ptr := ⟨p, m⟩) (ty := t)
  have e : s.evalBinOp (.constructWidePointer t) (.ptr ⟨p, none⟩, lTy) (MetaValue m, rTy) =
      (do checkPtr s.valEnv ⟨p, m⟩ t; .ok (.ptr ⟨p, m⟩, .ptr t) : Res (Value (AllocId × PE) × Ty)) := by
    show (t.metaKind.decodeValue (MetaValue m) >>= _) = _
    rw [decodeValue_eq hs]
    show (checkValue s.valEnv (.ptr t) _ >>= _) = _
    simp only [checkValue]
  rw [e]
  constructor
  · intro hv; rw [hi.2 hv]; rfl
  · intro hv
    rcases checkPtr_ub hvt hm (ptr := ⟨p, m⟩) hg hw with h1 | h1
    · exact absurd (hi.1 h1) hv
    · rw [h1]; rfl

/-- C58: putting a thin pointer and metadata together gives the wide pointer with these two parts if that is valid at
the wanted pointer type, and is UB otherwise. -/
theorem C58_construct_wide (hu : prog.KeysUnique) (hr : Reachable prog s) {h : MemHistory PE}
    (hm : MemReach (F := F) h s.mem.memory) {p : ThinPtr (AllocId × PE)} (hg : Genuine h p) {t : PtrType}
    (hw : t.checkWf prog = .ok ()) {m : Option (PtrMeta (AllocId × PE))} (hs : MetaShape t.metaKind m) (lTy rTy : Ty) :
    (s.ValidPtr h ⟨p, m⟩ t → s.evalBinOp (.constructWidePointer t) (.ptr ⟨p, none⟩, lTy) (MetaValue m, rTy) =
      .ok (.ptr ⟨p, m⟩, .ptr t)) ∧
    (¬ s.ValidPtr h ⟨p, m⟩ t →
      s.evalBinOp (.constructWidePointer t) (.ptr ⟨p, none⟩, lTy) (MetaValue m, rTy) = .error .ub) :=
  construct_wide_exact (vtablesOk_of_reachable hu hr) hm hg hw hs lTy rTy

theorem wide_parts_exact (hvt : s.VTablesOk) {h : MemHistory PE}
    (hm : MemReach (F := F) h s.mem.memory) {ptr : Pointer (AllocId × PE)} {t : PtrType} (hv : s.ValidPtr h ptr t) :
    s.evalUnOp .getThinPointer (.ptr ptr, .ptr t) = .ok (.ptr ⟨ptr.thin, none⟩, .ptr (.raw .none)) ∧
    s.evalUnOp .getMetadata (.ptr ptr, .ptr t) = .ok (MetaValue ptr.metadata, t.metaKind.ty) ∧
    s.ValidValue h t.metaKind.ty (MetaValue ptr.metadata) ∧
    s.evalBinOp (.constructWidePointer t) (.ptr ⟨ptr.thin, none⟩, .ptr (.raw .none))
      (MetaValue ptr.metadata, t.metaKind.ty) = .ok (.ptr ptr, .ptr t) := by
  have hmo := hv.2.2.1
  have hval : s.ValidValue h t.metaKind.ty (MetaValue ptr.metadata) := by
    revert hmo
    generalize t.metaKind = k
    intro hmo
    cases k with
    | none =>
      have : ptr.metadata = none := hmo
      rw [this]
      exact .tuple rfl (fun i off ty v h1 => by simp at h1)
    | elementCount =>
      obtain ⟨n, hn, hlt⟩ := hmo
      rw [hn]
      refine .int ⟨by omega, ?_⟩
      exact_mod_cast hlt
    | vtablePointer tr =>
      obtain ⟨p, v, hp, hv1, hv2⟩ := hmo
      rw [hp]
      have := hvt.addr p v hv1
      exact .ptr ⟨this.1, this.2, rfl, v, hv1, hv2⟩
  refine ⟨rfl, ?_, hval, ?_⟩
  · have hsh := metaShape_of_ok hmo
    have henc : t.metaKind.encodeAsValue ptr.metadata = .ok (MetaValue ptr.metadata) := by
      revert hsh
      generalize t.metaKind = k
      generalize ptr.metadata = m
      intro hsh
      cases k <;> rcases m with _ | (_ | _) <;> first | rfl | cases hsh
    show s.evalGetMetadata (.ptr ptr, .ptr t) = _
    unfold Machine.evalGetMetadata
    simp only [henc, Res.bind_ok, (checkValue_iff hvt hm _ _).2 hval]
    rfl
  · have e : s.evalBinOp (.constructWidePointer t) (.ptr ⟨ptr.thin, none⟩, .ptr (.raw .none)) (MetaValue ptr.metadata, t.metaKind.ty) =
      (do checkPtr s.valEnv ptr t; .ok (.ptr ptr, .ptr t) : Res (Value (AllocId × PE) × Ty)) := by
      show (t.metaKind.decodeValue (MetaValue ptr.metadata) >>= _) = _
      rw [decodeValue_eq (metaShape_of_ok hmo)]
      show (checkValue s.valEnv (.ptr t) _ >>= _) = _
      simp only [checkValue]
    rw [e, (checkPtr_iff hvt hm).2 hv]
    rfl

/-- C58: taking a valid pointer apart gives its two parts, from which the pointer can be put together again. -/
theorem C58_wide_parts (hu : prog.KeysUnique) (hr : Reachable prog s) {h : MemHistory PE}
    (hm : MemReach (F := F) h s.mem.memory) {ptr : Pointer (AllocId × PE)} {t : PtrType} (hv : s.ValidPtr h ptr t) :
    s.evalUnOp .getThinPointer (.ptr ptr, .ptr t) = .ok (.ptr ⟨ptr.thin, none⟩, .ptr (.raw .none)) ∧
    s.evalUnOp .getMetadata (.ptr ptr, .ptr t) = .ok (MetaValue ptr.metadata, t.metaKind.ty) ∧
    s.ValidValue h t.metaKind.ty (MetaValue ptr.metadata) ∧
    s.evalBinOp (.constructWidePointer t) (.ptr ⟨ptr.thin, none⟩, .ptr (.raw .none))
      (MetaValue ptr.metadata, t.metaKind.ty) = .ok (.ptr ptr, .ptr t) :=
  wide_parts_exact (vtablesOk_of_reachable hu hr) hm hv

theorem size_and_align_exact (hvt : s.VTablesOk) {ty : Ty} {l : LayoutStrategy}
    (hl : ty.layout = .ok l) {m : Option (PtrMeta (AllocId × PE))} (hmo : s.MetaOk ty.metaKind m) (mTy : Ty)
    {size : Nat} {align : Align} (hp : PointeeLayout s.VTableAt l m size align) :
    s.evalUnOp (.computeSize ty) (MetaValue m, mTy) = .ok (.int size, .int IntType.usize) ∧
    s.evalUnOp (.computeAlign ty) (MetaValue m, mTy) = .ok (.int (2 ^ align.log), .int IntType.usize) := by
  have hd := decodeValue_eq (metaShape_of_ok hmo)
  obtain ⟨h1, h2⟩ := (computeSizeAlign_iff hvt hmo).2 hp
  constructor
  · show (ty.metaKind.decodeValue (MetaValue m) >>= fun m => ty.layout >>= fun l => s.valEnv.computeSize l m >>= _) = _
    simp only [hd, hl, Res.bind_ok, h1]
  · show (ty.metaKind.decodeValue (MetaValue m) >>= fun m => ty.layout >>= fun l => s.valEnv.computeAlign l m >>= _) = _
    simp only [hd, hl, Res.bind_ok, h2]
    simp [Align.bytes]

/-- C58: the size and the alignment of what a pointer points to, computed from its metadata, are those given by the
layout of the type: fixed, a multiple of the element size, or taken from the vtable. -/
theorem C58_size_and_align (hu : prog.KeysUnique) (hr : Reachable prog s) {ty : Ty} {l : LayoutStrategy}
    (hl : ty.layout = .ok l) {m : Option (PtrMeta (AllocId × PE))} (hmo : s.MetaOk ty.metaKind m) (mTy : Ty)
    {size : Nat} {align : Align} (hp : PointeeLayout s.VTableAt l m size align) :
    s.evalUnOp (.computeSize ty) (MetaValue m, mTy) = .ok (.int size, .int IntType.usize) ∧
    s.evalUnOp (.computeAlign ty) (MetaValue m, mTy) = .ok (.int (2 ^ align.log), .int IntType.usize) :=
  size_and_align_exact (vtablesOk_of_reachable hu hr) hl hmo mTy hp

/-- C58: looking up a method in a vtable gives a pointer to the function the vtable declares for this method. -/
theorem C58_vtable_method (hu : prog.KeysUnique) (hr : Reachable prog s) {p : ThinPtr (AllocId × PE)} {v : VTable}
    (hv : s.VTableAt p v) {method : TraitMethodName} {name : FnName} (hm : v.methods.get? method = some name)
    {f : Function} (hf : prog.functions.get? name = some f) (t : PtrType) :
    ∃ r, s.evalUnOp (.vtableMethodLookup method) (.ptr ⟨p, none⟩, .ptr t) = .ok (r, .ptr .fnPtr) ∧ s.FnAt r f := by
  obtain ⟨h, hm'⟩ := hr.memReach
  obtain ⟨q, hq, _⟩ := (C55_statics_placed hu hr hm').functions.has name _ _ ⟨Map.get?_isSome_iff.1 ⟨f, hf⟩, rfl, rfl⟩
  have hl := (vtableLookup_iff (vtablesOk_of_reachable hu hr) p v).2 hv
  refine ⟨.ptr ⟨q, none⟩, ?_, name, q, rfl, hq, by rw [C42_program hr]; exact hf⟩
  show s.evalVTableMethodLookup method (.ptr ⟨p, none⟩, .ptr t) = _
  unfold Machine.evalVTableMethodLookup
  have u : ∀ {α : Type} (a : α), unwrap (some a) = .ok a := fun _ => rfl
  simp only [hl, Res.bind_ok, Map.get, hm, hq, u]
  rfl

/-- C58: reinterpreting a valid value at another type is UB if the sizes differ; otherwise it gives the value the
bytes of the original one represent at the new type if they represent a valid one, and is UB if they do not. -/
theorem C58_transmute [LawfulTarget T] (hu : prog.KeysUnique) (hr : Reachable prog s) {h : MemHistory PE}
    (hm : MemReach (F := F) h s.mem.memory) {ty ty' : Ty} {n n' : Nat} (hw : ty.checkWf prog = .ok ())
    (hn : ty.size = .ok n) (hw' : ty'.checkWf prog = .ok ()) (hn' : ty'.size = .ok n') {v : Value (AllocId × PE)}
    (hv : s.ValidValue h ty v) (hg : ∀ p, ProvIn p v → ∃ i, WasAllocated h p.1 i) :
    ∃ bytes, encode ty v = .ok bytes ∧ bytes.length = n ∧
    (∀ v', n = n' → decode ty' bytes = .ok v' → s.ValidValue h ty' v' →
      s.evalUnOp (.cast (.transmute ty')) (v, ty) = .ok (v', ty')) ∧
    ((¬ (n = n' ∧ ∃ v', decode ty' bytes = .ok v' ∧ s.ValidValue h ty' v')) →
      s.evalUnOp (.cast (.transmute ty')) (v, ty) = .error .ub) := by
  have hvt := vtablesOk_of_reachable hu hr
  obtain ⟨hg1, rfl⟩ := good_of_size hw hn
  obtain ⟨hg2, rfl⟩ := good_of_size hw' hn'
  obtain ⟨bs, hb⟩ := encode_total_good s.valEnv hg1 ((checkValue_iff hvt hm ty v).2 hv)
  have hlen := encode_length_good hg1 hb
  have e : s.evalUnOp (.cast (.transmute ty')) (v, ty) = (if ty.sz ≠ ty'.sz then ub else do
      let v ← transmute s.valEnv v ty ty'
      .ok (v, ty') : Res _) := by
    show (ty.size >>= fun a => ty'.size >>= fun b => _) = _
    rw [hn, hn']; rfl
  have e2 : ty.sz = ty'.sz → transmute s.valEnv v ty ty' = s.decodeChecked ty' bs := by
    intro hz
    unfold transmute Machine.decodeChecked
    rw [hn, hn', hb]
    simp only [Res.bind_ok, hz, beq_self_eq_true, rassert]
    rfl
  rw [e]
  refine ⟨bs, hb, hlen, ?_, ?_⟩
  · intro v' hz hd hv'
    rw [if_neg (by simp [hz]), e2 hz]
    unfold Machine.decodeChecked
    simp only [hd, (checkValue_iff hvt hm ty' v').2 hv']
    rfl
  · intro hno
    by_cases hz : ty.sz = ty'.sz
    · rw [if_neg (by simp [hz]), e2 hz]
      unfold Machine.decodeChecked
      rcases decode_total_good hg2 (hlen.trans hz) with ⟨v', hd⟩ | hd
      · rw [hd]
        rcases checkValue_okOrUb hvt hm hg2 (fun p hc => Ty.ptr_checkWf hw' hc) hd
          (fun p hp => hg p (encode_prov ty hb (decode_prov ty' hd hp))) with h1 | h1
        · exact absurd ⟨hz, v', hd, (checkValue_iff hvt hm ty' v').1 h1⟩ hno
        · simp only [h1]; rfl
      · rw [hd]; rfl
    · rw [if_pos hz]
end
end MiniRust
namespace MiniRust
namespace Ex
attribute [local instance] x86_64
-- Pointer arithmetic in an allocation of 8 bytes at address 16: inside, to its end, past its end, before its start,
-- with a pointer without provenance, and wrapping around.
example : ∃ s : BMach, Reachable staticsProg s ∧
    (s.evalBinOp (.ptrOffset true) (thinAt 20 (some (0, ())), rawTy) (.int (-4), .bool)).toOption.map (·.1) = some (thinAt 16 (some (0, ()))) ∧
    (s.evalBinOp (.ptrOffset true) (thinAt 20 (some (0, ())), rawTy) (.int 4, .bool)).toOption.map (·.1) = some (thinAt 24 (some (0, ()))) ∧
    errOf (s.evalBinOp (.ptrOffset true) (thinAt 20 (some (0, ())), rawTy) (.int 5, .bool)) = some .ub ∧
    errOf (s.evalBinOp (.ptrOffset true) (thinAt 20 (some (0, ())), rawTy) (.int (-5), .bool)) = some .ub ∧
    errOf (s.evalBinOp (.ptrOffset true) (thinAt 20 none, rawTy) (.int 1, .bool)) = some .ub ∧
    errOf (s.evalBinOp (.ptrOffset true) (thinAt 5 none, rawTy) (.int 0, .bool)) = none ∧
    (s.evalBinOp (.ptrOffset false) (thinAt 20 (some (0, ())), rawTy) (.int (-21), .bool)).toOption.map (·.1) =
      some (thinAt (2 ^ 64 - 1) (some (0, ()))) :=
  exists_reachable staticsRun 0 _ (by decide +kernel)
-- Distances: in one allocation, between two allocations, negative although promised not to be, wrapping.
example : ∃ s : BMach, Reachable staticsProg s ∧
    (s.evalBinOp (.ptrOffsetFrom true true) (thinAt 24 (some (0, ())), rawTy) (thinAt 17 (some (0, ())), rawTy)).toOption.map (·.1) = some (.int 7) ∧
    errOf (s.evalBinOp (.ptrOffsetFrom true true) (thinAt 32 (some (1, ())), rawTy) (thinAt 17 (some (0, ())), rawTy)) = some .ub ∧
    errOf (s.evalBinOp (.ptrOffsetFrom true true) (thinAt 17 (some (0, ())), rawTy) (thinAt 24 (some (0, ())), rawTy)) = some .ub ∧
    errOf (s.evalBinOp (.ptrOffsetFrom true false) (thinAt 25 (some (0, ())), rawTy) (thinAt 17 (some (0, ())), rawTy)) = some .ub ∧
    (s.evalBinOp (.ptrOffsetFrom false false) (thinAt 17 (some (0, ())), rawTy) (thinAt (2 ^ 64 - 1) none, rawTy)).toOption.map (·.1) = some (.int 18) :=
  exists_reachable staticsRun 0 _ (by decide +kernel)
-- Making a reference to a slice: two elements fit, three do not; its parts; sizes; methods; transmutes.
example : ∃ s : BMach, Reachable staticsProg s ∧
    (s.evalBinOp (.constructWidePointer (.ref .imm ⟨.slice 4 ⟨2⟩, true, .slice [], true, true⟩))
      (thinAt 16 (some (0, ())), rawTy) (.int 2, .int IntType.usize)).toOption.map (·.1) = some (.ptr ⟨⟨16, some (0, ())⟩, some (.elementCount 2)⟩) ∧
    errOf (s.evalBinOp (.constructWidePointer (.ref .imm ⟨.slice 4 ⟨2⟩, true, .slice [], true, true⟩))
      (thinAt 16 (some (0, ())), rawTy) (.int 3, .int IntType.usize)) = some .ub ∧
    (s.evalUnOp .getMetadata (.ptr ⟨⟨16, some (0, ())⟩, some (.elementCount 2)⟩, sliceRef 4 2)).toOption.map (·.1) = some (.int 2) ∧
    (s.evalUnOp (.computeSize (.slice (.int ⟨.unsigned, 4⟩))) (.int 2, .bool)).toOption.map (·.1) = some (.int 8) ∧
    (s.evalUnOp (.computeSize (.traitObject 0)) (thinAt 58 (some (4, ())), .bool)).toOption.map (·.1) = some (.int 8) ∧
    (s.evalUnOp (.computeAlign (.traitObject 0)) (thinAt 58 (some (4, ())), .bool)).toOption.map (·.1) = some (.int 8) ∧
    (s.evalUnOp (.vtableMethodLookup 0) (thinAt 58 (some (4, ())), .ptr (.vtablePtr 0))).toOption.map (·.1) = some (thinAt 57 (some (3, ()))) ∧
    (s.evalUnOp (.cast (.transmute (.int ⟨.signed, 1⟩))) (.int 255, .int ⟨.unsigned, 1⟩)).toOption.map (·.1) = some (.int (-1)) ∧
    errOf (s.evalUnOp (.cast (.transmute .bool)) (.int 255, .int ⟨.unsigned, 1⟩)) = some .ub ∧
    errOf (s.evalUnOp (.cast (.transmute .bool)) (.int 1, .int ⟨.unsigned, 2⟩)) = some .ub :=
  exists_reachable staticsRun 0 _ (by decide +kernel)
end Ex
end MiniRust
