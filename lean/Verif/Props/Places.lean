import Verif.Lemmas.Places
import Verif.Lemmas.PlainMem
import Verif.Props.Soundness
import Verif.Spec.Places
/-
C45: the places that projections denote, and the values loaded from them.
-/
set_option linter.unusedSectionVars false
namespace MiniRust

section
variable {M PE AE F : Type} [T : Target] [DecidableEq PE] [Memory M (AllocId × PE) F] [LawfulTarget T]
  [SoftMem M (AllocId × PE) F] [RawRetag M (AllocId × PE) F] [B : BasicBacked M PE AE F]
variable {s s' s1 s2 : Machine M (AllocId × PE) F} {prog : Program} {fn : Function}
include B

theorem ptrOffset_spans (hr : Base prog s) {p : ThinPtr (AllocId × PE)} (hp : PK made (cnt s) p) (hs : InSpace p) (d : Int)
    {h : MemHistory PE} (hm : MemReach (F := F) h s.mem.memory) :
    (d = 0 ∨ Spans h p d → s.ptrOffsetInbounds p d = .ok (p.shift d)) ∧
    (¬ (d = 0 ∨ Spans h p d) → s.ptrOffsetInbounds p d = .error .ub) := by
  obtain ⟨h1, h2⟩ := C44_offset_inbounds (s := s) hm (PK.genuine hp hm) (l := p) (d := d) (lTy := .bool) (rTy := .bool) hs
  have e : s.evalBinOp (.ptrOffset true) (.ptr ⟨p, none⟩, .bool) (.int d, .bool) =
    (s.ptrOffsetInbounds p d >>= fun q => .ok (.ptr (q.widen none), .bool)) := rfl
  rw [e] at h1 h2
  constructor
  · intro hc
    obtain ⟨q, hq, hq'⟩ := Res.bind_eq_ok.1 (h1 hc)
    cases hq'
    exact hq
  · intro hc
    rcases Res.bind_eq_error.1 (h2 hc) with h | ⟨_, _, h⟩
    · exact h
    · cases h

/-- C45: the field of a place is at its offset from the place, with the same provenance and alignment status, if this
does not leave the allocation; else it is UB. -/
theorem C45_field (hT : prog.Tame) (hs : Evaluating prog fn s) {e : PlaceExpr} {ty : Ty}
    (hc : e.checkWf prog fn.locals = .ok ty) (ht : e.Tame prog fn.locals) {p ty'} (he : evalPlace e s = .ok ((p, ty'), s1))
    {k off : Nat} {t md} (hf : FieldAt s1.VTableAt p.ptr.metadata ty k off t md)
    {h : MemHistory PE} (hm : MemReach (F := F) h s1.mem.memory) :
    (off = 0 ∨ Spans h p.ptr.thin off →
      evalPlace (.field e k) s = .ok ((⟨⟨p.ptr.thin.shift off, md⟩, p.aligned⟩, t), s1)) ∧
    (¬ (off = 0 ∨ Spans h p.ptr.thin off) → evalPlace (.field e k) s = .error .ub) := by
  obtain ⟨hr, hw⟩ := hs.ready hT
  have hv := (Np.place hw e s ty hr hc ht).2 _ _ he
  have hr1 := (hr.place he).1
  obtain rfl : ty' = ty := hv.isTy
  have hf' : fieldTy ty' k = .ok t := by
    cases hf with
    | tuple h =>
      have := (List.getElem?_eq_some_iff.1 h).1
      simp only [fieldTy]
      rw [if_pos (by omega)]
      simp only [indexInt_eq_ok.2 ⟨Int.natCast_nonneg _, by simpa using h⟩, Res.bind_ok]
    | tail h =>
      simp only [fieldTy]
      rw [if_neg (by omega), if_pos trivial]
    | union h =>
      simp only [fieldTy, getInt?_eq_some.2 ⟨Int.natCast_nonneg _, by simpa using h⟩]
  obtain ⟨l, size, off', lay, l1, l2, k1, k2, k3, k4, k5⟩ := fieldOffset_ok hr1 hv hf'
  have hoff : off' = off ∧ (if !lay.isSized then p.ptr.metadata else none) = md := by
    cases hf with
    | tuple h =>
      have := (List.getElem?_eq_some_iff.1 h).1
      simp only [Machine.fieldOffset] at k1
      rw [if_pos (by omega), indexInt_eq_ok.2 ⟨Int.natCast_nonneg _, by simpa using h⟩] at k1
      cases k1
      obtain ⟨_, ⟨n, al, k6⟩, _⟩ := (tuple_parts hv.wf).1 _ (List.mem_of_getElem? h)
      rw [k6] at k4; cases k4
      exact ⟨rfl, rfl⟩
    | tail h3 h4 =>
      simp only [Machine.fieldOffset] at k1
      rw [if_neg (by omega), if_pos trivial] at k1
      rw [h3] at k4; cases k4
      obtain ⟨_, lt, h6, h5⟩ := (tuple_parts hv.wf).2 _ rfl
      rw [h3] at h6; cases h6
      have := ((computeSizeAlign_iff hr1.vt (by simpa [h5] using k5)).2 h4).2
      simp only [unwrap, h3, Res.bind_ok, this] at k1
      cases k1
      simp [h5]
    | union h =>
      simp only [Machine.fieldOffset] at k1
      rw [indexInt_eq_ok.2 ⟨Int.natCast_nonneg _, by simpa using h⟩] at k1
      cases k1
      obtain ⟨_, n, al, k6, _⟩ := union_parts hv.wf _ (List.mem_of_getElem? h)
      rw [k6] at k4; cases k4
      exact ⟨rfl, rfl⟩
  obtain ⟨rfl, hmd⟩ := hoff
  obtain ⟨o1, o2⟩ := ptrOffset_spans hr1.toBase (VK.thin hv.known) hv.space off' hm
  have e1 : evalPlace (.field e k) s = EM.read (·.fieldPlace k (p, ty')) s1 := by
    simp only [evalPlace, EM.bind_of_ok he]
  simp only at k1 l1 l2
  rw [e1]
  constructor
  · intro hc
    refine EM.read_of_ok ?_
    simp only [Machine.fieldPlace, k1, Res.bind_ok, l1, l2, k2, decide_true, rassert_true, k4, o1 (by simpa using hc), hmd]
    rfl
  · intro hc
    refine EM.read_of_error ?_
    simp only [Machine.fieldPlace, k1, Res.bind_ok, l1, l2, k2, decide_true, rassert_true, k4, o2 (by simpa using hc)]
    rfl

/-- C45: an element of an array or slice is at its index times the element size, if the index is in bounds (and the
element in the allocation); else it is UB. -/
theorem C45_index (hT : prog.Tame) (hs : Evaluating prog fn s) {e : PlaceExpr} {ie : ValueExpr} {ty it : Ty}
    (hc : e.checkWf prog fn.locals = .ok ty) (ht : e.Tame prog fn.locals) (hci : ie.checkWf prog fn.locals = .ok it)
    (hti : ie.Tame prog fn.locals) {p ty' i it'} (he : evalPlace e s = .ok ((p, ty'), s1))
    (hi : evalValue ie s1 = .ok ((.int i, it'), s2)) {n : Int} {elem : Ty} (hn : Elements p.ptr.metadata ty n elem)
    {size : Nat} (hsz : elem.size = .ok size) {h : MemHistory PE} (hm : MemReach (F := F) h s2.mem.memory) :
    ((0 ≤ i ∧ i < n) ∧ (i * size = 0 ∨ Spans h p.ptr.thin (i * size)) →
      evalPlace (.index e ie) s = .ok ((⟨⟨p.ptr.thin.shift (i * size), none⟩, p.aligned⟩, elem), s2)) ∧
    (¬ ((0 ≤ i ∧ i < n) ∧ (i * size = 0 ∨ Spans h p.ptr.thin (i * size))) → evalPlace (.index e ie) s = .error .ub) := by
  obtain ⟨hr, hw⟩ := hs.ready hT
  have hv := (Np.place hw e s ty hr hc ht).2 _ _ he
  have hr1 := (hr.place he).1
  obtain ⟨hr2, hev, _⟩ := hr1.value hi
  replace hv := hv.ev hev
  obtain rfl : ty' = ty := hv.isTy
  have ht' : (∃ n, ty' = .array elem n) ∨ ty' = .slice elem := by
    cases hn with
    | array => exact .inl ⟨_, rfl⟩
    | slice => exact .inr rfl
  obtain ⟨l, sz, count, l1, l2, k1, k2, k3, k4⟩ := indexInfo_ok hr2 hv ht'
  obtain rfl : count = n := by
    cases hn with
    | array => simp only [indexInfo, Except.ok.injEq, Prod.mk.injEq, true_and] at k1; exact k1.symm
    | slice hm => simp only [indexInfo, hm, Except.ok.injEq, Prod.mk.injEq, true_and] at k1; exact k1.symm
  obtain rfl : elem.sz = size := by rw [k3.size] at hsz; exact Except.ok.inj hsz
  have e1 : evalPlace (.index e ie) s = EM.read (·.indexPlace (p, ty') (.int i)) s2 := by
    simp only [evalPlace, EM.bind_of_ok he, EM.bind_of_ok hi]
  obtain ⟨o1, o2⟩ := ptrOffset_spans hr2.toBase (VK.thin hv.known) hv.space (i * elem.sz) hm
  rw [e1]
  simp only at k1 l1 l2
  by_cases hb : 0 ≤ i ∧ i < count
  · have hle : elem.sz * i.toNat ≤ sz := by
      rw [k4]; exact Nat.mul_le_mul_left _ (by omega)
    have hcast : ((elem.sz * i.toNat : Nat) : Int) = i * elem.sz := by
      rw [Nat.cast_mul, Int.toNat_of_nonneg hb.1, Int.mul_comm]
    simp only [hb, and_self, true_and]
    have e2 : s2.indexPlace (p, ty') (.int i) = (s2.ptrOffsetInbounds p.ptr.thin (i * elem.sz) >>= fun q =>
        .ok ({ p with ptr := q.widen none }, elem)) := by
      simp only [Machine.indexPlace, k1, Res.bind_ok]
      rw [if_neg (by omega)]
      simp only [k3.size, Res.bind_ok, sizeMul_ok hb.1, l1, l2, hle, decide_true, rassert_true, hcast]
    constructor
    · intro hc
      refine EM.read_of_ok ?_
      rw [e2, o1 hc]; rfl
    · intro hc
      refine EM.read_of_error ?_
      rw [e2, o2 hc]; rfl
  · refine ⟨fun hc => absurd hc.1 hb, fun _ => EM.read_of_error ?_⟩
    simp only [Machine.indexPlace, k1, Res.bind_ok]
    rw [if_pos (by omega)]

/-- C45: dereferencing a pointer never fails. It yields the place the pointer points to; whether the place is
considered aligned depends on the type of the place, not on that of the pointer. -/
theorem C45_deref (hT : prog.Tame) (hs : Evaluating prog fn s) {e : ValueExpr} {t ty : Ty}
    (hc : (PlaceExpr.deref e t).checkWf prog fn.locals = .ok ty) (ht : e.Tame prog fn.locals) {v vt}
    (he : evalValue e s = .ok ((v, vt), s1)) :
    ∃ ptr l size align b, v = .ptr ptr ∧ t.layout = .ok l ∧ PointeeLayout s1.VTableAt l ptr.metadata size align ∧
      (b = true ↔ Aligned align ptr.thin.addr) ∧ evalPlace (.deref e t) s = .ok ((⟨ptr, b⟩, t), s1) := by
  obtain ⟨hr, hw⟩ := hs.ready hT
  simp only [PlaceExpr.checkWf, Res.bind_eq_ok] at hc
  obtain ⟨_, hwt, ety, hce, hc⟩ := hc
  have hv := (Np.value hw e s ety hr hce ht).2 _ _ he
  have hr1 := (hr.value he).1
  cases ety with
  | ptr p =>
    simp only [Res.bind_eq_ok, ensureWf_eq_ok, Except.ok.injEq, decide_eq_true_eq] at hc
    obtain ⟨_, hk, rfl⟩ := hc
    obtain ⟨q, hq, h1, h2, h3, _⟩ := hv.ptr hr1
    cases hq
    have hsd := checkSafeDeref_ok h1
    rw [hk] at h3
    obtain ⟨l, n, a, l1, _, _, l2, l3, _⟩ := computedTy hr1.toBase hwt h3
    refine ⟨q, l, n, a, _, rfl, l1, (computeSizeAlign_iff hr1.vt h3).1 ⟨l2, l3⟩, Align.isAligned_iff _ _, ?_⟩
    have e1 : evalPlace (.deref e t) s = EM.read (·.derefPlace t (.ptr q, .ptr p)) s1 := by
      simp only [evalPlace, EM.bind_of_ok he]
    rw [e1]
    refine EM.read_of_ok ?_
    simp only [Machine.derefPlace, hsd, l1, l3, Res.bind_ok]
  | _ => cases hc

/-- C45: loads from places that are not aligned are UB. -/
theorem C45_load_misaligned {e : PlaceExpr} {p ty} (he : evalPlace e s = .ok ((p, ty), s1)) (hp : p.aligned = false) :
    evalValue (.load e) s = .error .ub := by
  simp only [evalValue, EM.bind_of_ok he]
  refine EM.bind_of_error ?_
  simp only [placeLoad, hp]
  rfl

/-- C45: a variant of an enum is at the place of the enum. -/
theorem C45_downcast {e : PlaceExpr} {p variants dt disc n al} (he : evalPlace e s = .ok ((p, .enum variants dt disc n al), s1))
    {d : Int} {t g} (hd : Map.get? variants d = some (t, g)) : evalPlace (.downcast e d) s = .ok ((p, t), s1) := by
  simp only [evalPlace, EM.bind_of_ok he]
  refine EM.lift_of_ok ?_
  simp only [downcastPlace, Map.get, hd, unwrap_some, Res.bind_ok]

theorem at_of_memLoad {m m' : ConcMem M} {p n al at' b} (h : m.load p n al at' = .ok (b, m')) : (B.mem m.memory).At p n b := by
  obtain ⟨mm, h1, rfl⟩ := ConcMem.load_eq_ok.1 h
  obtain ⟨hx, e⟩ := B.load m.memory p n al
  rw [h1] at e
  exact BasicMem.at_of_load e.symm

/-- What a successful load from a place reads. -/
theorem load_parts {e : PlaceExpr} {v ty s'} (h : evalValue (.load e) s = .ok ((v, ty), s')) : ∃ p s1 n bytes,
    evalPlace e s = .ok ((p, ty), s1) ∧ p.aligned = true ∧ ty.size = .ok n ∧ (B.mem s1.mem.memory).At p.ptr.thin n bytes ∧
      decode ty bytes = .ok v ∧ checkValue s'.valEnv ty v = .ok () := by
  simp only [evalValue, EM.bind_eq_ok, EM.pure_eq_ok, Prod.exists, Prod.mk.injEq] at h
  obtain ⟨p, ty', s1, h1, v', s2, h2, ⟨rfl, rfl⟩, rfl⟩ := h
  unfold placeLoad at h2
  cases hp : p.aligned with
  | false => rw [hp] at h2; cases h2
  | true =>
    rw [hp] at h2
    obtain ⟨n, bytes, m, h3, h4, h5, h6, h7⟩ := typedLoad_eq_ok.1 h2
    exact ⟨p, s1, n, bytes, h1, hp, h3, at_of_memLoad h4, h6, h7⟩

theorem spans_of_at {h : MemHistory PE} (hm : MemReach (F := F) h s.mem.memory) {p n b} (ha : (B.mem s.mem.memory).At p n b)
    {k : Nat} (hk : k ≤ n) : k = 0 ∨ Spans h p k := by
  rcases ha with ⟨rfl, _⟩ | ⟨_, id, pe, a, off, hp, ha, hl, ho, hn, _⟩
  · omega
  · refine .inr ⟨id, _, ⟨pe, hp⟩, (live_iff hm).2 ⟨a, ha, hl, rfl⟩, ?_⟩
    simp only [Alloc.info, Alloc.size]
    omega

/-- C45: if the value at a place is a tuple, then its fields have places, and what can be loaded from the place of a
field is that field of the tuple. -/
theorem C45_load_field (hT : prog.Tame) (hs : Evaluating prog fn s) {e : PlaceExpr} {ty : Ty}
    (hc : e.checkWf prog fn.locals = .ok ty) (ht : e.Tame prog fn.locals) {fields head ty' vs}
    (hty : ty = .tuple fields head none) (hl : evalValue (.load e) s = .ok ((.tuple vs, ty'), s1)) :
    vs.length = fields.length ∧ ∀ k : Nat, k < fields.length →
      (∃ p s2, evalPlace (.field e k) s = .ok (p, s2)) ∧
      (∀ v t s2, evalValue (.load (.field e k)) s = .ok ((v, t), s2) → vs[k]? = some v) := by
  subst hty
  obtain ⟨hr, hw⟩ := hs.ready hT
  obtain ⟨p, s2, n, bytes, h1, h2, h3, h4, h5, h6⟩ := load_parts hl
  have hv := (Np.place hw e s _ hr hc ht).2 _ _ h1
  have hty := hv.isTy
  simp only at hty
  subst hty
  obtain ⟨g1, g2⟩ := decodeFields_get (decode_tuple_get h5)
  refine ⟨g1, fun k hk => ?_⟩
  obtain ⟨⟨off, t⟩, hf⟩ : ∃ f, fields[k]? = some f := ⟨_, List.getElem?_eq_getElem hk⟩
  obtain ⟨v, nt, f1, f2, f3, f4⟩ := g2 k off t hf
  rw [h4.length] at f3
  obtain ⟨h, hm⟩ := (hr.place h1).1.mem
  have hp := (C45_field hT hs hc ht h1 (.tuple hf) hm).1 (spans_of_at hm h4 (by omega))
  refine ⟨⟨_, _, hp⟩, fun v' t' s3 hl' => ?_⟩
  obtain ⟨p', s4, n', bytes', k1, k2, k3, k4, k5, k6⟩ := load_parts hl'
  rw [hp] at k1
  cases k1
  rw [f2] at k3; cases k3
  have := k4.unique (h4.part f3)
  subst this
  rw [f4] at k5; cases k5
  exact f1

/-- C45: if the value at a place is an array, then its elements have places, and what can be loaded from the place of
an element is that element of the array. -/
theorem C45_load_element (hT : prog.Tame) (hs : Evaluating prog fn s) {e : PlaceExpr} {ie : ValueExpr} {ty it : Ty}
    (hc : e.checkWf prog fn.locals = .ok ty) (ht : e.Tame prog fn.locals) (hci : ie.checkWf prog fn.locals = .ok it)
    (hti : ie.Tame prog fn.locals) {elem n ty' vs} (hty : ty = .array elem n)
    (hl : evalValue (.load e) s = .ok ((.tuple vs, ty'), s1)) : vs.length = n ∧
    ∀ p s2 (i : Nat) it' s3, evalPlace e s = .ok (p, s2) → evalValue ie s2 = .ok ((.int i, it'), s3) → i < n →
      (∃ p s2, evalPlace (.index e ie) s = .ok (p, s2)) ∧
      (∀ v t s4, evalValue (.load (.index e ie)) s = .ok ((v, t), s4) → vs[i]? = some v) := by
  subst hty
  obtain ⟨hr, hw⟩ := hs.ready hT
  obtain ⟨p, s2, sz, bytes, h1, h2, h3, h4, h5, h6⟩ := load_parts hl
  have hv := (Np.place hw e s _ hr hc ht).2 _ _ h1
  have hty := hv.isTy
  simp only at hty
  subst hty
  obtain ⟨m, g0, g⟩ := decode_array_get h5
  obtain ⟨g1, g2⟩ := decodeElems_get g
  have hn := (array_parts hv.wf).1
  refine ⟨by omega, fun p' s2' i it' s3 he hi hin => ?_⟩
  rw [h1] at he; cases he
  obtain ⟨v, f1, f2, f3⟩ := g2 i (by omega)
  rw [h4.length] at f2
  obtain ⟨hr3, _⟩ := (hr.place h1).1.value hi
  obtain ⟨h, hm⟩ := hr3.mem
  have hsame : SameData (B.mem s2.mem.memory) (B.mem s3.mem.memory) :=
    ((tri_evalValue (Rm := SameAllocs (M := M) (B := B)) ie).ok _ _ _ hi).mem
  have hat := h4.same hsame
  have hp := (C45_index hT hs hc ht hci hti h1 hi .array g0 hm).1 ⟨by omega, by
    have := spans_of_at hm hat (k := i * m) (by omega)
    simpa using this⟩
  refine ⟨⟨_, _, hp⟩, fun v' t' s5 hl' => ?_⟩
  obtain ⟨p', s4, n', bytes', k1, k2, k3, k4, k5, k6⟩ := load_parts hl'
  rw [hp] at k1
  cases k1
  rw [g0] at k3; cases k3
  have := k4.unique (by simpa [ThinPtr.shift] using hat.part f2)
  subst this
  rw [f3] at k5; cases k5
  exact f1

/-- C45: if the value at a place is a variant of an enum, then what can be loaded from the place as that variant is the
data of the variant. -/
theorem C45_load_variant (hT : prog.Tame) (hs : Evaluating prog fn s) {e : PlaceExpr} {ty : Ty}
    (hc : e.checkWf prog fn.locals = .ok ty) (ht : e.Tame prog fn.locals) {d ty' v}
    (hl : evalValue (.load e) s = .ok ((.variant d v, ty'), s1)) :
    (∃ p s2, evalPlace (.downcast e d) s = .ok (p, s2)) ∧
      ∀ w t s2, evalValue (.load (.downcast e d)) s = .ok ((w, t), s2) → w = v := by
  obtain ⟨hr, hw⟩ := hs.ready hT
  obtain ⟨p, s2, sz, bytes, h1, h2, h3, h4, h5, h6⟩ := load_parts hl
  have hv := (Np.place hw e s _ hr hc ht).2 _ _ h1
  obtain rfl : ty' = ty := hv.isTy
  cases ty' with
  | enum variants dt disc n al =>
    obtain ⟨t, g, g1, g2⟩ := decode_enum_get h5
    have hp := C45_downcast h1 g1
    refine ⟨⟨_, _, hp⟩, fun w t' s3 hl' => ?_⟩
    obtain ⟨p', s4, n', bytes', k1, k2, k3, k4, k5, k6⟩ := load_parts hl'
    rw [hp] at k1
    cases k1
    have hw' := hv.wf
    simp only [Ty.checkWf, Res.bind_eq_ok] at hw'
    obtain ⟨_, hw', _⟩ := hw'
    obtain ⟨_, _, ⟨al', hl', _⟩, _⟩ := checkVariants_ok hw' _ (Map.get?_mem g1)
    simp only at hl'
    simp only [Ty.size, Ty.layout, hl', Res.bind_ok] at h3 k3
    cases h3; cases k3
    have := k4.unique h4
    subst this
    rw [g2] at k5; cases k5
    rfl
  | _ => simp [checkValue, panic, ub] at h6

end

section
variable [T : Target] [LawfulTarget T] {s s1 s2 : Machine (BasicMem Unit Unit) (AllocId × Unit) Unit} {prog : Program} {fn : Function}

theorem load_of_parts {e : PlaceExpr} {p t n b v} (he : evalPlace e s = .ok ((p, t), s1)) (hp : p.aligned = true)
    (hn : t.size = .ok n) (hat : s1.mem.memory.At p.ptr.thin n b) (hd : decode t b = .ok v)
    (hc : checkValue s1.valEnv t v = .ok ()) : ∃ s2, evalValue (.load e) s = .ok ((v, t), s2) := by
  have hl : s1.mem.load p.ptr.thin n Align.one .none = .ok (b, ⟨s1.mem.memory, s1.mem.accesses ++ [⟨.load, .none, p.ptr.thin.addr, n⟩]⟩) :=
    ConcMem.load_eq_ok.2 ⟨_, BasicMem.load_of_at hat, rfl⟩
  have := typedLoad_eq_ok.2 ⟨n, b, _, hn, hl, rfl, hd, hc⟩
  have e1 : evalValue (.load e) s = (typedLoad p.ptr.thin t Align.one .none >>= fun v => pure (v, t)) s1 := by
    simp only [evalValue, EM.bind_of_ok he, placeLoad, hp]
    rfl
  exact ⟨_, e1.trans (EM.bind_of_ok this)⟩

/-- C45: in the basic memory model, all fields of a tuple that can be loaded can be loaded. -/
theorem C45_load_field_ok (hT : prog.Tame) (hs : Evaluating prog fn s) {e : PlaceExpr} {ty : Ty}
    (hc : e.checkWf prog fn.locals = .ok ty) (ht : e.Tame prog fn.locals) {fields head ty' vs}
    (hty : ty = .tuple fields head none) (hl : evalValue (.load e) s = .ok ((.tuple vs, ty'), s1)) {k : Nat} {off t v}
    (hk : fields[k]? = some (off, t)) (hv : vs[k]? = some v) : ∃ s2, evalValue (.load (.field e k)) s = .ok ((v, t), s2) := by
  subst hty
  obtain ⟨hr, hw⟩ := hs.ready hT
  obtain ⟨p, s2, n, bytes, h1, h2, h3, h4, h5, h6⟩ := load_parts hl
  have hp := (Np.place hw e s _ hr hc ht).2 _ _ h1
  have hty := hp.isTy
  simp only at hty
  subst hty
  obtain ⟨g1, g2⟩ := decodeFields_get (decode_tuple_get h5)
  obtain ⟨v', nt, f1, f2, f3, f4⟩ := g2 k off t hk
  rw [hv] at f1; cases f1
  rw [h4.length] at f3
  obtain ⟨hr2, ev2, _⟩ := hr.place h1
  obtain ⟨h, hm⟩ := hr2.mem
  have hp := (C45_field hT hs hc ht h1 (.tuple hk) hm).1 (spans_of_at hm h4 (by omega))
  rw [(hr.value hl).2.1.env, ← ev2.env, checkValue_iff hr2.vt hm] at h6
  cases h6 with
  | tuple _ h6 => exact load_of_parts hp h2 f2 (h4.part f3) f4 ((checkValue_iff hr2.vt hm _ _).2 (h6 _ _ _ _ hk hv))

/-- C45: in the basic memory model, all elements of an array that can be loaded can be loaded. -/
theorem C45_load_element_ok (hT : prog.Tame) (hs : Evaluating prog fn s) {e : PlaceExpr} {ie : ValueExpr} {ty it : Ty}
    (hc : e.checkWf prog fn.locals = .ok ty) (ht : e.Tame prog fn.locals) (hci : ie.checkWf prog fn.locals = .ok it)
    (hti : ie.Tame prog fn.locals) {elem n ty' vs} (hty : ty = .array elem n)
    (hl : evalValue (.load e) s = .ok ((.tuple vs, ty'), s1)) {p s3} {i : Nat} {it'} (he : evalPlace e s = .ok (p, s2))
    (hi : evalValue ie s2 = .ok ((.int i, it'), s3)) {v} (hv : vs[i]? = some v) :
    ∃ s4, evalValue (.load (.index e ie)) s = .ok ((v, elem), s4) := by
  subst hty
  obtain ⟨hr, hw⟩ := hs.ready hT
  obtain ⟨p', s2', sz, bytes, h1, h2, h3, h4, h5, h6⟩ := load_parts hl
  rw [h1] at he; cases he
  have hp := (Np.place hw e s _ hr hc ht).2 _ _ h1
  have hty := hp.isTy
  simp only at hty
  subst hty
  obtain ⟨m, g0, g⟩ := decode_array_get h5
  obtain ⟨g1, g2⟩ := decodeElems_get g
  have hn := (array_parts hp.wf).1
  have hin := (List.getElem?_eq_some_iff.1 hv).1
  obtain ⟨v', f1, f2, f3⟩ := g2 i (by omega)
  rw [hv] at f1; cases f1
  rw [h4.length] at f2
  obtain ⟨hr2, ev2, _⟩ := hr.place h1
  obtain ⟨hr3, ev3, _⟩ := hr2.value hi
  obtain ⟨h, hm⟩ := hr3.mem
  have hsame : SameData s2.mem.memory s3.mem.memory :=
    ((tri_evalValue (Rm := SameAllocs (M := BasicMem Unit Unit)) ie).ok _ _ _ hi).mem
  have hat := h4.same hsame
  have hp := (C45_index hT hs hc ht hci hti h1 hi .array g0 hm).1 ⟨by omega, by
    have := spans_of_at hm hat (k := i * m) (by omega)
    simpa using this⟩
  rw [(hr.value hl).2.1.env, ← ev2.env, ← ev3.env, checkValue_iff hr3.vt hm] at h6
  cases h6 with
  | array _ h6 =>
    exact load_of_parts hp h2 g0 (by simpa [ThinPtr.shift] using hat.part f2) f3
      ((checkValue_iff hr3.vt hm _ _).2 (h6 _ (List.mem_of_getElem? hv)))

/-- C45: in the basic memory model, the data of a variant that can be loaded can be loaded. -/
theorem C45_load_variant_ok (hT : prog.Tame) (hs : Evaluating prog fn s) {e : PlaceExpr} {ty : Ty}
    (hc : e.checkWf prog fn.locals = .ok ty) (ht : e.Tame prog fn.locals) {d ty' v}
    (hl : evalValue (.load e) s = .ok ((.variant d v, ty'), s1)) :
    ∃ t s2, evalValue (.load (.downcast e d)) s = .ok ((v, t), s2) := by
  obtain ⟨hr, hw⟩ := hs.ready hT
  obtain ⟨p, s2, sz, bytes, h1, h2, h3, h4, h5, h6⟩ := load_parts hl
  have hv := (Np.place hw e s _ hr hc ht).2 _ _ h1
  obtain rfl : ty' = ty := hv.isTy
  cases ty' with
  | enum variants dt disc n al =>
    obtain ⟨t, g, g1, g2⟩ := decode_enum_get h5
    have hw' := hv.wf
    simp only [Ty.checkWf, Res.bind_eq_ok] at hw'
    obtain ⟨_, hw', _⟩ := hw'
    obtain ⟨_, _, ⟨al', hl', _⟩, _⟩ := checkVariants_ok hw' _ (Map.get?_mem g1)
    simp only at hl'
    obtain ⟨hr2, ev2, _⟩ := hr.place h1
    obtain ⟨h, hm⟩ := hr2.mem
    rw [(hr.value hl).2.1.env, ← ev2.env, checkValue_iff hr2.vt hm] at h6
    cases h6 with
    | variant h7 h6 =>
      rw [g1] at h7; cases h7
      exact ⟨t, load_of_parts (C45_downcast h1 g1) h2
        (by simp only [Ty.size, Ty.layout, hl', Res.bind_ok] at h3 ⊢; exact h3) h4 g2 ((checkValue_iff hr2.vt hm _ _).2 h6)⟩
  | _ => simp [checkValue, panic, ub] at h6

end
end MiniRust

namespace MiniRust.Ex
attribute [local instance] x86_64

theorem exists_evaluating {prog : Program} (oracle : List (Choice (Nat × Unit))) (n : Nat) (locals : Map LocalName Ty)
    (Q : BMach → Prop) [DecidablePred Q]
    (h : observe (M := BasicMem Unit Unit) (F := Unit) prog oracle n (fun s => .ok (decide ((s.runsNext 0 (fun f _ => f.func.locals == locals)) = true ∧
      Q (s.schedule 0 [])))) = .ok true) : ∃ (s : BMach) (fn : Function), Evaluating prog fn s ∧ fn.locals = locals ∧ Q s := by
  obtain ⟨s, h1, h2, h3⟩ := exists_reachable (F := Unit) (M := BasicMem Unit Unit) (prog := prog) oracle n
    (fun s => (s.runsNext 0 (fun f _ => f.func.locals == locals)) = true ∧ Q (s.schedule 0 [])) h
  obtain ⟨r, t, f, rest, hr, hq⟩ := Machine.runsNext_eq h2
  simp only [beq_iff_eq] at hq
  exact ⟨_, f.func, .start h1 hr.thread hr.stack rfl, hq, h3⟩

/-- The hypotheses of the theorems of C45 are met while `loopProg` runs: the array and the pair can be loaded, the
elements of the array have places, and there is none after the last one. -/
example : ∃ (s : BMach) (fn : Function), Evaluating loopProg fn s ∧ fn.locals = [(0, unitTy), (1, arrTy), (2, pairTy), (3, .ptr refU32)] ∧
    (errOf (evalValue (.load (.local 1)) s) = none ∧ errOf (evalValue (.load (.local 2)) s) = none ∧
      errOf (evalPlace (.field (.local 2) 1) s) = none ∧ errOf (evalPlace (.index (.local 1) (lit 3)) s) = none ∧
      errOf (evalPlace (.index (.local 1) (lit 4)) s) = some .ub ∧
      errOf (evalPlace (.deref (.addrOf (.index (.local 1) (lit 3)) (.raw .none)) usize) s) = none ∧
      errOf (evalValue (.load (.deref (.addrOf (.index (.local 1) (lit 3)) (.raw .none)) usize)) s) = some .ub) :=
  exists_evaluating loopRun 6 _ _ (by decide +kernel)

/-- The expressions in it pass the check and are tame. -/
example : (∀ e ∈ [PlaceExpr.field (.local 2) 1, .index (.local 1) (lit 3), .index (.local 1) (lit 4),
      .deref (.addrOf (.index (.local 1) (lit 3)) (.raw .none)) usize],
    errOf (e.checkWf loopProg [(0, unitTy), (1, arrTy), (2, pairTy), (3, .ptr refU32)]) = none ∧
      e.Tame loopProg [(0, unitTy), (1, arrTy), (2, pairTy), (3, .ptr refU32)]) := by
  have h : ∀ e ∈ [PlaceExpr.field (.local 2) 1, .index (.local 1) (lit 3), .index (.local 1) (lit 4),
      .deref (.addrOf (.index (.local 1) (lit 3)) (.raw .none)) usize],
    errOf (e.checkWf loopProg [(0, unitTy), (1, arrTy), (2, pairTy), (3, .ptr refU32)]) = none ∧
      e.tameB loopProg [(0, unitTy), (1, arrTy), (2, pairTy), (3, .ptr refU32)] = true := by decide +kernel
  exact fun e he => ⟨(h e he).1, PlaceExpr.tameB_eq (h e he).2⟩

end MiniRust.Ex
