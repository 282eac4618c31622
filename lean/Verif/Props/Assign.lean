import Verif.Props.Places
import Verif.Props.SelfAssign
/-
C47: what an assignment changes, and what it leaves alone.
-/
set_option linter.unusedSectionVars false
namespace MiniRust

section
variable {M PE AE F : Type} [T : Target] [DecidableEq PE] [Memory M (AllocId × PE) F] [LawfulTarget T]
  [SoftMem M (AllocId × PE) F] [RawRetag M (AllocId × PE) F] [B : BasicBacked M PE AE F]
variable {s s' s1 s2 : Machine M (AllocId × PE) F} {prog : Program} {fn : Function}
include B

theorem placeLoad_parts {p : Place (AllocId × PE)} {ty v} (h : placeLoad p ty s = .ok (v, s')) : ∃ n bytes,
    p.aligned = true ∧ ty.size = .ok n ∧ (B.mem s.mem.memory).At p.ptr.thin n bytes ∧ decode ty bytes = .ok v ∧
      checkValue s'.valEnv ty v = .ok () := by
  unfold placeLoad at h
  cases hp : p.aligned with
  | false => rw [hp] at h; cases h
  | true =>
    rw [hp] at h
    obtain ⟨n, bytes, m, h3, h4, h5, h6, h7⟩ := typedLoad_eq_ok.1 h
    exact ⟨n, bytes, rfl, h3, at_of_memLoad h4, h6, h7⟩

omit [SoftMem M (AllocId × PE) F] [RawRetag M (AllocId × PE) F] in
/-- Stores do not change which values are valid. -/
theorem valEnv_store {p : ThinPtr (AllocId × PE)} {bs al hx} (h : (B.mem s.mem.memory).store p bs al hx = .ok (B.mem s'.mem.memory))
    (hs : s' = { s with mem := s'.mem }) : s'.valEnv = s.valEnv := by
  have hd : s'.mem.dereferenceable = s.mem.dereferenceable := by
    funext q k
    show Memory.dereferenceable s'.mem.memory q k = Memory.dereferenceable s.mem.memory q k
    rw [B.dereferenceable, B.dereferenceable, BasicMem.Fits_store h]
  unfold Machine.valEnv
  rw [hd]
  rw [hs]
  rfl

/-- The parts of an assignment. -/
theorem assign_parts {d : PlaceExpr} {e : ValueExpr} (h : evalStatement (.assign d e) s = .ok ((), s')) :
    ∃ p ty s1 v t s2 bs hx, evalPlace d s = .ok ((p, ty), s1) ∧ evalValue e s1 = .ok ((v, t), s2) ∧ p.aligned = true ∧
      checkValue s2.valEnv ty v = .ok () ∧ encode ty v = .ok bs ∧
      (B.mem s2.mem.memory).store p.ptr.thin bs Align.one hx = .ok (B.mem s'.mem.memory) ∧ s' = { s2 with mem := s'.mem } := by
  simp only [evalStatement, EM.bind_eq_ok, Prod.exists] at h
  obtain ⟨p, ty, s1, h1, v, t, s2, h2, h3⟩ := h
  unfold placeStore at h3
  cases hp : p.aligned with
  | false => rw [hp] at h3; cases h3
  | true =>
    rw [hp] at h3
    obtain ⟨bs, m, h4, h5, h6, h7⟩ := typedStore_eq_ok.1 h3
    subst h7
    obtain ⟨mm, h8, rfl⟩ := ConcMem.store_eq_ok.1 h6
    obtain ⟨hx, e⟩ := B.store s2.mem.memory p.ptr.thin bs Align.one
    rw [h8] at e
    exact ⟨p, ty, s1, v, t, s2, bs, hx, h1, h2, hp, h4, h5, e.symm, rfl⟩

theorem same_place {d : PlaceExpr} {r} (h : evalPlace d s = .ok (r, s1)) : SameData (B.mem s.mem.memory) (B.mem s1.mem.memory) :=
  ((tri_evalPlace (Rm := SameAllocs (M := M) (B := B)) d).ok _ _ _ h).mem
theorem same_value {d : ValueExpr} {r} (h : evalValue d s = .ok (r, s1)) : SameData (B.mem s.mem.memory) (B.mem s1.mem.memory) :=
  ((tri_evalValue (Rm := SameAllocs (M := M) (B := B)) d).ok _ _ _ h).mem

/-- C47: the place is evaluated first, then the value; afterwards, the value is what the place holds. -/
theorem C47_assign {d : PlaceExpr} {e : ValueExpr} (h : evalStatement (.assign d e) s = .ok ((), s')) :
    ∃ p ty s1 v t s2, evalPlace d s = .ok ((p, ty), s1) ∧ evalValue e s1 = .ok ((v, t), s2) ∧
      (ty.checkWf prog = .ok () → ty.Coherent s2.valEnv → ∀ w s3, placeLoad p ty s' = .ok (w, s3) → w = v) := by
  obtain ⟨p, ty, s1, v, t, s2, bs, hx, h1, h2, h3, h4, h5, h6, h7⟩ := assign_parts h
  refine ⟨p, ty, s1, v, t, s2, h1, h2, fun hw hco w s3 hl => ?_⟩
  obtain ⟨n, bytes, _, k1, k2, k3, _⟩ := placeLoad_parts hl
  obtain ⟨b, b1, b2⟩ := C01_encode_size prog ty n hw k1 _ v h4
  rw [h5] at b1; cases b1
  subst b2
  have := k2.unique (BasicMem.at_of_store h6)
  subst this
  have := C02_decode_encode_partial prog ty _ hw k1 _ hco v h4
  rw [h5, Res.bind_ok, k3] at this
  cases this; rfl

/-- C47: whatever place does not overlap with the one assigned to holds the same as before. -/
theorem C47_assign_elsewhere {d : PlaceExpr} {e : ValueExpr} (h : evalStatement (.assign d e) s = .ok ((), s')) {p ty} {n : Nat}
    (hp : evalPlace d s = .ok ((p, ty), s1)) (hw : ty.checkWf prog = .ok ()) (hn : ty.size = .ok n)
    {q : Place (AllocId × PE)} {t} {k : Nat} (hk : t.size = .ok k)
    (hd : q.ptr.thin.addr + k ≤ p.ptr.thin.addr ∨ p.ptr.thin.addr + n ≤ q.ptr.thin.addr) {v w}
    (hv : placeLoad q t s = .ok (v, s2)) {s3} (hw' : placeLoad q t s' = .ok (w, s3)) : w = v := by
  obtain ⟨p', ty', s1', v', t', s2', bs, hx, h1, h2, h3, h4, h5, h6, h7⟩ := assign_parts h
  rw [hp] at h1; cases h1
  obtain ⟨b, b1, b2⟩ := C01_encode_size prog ty n hw hn _ v' h4
  rw [h5] at b1; cases b1
  obtain ⟨_, bytes, _, k1, k2, k3, _⟩ := placeLoad_parts hv
  obtain ⟨_, bytes', _, k1', k2', k3', _⟩ := placeLoad_parts hw'
  rw [hk] at k1 k1'; cases k1; cases k1'
  have := ((k2.same (same_place hp)).same (same_value h2)).storeOther h6 (by omega)
  have := k2'.unique this
  subst this
  rw [k3'] at k3; cases k3; rfl

/-- C47: assignments to places that are not aligned are UB. -/
theorem C47_assign_misaligned {d : PlaceExpr} {e : ValueExpr} {p ty} (hp : evalPlace d s = .ok ((p, ty), s1)) (ha : p.aligned = false)
    {v t} (hv : evalValue e s1 = .ok ((v, t), s2)) : evalStatement (.assign d e) s = .error .ub := by
  simp only [evalStatement, EM.bind_of_ok hp, EM.bind_of_ok hv, placeStore, ha]
  rfl

theorem assign_part {d : PlaceExpr} {e : ValueExpr} (h : evalStatement (.assign d e) s = .ok ((), s')) {p t}
    (hp : evalPlace d s = .ok ((p, t), s1)) {v t'} (hv : evalValue e s1 = .ok ((v, t'), s2))
    (hw : t.checkWf prog = .ok ()) (hg : t.Good) (hco : t.Coherent s2.valEnv) {q : ThinPtr (AllocId × PE)} {n b} (hb : (B.mem s.mem.memory).At q n b)
    {k : Nat} (hk : k + t.sz ≤ n) (ha : p.ptr.thin = q.shift k) : ∃ bs b', decode t bs = .ok v ∧ bs.length = t.sz ∧
      writeSubslice b k bs = .ok b' ∧ (B.mem s'.mem.memory).At q n b' ∧ checkValue s2.valEnv t v = .ok () ∧ p.aligned = true := by
  obtain ⟨p', ty', s1', v', t', s2', bs, hx, h1, h2, h3, h4, h5, h6, h7⟩ := assign_parts h
  rw [hp] at h1; cases h1
  rw [hv] at h2; cases h2
  obtain ⟨_, b1, b2⟩ := C01_encode_size prog t _ hw hg.size _ v h4
  rw [h5] at b1; cases b1
  have hdec := C02_decode_encode_partial prog t _ hw hg.size _ hco v h4
  rw [h5, Res.bind_ok] at hdec
  obtain ⟨b', w1, w2⟩ := ((hb.same (same_place hp)).same (same_value hv)).storePart h6 (k := k)
    (by rw [ha]; rfl) (by rw [ha]; rfl) (by omega)
  exact ⟨bs, b', hdec, b2, w1, w2, h4, h3⟩

/-- C47: assigning to a field of a tuple replaces this field, and leaves the others as they were. -/
theorem C47_assign_field (hT : prog.Tame) (hs : Evaluating prog fn s) {d : PlaceExpr} {ty : Ty}
    (hc : d.checkWf prog fn.locals = .ok ty) (ht : d.Tame prog fn.locals) {fields head} (hty : ty = .tuple fields head none)
    {p ty'} (hp : evalPlace d s = .ok ((p, ty'), s1)) {vs} (hl : placeLoad p ty s = .ok (.tuple vs, s2))
    {k : Nat} {off t} (hk : fields[k]? = some (off, t)) {e : ValueExpr} {v t' s3} (hv : evalValue e s1 = .ok ((v, t'), s3))
    (hco : t.Coherent s3.valEnv) (h : evalStatement (.assign (.field d k) e) s = .ok ((), s')) :
    ∀ w s4, placeLoad p ty s' = .ok (w, s4) → w = .tuple (vs.set k v) := by
  subst hty
  obtain ⟨hr, hw⟩ := hs.ready hT
  have hv' := (Np.place hw d s _ hr hc ht).2 _ _ hp
  have hty := hv'.isTy
  simp only at hty
  subst hty
  obtain ⟨n, bytes, h2, h3, h4, h5, h6⟩ := placeLoad_parts hl
  obtain ⟨hg, rfl⟩ := good_of_size hv'.wf h3
  obtain ⟨g1, g2⟩ := decodeFields_get (decode_tuple_get h5)
  obtain ⟨v', nt, f1, f2, f3, f4⟩ := g2 k off t hk
  rw [h4.length] at f3
  obtain ⟨hh, hm⟩ := (hr.place hp).1.mem
  have hp' := (C45_field hT hs hc ht hp (.tuple hk) hm).1 (spans_of_at hm (h4.same (same_place hp)) (by omega))
  have hwt := ((tuple_parts hv'.wf).1 _ (List.mem_of_getElem? hk)).1
  obtain ⟨hgt, rfl⟩ := good_of_size hwt f2
  obtain ⟨bs, b', q1, q2, q3, q4, _⟩ := assign_part h hp' hv hwt hgt hco h4 f3 rfl
  intro w s4 hw'
  obtain ⟨n', bytes', _, k3, k4, k5, k6⟩ := placeLoad_parts hw'
  rw [h3] at k3; cases k3
  have := k4.unique q4
  subst this
  rw [decode_tuple_set hg h5 hk q3 q1 q2] at k5
  cases k5; rfl

/-- C47: assigning to an element of an array replaces this element, and leaves the others as they were. -/
theorem C47_assign_element (hT : prog.Tame) (hs : Evaluating prog fn s) {d : PlaceExpr} {ty it : Ty} {ie : ValueExpr}
    (hc : d.checkWf prog fn.locals = .ok ty) (ht : d.Tame prog fn.locals) (hci : ie.checkWf prog fn.locals = .ok it)
    (hti : ie.Tame prog fn.locals) {elem n} (hty : ty = .array elem n)
    {p ty'} (hp : evalPlace d s = .ok ((p, ty'), s1)) {vs s3} (hl : placeLoad p ty s = .ok (.tuple vs, s3))
    {i : Nat} {it'} (hi : evalValue ie s1 = .ok ((.int i, it'), s2)) {e : ValueExpr} {v t' s4}
    (hv : evalValue e s2 = .ok ((v, t'), s4)) (hco : elem.Coherent s4.valEnv)
    (h : evalStatement (.assign (.index d ie) e) s = .ok ((), s')) :
    i < n ∧ ∀ w s5, placeLoad p ty s' = .ok (w, s5) → w = .tuple (vs.set i v) := by
  subst hty
  obtain ⟨hr, hw⟩ := hs.ready hT
  have hv' := (Np.place hw d s _ hr hc ht).2 _ _ hp
  have hty := hv'.isTy
  simp only at hty
  subst hty
  obtain ⟨sz, bytes, h2, h3, h4, h5, h6⟩ := placeLoad_parts hl
  obtain ⟨hg, rfl⟩ := good_of_size hv'.wf h3
  obtain ⟨m, g0, g⟩ := decode_array_get h5
  obtain ⟨g1, g2⟩ := decodeElems_get g
  obtain ⟨hn, hwt, hgt⟩ := array_parts hv'.wf
  rw [hgt.size] at g0; cases g0
  obtain ⟨hr2, _⟩ := (hr.place hp).1.value hi
  obtain ⟨hh, hm⟩ := hr2.mem
  obtain ⟨c1, c2⟩ := C45_index hT hs hc ht hci hti hp hi .array hgt.size hm
  have hlt : (0 : Int) ≤ i ∧ (i : Int) < n := by
    by_contra hcon
    have := c2 fun hh => hcon hh.1
    simp only [evalStatement] at h
    obtain ⟨_, _, h, _⟩ := EM.bind_eq_ok.1 h
    rw [this] at h; cases h
  obtain ⟨v', f1, f2, f3⟩ := g2 i (by omega)
  rw [h4.length] at f2
  have hat := (h4.same (same_place hp)).same (same_value hi)
  have hp' := c1 ⟨hlt, by
    have := spans_of_at hm hat (k := i * elem.sz) (by omega)
    simpa using this⟩
  obtain ⟨bs, b', q1, q2, q3, q4, _⟩ := assign_part h hp' hv hwt hgt hco h4 f2 (by simp)
  refine ⟨hlt.2, fun w s5 hw' => ?_⟩
  obtain ⟨n', bytes', _, k3, k4, k5, k6⟩ := placeLoad_parts hw'
  rw [h3] at k3; cases k3
  have := k4.unique q4
  subst this
  rw [decode_array_set hgt h5 hlt.2 q3 q1 q2] at k5
  cases k5; rfl

end

section
variable [T : Target] [LawfulTarget T] {s s' s1 s2 : Machine (BasicMem Unit Unit) (AllocId × Unit) Unit} {prog : Program} {fn : Function}

theorem placeLoad_of_at {p : Place (AllocId × Unit)} {t n b v} (hp : p.aligned = true)
    (hn : t.size = .ok n) (hat : s.mem.memory.At p.ptr.thin n b) (hd : decode t b = .ok v)
    (hc : checkValue s.valEnv t v = .ok ()) : ∃ s2, placeLoad p t s = .ok (v, s2) := by
  have hl : s.mem.load p.ptr.thin n Align.one .none = .ok (b, ⟨s.mem.memory, s.mem.accesses ++ [⟨.load, .none, p.ptr.thin.addr, n⟩]⟩) :=
    ConcMem.load_eq_ok.2 ⟨_, BasicMem.load_of_at hat, rfl⟩
  have := typedLoad_eq_ok.2 ⟨n, b, _, hn, hl, rfl, hd, hc⟩
  simp only [placeLoad, hp]
  exact ⟨_, this⟩

/-- C47: in the basic memory model, what was assigned can be loaded. -/
theorem C47_assign_ok {d : PlaceExpr} {e : ValueExpr} (h : evalStatement (.assign d e) s = .ok ((), s')) {p ty}
    (hp : evalPlace d s = .ok ((p, ty), s1)) {v t} (hv : evalValue e s1 = .ok ((v, t), s2)) (hw : ty.checkWf prog = .ok ()) {n}
    (hn : ty.size = .ok n) (hco : ty.Coherent s2.valEnv) : ∃ s3, placeLoad p ty s' = .ok (v, s3) := by
  obtain ⟨p', ty', s1', v', t', s2', bs, hx, h1, h2, h3, h4, h5, h6, h7⟩ := assign_parts h
  rw [hp] at h1; cases h1
  rw [hv] at h2; cases h2
  obtain ⟨_, b1, b2⟩ := C01_encode_size prog ty n hw hn _ v h4
  rw [h5] at b1; cases b1
  subst b2
  have hdec := C02_decode_encode_partial prog ty _ hw hn _ hco v h4
  rw [h5, Res.bind_ok] at hdec
  have hat := BasicMem.at_of_store h6
  exact placeLoad_of_at h3 hn hat hdec (by rw [valEnv_store h6 h7]; exact h4)

end
end MiniRust

namespace MiniRust.Ex
attribute [local instance] x86_64

/-- The hypotheses of the theorems of C47 are met while `loopProg` runs: assignments to fields and elements succeed where
the whole can be loaded, an assignment through a misaligned place is UB. -/
example : ∃ (s : BMach) (fn : Function), Evaluating loopProg fn s ∧ fn.locals = [(0, unitTy), (1, arrTy), (2, pairTy), (3, .ptr refU32)] ∧
    (errOf (evalValue (.load (.local 1)) s) = none ∧ errOf (evalValue (.load (.local 2)) s) = none ∧
      errOf (evalStatement (.assign (.field (.local 2) 0) (lit 7)) s) = none ∧
      errOf (evalStatement (.assign (.index (.local 1) (lit 3)) (.load (.field (.local 2) 0))) s) = none ∧
      errOf (evalStatement (.assign (.deref (.addrOf (.index (.local 1) (lit 3)) (.raw .none)) usize)
        (.constant (.int 7) usize)) s) = some .ub) :=
  exists_evaluating loopRun 6 _ _ (by decide +kernel)

/-- Types without enums are coherent. -/
example (env : ValEnv (Nat × Unit)) : pairTy.Coherent env ∧ u32.Coherent env ∧ pairTy.checkWf loopProg = .ok () := by
  refine ⟨?_, ?_, by decide +kernel⟩
  · intro vs dt disc s a hc
    cases hc with
    | field hm hc => simp only [List.mem_cons, List.not_mem_nil, or_false] at hm; rcases hm with rfl | rfl <;> cases hc
  · intro vs dt disc s a hc; cases hc

end MiniRust.Ex
