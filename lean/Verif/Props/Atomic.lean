import Verif.Spec.Atomic
import Verif.Lemmas.IntrArgs
import Verif.Props.Statements
import Verif.Props.Heap
/-
C52: the atomic intrinsics.
-/
set_option linter.unusedSectionVars false
namespace MiniRust

section
variable {M PE AE F : Type} [T : Target] [DecidableEq PE] [Memory M (AllocId × PE) F] [LawfulTarget T]
  [SoftMem M (AllocId × PE) F] [RawRetag M (AllocId × PE) F] [B : BasicBacked M PE AE F]
variable {s s' s1 s2 : Machine M (AllocId × PE) F} {prog : Program}
include B

theorem same_conc {m m' : ConcMem M} {p : ThinPtr (AllocId × PE)} {n al at' b} (h : m.load p n al at' = .ok (b, m')) :
    SameData (B.mem m.memory) (B.mem m'.memory) := ReadRel.load (Rm := SameAllocs (M := M) (B := B)) _ _ _ _ _ _ _ h

/-- The parts of a load. -/
theorem typedLoad_parts {p : ThinPtr (AllocId × PE)} {ty al at' v} (h : typedLoad p ty al at' s = .ok (v, s')) : ∃ n bytes,
    ty.size = .ok n ∧ (B.mem s.mem.memory).At p n bytes ∧ decode ty bytes = .ok v ∧ checkValue s'.valEnv ty v = .ok () ∧
      Aligned al p.addr ∧ SameData (B.mem s.mem.memory) (B.mem s'.mem.memory) ∧
      s'.mem.accesses = s.mem.accesses ++ [⟨.load, at', p.addr, n⟩] ∧ s' = { s with mem := s'.mem } := by
  obtain ⟨n, bytes, m, h3, h4, rfl, h6, h7⟩ := typedLoad_eq_ok.1 h
  have h5 := same_conc h4
  have hat := at_of_memLoad h4
  obtain ⟨mm, h8, rfl⟩ := ConcMem.load_eq_ok.1 h4
  obtain ⟨hx, e⟩ := B.load s.mem.memory p n al
  rw [h8] at e
  exact ⟨n, bytes, h3, hat, h6, h7, (BasicMem.load_eq_ok.1 e.symm).1, h5, rfl, rfl⟩

/-- The parts of a store. -/
theorem typedStore_parts {p : ThinPtr (AllocId × PE)} {ty al at' v} {u : Unit} (h : typedStore p v ty al at' s = .ok (u, s')) : ∃ bs hx,
    checkValue s.valEnv ty v = .ok () ∧ encode ty v = .ok bs ∧
      (B.mem s.mem.memory).store p bs al hx = .ok (B.mem s'.mem.memory) ∧ Aligned al p.addr ∧
      s'.mem.accesses = s.mem.accesses ++ [⟨.store, at', p.addr, bs.length⟩] ∧ s' = { s with mem := s'.mem } := by
  obtain ⟨bs, m, h4, h5, h6, rfl⟩ := typedStore_eq_ok.1 h
  obtain ⟨mm, h8, rfl⟩ := ConcMem.store_eq_ok.1 h6
  obtain ⟨hx, e⟩ := B.store s.mem.memory p bs al
  rw [h8] at e
  exact ⟨bs, hx, h4, h5, e.symm, (BasicMem.store_eq_ok.1 e.symm).1, rfl, rfl⟩

theorem plainLoad_parts {p : ThinPtr (AllocId × PE)} {ty v} (h : plainLoad p ty s = .ok (v, s')) : ∃ n bytes,
    ty.size = .ok n ∧ (B.mem s.mem.memory).At p n bytes ∧ decode ty bytes = .ok v ∧ checkValue s'.valEnv ty v = .ok () := by
  obtain ⟨n, b, _, h1⟩ := placeLoad_parts h
  exact ⟨n, b, h1⟩

theorem sameContents_of (h : SameData (B.mem s.mem.memory) (B.mem s'.mem.memory)) : s.SameContents s' := by
  intro q ty v w s1 s1' hv hw
  obtain ⟨n, b, h1, h2, h3, _⟩ := plainLoad_parts hv
  obtain ⟨n', b', h1', h2', h3', _⟩ := plainLoad_parts hw
  rw [h1] at h1'; cases h1'
  obtain rfl := h2'.unique (h2.same h)
  rw [h3] at h3'; cases h3'; rfl

theorem holds_of_at {p : ThinPtr (AllocId × PE)} {ty n b v} (hn : ty.size = .ok n) (hb : (B.mem s.mem.memory).At p n b)
    (hd : decode ty b = .ok v) : s.Holds p ty v := by
  intro w s1 hw
  obtain ⟨n', b', h1', h2', h3', _⟩ := plainLoad_parts hw
  rw [hn] at h1'; cases h1'
  obtain rfl := h2'.unique hb
  rw [hd] at h3'; cases h3'; rfl

theorem sameApart_of_store {p : ThinPtr (AllocId × PE)} {bs al hx} (hs : SameData (B.mem s.mem.memory) (B.mem s1.mem.memory))
    (h : (B.mem s1.mem.memory).store p bs al hx = .ok (B.mem s'.mem.memory)) : s.SameApartFrom s' p.addr bs.length := by
  intro q ty k v w s1 s1' hk hd hv hw
  obtain ⟨n, b, h1, h2, h3, _⟩ := plainLoad_parts hv
  obtain ⟨n', b', h1', h2', h3', _⟩ := plainLoad_parts hw
  rw [h1] at h1'; cases h1'
  rw [hk] at h1; cases h1
  obtain rfl := h2'.unique ((h2.same hs).storeOther h (by omega))
  rw [h3] at h3'; cases h3'; rfl

theorem holds_of_store {p : ThinPtr (AllocId × PE)} {ty v bs al hx} (hw : ty.checkWf prog = .ok ())
    (hco : ty.Coherent s1.valEnv) (hc : checkValue s1.valEnv ty v = .ok ()) (he : encode ty v = .ok bs)
    (h : (B.mem s1.mem.memory).store p bs al hx = .ok (B.mem s'.mem.memory)) : s'.Holds p ty v := by
  intro w s2 hl
  obtain ⟨n, bytes, k1, k2, k3, _⟩ := plainLoad_parts hl
  obtain ⟨b, b1, b2⟩ := C01_encode_size prog ty n hw k1 _ v hc
  rw [he] at b1; cases b1
  subst b2
  obtain rfl := k2.unique (BasicMem.at_of_store h)
  have := C02_decode_encode_partial prog ty _ hw k1 _ hco v hc
  rw [he, Res.bind_ok, k3] at this
  cases this; rfl

omit B in
theorem int_coherent {ity : IntType} {env : ValEnv (AllocId × PE)} : (Ty.int ity).Coherent env := by
  intro _ _ _ _ _ hc; cases hc

omit B [LawfulTarget T] [SoftMem M (AllocId × PE) F] [RawRetag M (AllocId × PE) F] [Memory M (AllocId × PE) F] [DecidableEq PE] in
theorem intTy_size {ity : IntType} {n : Nat} (h : (Ty.int ity).size = .ok n) : n = ity.size := by
  obtain ⟨l, e1, e2⟩ := Res.bind_eq_ok.1 h
  unfold Ty.layout at e1
  obtain ⟨a, _, e3⟩ := Res.bind_eq_ok.1 e1
  cases e3; cases e2; rfl

omit B in
theorem aligned_pow {k : Nat} {a : Int} : Aligned ⟨k⟩ a ↔ (2 ^ k : Int) ∣ a := by
  unfold Aligned; push_cast; rfl

/-- C52: a successful `AtomicLoad` was through a thin pointer whose address is a multiple of the size of the type, which is a
power of two that is not too large for atomic accesses. It returns what an ordinary load would return, leaves the memory
as it is, and counts as one atomic load. -/
theorem C52_load {a v : Value (AllocId × PE)} {ta ty : Ty} (h : evalIntrinsic .atomicLoad [(a, ta)] ty s = .ok (v, s')) :
    ∃ (p : ThinPtr (AllocId × PE)) (k : Nat), a = .ptr ⟨p, none⟩ ∧ ty.size = .ok (2 ^ k) ∧ 2 ^ k ≤ T.maxAtomicSize ∧
      (2 ^ k : Int) ∣ p.addr ∧ s.Holds p ty v ∧ s.SameContents s' ∧
      s'.mem.accesses = s.mem.accesses ++ [⟨.load, .atomic, p.addr, 2 ^ k⟩] ∧ s' = { s with mem := s'.mem } := by
  simp only [evalIntrinsic, intrinsicAtomicLoad, EM.bind_eq_ok, EM.lift_eq_ok, requireUb_eq_ok, decide_eq_true_eq] at h
  obtain ⟨p, _, ⟨h1, rfl⟩, n, _, ⟨h2, rfl⟩, al, _, ⟨h3, rfl⟩, _, _, ⟨h4, rfl⟩, h⟩ := h
  obtain ⟨t, h1⟩ := thinPtrArg_eq_ok.1 h1
  cases h1
  obtain ⟨k⟩ := al
  have h3 := alignArg_eq_ok.1 h3
  have h3 : n = 2 ^ k := by exact_mod_cast h3
  subst h3
  obtain ⟨n, b, c1, c2, c3, _, c5, c6, c7, c8⟩ := typedLoad_parts h
  rw [h2] at c1; cases c1
  exact ⟨p, k, rfl, h2, h4, aligned_pow.1 c5, holds_of_at h2 c2 c3, sameContents_of c6, c7, c8⟩

/-- C52: a successful `AtomicStore` was through a thin pointer whose address is a multiple of the size of the type, which is a
power of two that is not too large for atomic accesses. Afterwards ordinary loads find the value there and everything else
as before, and it counts as one atomic store. -/
theorem C52_store {a v r : Value (AllocId × PE)} {ta ty tr : Ty} (hw : ty.checkWf prog = .ok ()) (hco : ty.Coherent s.valEnv)
    (h : evalIntrinsic .atomicStore [(a, ta), (v, ty)] tr s = .ok (r, s')) :
    ∃ (p : ThinPtr (AllocId × PE)) (k : Nat), a = .ptr ⟨p, none⟩ ∧ ty.size = .ok (2 ^ k) ∧ 2 ^ k ≤ T.maxAtomicSize ∧
      (2 ^ k : Int) ∣ p.addr ∧ r = unitValue ∧ s'.Holds p ty v ∧ s.SameApartFrom s' p.addr (2 ^ k) ∧
      s'.mem.accesses = s.mem.accesses ++ [⟨.store, .atomic, p.addr, 2 ^ k⟩] ∧ s' = { s with mem := s'.mem } := by
  simp only [evalIntrinsic, intrinsicAtomicStore, EM.bind_eq_ok, EM.lift_eq_ok] at h
  obtain ⟨p, _, ⟨h1, rfl⟩, l, _, ⟨h2, rfl⟩, h⟩ := h
  obtain ⟨t, h1⟩ := thinPtrArg_eq_ok.1 h1
  cases h1
  cases l with
  | sized n la =>
    simp only [EM.bind_eq_ok, EM.lift_eq_ok, requireUb_eq_ok, decide_eq_true_eq, EM.pure_eq_ok] at h
    obtain ⟨al, _, ⟨h3, rfl⟩, _, _, ⟨h4, rfl⟩, _, _, ⟨h5, rfl⟩, _, s1, h6, rfl, rfl⟩ := h
    have hsz : ty.size = .ok n := by simp [Ty.size, h2, LayoutStrategy.expectSize]
    obtain ⟨k⟩ := al
    have h3 := alignArg_eq_ok.1 h3
    have h3 : n = 2 ^ k := by exact_mod_cast h3
    subst h3
    obtain ⟨bs, hx, c1, c2, c3, c4, c5, c6⟩ := typedStore_parts h6
    obtain ⟨b, b1, b2⟩ := C01_encode_size prog ty _ hw hsz _ v c1
    rw [c2] at b1; cases b1
    refine ⟨p, k, rfl, hsz, h4, aligned_pow.1 c4, rfl, holds_of_store hw hco c1 c2 c3, b2 ▸ sameApart_of_store SameData.refl c3, b2 ▸ c5, c6⟩
  | _ => cases h

/-- C52: a successful `AtomicCompareExchange` is on an integer, and was through a thin pointer whose address is a multiple of its
size, which is not too large for atomic accesses. It returns the integer that an ordinary load would have returned before.
If that is the expected one, then afterwards ordinary loads find the new integer there and everything else as before,
and there was an atomic load and an atomic store; otherwise the memory is as it was, and there was only an atomic load. -/
theorem C52_compare_exchange {a cur next v : Value (AllocId × PE)} {ta tc tn ty : Ty} (hw : ty.checkWf prog = .ok ())
    (h : evalIntrinsic .atomicCompareExchange [(a, ta), (cur, tc), (next, tn)] ty s = .ok (v, s')) :
    ∃ (p : ThinPtr (AllocId × PE)) (ity : IntType) (k : Nat), a = .ptr ⟨p, none⟩ ∧ ty = .int ity ∧ tc = ty ∧ tn = ty ∧
      ity.size = 2 ^ k ∧ 2 ^ k ≤ T.maxAtomicSize ∧ (2 ^ k : Int) ∣ p.addr ∧ s.Holds p ty v ∧ s' = { s with mem := s'.mem } ∧
      (cur = v → s'.Holds p ty next ∧ s.SameApartFrom s' p.addr (2 ^ k) ∧
        s'.mem.accesses = s.mem.accesses ++ [⟨.load, .atomic, p.addr, 2 ^ k⟩, ⟨.store, .atomic, p.addr, 2 ^ k⟩]) ∧
      (cur ≠ v → s.SameContents s' ∧
        s'.mem.accesses = s.mem.accesses ++ [⟨.load, .atomic, p.addr, 2 ^ k⟩]) := by
  simp only [evalIntrinsic, intrinsicCompareExchange, EM.bind_eq_ok, EM.lift_eq_ok, requireUb_eq_ok, decide_eq_true_eq,
    EM.pure_eq_ok, unwrap_eq_ok] at h
  obtain ⟨p, _, ⟨h1, rfl⟩, _, _, ⟨rfl, rfl⟩, _, _, ⟨rfl, rfl⟩, _, _, ⟨h2, rfl⟩, n, _, ⟨h3, rfl⟩, al, _, ⟨h4, rfl⟩, _, _, ⟨h5, rfl⟩,
    v', s1, h6, _, s2, h7, rfl, rfl⟩ := h
  obtain ⟨t, h1⟩ := thinPtrArg_eq_ok.1 h1
  cases h1
  obtain ⟨ity, rfl⟩ : ∃ ity, tn = .int ity := by cases tn <;> simp [isIntTy] at h2 ⊢
  obtain ⟨k⟩ := al
  have hn : n = ity.size := intTy_size h3
  have hk : n = 2 ^ k := fromBytes_eq_some.1 h4
  subst hk
  obtain ⟨_, b, c1, c2, c3, c4, c5, c6, c7, c8⟩ := typedLoad_parts h6
  rw [h3] at c1; cases c1
  refine ⟨p, ity, k, rfl, rfl, rfl, rfl, hn.symm, h5, aligned_pow.1 c5, holds_of_at h3 c2 c3, ?_, fun hc => ?_, fun hc => ?_⟩
  · unfold storeIf at h7
    split at h7
    · obtain ⟨_, _, _, _, _, _, _, d6⟩ := typedStore_parts h7
      rw [d6, c8]
    · obtain ⟨_, rfl⟩ := EM.pure_eq_ok.1 h7
      exact c8
  · rw [decide_eq_true hc] at h7
    obtain ⟨bs, hx, d1, d2, d3, d4, d5, d6⟩ := typedStore_parts (h7 : typedStore _ _ _ _ _ _ = _)
    obtain ⟨b', b1, b2⟩ := C01_encode_size prog _ _ hw h3 _ next d1
    rw [d2] at b1; cases b1
    refine ⟨holds_of_store hw int_coherent d1 d2 d3, b2 ▸ sameApart_of_store c6 d3, ?_⟩
    rw [d5, c7, b2, List.append_assoc]; rfl
  · rw [decide_eq_false hc] at h7
    obtain ⟨_, rfl⟩ := EM.pure_eq_ok.1 (h7 : (pure () : EM _ _ _ _) _ = _)
    exact ⟨sameContents_of c6, c7⟩

/-- C52: a successful `AtomicFetchAndOp` is on an integer, and was through a thin pointer whose address is a multiple of its
size, which is not too large for atomic accesses. It returns the integer that an ordinary load would have returned before.
Afterwards ordinary loads find the sum or the difference there, and everything else as before. There was an atomic load and
an atomic store. (The result is one that fits the type; otherwise the interpreter panics, see `C37_fetch_and_op_panics`.) -/
theorem C52_fetch_and_op {op : IntBinOp} {a o v : Value (AllocId × PE)} {ta tt ty : Ty} (hw : ty.checkWf prog = .ok ())
    (h : evalIntrinsic (.atomicFetchAndOp op) [(a, ta), (o, tt)] ty s = .ok (v, s')) :
    ∃ (p : ThinPtr (AllocId × PE)) (ity : IntType) (k : Nat) (old operand new : Int), a = .ptr ⟨p, none⟩ ∧ ty = .int ity ∧ tt = ty ∧
      ity.size = 2 ^ k ∧ 2 ^ k ≤ T.maxAtomicSize ∧ (2 ^ k : Int) ∣ p.addr ∧ v = .int old ∧ o = .int operand ∧ s.Holds p ty (.int old) ∧
      (op = .add → new = old + operand) ∧ (op = .sub → new = old - operand) ∧ evalIntBinOp op old operand ity = .ok new ∧
      s'.Holds p ty (.int new) ∧ s.SameApartFrom s' p.addr (2 ^ k) ∧
      s'.mem.accesses = s.mem.accesses ++ [⟨.load, .atomic, p.addr, 2 ^ k⟩, ⟨.store, .atomic, p.addr, 2 ^ k⟩] ∧
      s' = { s with mem := s'.mem } := by
  simp only [evalIntrinsic, intrinsicFetchAndOp, EM.bind_eq_ok, EM.lift_eq_ok, requireUb_eq_ok, decide_eq_true_eq] at h
  obtain ⟨p, _, ⟨h1, rfl⟩, _, _, ⟨rfl, rfl⟩, h⟩ := h
  obtain ⟨t, h1⟩ := thinPtrArg_eq_ok.1 h1
  cases h1
  cases tt with
  | int ity =>
    simp only [EM.bind_eq_ok, EM.lift_eq_ok, requireUb_eq_ok, decide_eq_true_eq, EM.pure_eq_ok, unwrap_eq_ok] at h
    obtain ⟨n, _, ⟨h3, rfl⟩, al, _, ⟨h4, rfl⟩, _, _, ⟨h5, rfl⟩, v', s1, h6, w, _, ⟨h7, rfl⟩, _, s2, h8, rfl, rfl⟩ := h
    obtain ⟨k⟩ := al
    have hn : n = ity.size := intTy_size h3
    have hk : n = 2 ^ k := fromBytes_eq_some.1 h4
    subst hk
    obtain ⟨_, b, c1, c2, c3, c4, c5, c6, c7, c8⟩ := typedLoad_parts h6
    rw [h3] at c1; cases c1
    obtain ⟨operand, old, new, rfl, rfl, e, rfl⟩ : ∃ i j r, o = .int i ∧ v' = .int j ∧ evalIntBinOp op j i ity = .ok r ∧ w = .int r := by
      unfold fetchOpResult at h7
      split at h7
      · obtain ⟨r, e1, e2⟩ := Res.bind_eq_ok.1 h7
        cases e2
        exact ⟨_, _, _, rfl, rfl, e1, rfl⟩
      · cases h7
    obtain ⟨bs, hx, d1, d2, d3, d4, d5, d6⟩ := typedStore_parts h8
    obtain ⟨b', b1, b2⟩ := C01_encode_size prog _ _ hw h3 _ _ d1
    rw [d2] at b1; cases b1
    refine ⟨p, ity, k, old, operand, new, rfl, rfl, rfl, hn.symm, h5, aligned_pow.1 c5, rfl, rfl, holds_of_at h3 c2 c3, ?_, ?_, e,
      holds_of_store hw int_coherent d1 d2 d3, b2 ▸ sameApart_of_store c6 d3, ?_, ?_⟩
    · rintro rfl; cases e; rfl
    · rintro rfl; cases e; rfl
    · rw [d5, c7, b2, List.append_assoc]; rfl
    · rw [d6, c8]
  | _ => cases h

/-! ### Failing operations -/

/-- C52: an `AtomicLoad` of a type whose size is not a power of two, or too large for atomic accesses, or through something that
is not a thin pointer with an address that is a multiple of the size, is UB. -/
theorem C52_load_ub {h : MemHistory PE} (hm : MemReach (F := F) h s.mem.memory) {a : Value (AllocId × PE)} {ta ty : Ty} {n : Nat}
    (hn : ty.size = .ok n) (hg : ∀ p, a = .ptr ⟨p, none⟩ → Genuine h p)
    (hb : ¬ ∃ (p : ThinPtr (AllocId × PE)) (k : Nat), a = .ptr ⟨p, none⟩ ∧ n = 2 ^ k ∧ n ≤ T.maxAtomicSize ∧ (n : Int) ∣ p.addr) :
    evalIntrinsic .atomicLoad [(a, ta)] ty s = .error .ub := by
  simp only [evalIntrinsic, intrinsicAtomicLoad]
  rcases thinPtrArg_cases (a, ta) with ⟨p, t, e⟩ | e
  · cases e
    rw [EM.bind_of_ok (EM.lift_eq_ok.2 ⟨thinPtrArg_ptr, rfl⟩), EM.bind_of_ok (EM.lift_eq_ok.2 ⟨hn, rfl⟩)]
    rcases alignArg_cases n with ⟨k, hk⟩ | ⟨_, e⟩
    · rw [EM.bind_of_ok (EM.lift_eq_ok.2 ⟨hk ▸ alignArg_pow, rfl⟩)]
      have hk : n = 2 ^ k := by exact_mod_cast hk
      by_cases hmx : n ≤ T.maxAtomicSize
      · rw [EM.bind_of_ok (a := ()) (requireUb_eq_ok.2 ⟨decide_eq_true hmx, rfl⟩)]
        have hal : ¬ Aligned ⟨k⟩ p.addr := by
          rw [aligned_pow]
          intro hd
          exact hb ⟨p, k, rfl, hk, hmx, by rw [hk]; push_cast; exact hd⟩
        have hub := (C18_bad_access_is_ub hm (hg p rfl) (align := ⟨k⟩)).1 n (fun hc => hal hc.1)
        unfold typedLoad
        rw [EM.bind_of_ok (EM.lift_eq_ok.2 ⟨hn, rfl⟩)]
        refine EM.bind_of_error ?_
        simp only [memLoad, ConcMem.load, hub]; rfl
      · rw [decide_eq_false hmx]
        exact EM.bind_of_error requireUb_false
    · exact EM.bind_of_error (by rw [e]; rfl)
  · exact EM.bind_of_error (by rw [e]; rfl)

/-- C52: the same for an `AtomicStore` of a valid value. -/
theorem C52_store_ub {h : MemHistory PE} (hm : MemReach (F := F) h s.mem.memory) {a v : Value (AllocId × PE)} {ta ty tr : Ty} {n : Nat}
    (hw : ty.checkWf prog = .ok ()) (hn : ty.size = .ok n) (hv : checkValue s.valEnv ty v = .ok ())
    (hg : ∀ p, a = .ptr ⟨p, none⟩ → Genuine h p)
    (hb : ¬ ∃ (p : ThinPtr (AllocId × PE)) (k : Nat), a = .ptr ⟨p, none⟩ ∧ n = 2 ^ k ∧ n ≤ T.maxAtomicSize ∧ (n : Int) ∣ p.addr) :
    evalIntrinsic .atomicStore [(a, ta), (v, ty)] tr s = .error .ub := by
  simp only [evalIntrinsic, intrinsicAtomicStore]
  rcases thinPtrArg_cases (a, ta) with ⟨p, t, e⟩ | e
  · cases e
    obtain ⟨l, hl, hl2⟩ := Res.bind_eq_ok.1 hn
    rw [EM.bind_of_ok (EM.lift_eq_ok.2 ⟨thinPtrArg_ptr, rfl⟩), EM.bind_of_ok (EM.lift_eq_ok.2 ⟨hl, rfl⟩)]
    cases l with
    | sized n' al' =>
      cases hl2
      simp only
      rcases alignArg_cases n with ⟨k, hk⟩ | ⟨_, e⟩
      · rw [EM.bind_of_ok (EM.lift_eq_ok.2 ⟨hk ▸ alignArg_pow, rfl⟩)]
        have hk : n = 2 ^ k := by exact_mod_cast hk
        by_cases hmx : n ≤ T.maxAtomicSize
        · rw [EM.bind_of_ok (a := ()) (requireUb_eq_ok.2 ⟨decide_eq_true hmx, rfl⟩)]
          by_cases ht : tr = unitTy
          · rw [EM.bind_of_ok (a := ()) (requireUb_eq_ok.2 ⟨decide_eq_true ht, rfl⟩)]
            have hal : ¬ Aligned ⟨k⟩ p.addr := by
              rw [aligned_pow]
              intro hd
              exact hb ⟨p, k, rfl, hk, hmx, by rw [hk]; push_cast; exact hd⟩
            obtain ⟨b, b1, b2⟩ := C01_encode_size prog _ _ hw hn _ _ hv
            have hub := (C18_bad_access_is_ub hm (hg p rfl) (align := ⟨k⟩)).2.1 b (fun hc => hal hc.1)
            refine EM.bind_of_error ?_
            unfold typedStore
            rw [EM.bind_of_ok (EM.read_eq_ok.2 ⟨encodeChecked_eq_ok.2 ⟨hv, b1⟩, rfl⟩)]
            simp only [memStore, ConcMem.store, hub]; rfl
          · rw [decide_eq_false ht]
            exact EM.bind_of_error requireUb_false
        · rw [decide_eq_false hmx]
          exact EM.bind_of_error requireUb_false
      · exact EM.bind_of_error (by rw [e]; rfl)
    | _ => cases hl2
  · exact EM.bind_of_error (by rw [e]; rfl)

/-- C52: compare-exchange and fetch-and-op on something that is not an integer, on integers too large for atomic accesses, or
through something that is not a thin pointer with an address that is a multiple of the size, are UB. -/
theorem C52_read_write_ub {h : MemHistory PE} (hm : MemReach (F := F) h s.mem.memory) {a : Value (AllocId × PE)} {ta ty : Ty}
    (hw : ty.checkWf prog = .ok ()) (hg : ∀ p, a = .ptr ⟨p, none⟩ → Genuine h p)
    (hb : ¬ ∃ (p : ThinPtr (AllocId × PE)) (ity : IntType), a = .ptr ⟨p, none⟩ ∧ ty = .int ity ∧ ity.size ≤ T.maxAtomicSize ∧
      (ity.size : Int) ∣ p.addr) :
    (∀ cur next tc tn, evalIntrinsic .atomicCompareExchange [(a, ta), (cur, tc), (next, tn)] ty s = .error .ub) ∧
    (∀ op o tt, evalIntrinsic (.atomicFetchAndOp op) [(a, ta), (o, tt)] ty s = .error .ub) := by
  have key : ∀ p t (ity : IntType), ty = .int ity → (a, ta) = (.ptr ⟨p, none⟩, t) → ∃ k, (Ty.int ity).size = .ok ity.size ∧
      Align.fromBytes ity.size = some ⟨k⟩ ∧
      (ity.size ≤ T.maxAtomicSize → typedLoad p ty ⟨k⟩ .atomic s = .error .ub) := by
    rintro p t ity rfl e
    cases e
    obtain ⟨k, hk⟩ : ∃ k, ity.size = 2 ^ k := by
      simp only [Ty.checkWf, IntType.checkWf, Res.bind_eq_ok, ensureWf_eq_ok] at hw
      obtain ⟨_, h, _⟩ := hw
      exact isPowerOfTwo_iff.1 h
    have hsz : (Ty.int ity).size = .ok ity.size := by
      have hf : Align.fromBytes ity.size = some ⟨k⟩ := fromBytes_eq_some.2 hk
      simp [Ty.size, Ty.layout, IntType.align, hf, unwrap, LayoutStrategy.expectSize]
    refine ⟨k, hsz, fromBytes_eq_some.2 hk, fun hmx => ?_⟩
    have hal : ¬ Aligned ⟨k⟩ p.addr := by
      rw [aligned_pow]
      intro hd
      exact hb ⟨p, ity, rfl, rfl, hmx, by rw [hk]; push_cast; exact hd⟩
    have hub := (C18_bad_access_is_ub hm (hg p rfl) (align := ⟨k⟩)).1 ity.size (fun hc => hal hc.1)
    unfold typedLoad
    rw [EM.bind_of_ok (EM.lift_eq_ok.2 ⟨hsz, rfl⟩)]
    refine EM.bind_of_error ?_
    simp only [memLoad, ConcMem.load, hub]; rfl
  constructor
  · intro cur next tc tn
    simp only [evalIntrinsic, intrinsicCompareExchange]
    rcases thinPtrArg_cases (a, ta) with ⟨p, t, e⟩ | e
    · rw [EM.bind_of_ok (EM.lift_eq_ok.2 ⟨e ▸ thinPtrArg_ptr, rfl⟩)]
      by_cases h1 : tc = ty
      · rw [EM.bind_of_ok (a := ()) (requireUb_eq_ok.2 ⟨decide_eq_true h1, rfl⟩)]
        by_cases h2 : tn = ty
        · rw [EM.bind_of_ok (a := ()) (requireUb_eq_ok.2 ⟨decide_eq_true h2, rfl⟩)]
          by_cases h3 : ∃ ity, ty = .int ity
          · obtain ⟨ity, rfl⟩ := h3
            obtain ⟨k, k1, k2, k3⟩ := key p t ity rfl e
            rw [EM.bind_of_ok (a := ()) (requireUb_eq_ok.2 ⟨(rfl : isIntTy (.int ity) = true), rfl⟩), EM.bind_of_ok (EM.lift_eq_ok.2 ⟨k1, rfl⟩),
              EM.bind_of_ok (EM.lift_eq_ok.2 ⟨unwrap_eq_ok.2 k2, rfl⟩)]
            by_cases hmx : ity.size ≤ T.maxAtomicSize
            · rw [EM.bind_of_ok (a := ()) (requireUb_eq_ok.2 ⟨decide_eq_true hmx, rfl⟩)]
              exact EM.bind_of_error (k3 hmx)
            · rw [decide_eq_false hmx]
              exact EM.bind_of_error requireUb_false
          · have : isIntTy ty = false := by
              cases ty <;> first | rfl | exact absurd ⟨_, rfl⟩ h3
            rw [this]
            exact EM.bind_of_error requireUb_false
        · rw [decide_eq_false h2]
          exact EM.bind_of_error requireUb_false
      · rw [decide_eq_false h1]
        exact EM.bind_of_error requireUb_false
    · exact EM.bind_of_error (by rw [e]; rfl)
  · intro op o tt
    simp only [evalIntrinsic, intrinsicFetchAndOp]
    rcases thinPtrArg_cases (a, ta) with ⟨p, t, e⟩ | e
    · rw [EM.bind_of_ok (EM.lift_eq_ok.2 ⟨e ▸ thinPtrArg_ptr, rfl⟩)]
      by_cases h1 : tt = ty
      · rw [EM.bind_of_ok (a := ()) (requireUb_eq_ok.2 ⟨decide_eq_true h1, rfl⟩)]
        cases ty with
        | int ity =>
          obtain ⟨k, k1, k2, k3⟩ := key p t ity rfl e
          simp only
          rw [EM.bind_of_ok (EM.lift_eq_ok.2 ⟨k1, rfl⟩), EM.bind_of_ok (EM.lift_eq_ok.2 ⟨unwrap_eq_ok.2 k2, rfl⟩)]
          by_cases hmx : ity.size ≤ T.maxAtomicSize
          · rw [EM.bind_of_ok (a := ()) (requireUb_eq_ok.2 ⟨decide_eq_true hmx, rfl⟩)]
            exact EM.bind_of_error (k3 hmx)
          · rw [decide_eq_false hmx]
            exact EM.bind_of_error requireUb_false
        | _ => rfl
      · rw [decide_eq_false h1]
        exact EM.bind_of_error requireUb_false
    · exact EM.bind_of_error (by rw [e]; rfl)

end

section
variable [T : Target] [LawfulTarget T] {s s' s1 s2 : BMach} {prog : Program}

theorem BasicMem.load_of_at_aligned {m : BasicMem Unit Unit} {p n b al} (h : m.At p n b) (hal : Aligned al p.addr) :
    Memory.load (F := Unit) m p n al = .ok (b, m) := by
  show m.load p n al (fun _ _ _ => .ok ()) = _
  rcases h with ⟨rfl, rfl⟩ | ⟨h0, id, pe, a, off, hp, ha, hl, ho, hn, rfl⟩
  · exact BasicMem.load_eq_ok.2 ⟨hal, .inl ⟨rfl, rfl, rfl⟩⟩
  · have h : m.load p n al (fun _ _ _ => .ok ()) = .ok ((a.data.drop off).take n, _) :=
      BasicMem.load_eq_ok.2 ⟨hal, .inr ⟨h0, id, pe, a, off, (), hp, ha, hl, ho, hn, rfl, rfl, rfl⟩⟩
    rw [h, BasicMem.load_unit h]

theorem BasicMem.store_of_at {m : BasicMem Unit Unit} {p n b al bs} (h : m.At p n b) (hal : Aligned al p.addr) (hb : bs.length = n) :
    ∃ m', Memory.store (F := Unit) m p bs al = .ok m' := by
  refine BasicMem.store_plain hal ?_
  rcases h with ⟨rfl, rfl⟩ | ⟨h0, id, pe, a, off, hp, ha, hl, ho, hn, rfl⟩
  · exact .inl hb
  · exact .inr ⟨id, pe, a, off, hp, ha, hl, ho, by rw [hb]; exact hn⟩

/-- What can be loaded ordinarily can be loaded atomically if it is aligned. -/
theorem typedLoad_of_plain {p : ThinPtr (AllocId × Unit)} {ty v al at'} (h : plainLoad p ty s = .ok (v, s1)) (hal : Aligned al p.addr) :
    ∃ s2, typedLoad p ty al at' s = .ok (v, s2) := by
  unfold plainLoad placeLoad at h
  obtain ⟨n, b, m, h1, h2, h3, h4, h5⟩ := typedLoad_eq_ok.1 h
  have hat : s.mem.memory.At p n b := at_of_memLoad h2
  have h6 := BasicMem.load_of_at_aligned hat hal
  have h7 : s.mem.load p n al at' = .ok (b, ⟨s.mem.memory, s.mem.accesses ++ [⟨.load, at', p.addr, n⟩]⟩) :=
    ConcMem.load_eq_ok.2 ⟨_, h6, rfl⟩
  obtain ⟨mm, h8, rfl⟩ := ConcMem.load_eq_ok.1 h2
  have h9 := BasicMem.load_of_at_aligned (al := Align.one) hat (by unfold Aligned Align.one; simp)
  cases h8.symm.trans h9
  subst h3
  exact ⟨_, typedLoad_eq_ok.2 ⟨n, b, _, h1, h7, rfl, h4, h5⟩⟩

theorem typedStore_of_plain {p : ThinPtr (AllocId × Unit)} {ty v w al at'} (hw : ty.checkWf prog = .ok ()) (h : plainLoad p ty s = .ok (v, s1))
    (hal : Aligned al p.addr) (hc : checkValue s.valEnv ty w = .ok ()) : ∃ s2, typedStore p w ty al at' s = .ok ((), s2) := by
  obtain ⟨n, b, h1, hat, _⟩ := plainLoad_parts h
  obtain ⟨bs, b1, b2⟩ := C01_encode_size prog _ _ hw h1 _ w hc
  obtain ⟨m', h2⟩ := BasicMem.store_of_at hat hal b2
  exact ⟨_, typedStore_eq_ok.2 ⟨bs, _, hc, b1, ConcMem.store_eq_ok.2 ⟨m', h2, rfl⟩, rfl⟩⟩

/-- C52: in the basic memory, `AtomicLoad` gives a value exactly if an ordinary load does, the size is a power of two that is not
too large, and the address is a multiple of it. -/
theorem C52_load_exact {a v : Value (AllocId × Unit)} {ta ty : Ty} :
    (∃ s', evalIntrinsic .atomicLoad [(a, ta)] ty s = .ok (v, s')) ↔
      ∃ (p : ThinPtr (AllocId × Unit)) (k : Nat) (s1 : BMach), a = .ptr ⟨p, none⟩ ∧ ty.size = .ok (2 ^ k) ∧
        2 ^ k ≤ T.maxAtomicSize ∧ (2 ^ k : Int) ∣ p.addr ∧ plainLoad p ty s = .ok (v, s1) := by
  constructor
  · rintro ⟨s', h⟩
    have h' := h
    obtain ⟨p, k, rfl, h2, h3, h4, _⟩ := C52_load h
    simp only [evalIntrinsic, intrinsicAtomicLoad, EM.bind_eq_ok, EM.lift_eq_ok, requireUb_eq_ok, decide_eq_true_eq] at h'
    obtain ⟨q, _, ⟨k1, rfl⟩, n, _, ⟨k2, rfl⟩, al, _, ⟨k3, rfl⟩, _, _, ⟨k4, rfl⟩, h'⟩ := h'
    cases k1
    obtain ⟨n, b, m, c1, c2, c3, c4, c5⟩ := typedLoad_eq_ok.1 h'
    have hat : BasicMem.At _ p n b := at_of_memLoad c2
    subst c3
    obtain ⟨mm, c6, rfl⟩ := ConcMem.load_eq_ok.1 c2
    have c7 := BasicMem.load_of_at_aligned hat (BasicMem.load_eq_ok.1 c6).1
    cases c6.symm.trans c7
    obtain ⟨s1, hs1⟩ := placeLoad_of_at (p := ⟨⟨p, none⟩, true⟩) rfl c1 hat c4 c5
    exact ⟨p, k, s1, rfl, h2, h3, h4, hs1⟩
  · rintro ⟨p, k, s1, rfl, h2, h3, h4, h5⟩
    obtain ⟨s2, hs2⟩ := typedLoad_of_plain (at' := .atomic) h5 (aligned_pow.2 h4)
    refine ⟨s2, ?_⟩
    simp only [evalIntrinsic, intrinsicAtomicLoad]
    rw [EM.bind_of_ok (EM.lift_eq_ok.2 ⟨thinPtrArg_ptr, rfl⟩), EM.bind_of_ok (EM.lift_eq_ok.2 ⟨h2, rfl⟩),
      EM.bind_of_ok (EM.lift_eq_ok.2 ⟨by push_cast; exact alignArg_pow, rfl⟩),
      EM.bind_of_ok (a := ()) (requireUb_eq_ok.2 ⟨decide_eq_true h3, rfl⟩)]
    exact hs2

/-- C52: in the basic memory, `AtomicStore` of a valid value succeeds where an ordinary load does, if the size is a power of two
that is not too large, and the address is a multiple of it. Then the value can be loaded. -/
theorem C52_store_ok {p : ThinPtr (AllocId × Unit)} {v w : Value (AllocId × Unit)} {ta ty : Ty} {k : Nat} (hw : ty.checkWf prog = .ok ())
    (hco : ty.Coherent s.valEnv) (hn : ty.size = .ok (2 ^ k)) (hk : 2 ^ k ≤ T.maxAtomicSize) (hd : (2 ^ k : Int) ∣ p.addr)
    (hp : plainLoad p ty s = .ok (w, s1)) (hv : checkValue s.valEnv ty v = .ok ()) :
    ∃ s' s2, evalIntrinsic .atomicStore [(.ptr ⟨p, none⟩, ta), (v, ty)] unitTy s = .ok (unitValue, s') ∧
      plainLoad p ty s' = .ok (v, s2) := by
  obtain ⟨s', hs'⟩ := typedStore_of_plain (at' := .atomic) hw hp (aligned_pow.2 hd) hv
  obtain ⟨bs, hx, c1, c2, c3, c4, c5, c6⟩ := typedStore_parts hs'
  obtain ⟨b, b1, b2⟩ := C01_encode_size prog _ _ hw hn _ _ c1
  rw [c2] at b1; cases b1
  have hdec := C02_decode_encode_partial prog ty _ hw hn _ hco v hv
  rw [c2, Res.bind_ok] at hdec
  obtain ⟨s2, hs2⟩ := placeLoad_of_at (p := ⟨⟨p, none⟩, true⟩) rfl hn (b2 ▸ BasicMem.at_of_store c3) hdec
    (by rw [valEnv_store c3 c6]; exact hv)
  refine ⟨s', s2, ?_, hs2⟩
  obtain ⟨l, hl, hl2⟩ := Res.bind_eq_ok.1 hn
  simp only [evalIntrinsic, intrinsicAtomicStore]
  rw [EM.bind_of_ok (EM.lift_eq_ok.2 ⟨thinPtrArg_ptr, rfl⟩), EM.bind_of_ok (EM.lift_eq_ok.2 ⟨hl, rfl⟩)]
  cases l with
  | sized n' al' =>
    cases hl2
    simp only
    rw [EM.bind_of_ok (EM.lift_eq_ok.2 ⟨by push_cast; exact alignArg_pow, rfl⟩),
      EM.bind_of_ok (a := ()) (requireUb_eq_ok.2 ⟨decide_eq_true hk, rfl⟩),
      EM.bind_of_ok (a := ()) (requireUb_eq_ok.2 ⟨by simp, rfl⟩)]
    exact EM.bind_of_ok (a := ()) hs'
  | _ => cases hl2

theorem intTy_size_ok {ity : IntType} (hw : (Ty.int ity).checkWf prog = .ok ()) : ∃ k, ity.size = 2 ^ k ∧ (Ty.int ity).size = .ok (2 ^ k) ∧
    unwrap (Align.fromBytes (2 ^ k)) = .ok ⟨k⟩ := by
  simp only [Ty.checkWf, IntType.checkWf, Res.bind_eq_ok, ensureWf_eq_ok] at hw
  obtain ⟨_, h, _⟩ := hw
  obtain ⟨k, hk⟩ := isPowerOfTwo_iff.1 h
  have hf : Align.fromBytes ity.size = some ⟨k⟩ := fromBytes_eq_some.2 hk
  refine ⟨k, hk, ?_, by simp [fromBytes_pow, unwrap]⟩
  rw [← hk]
  simp [Ty.size, Ty.layout, IntType.align, hf, unwrap, LayoutStrategy.expectSize]

/-- C52: in the basic memory, `AtomicCompareExchange` on an integer succeeds where an ordinary load does, if the size is not too
large for atomic accesses and the address is a multiple of it. If the integer was the expected one, the new one can then be loaded,
and otherwise the old one. -/
theorem C52_compare_exchange_ok {p : ThinPtr (AllocId × Unit)} {i cur next : Int} {ta : Ty} {ity : IntType} (hw : (Ty.int ity).checkWf prog = .ok ())
    (hk : ity.size ≤ T.maxAtomicSize) (hd : (ity.size : Int) ∣ p.addr) (hp : plainLoad p (.int ity) s = .ok (.int i, s1))
    (hv : ity.canRepresent next = true) :
    ∃ s' s2, evalIntrinsic .atomicCompareExchange [(.ptr ⟨p, none⟩, ta), (.int cur, .int ity), (.int next, .int ity)] (.int ity) s =
        .ok (.int i, s') ∧ plainLoad p (.int ity) s' = .ok (.int (if cur = i then next else i), s2) := by
  obtain ⟨k, h1, h2, h3⟩ := intTy_size_ok hw
  rw [h1] at hk hd
  push_cast at hd
  obtain ⟨s2, hs2⟩ := typedLoad_of_plain (at' := .atomic) hp (aligned_pow.2 hd)
  obtain ⟨n, b, c1, c2, c3, c4, c5, c6, c7, c8⟩ := typedLoad_parts hs2
  rw [h2] at c1; cases c1
  obtain ⟨s3, hs3⟩ := placeLoad_of_at (p := ⟨⟨p, none⟩, true⟩) (s := s2) rfl h2 (c2.same c6) c3 c4
  have hcv : checkValue s2.valEnv (.int ity) (.int next) = .ok () := by unfold checkValue; exact ensureUb_eq_ok.2 hv
  have hstep : ∀ s', storeIf (decide ((Value.int cur : Value (AllocId × Unit)) = .int i)) p (.int next) (.int ity) ⟨k⟩ s2 = .ok ((), s') →
      evalIntrinsic .atomicCompareExchange [(.ptr ⟨p, none⟩, ta), (.int cur, .int ity), (.int next, .int ity)] (.int ity) s =
        .ok (.int i, s') := by
    intro s' hs'
    simp only [evalIntrinsic, intrinsicCompareExchange]
    rw [EM.bind_of_ok (EM.lift_eq_ok.2 ⟨thinPtrArg_ptr, rfl⟩), EM.bind_of_ok (a := ()) (requireUb_eq_ok.2 ⟨by simp, rfl⟩),
      EM.bind_of_ok (a := ()) (requireUb_eq_ok.2 ⟨by simp, rfl⟩),
      EM.bind_of_ok (a := ()) (requireUb_eq_ok.2 ⟨(rfl : isIntTy (.int ity) = true), rfl⟩),
      EM.bind_of_ok (EM.lift_eq_ok.2 ⟨h2, rfl⟩), EM.bind_of_ok (EM.lift_eq_ok.2 ⟨h3, rfl⟩),
      EM.bind_of_ok (a := ()) (requireUb_eq_ok.2 ⟨decide_eq_true hk, rfl⟩), EM.bind_of_ok hs2, EM.bind_of_ok (a := ()) hs']
    rfl
  by_cases hc : cur = i
  · obtain ⟨s', hs'⟩ := typedStore_of_plain (at' := .atomic) (s := s2) hw hs3 (aligned_pow.2 hd) hcv
    obtain ⟨bs, hx, d1, d2, d3, d4, d5, d6⟩ := typedStore_parts hs'
    obtain ⟨b, b1, b2⟩ := C01_encode_size prog _ _ hw h2 _ _ d1
    rw [d2] at b1; cases b1
    have hdec := C02_decode_encode_partial prog _ _ hw h2 _ int_coherent (.int next) d1
    rw [d2, Res.bind_ok] at hdec
    obtain ⟨s4, hs4⟩ := placeLoad_of_at (p := ⟨⟨p, none⟩, true⟩) (s := s') rfl h2 (b2 ▸ BasicMem.at_of_store d3) hdec
      (by rw [valEnv_store d3 d6]; exact d1)
    refine ⟨s', s4, hstep s' ?_, by rw [if_pos hc]; exact hs4⟩
    rw [decide_eq_true (by rw [hc])]
    exact hs'
  · refine ⟨s2, s3, hstep s2 ?_, by rw [if_neg hc]; exact hs3⟩
    rw [decide_eq_false (by simpa using hc)]
    rfl

/-- C52: in the basic memory, `AtomicFetchAndOp` succeeds where an ordinary load does, if the size is not too large for atomic
accesses, the address is a multiple of it, and the result fits the type. Then the result can be loaded. -/
theorem C52_fetch_and_op_ok {op : IntBinOp} {p : ThinPtr (AllocId × Unit)} {i o new : Int} {ta : Ty} {ity : IntType}
    (hw : (Ty.int ity).checkWf prog = .ok ()) (hk : ity.size ≤ T.maxAtomicSize) (hd : (ity.size : Int) ∣ p.addr)
    (hp : plainLoad p (.int ity) s = .ok (.int i, s1)) (hop : op = .add ∧ new = i + o ∨ op = .sub ∧ new = i - o)
    (hv : ity.canRepresent new = true) :
    ∃ s' s2, evalIntrinsic (.atomicFetchAndOp op) [(.ptr ⟨p, none⟩, ta), (.int o, .int ity)] (.int ity) s = .ok (.int i, s') ∧
      plainLoad p (.int ity) s' = .ok (.int new, s2) := by
  obtain ⟨k, h1, h2, h3⟩ := intTy_size_ok hw
  rw [h1] at hk hd
  push_cast at hd
  obtain ⟨s2, hs2⟩ := typedLoad_of_plain (at' := .atomic) hp (aligned_pow.2 hd)
  obtain ⟨n, b, c1, c2, c3, c4, c5, c6, c7, c8⟩ := typedLoad_parts hs2
  rw [h2] at c1; cases c1
  obtain ⟨s3, hs3⟩ := placeLoad_of_at (p := ⟨⟨p, none⟩, true⟩) (s := s2) rfl h2 (c2.same c6) c3 c4
  have hcv : checkValue s2.valEnv (.int ity) (.int new) = .ok () := by unfold checkValue; exact ensureUb_eq_ok.2 hv
  obtain ⟨s', hs'⟩ := typedStore_of_plain (at' := .atomic) (s := s2) hw hs3 (aligned_pow.2 hd) hcv
  obtain ⟨bs, hx, d1, d2, d3, d4, d5, d6⟩ := typedStore_parts hs'
  obtain ⟨b, b1, b2⟩ := C01_encode_size prog _ _ hw h2 _ _ d1
  rw [d2] at b1; cases b1
  have hdec := C02_decode_encode_partial prog _ _ hw h2 _ int_coherent (.int new) d1
  rw [d2, Res.bind_ok] at hdec
  obtain ⟨s4, hs4⟩ := placeLoad_of_at (p := ⟨⟨p, none⟩, true⟩) (s := s') rfl h2 (b2 ▸ BasicMem.at_of_store d3) hdec
    (by rw [valEnv_store d3 d6]; exact d1)
  refine ⟨s', s4, ?_, hs4⟩
  have hf : fetchOpResult op ity (.int i) (.int o : Value (AllocId × Unit)) = .ok (.int new) := by
    rcases hop with ⟨rfl, rfl⟩ | ⟨rfl, rfl⟩ <;> rfl
  simp only [evalIntrinsic, intrinsicFetchAndOp]
  rw [EM.bind_of_ok (EM.lift_eq_ok.2 ⟨thinPtrArg_ptr, rfl⟩), EM.bind_of_ok (a := ()) (requireUb_eq_ok.2 ⟨by simp, rfl⟩),
    EM.bind_of_ok (EM.lift_eq_ok.2 ⟨h2, rfl⟩), EM.bind_of_ok (EM.lift_eq_ok.2 ⟨h3, rfl⟩),
    EM.bind_of_ok (a := ()) (requireUb_eq_ok.2 ⟨decide_eq_true hk, rfl⟩), EM.bind_of_ok hs2,
    EM.bind_of_ok (EM.lift_eq_ok.2 ⟨hf, rfl⟩), EM.bind_of_ok (a := ()) hs']
  rfl
end
end MiniRust

/-! ### Concrete cases -/

namespace MiniRust.Ex
attribute [local instance] x86_64

/-- Evaluates and compares the result. -/
def expectValue (x : EM (BasicMem Unit Unit) (Nat × Unit) Unit (Value (Nat × Unit))) (v : Value (Nat × Unit)) :
    EM (BasicMem Unit Unit) (Nat × Unit) Unit Unit := do
  if (← x) = v then pure () else EM.throw .none

/-- The global of `leakProg`, when it is placed at address 16. -/
def globalPtr : ThinPtr (Nat × Unit) := ⟨16, some (0, ())⟩

-- The operations on the global of `leakProg`: stores, exchanges that succeed and fail, additions, and loads.
example : ∃ s : BMach, Reachable leakProg s ∧
    errOf ((do
      expectValue (evalIntrinsic .atomicStore [(.ptr ⟨globalPtr, none⟩, rawTy), (.int 5, usize)] unitTy) unitValue
      expectValue (plainLoad globalPtr usize) (.int 5)
      expectValue (evalIntrinsic .atomicCompareExchange [(.ptr ⟨globalPtr, none⟩, rawTy), (.int 5, usize), (.int 7, usize)] usize) (.int 5)
      expectValue (evalIntrinsic .atomicCompareExchange [(.ptr ⟨globalPtr, none⟩, rawTy), (.int 5, usize), (.int 9, usize)] usize) (.int 7)
      expectValue (evalIntrinsic (.atomicFetchAndOp .add) [(.ptr ⟨globalPtr, none⟩, rawTy), (.int 3, usize)] usize) (.int 7)
      expectValue (evalIntrinsic .atomicLoad [(.ptr ⟨globalPtr, none⟩, rawTy)] usize) (.int 10)
      expectValue (plainLoad globalPtr usize) (.int 10)) s) = none :=
  exists_reachable heapRun 1 _ (by decide +kernel)
-- Misaligned accesses, accesses of unsuitable sizes and accesses without a thin pointer are UB.
example : ∃ s : BMach, Reachable leakProg s ∧
    errOf (evalIntrinsic .atomicLoad [(.ptr ⟨⟨17, some (0, ())⟩, none⟩, rawTy)] u32 s) = some .ub ∧
    errOf (plainLoad ⟨17, some (0, ())⟩ u32 s) = none ∧
    errOf (evalIntrinsic .atomicStore [(.ptr ⟨⟨18, some (0, ())⟩, none⟩, rawTy), (.int 5, u32)] unitTy s) = some .ub ∧
    errOf (evalIntrinsic .atomicLoad [(.ptr ⟨globalPtr, none⟩, rawTy)] (.array (.int ⟨.unsigned, 1⟩) 3) s) = some .ub ∧
    errOf (evalIntrinsic (.atomicFetchAndOp .add) [(.ptr ⟨⟨18, some (0, ())⟩, none⟩, rawTy), (.int 3, u32)] u32 s) = some .ub ∧
    errOf (evalIntrinsic .atomicCompareExchange [(.int 16, usize), (.int 5, usize), (.int 7, usize)] usize s) = some .ub :=
  exists_reachable heapRun 1 _ (by decide +kernel)
example : u32.checkWf leakProg = .ok () ∧ usize.checkWf leakProg = .ok () := ⟨by decide +kernel, by decide +kernel⟩
end MiniRust.Ex
