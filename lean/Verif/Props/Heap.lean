import Verif.Lemmas.IntrArgs
import Verif.Props.Outcomes
import Verif.Lemmas.Init
/-
C51: the heap intrinsics.
-/
set_option linter.unusedSectionVars false
namespace MiniRust

section
variable {M PE AE F : Type} [T : Target] [DecidableEq PE] [Memory M (AllocId × PE) F]
  [SoftMem M (AllocId × PE) F] [B : BasicBacked M PE AE F]
variable {s s' : Machine M (AllocId × PE) F} {prog : Program} {h h' : MemHistory PE}
include B

/-- Where the memory may put an allocation. -/
theorem freeSpace_iff {m : M} (hr : MemReach (F := F) h m) {addr size align} :
    (B.mem m).pickable size align addr = true ↔ FreeSpace h addr size align := by
  rw [BasicMem.pickable_iff]
  constructor
  · rintro ⟨h1, h2, h3, h4⟩
    refine ⟨h1, h2, h3, fun id i hl => ?_⟩
    obtain ⟨a, ha, hlv, rfl⟩ := (live_iff hr).1 hl
    exact h4 a (List.mem_of_getElem? ha) hlv
  · rintro ⟨h1, h2, h3, h4⟩
    refine ⟨h1, h2, h3, fun a ha hlv => ?_⟩
    obtain ⟨id, hid⟩ := List.getElem?_of_mem ha
    exact h4 id a.info ((live_iff hr).2 ⟨a, hid, hlv, rfl⟩)

/-- The outcomes of an allocation. -/
theorem allocate_outcome {m : M} (hr : MemReach (F := F) h m) {kind size align pick} :
    (∀ p m', Memory.allocate m kind size align pick = .ok (p, m') →
      T.validSize size = true ∧ FreeSpace h pick size align ∧ p.addr = pick ∧ ∃ id, p.HasId id ∧ ∀ i, ¬ WasAllocated h id i) ∧
    (T.validSize size = true → FreeSpace h pick size align → ∃ r, Memory.allocate m kind size align pick = .ok r) ∧
    (T.validSize size = false → Memory.allocate m kind size align pick = .error .ub) ∧
    (∀ e, Memory.allocate m kind size align pick = .error e → T.validSize size = true → e = .noBehavior) := by
  obtain ⟨pe, ae, he⟩ := B.allocate m kind size align pick
  rw [← freeSpace_iff hr]
  refine ⟨fun p m' hop => ?_, fun h1 h2 => ?_, fun h1 => ?_, fun e hop h1 => ?_⟩
  · have hop' : MemReach (F := F) (.alloc kind size align p :: h) m' := .cons hr (.alloc hop)
    have hf := C16_fresh_identity (B := B) hop'
    rw [hop] at he
    have he := he.symm
    simp only [Res.map_ok] at he
    rw [BasicMem.allocate_eq_ok] at he
    exact ⟨he.1, he.2.1, by rw [he.2.2.1], hf⟩
  · cases hop : Memory.allocate m kind size align pick with
    | ok r => exact ⟨r, rfl⟩
    | error e =>
      rw [hop, (BasicMem.allocate_eq_ok).2 ⟨h1, h2, rfl, rfl⟩] at he
      cases he
  · refine Res.map_eq_error.1 (he.trans ?_)
    unfold BasicMem.allocate
    rw [h1]; rfl
  · rw [hop] at he
    have he := he.symm
    unfold BasicMem.allocate at he
    rw [h1] at he
    simp only [Bool.not_true, Bool.false_eq_true, if_false] at he
    split at he
    · cases he; rfl
    · cases he

/-- `Allocate` with proper operands. -/
theorem evalAllocate {n k : Nat} {ta tb ty : Ty} (ht : ty.IsThinPtr) :
    evalIntrinsic (M := M) (F := F) .allocate [(.int n, ta), (.int (2 ^ k), tb)] ty s =
      (memAllocate .heap n ⟨k⟩ >>= fun ptr => pure (.ptr (ptr.widen none)) : EM M (AllocId × PE) F _) s := by
  simp only [evalIntrinsic, intrinsicAllocate]
  rw [EM.bind_of_ok (EM.lift_eq_ok.2 ⟨intArg_int, rfl⟩), EM.bind_of_ok (EM.lift_eq_ok.2 ⟨sizeArg_nat, rfl⟩),
    EM.bind_of_ok (EM.lift_eq_ok.2 ⟨intArg_int, rfl⟩), EM.bind_of_ok (EM.lift_eq_ok.2 ⟨alignArg_pow, rfl⟩),
    EM.bind_of_ok (a := ()) (requireUb_eq_ok.2 ⟨isThinPtrTy_iff.2 ht, rfl⟩)]

/-- `Allocate` with other operands. -/
theorem evalAllocate_ub {a b : Value (AllocId × PE)} {ta tb ty : Ty}
    (hn : ¬ ((∃ n : Nat, a = .int n) ∧ (∃ k : Nat, b = .int (2 ^ k)) ∧ ty.IsThinPtr)) :
    evalIntrinsic .allocate [(a, ta), (b, tb)] ty s = .error .ub := by
  simp only [evalIntrinsic, intrinsicAllocate]
  rcases intArg_cases (a, ta) with ⟨i, t, e⟩ | e
  · cases e
    rw [EM.bind_of_ok (EM.lift_eq_ok.2 ⟨intArg_int, rfl⟩)]
    rcases sizeArg_cases i with ⟨n, rfl, e⟩ | ⟨_, e⟩
    · rw [EM.bind_of_ok (EM.lift_eq_ok.2 ⟨sizeArg_nat, rfl⟩)]
      rcases intArg_cases (b, tb) with ⟨j, t', e⟩ | e
      · cases e
        rw [EM.bind_of_ok (EM.lift_eq_ok.2 ⟨intArg_int, rfl⟩)]
        rcases alignArg_cases j with ⟨k, rfl⟩ | ⟨_, e⟩
        · rw [EM.bind_of_ok (EM.lift_eq_ok.2 ⟨alignArg_pow, rfl⟩)]
          cases ht : isThinPtrTy ty with
          | true => exact absurd ⟨⟨n, rfl⟩, ⟨k, rfl⟩, isThinPtrTy_iff.1 ht⟩ hn
          | false => exact EM.bind_of_error requireUb_false
        · exact EM.bind_of_error (by rw [e]; rfl)
      · exact EM.bind_of_error (by rw [e]; rfl)
    · exact EM.bind_of_error (by rw [e]; rfl)
  · exact EM.bind_of_error (by rw [e]; rfl)

/-- C51: a successful `Allocate` had a non-negative number and a power of two as operands. Its result is a thin pointer, with
the provenance of a new allocation, to the start of that many bytes of unused memory, aligned as requested. The new allocation
is a heap allocation with this size and alignment, and there is no other change of the memory, nor of anything else. -/
theorem C51_allocate (hm : MemReach (F := F) h s.mem.memory) {a b v : Value (AllocId × PE)} {ta tb ty : Ty}
    (he : evalIntrinsic .allocate [(a, ta), (b, tb)] ty s = .ok (v, s')) :
    ∃ (n k : Nat) (p : ThinPtr (AllocId × PE)), a = .int n ∧ b = .int (2 ^ k) ∧ v = .ptr ⟨p, none⟩ ∧
      FreeSpace h p.addr n ⟨k⟩ ∧ (∃ id, p.HasId id ∧ ∀ i, ¬ WasAllocated h id i) ∧
      MemReach (F := F) (.alloc .heap n ⟨k⟩ p :: h) s'.mem.memory ∧
      s' = { s with mem := { s.mem with memory := s'.mem.memory }, oracle := s'.oracle } := by
  by_cases hn : (∃ n : Nat, a = .int n) ∧ (∃ k : Nat, b = .int (2 ^ k)) ∧ ty.IsThinPtr
  · obtain ⟨⟨n, rfl⟩, ⟨k, rfl⟩, ht⟩ := hn
    rw [evalAllocate ht, EM.bind_eq_ok] at he
    obtain ⟨p, s1, h1, h2⟩ := he
    obtain ⟨rfl, rfl⟩ := EM.pure_eq_ok.1 h2
    obtain ⟨i, rest, m, _, h3, rfl⟩ := memAllocate_eq_ok.1 h1
    obtain ⟨⟨p', m'⟩, h4, h5⟩ := Res.bind_eq_ok.1 h3
    cases h5
    obtain ⟨_, c2, rfl, c4⟩ := (allocate_outcome hm).1 _ _ h4
    exact ⟨n, k, p, rfl, rfl, rfl, c2, c4, .cons hm (.alloc h4), rfl⟩
  · rw [evalAllocate_ub hn] at he; cases he

/-- C51: every place that is free can be chosen for a new allocation. -/
theorem C51_allocate_any (hm : MemReach (F := F) h s.mem.memory) {n k : Nat} {ta tb ty : Ty} (ht : ty.IsThinPtr)
    (hs : T.validSize n = true) {addr : Int} (hf : FreeSpace h addr n ⟨k⟩) {rest : List (Choice (AllocId × PE))}
    (ho : s.oracle = .int addr :: rest) :
    ∃ p s', evalIntrinsic .allocate [(.int n, ta), (.int (2 ^ k), tb)] ty s = .ok (.ptr ⟨p, none⟩, s') ∧ p.addr = addr := by
  obtain ⟨⟨p, m⟩, h1⟩ := (allocate_outcome (kind := .heap) hm).2.1 hs hf
  refine ⟨p, { s with mem := { s.mem with memory := m }, oracle := rest }, ?_, ((allocate_outcome hm).1 _ _ h1).2.2.1⟩
  rw [evalAllocate ht]
  exact EM.bind_of_ok (memAllocate_eq_ok.2 ⟨addr, rest, _, ho, by simp [ConcMem.allocate, h1], rfl⟩)

/-- C51: `Allocate` is UB exactly if the size is negative or too large for an object, the alignment is not a power of two, or
the result is not wanted as a thin pointer. (In the model, there is a choice of the address.) -/
theorem C51_allocate_ub (hm : MemReach (F := F) h s.mem.memory) {a b : Value (AllocId × PE)} {ta tb ty : Ty} {i : Int}
    {rest : List (Choice (AllocId × PE))} (ho : s.oracle = .int i :: rest) :
    evalIntrinsic .allocate [(a, ta), (b, tb)] ty s = .error .ub ↔
      ¬ ((∃ n : Nat, a = .int n ∧ T.validSize n = true) ∧ (∃ k : Nat, b = .int (2 ^ k)) ∧ ty.IsThinPtr) := by
  by_cases hn : (∃ n : Nat, a = .int n) ∧ (∃ k : Nat, b = .int (2 ^ k)) ∧ ty.IsThinPtr
  · obtain ⟨⟨n, rfl⟩, ⟨k, rfl⟩, ht⟩ := hn
    rw [evalAllocate ht]
    have hp : EM.popInt s = .ok (i, { s with oracle := rest }) := EM.popInt_eq_ok.2 ⟨rest, ho, rfl⟩
    obtain ⟨_, _, c3, c4⟩ := allocate_outcome (kind := .heap) (align := ⟨k⟩) (size := n) (pick := i) hm
    cases hv : T.validSize n with
    | false =>
      refine iff_of_true ?_ ?_
      · refine EM.bind_of_error ?_
        unfold memAllocate
        refine (EM.bind_of_ok hp).trans ?_
        simp [ConcMem.allocate, c3 hv]
      · rintro ⟨⟨n', e, hv'⟩, _⟩
        cases e
        rw [hv] at hv'; cases hv'
    | true =>
      refine iff_of_false ?_ ?_
      · intro he
        rcases EM.bind_eq_error.1 he with he | ⟨_, _, _, he⟩
        · unfold memAllocate at he
          replace he := (EM.bind_of_ok hp).symm.trans he
          cases ha : Memory.allocate (F := F) s.mem.memory .heap n ⟨k⟩ i with
          | ok r => simp [ConcMem.allocate, ha] at he
          | error e =>
            have := c4 e ha hv
            subst this
            simp [ConcMem.allocate, ha] at he
        · simp at he
      · exact fun hc => hc ⟨⟨n, rfl, hv⟩, ⟨k, rfl⟩, ht⟩
  · refine iff_of_true (evalAllocate_ub hn) ?_
    rintro ⟨⟨n, e, _⟩, h2, h3⟩
    exact hn ⟨⟨n, e⟩, h2, h3⟩

/-- A deallocation frees an allocation of its kind. -/
theorem MemStep.freed {m m' : M} (hr : MemReach (F := F) h m) {p kind size align}
    (hst : MemStep (F := F) m (.dealloc p kind size align) m') : Freeable h p kind size align := by
  cases hst with
  | dealloc h5 =>
    obtain ⟨hx, e⟩ := B.deallocate m p kind size align
    rw [h5] at e
    have e := e.symm
    simp only [Res.map_ok] at e
    rw [BasicMem.deallocate_eq_ok] at e
    obtain ⟨id, pe, al, ex, e1, e2, e3, e4, e5, e6, e7, _, _⟩ := e
    exact (canFree_iff hr).1 ⟨id, pe, al, e1, e2, e3, e4, e5, e6, e7⟩

/-- `Deallocate` with proper operands. -/
theorem evalDeallocate {p : ThinPtr (AllocId × PE)} {n k : Nat} {tp ta tb : Ty} :
    evalIntrinsic (M := M) (F := F) .deallocate [(.ptr ⟨p, none⟩, tp), (.int n, ta), (.int (2 ^ k), tb)] unitTy s =
      (memDeallocate p .heap n ⟨k⟩ >>= fun _ => pure unitValue : EM M (AllocId × PE) F _) s := by
  simp only [evalIntrinsic, intrinsicDeallocate]
  rw [EM.bind_of_ok (EM.lift_eq_ok.2 ⟨thinPtrArg_ptr, rfl⟩), EM.bind_of_ok (EM.lift_eq_ok.2 ⟨intArg_int, rfl⟩),
    EM.bind_of_ok (EM.lift_eq_ok.2 ⟨sizeArg_nat, rfl⟩), EM.bind_of_ok (EM.lift_eq_ok.2 ⟨intArg_int, rfl⟩),
    EM.bind_of_ok (EM.lift_eq_ok.2 ⟨alignArg_pow, rfl⟩), EM.bind_of_ok (a := ()) (requireUb_eq_ok.2 ⟨by simp, rfl⟩)]

/-- `Deallocate` with other operands. -/
theorem evalDeallocate_ub {c a b : Value (AllocId × PE)} {tc ta tb ty : Ty}
    (hn : ¬ ((∃ p, c = .ptr ⟨p, none⟩) ∧ (∃ n : Nat, a = .int n) ∧ (∃ k : Nat, b = .int (2 ^ k)) ∧ ty = unitTy)) :
    evalIntrinsic .deallocate [(c, tc), (a, ta), (b, tb)] ty s = .error .ub := by
  simp only [evalIntrinsic, intrinsicDeallocate]
  rcases thinPtrArg_cases (c, tc) with ⟨p, t, e⟩ | e
  · cases e
    rw [EM.bind_of_ok (EM.lift_eq_ok.2 ⟨thinPtrArg_ptr, rfl⟩)]
    rcases intArg_cases (a, ta) with ⟨i, t, e⟩ | e
    · cases e
      rw [EM.bind_of_ok (EM.lift_eq_ok.2 ⟨intArg_int, rfl⟩)]
      rcases sizeArg_cases i with ⟨n, rfl, e⟩ | ⟨_, e⟩
      · rw [EM.bind_of_ok (EM.lift_eq_ok.2 ⟨sizeArg_nat, rfl⟩)]
        rcases intArg_cases (b, tb) with ⟨j, t', e⟩ | e
        · cases e
          rw [EM.bind_of_ok (EM.lift_eq_ok.2 ⟨intArg_int, rfl⟩)]
          rcases alignArg_cases j with ⟨k, rfl⟩ | ⟨_, e⟩
          · rw [EM.bind_of_ok (EM.lift_eq_ok.2 ⟨alignArg_pow, rfl⟩)]
            cases ht : decide (ty = unitTy) with
            | true => exact absurd ⟨⟨p, rfl⟩, ⟨n, rfl⟩, ⟨k, rfl⟩, of_decide_eq_true ht⟩ hn
            | false => exact EM.bind_of_error requireUb_false
          · exact EM.bind_of_error (by rw [e]; rfl)
        · exact EM.bind_of_error (by rw [e]; rfl)
      · exact EM.bind_of_error (by rw [e]; rfl)
    · exact EM.bind_of_error (by rw [e]; rfl)
  · exact EM.bind_of_error (by rw [e]; rfl)

/-- C51: a successful `Deallocate` was given a thin pointer to the start of a live heap allocation, with its provenance, and the
size and alignment of that allocation. It ends that allocation and changes nothing else. -/
theorem C51_deallocate (hm : MemReach (F := F) h s.mem.memory) {c a b v : Value (AllocId × PE)} {tc ta tb ty : Ty}
    (he : evalIntrinsic .deallocate [(c, tc), (a, ta), (b, tb)] ty s = .ok (v, s')) :
    ∃ (p : ThinPtr (AllocId × PE)) (n k : Nat) (id : AllocId), c = .ptr ⟨p, none⟩ ∧ a = .int n ∧ b = .int (2 ^ k) ∧ v = unitValue ∧
      p.HasId id ∧ LiveIn h id ⟨.heap, n, ⟨k⟩, p.addr⟩ ∧
      MemReach (F := F) (.dealloc p .heap n ⟨k⟩ :: h) s'.mem.memory ∧
      s' = { s with mem := { s.mem with memory := s'.mem.memory } } := by
  by_cases hn : (∃ p, c = .ptr ⟨p, none⟩) ∧ (∃ n : Nat, a = .int n) ∧ (∃ k : Nat, b = .int (2 ^ k)) ∧ ty = unitTy
  · obtain ⟨⟨p, rfl⟩, ⟨n, rfl⟩, ⟨k, rfl⟩, rfl⟩ := hn
    rw [evalDeallocate, EM.bind_eq_ok] at he
    obtain ⟨_, s1, h1, h2⟩ := he
    obtain ⟨rfl, rfl⟩ := EM.pure_eq_ok.1 h2
    unfold memDeallocate at h1
    obtain ⟨mc, h3, h4⟩ := Res.bind_eq_ok.1 h1
    cases h4
    obtain ⟨m, h5, h6⟩ := Res.bind_eq_ok.1 h3
    cases h6
    obtain ⟨id, hid, hl⟩ := MemStep.freed hm (.dealloc h5)
    exact ⟨p, n, k, id, rfl, rfl, rfl, rfl, hid, hl, .cons hm (.dealloc h5), rfl⟩
  · rw [evalDeallocate_ub hn] at he; cases he

/-- C51: every other `Deallocate` is UB, in both memory models: in particular a second deallocation, one of stack memory or a
global, one through a pointer to the middle of an allocation, or one with the wrong size or alignment. -/
theorem C51_deallocate_ub (hm : MemReach (F := F) h s.mem.memory) {c a b : Value (AllocId × PE)} {tc ta tb ty : Ty}
    (hg : ∀ p, c = .ptr ⟨p, none⟩ → Genuine h p)
    (hn : ¬ ∃ (p : ThinPtr (AllocId × PE)) (n k : Nat) (id : AllocId), c = .ptr ⟨p, none⟩ ∧ a = .int n ∧ b = .int (2 ^ k) ∧
      ty = unitTy ∧ p.HasId id ∧ LiveIn h id ⟨.heap, n, ⟨k⟩, p.addr⟩) :
    evalIntrinsic .deallocate [(c, tc), (a, ta), (b, tb)] ty s = .error .ub := by
  by_cases hq : (∃ p, c = .ptr ⟨p, none⟩) ∧ (∃ n : Nat, a = .int n) ∧ (∃ k : Nat, b = .int (2 ^ k)) ∧ ty = unitTy
  · obtain ⟨⟨p, rfl⟩, ⟨n, rfl⟩, ⟨k, rfl⟩, rfl⟩ := hq
    rw [evalDeallocate]
    refine EM.bind_of_error ?_
    have := C19_bad_deallocation_is_ub hm (hg p rfl) (kind := .heap) (size := n) (align := ⟨k⟩)
      (fun ⟨id, h1, h2⟩ => hn ⟨p, n, k, id, rfl, rfl, rfl, rfl, h1, h2⟩)
    simp [memDeallocate, ConcMem.deallocate, this]
  · exact evalDeallocate_ub hq

/-! ### No other instruction touches the heap -/

/-- If the event is an allocation on the heap, then `A`. If it is a deallocation there, then `D`. -/
def MemEvent.HeapOnly (A D : Prop) : MemEvent PE → Prop
  | .alloc kind _ _ _ => kind = .heap → A
  | .dealloc _ kind _ _ => kind = .heap → D
  | _ => True

/-- Some memory operations lead from the first memory to the second. If they allocate on the heap, then `A`, and if they
deallocate there, then `D`. -/
def HeapHist (PE F : Type) [Memory M (AllocId × PE) F] (A D : Prop) (m m' : ConcMem M) : Prop :=
  ∃ h : MemHistory PE, MemRun (F := F) m.memory h m'.memory ∧ ∀ e ∈ h, e.HeapOnly A D

omit B [SoftMem M (AllocId × PE) F] [DecidableEq PE] T in
theorem HeapHist.one {A D : Prop} {m m' : ConcMem M} {e : MemEvent PE} (h : MemStep (F := F) m.memory e m'.memory)
    (hk : e.HeapOnly A D) : HeapHist PE F A D m m' :=
  ⟨[e], .cons .nil h, by intro e' he; cases List.mem_singleton.1 he; exact hk⟩

omit B [SoftMem M (AllocId × PE) F] in
theorem HeapHist.memRel (A D : Prop) : MemRel (P := AllocId × PE) (F := F) (HeapHist (M := M) PE F A D) where
  refl m := ⟨[], .nil, by simp⟩
  trans m m' m'' := by
    rintro ⟨h1, r1, k1⟩ ⟨h2, r2, k2⟩
    exact ⟨h2 ++ h1, r1.append r2, by
      intro e he; rcases List.mem_append.1 he with h | h; exacts [k2 e h, k1 e h]⟩
  load m m' p n al at' bytes h := by
    obtain ⟨⟨_, _⟩, h1, h2⟩ := Res.bind_eq_ok.1 h
    cases h2; exact .one (.load h1) trivial
  retag m m' f f' p p' pty e vt h := by
    obtain ⟨⟨_, _, _⟩, h1, h2⟩ := Res.bind_eq_ok.1 h
    cases h2; exact .one (.retag h1) trivial
  store m m' p b al at' h := by
    obtain ⟨_, h1, h2⟩ := Res.bind_eq_ok.1 h
    cases h2; exact .one (.store h1) trivial
  allocate m m' k n al pick p hk h := by
    obtain ⟨⟨_, _⟩, h1, h2⟩ := Res.bind_eq_ok.1 h
    cases h2; exact .one (.alloc h1) (fun e => absurd e hk)
  deallocate m m' p n al h := by
    obtain ⟨_, h1, h2⟩ := Res.bind_eq_ok.1 h
    cases h2; exact .one (.dealloc h1) (fun e => by cases e)
  endCall m m' f h := by
    obtain ⟨_, h1, h2⟩ := Res.bind_eq_ok.1 h
    cases h2; exact .one (.endCall h1) trivial

omit B in
/-- A step performs memory operations, and only the intrinsics `Allocate` and `Deallocate` concern the heap. -/
theorem step_heapHist (hst : step s = .ok ((), s')) :
    HeapHist PE F (s.AtIntrinsic s'.activeThread .allocate) (s.AtIntrinsic s'.activeThread .deallocate)
      { s.mem with accesses := [] } s'.mem := by
  obtain ⟨a, t, rest, h1, h2, h3, h4, h5⟩ := step_eq_ok.1 hst
  obtain rfl : s'.activeThread = a := by
    obtain ⟨_, _, q1, c, q2⟩ := execStep_ok (Rm := AnyMem) h4
    rw [q2.active, c.active, q1.active]; rfl
  have hR := HeapHist.memRel (M := M) (PE := PE) (F := F) (s.AtIntrinsic s'.activeThread .allocate)
    (s.AtIntrinsic s'.activeThread .deallocate)
  refine (execStep_ok' ?_ ?_ h4).mem
  · intro t ht hal
    refine { hR with heap := fun m m' n al pick p h => ?_ }
    have hat := nextTerminator_atTerminator ht
    obtain ⟨⟨_, _⟩, h1, h2⟩ := Res.bind_eq_ok.1 h
    cases h2
    refine .one (.alloc h1) (fun _ => ?_)
    unfold Terminator.Allocates at hal
    split at hal
    · exact ⟨_, _, _, hat⟩
    · exact hal.elim
  · intro t ht hal
    refine { hR with free := fun m m' p n al h => ?_ }
    have hat := nextTerminator_atTerminator ht
    obtain ⟨_, h1, h2⟩ := Res.bind_eq_ok.1 h
    cases h2
    refine .one (.dealloc h1) (fun _ => ?_)
    unfold Terminator.Frees at hal
    split at hal
    · exact ⟨_, _, _, hat⟩
    · exact hal.elim

/-- The live heap allocations after a run. -/
theorem HeapHist.live {A D : Prop} {m m' : M} (hr : MemReach (F := F) h m) (hh : MemRun (F := F) m h' m')
    (hk : ∀ e ∈ h', e.HeapOnly A D) {id : AllocId} {i : AllocInfo} (hi : i.kind = .heap) :
    (LiveIn (h' ++ h) id i → LiveIn h id i ∨ A) ∧ (LiveIn h id i → LiveIn (h' ++ h) id i ∨ D) := by
  induction hh with
  | nil => exact ⟨.inl, .inl⟩
  | @cons m2 m3 e hs hrun hstep ih =>
    obtain ⟨ih1, ih2⟩ := ih (fun e he => hk e (List.mem_cons_of_mem _ he))
    have hke := hk e List.mem_cons_self
    refine ⟨fun hl => ?_, fun hl => ?_⟩
    · obtain ⟨⟨p, hp, hp2, hp3⟩, hnd⟩ := hl
      rcases List.mem_cons.1 hp with rfl | hp
      · exact .inr (hke hi)
      · exact ih1 ⟨⟨p, hp, hp2, hp3⟩, fun ⟨q, k, n, al, hq, hq2⟩ => hnd ⟨q, k, n, al, List.mem_cons_of_mem _ hq, hq2⟩⟩
    · rcases ih2 hl with hl2 | hd
      · by_cases hdd : ∃ p k n al, e = .dealloc p k n al ∧ p.HasId id
        · obtain ⟨p, k, n, al, rfl, hid⟩ := hdd
          obtain ⟨id', hid', hl'⟩ := hstep.freed (hr.append hrun)
          obtain ⟨x, hx⟩ := hid
          obtain ⟨y, hy⟩ := hid'
          rw [hx] at hy; cases hy
          obtain ⟨a1, c1, _, e1⟩ := (live_iff (hr.append hrun)).1 hl'
          obtain ⟨a2, c2, _, e2⟩ := (live_iff (hr.append hrun)).1 hl2
          rw [c1] at c2; cases c2
          rw [← e2] at e1
          have : k = .heap := by rw [← hi, ← e1]
          exact .inr (hke this)
        · refine .inl ⟨?_, ?_⟩
          · obtain ⟨⟨p, hp, hp2⟩, _⟩ := hl2
            exact ⟨p, List.mem_cons_of_mem _ hp, hp2⟩
          · rintro ⟨q, k, n, al, hq, hq2⟩
            rcases List.mem_cons.1 hq with rfl | hq
            · exact hdd ⟨_, _, _, _, rfl, hq2⟩
            · exact hl2.2 ⟨q, k, n, al, hq, hq2⟩
      · exact .inr hd

/-- C51: only `Allocate` creates heap allocations and only `Deallocate` ends them: whatever else a step executes, the same
heap allocations are live after it. -/
theorem C51_only_here (hm : MemReach (F := F) h s.mem.memory) (hst : step s = .ok ((), s')) :
    ∃ h', MemReach (F := F) (h' ++ h) s'.mem.memory ∧ ∀ id i, i.kind = .heap →
      (LiveIn (h' ++ h) id i → ¬ LiveIn h id i → s.AtIntrinsic s'.activeThread .allocate) ∧
      (LiveIn h id i → ¬ LiveIn (h' ++ h) id i → s.AtIntrinsic s'.activeThread .deallocate) := by
  obtain ⟨h', hrun, hk⟩ := step_heapHist hst
  refine ⟨h', hm.append hrun, fun id i hi => ?_⟩
  obtain ⟨h1, h2⟩ := HeapHist.live hm hrun hk (id := id) hi
  exact ⟨fun a b => (h1 a).resolve_left b, fun a b => (h2 a).resolve_left b⟩
end

section
variable [T : Target] {s s' : BMach} {h : MemHistory Unit}

/-- C51: in the basic memory, `Deallocate` succeeds exactly for a thin pointer to the start of a live heap allocation, with its
provenance, and the size and alignment of that allocation. -/
theorem C51_deallocate_exact (hm : MemReach (F := Unit) h s.mem.memory) {c a b : Value (AllocId × Unit)} {tc ta tb : Ty} :
    (∃ r, evalIntrinsic .deallocate [(c, tc), (a, ta), (b, tb)] unitTy s = .ok r) ↔
      ∃ (p : ThinPtr (AllocId × Unit)) (n k : Nat) (id : AllocId), c = .ptr ⟨p, none⟩ ∧ a = .int n ∧ b = .int (2 ^ k) ∧
        p.HasId id ∧ LiveIn h id ⟨.heap, n, ⟨k⟩, p.addr⟩ := by
  constructor
  · rintro ⟨⟨v, s'⟩, he⟩
    obtain ⟨p, n, k, id, h1, h2, h3, _, h4, h5, _⟩ := C51_deallocate hm he
    exact ⟨p, n, k, id, h1, h2, h3, h4, h5⟩
  · rintro ⟨p, n, k, id, rfl, rfl, rfl, hid, hl⟩
    have hg : Genuine h p := by
      rintro id' ⟨y, hy⟩
      obtain ⟨x, hx⟩ := hid
      rw [hx] at hy; cases hy
      exact ⟨_, hl.1⟩
    obtain ⟨m', hd⟩ := (C19_exact hm hg).1.2 ⟨id, hid, hl⟩
    rw [evalDeallocate]
    exact ⟨_, EM.bind_of_ok (a := ()) (by simp only [memDeallocate, ConcMem.deallocate, hd]; rfl)⟩

/-- C51: in the basic memory, memory that was just allocated can be freed with the same size and alignment. -/
theorem C51_round_trip (hm : MemReach (F := Unit) h s.mem.memory) {a b v : Value (AllocId × Unit)} {ta tb tv ty : Ty}
    (he : evalIntrinsic .allocate [(a, ta), (b, tb)] ty s = .ok (v, s')) :
    ∃ r, evalIntrinsic .deallocate [(v, tv), (a, ta), (b, tb)] unitTy s' = .ok r := by
  obtain ⟨n, k, p, rfl, rfl, rfl, _, ⟨id, hid, hf⟩, hm', _⟩ := C51_allocate hm he
  refine (C51_deallocate_exact hm').2 ⟨p, n, k, id, rfl, rfl, rfl, hid, ⟨p, List.mem_cons_self, hid, rfl⟩, ?_⟩
  rintro ⟨q, kk, sz, al, hq, hq2⟩
  rcases List.mem_cons.1 hq with e | hq
  · cases e
  · have hlt := hm.rep.dead id ⟨q, kk, sz, al, hq, hq2⟩
    exact hf _ (hm.rep.was id _ (List.getElem?_eq_getElem hlt))
end

/-! ### Concrete cases -/

namespace Ex
attribute [local instance] x86_64

/-- Choices that leave `80` as the next choice in the second step of `leakProg`. -/
def heapRun : List (Choice (Nat × Unit)) := [.int 16, .int 32, .int 48, .int 0, .int 64, .int 80]

-- Memory is allocated at address 80, and freed again.
example : ∃ s : BMach, Reachable leakProg s ∧
    errOf ((do
      let v ← evalIntrinsic .allocate [(.int (8 : Nat), usize), (.int (2 ^ 3), usize)] rawTy
      evalIntrinsic .deallocate [(v, rawTy), (.int (8 : Nat), usize), (.int (2 ^ 3), usize)] unitTy :
        EM (BasicMem Unit Unit) (Nat × Unit) Unit _) s) = none :=
  exists_reachable heapRun 1 _ (by decide +kernel)
-- The place is free, and the return type is fine.
example : rawTy.IsThinPtr := ⟨_, rfl, rfl⟩
example : FreeSpace (PE := Unit) [] 80 8 ⟨3⟩ :=
  ⟨by decide, ⟨10, by decide⟩, by decide, by rintro _ _ ⟨⟨_, h, _⟩, _⟩; cases h⟩
-- An alignment that is not a power of two, a wrong size and a second deallocation are UB.
example : ∃ s : BMach, Reachable leakProg s ∧
    errOf (evalIntrinsic .allocate [(.int 8, usize), (.int 3, usize)] rawTy s) = some .ub ∧
    errOf ((do
      let v ← evalIntrinsic .allocate [(.int (8 : Nat), usize), (.int (2 ^ 3), usize)] rawTy
      evalIntrinsic .deallocate [(v, rawTy), (.int (4 : Nat), usize), (.int (2 ^ 3), usize)] unitTy :
        EM (BasicMem Unit Unit) (Nat × Unit) Unit _) s) = some .ub ∧
    errOf ((do
      let v ← evalIntrinsic .allocate [(.int (8 : Nat), usize), (.int (2 ^ 3), usize)] rawTy
      let _ ← evalIntrinsic .deallocate [(v, rawTy), (.int (8 : Nat), usize), (.int (2 ^ 3), usize)] unitTy
      evalIntrinsic .deallocate [(v, rawTy), (.int (8 : Nat), usize), (.int (2 ^ 3), usize)] unitTy :
        EM (BasicMem Unit Unit) (Nat × Unit) Unit _) s) = some .ub :=
  exists_reachable heapRun 1 _ (by decide +kernel)
-- A step that creates a heap allocation, and a step that ends one.
example : ∃ s s' : BMach, Reachable freeProg s ∧ step s = .ok ((), s') ∧
    s.atOp 0 = some .allocate ∧ s'.mem.memory.allocations.length = s.mem.memory.allocations.length + 1 :=
  exists_step leakRun 1 _ (by decide +kernel)
example : ∃ s s' : BMach, Reachable freeProg s ∧ step s = .ok ((), s') ∧ s.atOp 0 = some .deallocate :=
  exists_step leakRun 2 _ (by decide +kernel)
end Ex
end MiniRust
