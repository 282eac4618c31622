import Verif.Lemmas.SkelChange
import Verif.Examples.Programs
/-
C22-C25: data races, locks, joins, scheduling.

`step s = .ok ((), s')` is one step of the machine; `s'.activeThread` is the thread that made it. The
theorems hold for every memory model whose operations only fail in the documented ways (`SoftMem`), in
particular for both memory models of the specification.
-/
set_option linter.unusedSectionVars false
namespace MiniRust

section
variable {M P F : Type} [Memory M P F] [DecidableEq P] [T : Target] [SoftMem M P F]
variable {s s' : Machine M P F} {prog : Program}

/-! ### C22: data races -/

omit T in
/-- C22: two non-empty accesses race exactly if they conflict. -/
theorem C22_races_iff_conflict (a b : Access) (ha : a.NonEmpty) (hb : b.NonEmpty) :
    a.races b = true ↔ a.Conflict b := by
  obtain ⟨ta, aa, pa, la⟩ := a
  obtain ⟨tb, ab, pb, lb⟩ := b
  simp only [Access.NonEmpty] at ha hb
  simp only [Access.races, Access.Conflict]
  constructor
  · intro h
    split at h
    · cases h
    · split at h
      · cases h
      · rename_i h1 h2
        simp only [gt_iff_lt, Bool.and_eq_true, decide_eq_true_eq] at h
        refine ⟨?_, ?_, max pa pb, ?_, ?_⟩
        · cases ta <;> cases tb <;> simp_all
        · cases aa <;> cases ab <;> simp_all
        · omega
        · omega
  · rintro ⟨h1, h2, x, h3, h4⟩
    rw [if_neg, if_neg]
    · simp only [gt_iff_lt, Bool.and_eq_true, decide_eq_true_eq]; omega
    · cases aa <;> cases ab <;> simp_all
    · cases ta <;> cases tb <;> simp_all

omit T in
/-- C22: conflicting accesses always count as a race. -/
theorem C22_conflict_races (a b : Access) (h : a.Conflict b) : a.races b = true := by
  obtain ⟨_, _, x, h3, h4⟩ := id h
  exact (C22_races_iff_conflict a b (by unfold Access.NonEmpty; omega) (by unfold Access.NonEmpty; omega)).2 h

omit [SoftMem M P F] in
/-- C22: every load and store is recorded as an access of the current step, and nothing else is; a new step
starts without accesses. -/
theorem C22_accesses_recorded (m m' : ConcMem M) :
    (∀ p n al at' (b : List (AByte P)), m.load p n al at' = .ok (b, m') →
      m'.accesses = m.accesses ++ [⟨.load, at', p.addr, n⟩]) ∧
    (∀ p (b : List (AByte P)) al at', m.store p b al at' = .ok m' →
      m'.accesses = m.accesses ++ [⟨.store, at', p.addr, b.length⟩]) ∧
    (∀ k n al i (p : ThinPtr P), m.allocate k n al i = .ok (p, m') → m'.accesses = m.accesses) ∧
    (∀ (p : ThinPtr P) k n al, m.deallocate p k n al = .ok m' → m'.accesses = m.accesses) ∧
    (∀ i rest, (s.schedule i rest).mem.accesses = []) := by
  refine ⟨?_, ?_, ?_, ?_, fun _ _ => rfl⟩
  · intro p n al at' b h
    obtain ⟨⟨_, _⟩, _, h2⟩ := Res.bind_eq_ok.1 h
    cases h2; rfl
  · intro p b al at' h
    obtain ⟨_, _, h2⟩ := Res.bind_eq_ok.1 h
    cases h2; rfl
  · intro k n al i p h
    obtain ⟨⟨_, _⟩, _, h2⟩ := Res.bind_eq_ok.1 h
    cases h2; rfl
  · intro p k n al h
    obtain ⟨_, _, h2⟩ := Res.bind_eq_ok.1 h
    cases h2; rfl

/-- C22: suppose thread `i` is scheduled and its next instruction on its own succeeds, leading to `s1`. The
step is UB exactly if the previous step was by another thread, `i` is not recorded as synchronised, and an
access of this step conflicts with one of the previous step. Otherwise the step succeeds. Missing: empty
accesses (see `C22_empty_access_races`), and that only synchronisation by the previous step counts (false,
see `C22_race_missed`). -/
theorem C22_step_partial {i : Nat} {rest : List (Choice P)} {s1 : Machine M P F}
    (ho : s.oracle = .int i :: rest) (hi : s.threadState i = some .enabled)
    (hx : execStep (s.schedule i rest) = .ok ((), s1))
    (hne : ∀ a ∈ s1.mem.accesses, a.NonEmpty) (hne' : ∀ a ∈ s.mem.accesses, a.NonEmpty) :
    (step s = .ok ((), s1) ∨ step s = .error .ub) ∧
    (step s = .error .ub ↔ i ≠ s.activeThread ∧ i ∉ s.synchronizedThreads ∧
      ∃ a ∈ s1.mem.accesses, ∃ b ∈ s.mem.accesses, a.Conflict b) := by
  have hc : (∃ a ∈ s1.mem.accesses, ∃ p ∈ s.mem.accesses, a.races p = true) ↔
      ∃ a ∈ s1.mem.accesses, ∃ b ∈ s.mem.accesses, a.Conflict b := by
    constructor
    · rintro ⟨a, h1, b, h2, h3⟩
      exact ⟨a, h1, b, h2, (C22_races_iff_conflict a b (hne a h1) (hne' b h2)).1 h3⟩
    · rintro ⟨a, h1, b, h2, h3⟩
      exact ⟨a, h1, b, h2, C22_conflict_races a b h3⟩
  rw [← hc, step_race ho hi hx]
  split
  · rename_i h; exact ⟨.inr rfl, fun _ => h, fun _ => rfl⟩
  · rename_i h; exact ⟨.inl rfl, ⟨fun h' => (by cases h'), fun h' => (h h').elim⟩⟩

/-- C22: a conflict between steps of unsynchronised threads is never missed, whatever the sizes. -/
theorem C22_conflict_is_ub {i : Nat} {rest : List (Choice P)} {s1 : Machine M P F}
    (ho : s.oracle = .int i :: rest) (hi : s.threadState i = some .enabled)
    (hx : execStep (s.schedule i rest) = .ok ((), s1)) (h1 : i ≠ s.activeThread) (h2 : i ∉ s.synchronizedThreads)
    (h3 : ∃ a ∈ s1.mem.accesses, ∃ b ∈ s.mem.accesses, a.Conflict b) : step s = .error .ub := by
  obtain ⟨a, ha, b, hb, hc⟩ := h3
  rw [step_race ho hi hx, if_pos ⟨h1, h2, a, ha, b, hb, C22_conflict_races a b hc⟩]

/-- C22: the threads a step adds to the synchronised ones are those it creates or wakes up. None is ever
removed. -/
theorem C22_synchronized_by_step (h : step s = .ok ((), s')) (j : Nat) :
    j ∈ s'.synchronizedThreads ↔ j ∈ s.synchronizedThreads ∨
      (s.threadState j = none ∧ s'.threadState j ≠ none) ∨
      (s.threadState j ≠ some .enabled ∧ s'.threadState j = some .enabled) := by
  obtain ⟨_, _, h1, h2, _⟩ := step_skel h
  have := h2.sync_change h1 j
  simp only [skel_states] at this
  exact this

/-- C22, finding: every thread but the main one is recorded as synchronised, in every reachable state. -/
theorem C22_spawned_exempt (h : Reachable prog s) (i : Nat) (h0 : 0 < i) (hi : s.threadState i ≠ none) :
    i ∈ s.synchronizedThreads := by
  refine h.skelInv.1.spawned i h0 ?_
  rw [Nat.lt_iff_add_one_le, ← Nat.not_lt, Nat.lt_succ_iff, ← List.getElem?_eq_none_iff, skel_states]
  exact hi

/-- C22, finding: hence a spawned thread is never checked for data races. -/
theorem C22_spawned_never_race (h : Reachable prog s) {i : Nat} {rest : List (Choice P)} {s1 : Machine M P F}
    (h0 : 0 < i) (ho : s.oracle = .int i :: rest) (hi : s.threadState i = some .enabled)
    (hx : execStep (s.schedule i rest) = .ok ((), s1)) : step s = .ok ((), s1) := by
  rw [step_race ho hi hx, if_neg]
  rintro ⟨_, h2, _⟩
  exact h2 (C22_spawned_exempt h i h0 (by rw [hi]; simp))

/-! ### C23: locks -/

/-- C23: how the state of a lock changes in a step. It is created unlocked, acquired when unlocked by the
running thread executing an acquire, and given up only by the running thread executing a release. A release
frees the lock if nobody waits for it and otherwise makes one waiting thread the owner. -/
theorem C23_owner_changes (h : step s = .ok ((), s')) (l : Nat) :
    s'.locks[l]? = s.locks[l]? ∨
    (s.locks[l]? = none ∧ s'.locks[l]? = some .unlocked ∧ s.AtIntrinsic s'.activeThread (.lock .create)) ∨
    (s.locks[l]? = some .unlocked ∧ s'.locks[l]? = some (.lockedBy s'.activeThread) ∧
      s.AtIntrinsic s'.activeThread (.lock .acquire)) ∨
    (s.locks[l]? = some (.lockedBy s'.activeThread) ∧ s.AtIntrinsic s'.activeThread (.lock .release) ∧
      ((s'.locks[l]? = some .unlocked ∧ ∀ j, s.threadState j ≠ some (.blockedOnLock l)) ∨
        ∃ j, s.threadState j = some (.blockedOnLock l) ∧ s'.threadState j = some .enabled ∧
          s'.locks[l]? = some (.lockedBy j))) := by
  obtain ⟨rest, _, h1, h2, _⟩ := step_skel h
  have := h2.lock_change l
  simp only [skel_states] at this
  rcases this with h | ⟨h, h', hk⟩ | ⟨h, h', hk⟩ | ⟨h, hk, h'⟩
  · exact .inl h
  · obtain ⟨op, hop, hk⟩ := nextKinds_intrinsic (by simp) hk
    exact .inr (.inl ⟨h, h', kinds_lockCreate hk ▸ hop⟩)
  · obtain ⟨op, hop, hk⟩ := nextKinds_intrinsic (by simp) hk
    exact .inr (.inr (.inl ⟨h, h', kinds_lockAcquire hk ▸ hop⟩))
  · obtain ⟨op, hop, hk⟩ := nextKinds_intrinsic (by simp) hk
    exact .inr (.inr (.inr ⟨h, kinds_lockRelease hk ▸ hop, h'⟩))

/-- C23: a thread that owns a lock owns it until it executes a release itself: between a state in which `i`
owns lock `l` and one in which it does not, there is a step by `i` at a release. -/
theorem C23_owner_until_release {t : Machine M P F} {i l : Nat} (hs : Steps s t)
    (ho : s.locks[l]? = some (.lockedBy i)) (ht : t.locks[l]? ≠ some (.lockedBy i)) :
    ∃ u u', Steps s u ∧ step u = .ok ((), u') ∧ Steps u' t ∧ u'.activeThread = i ∧
      u.AtIntrinsic i (.lock .release) ∧ u.locks[l]? = some (.lockedBy i) := by
  induction hs with
  | refl => exact (ht ho).elim
  | @tail t t' hst hstep ih =>
    by_cases h : t.locks[l]? = some (.lockedBy i)
    · refine ⟨t, t', hst, hstep, .refl _, ?_⟩
      rcases C23_owner_changes hstep l with h' | ⟨h', _⟩ | ⟨h', _⟩ | ⟨h', h2, _⟩
      · rw [h'] at ht; exact (ht h).elim
      · rw [h] at h'; cases h'
      · rw [h] at h'; cases h'
      · rw [h] at h'
        injection h' with h'; injection h' with h'
        subst h'
        exact ⟨rfl, h2, h⟩
    · obtain ⟨u, u', h1, h2, h3, h4⟩ := ih h
      exact ⟨u, u', h1, h2, .tail h3 hstep, h4⟩

/-- C23, mutual exclusion: if `i` owns lock `l` and later another thread `j` does, then `i` executed a
release in between. -/
theorem C23_mutual_exclusion {t : Machine M P F} {i j l : Nat} (hs : Steps s t) (hij : i ≠ j)
    (ho : s.locks[l]? = some (.lockedBy i)) (ht : t.locks[l]? = some (.lockedBy j)) :
    ∃ u u', Steps s u ∧ step u = .ok ((), u') ∧ Steps u' t ∧ u'.activeThread = i ∧
      u.AtIntrinsic i (.lock .release) ∧ u.locks[l]? = some (.lockedBy i) :=
  C23_owner_until_release hs ho (by rw [ht]; rintro h; cases h; exact hij rfl)

/-- C23: a thread that executes an acquire either finds the lock free and owns it, or finds it locked and
blocks, the lock being unchanged. -/
theorem C23_acquire (h : step s = .ok ((), s')) (hat : s.AtIntrinsic s'.activeThread (.lock .acquire)) :
    ∃ l : Nat, (s.locks[l]? = some .unlocked ∧ s'.locks = s.locks.set l (.lockedBy s'.activeThread) ∧
        ∀ i, s'.threadState i = s.threadState i) ∨
      (∃ o, s.locks[l]? = some (.lockedBy o) ∧ s'.locks = s.locks ∧
        s'.threadState s'.activeThread = some (.blockedOnLock l) ∧
        ∀ i, i ≠ s'.activeThread → s'.threadState i = s.threadState i) := by
  obtain ⟨s1, s2, args, ty, v, h1, h2, h3, h4, h5⟩ := step_atIntrinsic h hat
  have hl1 : s1.locks = s.locks := congrArg Skel.locks h1
  have hl2 : s'.locks = s2.locks := congrArg Skel.locks h4
  have ht1 : ∀ i, s1.threadState i = s.threadState i := fun i => by rw [← skel_states, ← skel_states, h1]
  have ht2 : ∀ i, s'.threadState i = s2.threadState i := fun i => by rw [← skel_states, ← skel_states, h4]
  unfold evalIntrinsic intrinsicLock at h3
  simp only at h3
  split at h3
  · obtain ⟨l, b1, k1, g1⟩ := EM.bind_eq_ok.1 h3
    obtain ⟨_, rfl⟩ := EM.lift_eq_ok.1 k1
    obtain ⟨_, b2, k2, g2⟩ := EM.bind_eq_ok.1 g1
    obtain ⟨_, rfl⟩ := EM.lift_eq_ok.1 k2
    obtain ⟨_, b3, k3, g3⟩ := EM.bind_eq_ok.1 g2
    obtain ⟨_, rfl⟩ := EM.pure_eq_ok.1 g3
    refine ⟨l.toNat, ?_⟩
    rcases lockAcquire_eq_ok.1 k3 with ⟨_, ⟨c1, rfl⟩ | ⟨o, t, c1, c2, rfl⟩⟩
    · left
      exact ⟨by rw [← hl1]; exact c1, by rw [hl2, ← hl1, ← h2], fun i => by rw [ht2, ← ht1]; rfl⟩
    · right
      refine ⟨o, by rw [← hl1]; exact c1, by rw [hl2, ← hl1], ?_, fun i hi => ?_⟩
      · rw [ht2, ← h2]
        show ((List.set _ _ _)[_]?).map _ = _
        rw [List.getElem?_set_self (getElem?_lt c2)]; rfl
      · rw [ht2, ← ht1]
        show ((List.set _ _ _)[_]?).map _ = _
        rw [List.getElem?_set_ne (by rw [h2]; exact Ne.symm hi)]; rfl
  · cases h3

/-- C23, C24: a step at a release succeeds only if the running thread owns the lock it releases. If threads
wait for the lock, exactly one of them becomes its owner and is enabled, and all others stay as they are;
otherwise the lock becomes free. -/
theorem C23_release (h : step s = .ok ((), s')) (hat : s.AtIntrinsic s'.activeThread (.lock .release)) :
    ∃ l : Nat, s.locks[l]? = some (.lockedBy s'.activeThread) ∧
      (((∀ j, s.threadState j ≠ some (.blockedOnLock l)) ∧ s'.locks = s.locks.set l .unlocked ∧
          ∀ i, s'.threadState i = s.threadState i) ∨
        (∃ j, s.threadState j = some (.blockedOnLock l) ∧ s'.locks = s.locks.set l (.lockedBy j) ∧
          s'.threadState j = some .enabled ∧ ∀ i, i ≠ j → s'.threadState i = s.threadState i)) := by
  obtain ⟨s1, s2, args, ty, v, h1, h2, h3, h4, h5⟩ := step_atIntrinsic h hat
  have hl1 : s1.locks = s.locks := congrArg Skel.locks h1
  have hl2 : s'.locks = s2.locks := congrArg Skel.locks h4
  have ht1 : ∀ i, s1.threadState i = s.threadState i := fun i => by rw [← skel_states, ← skel_states, h1]
  have ht2 : ∀ i, s'.threadState i = s2.threadState i := fun i => by rw [← skel_states, ← skel_states, h4]
  unfold evalIntrinsic intrinsicLock at h3
  simp only at h3
  split at h3
  · obtain ⟨l, b1, k1, g1⟩ := EM.bind_eq_ok.1 h3
    obtain ⟨_, rfl⟩ := EM.lift_eq_ok.1 k1
    obtain ⟨_, b2, k2, g2⟩ := EM.bind_eq_ok.1 g1
    obtain ⟨_, rfl⟩ := EM.lift_eq_ok.1 k2
    obtain ⟨_, b3, k3, g3⟩ := EM.bind_eq_ok.1 g2
    obtain ⟨_, rfl⟩ := EM.pure_eq_ok.1 g3
    refine ⟨l.toNat, ?_⟩
    obtain ⟨_, c0, ⟨c1, rfl⟩ | ⟨j, t, rest, c1, c2, c3, c4, rfl⟩⟩ := lockRelease_eq_ok.1 k3
    · refine ⟨by rw [← hl1, ← h2]; exact c0, .inl ⟨fun j hj => ?_, by rw [hl2, ← hl1], fun i => by rw [ht2, ← ht1]; rfl⟩⟩
      rw [← ht1, Machine.threadState, Option.map_eq_some_iff] at hj
      obtain ⟨t, ht, hst⟩ := hj
      exact c1 t (List.mem_of_getElem? ht) hst
    · refine ⟨by rw [← hl1, ← h2]; exact c0, .inr ⟨j.toNat, ?_, by rw [hl2, ← hl1], ?_, fun i hi => ?_⟩⟩
      · rw [← ht1, Machine.threadState, c3]; simp [c4]
      · rw [ht2]
        show ((List.set _ _ _)[_]?).map _ = _
        rw [List.getElem?_set_self (getElem?_lt c3)]; rfl
      · rw [ht2, ← ht1]
        show ((List.set _ _ _)[_]?).map _ = _
        rw [List.getElem?_set_ne (Ne.symm hi)]; rfl
  · cases h3

/-- C23: releasing something that is not a lock owned by the running thread is UB. -/
theorem C23_release_by_other_is_ub (l : Int) (ty : Ty)
    (h : ¬ (0 ≤ l ∧ s.locks[l.toNat]? = some (.lockedBy s.activeThread))) :
    evalIntrinsic (.lock .release) [(.int l, ty)] unitTy s = .error .ub := by
  unfold evalIntrinsic intrinsicLock
  simp only
  refine EM.bind_eq_error.2 (.inr ⟨l, s, EM.lift_eq_ok.2 ⟨rfl, rfl⟩, EM.bind_eq_error.2 (.inr ⟨(), s, ?_,
    EM.bind_eq_error.2 (.inl ?_)⟩)⟩)
  · exact EM.lift_eq_ok.2 ⟨by simp [ensureUb], rfl⟩
  · unfold lockRelease
    refine EM.bind_eq_error.2 (.inr ⟨s, s, rfl, ?_⟩)
    cases hl : getInt? s.locks l with
    | none => rfl
    | some st =>
      cases st with
      | unlocked => rfl
      | lockedBy o =>
        simp only
        rw [if_pos]
        · rfl
        · rintro rfl
          exact h (getInt?_eq_some.1 hl)

/-- C23: acquiring something that is not a lock is UB. -/
theorem C23_acquire_no_lock_is_ub (l : Int) (ty : Ty) (h : ¬ (0 ≤ l ∧ l < s.locks.length)) :
    evalIntrinsic (.lock .acquire) [(.int l, ty)] unitTy s = .error .ub := by
  unfold evalIntrinsic intrinsicLock
  simp only
  refine EM.bind_eq_error.2 (.inr ⟨l, s, EM.lift_eq_ok.2 ⟨rfl, rfl⟩, EM.bind_eq_error.2 (.inr ⟨(), s, ?_,
    EM.bind_eq_error.2 (.inl ?_)⟩)⟩)
  · exact EM.lift_eq_ok.2 ⟨by simp [ensureUb], rfl⟩
  · unfold lockAcquire
    cases hl : getInt? s.locks l with
    | none => rfl
    | some st =>
      obtain ⟨h0, hl⟩ := getInt?_eq_some.1 hl
      have := getElem?_lt hl
      exact (h ⟨h0, by omega⟩).elim

/-! ### C24: wake-ups -/

/-- C24: a thread is blocked on a lock only while an existing thread owns the lock. -/
theorem C24_blocked_on_held_lock (h : Reachable prog s) (i l : Nat)
    (hi : s.threadState i = some (.blockedOnLock l)) :
    ∃ o, s.locks[l]? = some (.lockedBy o) ∧ s.threadState o ≠ none := by
  obtain ⟨o, ho⟩ := h.skelInv.1.lockHeld i l (by rw [skel_states]; exact hi)
  refine ⟨o, ho, ?_⟩
  have := h.skelInv.1.ownerExists l o ho
  rw [← skel_states, Ne, List.getElem?_eq_none_iff]; omega

/-- C24: a thread is blocked on a join only while the joined thread exists and has not terminated. -/
theorem C24_blocked_on_live_thread (h : Reachable prog s) (i j : Nat)
    (hi : s.threadState i = some (.blockedOnJoin j)) :
    s.threadState j ≠ none ∧ s.threadState j ≠ some .terminated := by
  obtain ⟨st, h1, h2⟩ := h.skelInv.1.joinLive i j (by rw [skel_states]; exact hi)
  rw [skel_states] at h1
  rw [h1]; simpa using h2

/-- C24: a thread blocked on a lock stays blocked until a step in which the owner executes a release and
makes it the owner. In particular a free lock never has a waiting thread. -/
theorem C24_lock_wakeup (h : step s = .ok ((), s')) (i l : Nat)
    (hi : s.threadState i = some (.blockedOnLock l)) :
    s'.threadState i = some (.blockedOnLock l) ∨
    (s'.threadState i = some .enabled ∧ s'.locks[l]? = some (.lockedBy i) ∧
      s.locks[l]? = some (.lockedBy s'.activeThread) ∧ s.AtIntrinsic s'.activeThread (.lock .release)) := by
  obtain ⟨rest, _, h1, h2, _⟩ := step_skel h
  have := h2.state_change h1 i _ (by rw [skel_states]; exact hi)
  have hne : i ≠ s'.activeThread := by
    rintro rfl; rw [skel_states, hi] at h1; cases h1
  simp only [skel_states] at this
  rcases this with h | ⟨h, _⟩ | ⟨h, _⟩ | ⟨h, _⟩ | ⟨l', h, h3, h4, h5, hk⟩ | ⟨h, _⟩
  · exact .inl h
  · exact (hne h).elim
  · exact (hne h).elim
  · exact (hne h).elim
  · cases h
    obtain ⟨op, hop, hk⟩ := nextKinds_intrinsic (by simp) hk
    exact .inr ⟨h3, h5, h4, kinds_lockRelease hk ▸ hop⟩
  · cases h

/-- C24: a thread blocked on joining thread `j` is enabled by a step exactly if that step terminates `j`. -/
theorem C24_join_wakeup (hr : Reachable prog s) (h : step s = .ok ((), s')) (i j : Nat)
    (hi : s.threadState i = some (.blockedOnJoin j)) :
    (s'.threadState i = some .enabled ∧ s'.threadState j = some .terminated ∧ j = s'.activeThread) ∨
    (s'.threadState i = some (.blockedOnJoin j) ∧ s'.threadState j ≠ some .terminated) := by
  obtain ⟨rest, _, h1, h2, _⟩ := step_skel h
  have := h2.join_wake h1 i j (by rw [skel_states]; exact hi)
    (by rw [skel_states]; exact (C24_blocked_on_live_thread hr i j hi).2)
  simp only [skel_states] at this
  rcases this with ⟨a, b, c⟩ | h
  · exact .inl ⟨a, c, b⟩
  · exact .inr h

/-- C24: a thread that executes a join of `j` continues if `j` has terminated and otherwise blocks. -/
theorem C24_join (h : step s = .ok ((), s')) (hat : s.AtIntrinsic s'.activeThread .join) :
    ∃ j : Nat, s.threadState j ≠ none ∧ (∀ i, i ≠ s'.activeThread → s'.threadState i = s.threadState i) ∧
      ((s.threadState j = some .terminated ∧ s'.threadState s'.activeThread = some .enabled) ∨
       (s.threadState j ≠ some .terminated ∧ s'.threadState s'.activeThread = some (.blockedOnJoin j))) := by
  obtain ⟨s1, s2, args, ty, v, h1, h2, h3, h4, h5⟩ := step_atIntrinsic h hat
  have ht1 : ∀ i, s1.threadState i = s.threadState i := fun i => by rw [← skel_states, ← skel_states, h1]
  have ht2 : ∀ i, s'.threadState i = s2.threadState i := fun i => by rw [← skel_states, ← skel_states, h4]
  have hen : s.threadState s'.activeThread = some .enabled := by
    obtain ⟨rest, _, h1, h2, _⟩ := step_skel h
    rw [← skel_states]; exact h1
  unfold evalIntrinsic intrinsicJoin at h3
  simp only at h3
  split at h3
  · obtain ⟨l, b1, k1, g1⟩ := EM.bind_eq_ok.1 h3
    obtain ⟨_, rfl⟩ := EM.lift_eq_ok.1 k1
    obtain ⟨_, b2, k2, g2⟩ := EM.bind_eq_ok.1 g1
    obtain ⟨_, rfl⟩ := EM.lift_eq_ok.1 k2
    obtain ⟨_, b3, k3, g3⟩ := EM.bind_eq_ok.1 g2
    obtain ⟨_, rfl⟩ := EM.pure_eq_ok.1 g3
    refine ⟨l.toNat, ?_⟩
    obtain ⟨_, tj, c0, ⟨c1, rfl⟩ | ⟨c1, t, c2, rfl⟩⟩ := join_eq_ok.1 k3
    · have hj : s.threadState l.toNat = some tj.state := by rw [← ht1, Machine.threadState, c0]; rfl
      refine ⟨by rw [hj]; simp, fun i _ => by rw [ht2, ht1], .inl ⟨by rw [hj, c1], by rw [ht2, ht1]; exact hen⟩⟩
    · have hj : s.threadState l.toNat = some tj.state := by rw [← ht1, Machine.threadState, c0]; rfl
      refine ⟨by rw [hj]; simp, fun i hi => ?_, .inr ⟨by rw [hj]; simpa using c1, ?_⟩⟩
      · rw [ht2, ← ht1]
        show ((List.set _ _ _)[_]?).map _ = _
        rw [List.getElem?_set_ne (by rw [h2]; exact Ne.symm hi)]; rfl
      · rw [ht2, ← h2]
        show ((List.set _ _ _)[_]?).map _ = _
        rw [List.getElem?_set_self (getElem?_lt c2)]; rfl
  · cases h3

/-- C24: any waiting thread can be chosen when a lock is released. -/
theorem C24_any_waiter (l j : Nat) (ty : Ty) (rest : List (Choice P)) (ho : s.oracle = .int j :: rest)
    (hown : s.locks[l]? = some (.lockedBy s.activeThread)) (hj : s.threadState j = some (.blockedOnLock l)) :
    ∃ s', evalIntrinsic (.lock .release) [(.int l, ty)] unitTy s = .ok (unitValue, s') ∧
      s'.locks = s.locks.set l (.lockedBy j) ∧ s'.threadState j = some .enabled ∧
      ∀ i, i ≠ j → s'.threadState i = s.threadState i := by
  obtain ⟨t, ht, hst⟩ : ∃ t, s.threads[j]? = some t ∧ t.state = .blockedOnLock l := by
    simpa [Machine.threadState] using hj
  refine ⟨{ s with
          oracle := rest
          threads := s.threads.set j (t.withState .enabled)
          synchronizedThreads := setInsert s.synchronizedThreads j
          locks := s.locks.set l (.lockedBy j) }, ?_, rfl, ?_, fun i hi => ?_⟩
  · unfold evalIntrinsic intrinsicLock
    simp only
    refine EM.bind_eq_ok.2 ⟨l, s, EM.lift_eq_ok.2 ⟨rfl, rfl⟩, EM.bind_eq_ok.2 ⟨(), s, ?_,
      EM.bind_eq_ok.2 ⟨(), _, ?_, EM.pure_eq_ok.2 ⟨rfl, rfl⟩⟩⟩⟩
    · exact EM.lift_eq_ok.2 ⟨by simp [ensureUb], rfl⟩
    · exact lockRelease_eq_ok.2 ⟨by omega, hown, .inr ⟨j, t, rest, ho, by omega, ht, hst, rfl⟩⟩
  · show ((s.threads.set _ _)[_]?).map _ = _
    rw [List.getElem?_set_self (getElem?_lt ht)]; rfl
  · show ((s.threads.set _ _)[_]?).map _ = _
    rw [List.getElem?_set_ne (Ne.symm hi)]; rfl

/-! ### C25: scheduling and deadlock -/

/-- C25: a step reports a deadlock exactly if no thread is enabled. -/
theorem C25_deadlock_iff : step s = .error .deadlock ↔ ∀ i, s.threadState i ≠ some .enabled := by
  have hstates : (∀ i, s.threadState i ≠ some .enabled) ↔ ∀ t ∈ s.threads, t.state ≠ .enabled := by
    constructor
    · intro h t ht hst
      obtain ⟨i, hi⟩ := List.mem_iff_getElem?.1 ht
      exact h i (by rw [Machine.threadState, hi]; simp [hst])
    · intro h i hi
      rw [Machine.threadState, Option.map_eq_some_iff] at hi
      obtain ⟨t, ht, hst⟩ := hi
      exact h t (List.mem_of_getElem? ht) hst
  rw [hstates]
  constructor
  · intro h
    rcases step_error_cases h with ⟨_, h⟩ | h | h | ⟨i, rest, _, _, h⟩
    · exact h
    · cases h
    · cases h
    · exact absurd h (execStep_ne_deadlock)
  · intro h
    unfold step
    refine EM.bind_eq_error.2 (.inr ⟨false, s, EM.read_eq_ok.2 ⟨?_, rfl⟩, rfl⟩)
    simp only [Machine.anyEnabled, Except.ok.injEq, List.any_eq_false, decide_eq_true_eq]
    exact h

/-- C25: only enabled threads run, one at a time: the thread that made a step was enabled, it is the one
chosen, and stack and payloads of all other threads are unchanged. -/
theorem C25_only_enabled_run (h : step s = .ok ((), s')) :
    s.threadState s'.activeThread = some .enabled ∧ (∃ rest, s.oracle = .int s'.activeThread :: rest) ∧
    ∀ (i : Nat) (t : Thread P F), i ≠ s'.activeThread → s.threads[i]? = some t →
      ∃ t', s'.threads[i]? = some t' ∧ t'.stack = t.stack ∧ t'.unwindPayloads = t.unwindPayloads := by
  obtain ⟨rest, h0, h1, h2, h3⟩ := step_skel h
  exact ⟨by rw [← skel_states]; exact h1, ⟨rest, h0⟩, h3⟩

/-- C25: every enabled thread can be scheduled: with the choice `i`, the step is the execution of the next
instruction of thread `i`, up to the check for data races. -/
theorem C25_any_enabled_can_run (i : Nat) (rest : List (Choice P)) (ho : s.oracle = .int i :: rest)
    (hi : s.threadState i = some .enabled) :
    (∀ s1, execStep (s.schedule i rest) = .ok ((), s1) → step s = .ok ((), s1) ∨ step s = .error .ub) ∧
    (∀ e, execStep (s.schedule i rest) = .error e → step s = .error e) := by
  refine ⟨fun s1 hx => ?_, fun e hx => step_of_execStep_error ho hi hx⟩
  rw [step_race ho hi hx]
  split
  · exact .inr rfl
  · exact .inl rfl

/-- C25: a terminated thread never changes again. -/
theorem C25_terminated_is_final (h : Steps s s') (i : Nat) (hi : s.threadState i = some .terminated) :
    s'.threadState i = some .terminated ∧ ∀ t, s.threads[i]? = some t → ∃ t', s'.threads[i]? = some t' ∧
      t'.stack = t.stack ∧ t'.unwindPayloads = t.unwindPayloads := by
  induction h with
  | refl => exact ⟨hi, fun t ht => ⟨t, ht, rfl, rfl⟩⟩
  | @tail t u hst hstep ih =>
    obtain ⟨rest, _, h1, h2, h3⟩ := step_skel hstep
    have hne : i ≠ u.activeThread := by
      rintro rfl; rw [skel_states, ih.1] at h1; cases h1
    refine ⟨?_, fun t' ht' => ?_⟩
    · have := h2.state_change h1 i _ (by rw [skel_states]; exact ih.1)
      simp only [skel_states] at this
      rcases this with h | ⟨h, _⟩ | ⟨h, _⟩ | ⟨h, _⟩ | ⟨l', h, _⟩ | ⟨h, _⟩
      · exact h
      · exact (hne h).elim
      · exact (hne h).elim
      · exact (hne h).elim
      · cases h
      · cases h
    · obtain ⟨t1, k1, k2, k3⟩ := ih.2 t' ht'
      obtain ⟨t2, k4, k5, k6⟩ := h3 i t1 hne k1
      exact ⟨t2, k4, k5.trans k2, k6.trans k3⟩

/-- C25: the main thread never terminates; it can only end the program. -/
theorem C25_main_never_terminates (h : Reachable prog s) :
    s.threadState 0 ≠ none ∧ s.threadState 0 ≠ some .terminated := by
  obtain ⟨st, h1, h2⟩ := h.skelInv.1.mainAlive
  rw [skel_states] at h1
  rw [h1]; simpa using h2

/-- C25: threads never disappear, and new ones only come from a spawn and start enabled. -/
theorem C25_threads_persist (h : step s = .ok ((), s')) (i : Nat) :
    (s.threadState i ≠ none → s'.threadState i ≠ none) ∧
    (s.threadState i = none → s'.threadState i = none ∨
      (s'.threadState i = some .enabled ∧ i = s.threads.length ∧ s.AtIntrinsic s'.activeThread .spawn)) := by
  obtain ⟨rest, _, h1, h2, _⟩ := step_skel h
  constructor
  · intro hi
    obtain ⟨st, hst⟩ := Option.ne_none_iff_exists'.1 hi
    have := h2.state_change h1 i _ (by rw [skel_states]; exact hst)
    simp only [skel_states] at this
    rcases this with h | ⟨_, _, _, h, _⟩ | ⟨_, _, _, h, _⟩ | ⟨_, _, h, _⟩ | ⟨l', _, h, _⟩ | ⟨_, h, _⟩ <;>
      (rw [h]; simp)
  · intro hi
    have := h2.new_thread i (by rw [skel_states]; exact hi)
    simp only [skel_states] at this
    rcases this with h | ⟨h, h', hk⟩
    · exact .inl h
    · obtain ⟨op, hop, hk⟩ := nextKinds_intrinsic (by simp) hk
      exact .inr ⟨h', by simpa [Machine.skel] using h, kinds_spawn hk ▸ hop⟩

end
/-! ### Concrete cases and counterexamples -/

section
attribute [local instance] x86_64
open Ex

instance (a b : Access) : Decidable (∃ x : Int, (a.addr ≤ x ∧ x < a.addr + a.len) ∧ (b.addr ≤ x ∧ x < b.addr + b.len)) :=
  decidable_of_iff (max a.addr b.addr < a.addr + a.len ∧ max a.addr b.addr < b.addr + b.len)
    ⟨fun h => ⟨max a.addr b.addr, by omega⟩, fun ⟨x, h⟩ => by omega⟩
instance (a b : Access) : Decidable (a.Conflict b) := by unfold Access.Conflict; infer_instance
instance (a : Access) : Decidable a.NonEmpty := by unfold Access.NonEmpty; infer_instance

/-- C22: the hypotheses of `C22_step_partial` and `C22_conflict_is_ub` are met by a program in which the main
thread and a spawned thread write the same global, and the race is reported. -/
example : ∃ (s s1 : BMach) (rest : List (Choice (Nat × Unit))), Reachable mainRaceProg s ∧
    s.oracle = .int (0 : Nat) :: rest ∧ s.threadState 0 = some .enabled ∧
    execStep (s.schedule 0 rest) = .ok ((), s1) ∧
    (∀ a ∈ s1.mem.accesses, a.NonEmpty) ∧ (∀ a ∈ s.mem.accesses, a.NonEmpty) ∧
    0 ≠ s.activeThread ∧ 0 ∉ s.synchronizedThreads ∧ ∃ a ∈ s1.mem.accesses, ∃ b ∈ s.mem.accesses, a.Conflict b :=
  exists_exec mainRaceRun 3 0 _ (by decide +kernel)

/-- C22 is false of the code: in this program two threads write the same global in adjacent steps, the first
of these steps synchronises no thread, and no race is reported. (`synchronized_threads` is never reset.) -/
theorem C22_race_missed : ∃ (s0 s s' : BMach), Reachable raceProg s0 ∧ step s0 = .ok ((), s) ∧
    step s = .ok ((), s') ∧ s.activeThread ≠ s'.activeThread ∧
    s.synchronizedThreads = s0.synchronizedThreads ∧ s.threads.map (·.state) = s0.threads.map (·.state) ∧
    ∃ a ∈ s'.mem.accesses, ∃ b ∈ s.mem.accesses, a.Conflict b := by
  have h : observe raceProg raceRun 4 (fun (s0 : BMach) => do
      let (_, s) ← step s0
      let (_, s') ← step s
      .ok (decide (s.activeThread ≠ s'.activeThread ∧ s.synchronizedThreads = s0.synchronizedThreads ∧
        s.threads.map (·.state) = s0.threads.map (·.state) ∧
        ∃ a ∈ s'.mem.accesses, ∃ b ∈ s.mem.accesses, a.Conflict b))) = .ok true := by decide +kernel
  obtain ⟨s0, h1, h2⟩ := reachable_of_observe h
  obtain ⟨⟨_, s⟩, h3, h4⟩ := Res.bind_eq_ok.1 h2
  obtain ⟨⟨_, s'⟩, h5, h6⟩ := Res.bind_eq_ok.1 h4
  injection h6 with h6
  exact ⟨s0, s, s', h1, h3, h5, of_decide_eq_true h6⟩

/-- C22 is false of the code for empty accesses: here a race is reported although no byte is accessed by both
steps. -/
theorem C22_empty_access_races : ∃ (s s1 : BMach) (rest : List (Choice (Nat × Unit))), Reachable emptyRaceProg s ∧
    s.oracle = .int (0 : Nat) :: rest ∧ s.threadState 0 = some .enabled ∧
    execStep (s.schedule 0 rest) = .ok ((), s1) ∧ step s = .error .ub ∧
    ∀ a ∈ s1.mem.accesses, ∀ b ∈ s.mem.accesses, ¬ a.Conflict b := by
  obtain ⟨s, s1, rest, h1, h2, h3, h4, h5, h6⟩ := exists_exec (prog := emptyRaceProg) mainRaceRun 3 0
    (fun (s s1 : BMach) => errOf (step s) = some .ub ∧ ∀ a ∈ s1.mem.accesses, ∀ b ∈ s.mem.accesses, ¬ a.Conflict b)
    (by decide +kernel)
  exact ⟨s, s1, rest, h1, h2, h3, h4, errOf_eq_some h5, h6⟩

/-- C22: a reachable state with a spawned thread about to run, as in `C22_spawned_never_race`. -/
example : ∃ (s s1 : BMach) (rest : List (Choice (Nat × Unit))), Reachable raceProg s ∧
    s.oracle = .int (2 : Nat) :: rest ∧ s.threadState 2 = some .enabled ∧
    execStep (s.schedule 2 rest) = .ok ((), s1) ∧ ∃ a ∈ s1.mem.accesses, ∃ b ∈ s.mem.accesses, a.Conflict b :=
  exists_exec raceRun 5 2 _ (by decide +kernel)

/-- C23, C24: a step at a release that hands the lock over while another thread keeps waiting. -/
example : ∃ (s s' : BMach), Reachable lockProg s ∧ step s = .ok ((), s') ∧
    s.atOp s'.activeThread = some (.lock .release) ∧ s.locks[0]? = some (.lockedBy 0) ∧
    s.threadState 1 = some (.blockedOnLock 0) ∧ s.threadState 2 = some (.blockedOnLock 0) ∧
    s'.locks[0]? = some (.lockedBy 2) ∧ s'.threadState 1 = some (.blockedOnLock 0) :=
  exists_step lockRun 7 _ (by decide +kernel)

/-- C23: an acquire that succeeds, and one that blocks. -/
example : (∃ (s s' : BMach), Reachable lockProg s ∧ step s = .ok ((), s') ∧
    s.atOp s'.activeThread = some (.lock .acquire) ∧ s'.locks[0]? = some (.lockedBy s'.activeThread)) ∧
    ∃ (s s' : BMach), Reachable lockProg s ∧ step s = .ok ((), s') ∧
    s.atOp s'.activeThread = some (.lock .acquire) ∧
    s'.threadState s'.activeThread = some (.blockedOnLock 0) :=
  ⟨exists_step lockRun 2 _ (by decide +kernel), exists_step lockRun 5 _ (by decide +kernel)⟩

/-- C23: the lock has different owners along an execution. -/
example : ∃ (s s' : BMach), Reachable lockProg s ∧ Steps s s' ∧ s.locks[0]? = some (.lockedBy 0) ∧
    s'.locks[0]? = some (.lockedBy 1) := by
  obtain ⟨s, s', h1, h2, h3⟩ := exists_steps (prog := lockProg) lockRun 3 7
    (fun (s s' : BMach) => s.locks[0]? = some (.lockedBy 0) ∧ s'.locks[0]? = some (.lockedBy 1)) (by decide +kernel)
  exact ⟨s, s', h1, runSteps_steps h2, h3⟩

/-- C24: a join that blocks, and the wake-up when the joined thread terminates. -/
example : (∃ (s s' : BMach), Reachable lockProg s ∧ step s = .ok ((), s') ∧
    s.atOp s'.activeThread = some .join ∧ s'.threadState 0 = some (.blockedOnJoin 2)) ∧
    ∃ (s s' : BMach), Reachable lockProg s ∧ step s = .ok ((), s') ∧
    s.threadState 0 = some (.blockedOnJoin 2) ∧ s'.threadState 0 = some .enabled ∧
    s'.threadState 2 = some .terminated :=
  ⟨exists_step lockRun 8 _ (by decide +kernel), exists_step lockRun 10 _ (by decide +kernel)⟩

/-- A thread waiting for a lock it holds itself: the program deadlocks. -/
def Ex.deadlockProg : Program where
  functions := [(0, {
    locals := [(0, unitTy)], args := [], ret := 0, callingConvention := .c, start := 0
    blocks := [
      (0, ⟨[], .intrinsic (.lock .create) [] (.deref (global 0) u32) (some 1), .regular⟩),
      (1, ⟨[], .intrinsic (.lock .acquire) [.load (.deref (global 0) u32)] (.local 0) (some 1), .regular⟩)] })]
  start := 0
  globals := [(0, ⟨List.replicate 4 (some 0), [], ⟨2⟩⟩)]
  traits := []
  vtables := []

/-- C25: a reachable deadlock. -/
example : ∃ s : BMach, Reachable deadlockProg s ∧ step s = .error .deadlock := by
  obtain ⟨s, h1, h2⟩ := exists_reachable (prog := deadlockProg) [.int 16, .int 32, .int 48, .int 0, .int 0, .int 0] 3
    (fun s : BMach => errOf (step s) = some .deadlock) (by decide +kernel)
  exact ⟨s, h1, errOf_eq_some h2⟩

/-- C25: a terminated thread in a reachable state, and a spawn. -/
example : (∃ s : BMach, Reachable lockProg s ∧ s.threadState 2 = some .terminated) ∧
    ∃ (s s' : BMach), Reachable lockProg s ∧ step s = .ok ((), s') ∧ s.threadState 1 = none ∧
      s'.threadState 1 = some .enabled :=
  ⟨exists_reachable lockRun 11 _ (by decide +kernel), exists_step lockRun 3 _ (by decide +kernel)⟩
end

end MiniRust
