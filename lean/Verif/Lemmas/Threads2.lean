import Verif.Lemmas.Threads
import Verif.Spec.Threads
/-
Invariants of the skeleton, the initial machine, and the terminators behind operations on locks.
-/
set_option linter.unusedSectionVars false
namespace MiniRust
variable {M P F : Type} [Memory M P F] [DecidableEq P] [T : Target] {s s' : Machine M P F}

theorem skel_states {i : Nat} : s.skel.states[i]? = s.threadState i := by
  simp [Machine.skel, Machine.threadState]

theorem nextTerminator_atTerminator {a : Nat} {rest : List (Choice P)} {t : Terminator}
    (h : (s.schedule a rest).nextTerminator = some t) : s.AtTerminator a t := by
  unfold Machine.nextTerminator at h
  split at h
  · rename_i f hf
    obtain ⟨th, fs, h1, h2⟩ := curFrame_eq_ok.1 hf
    split at h
    · rename_i b hb
      split at h
      · rename_i hl
        cases h
        exact ⟨th, f, fs, b, h1, h2, hb, hl, rfl⟩
      · cases h
    · cases h
  · cases h

theorem nextKinds_op {a : Nat} {rest : List (Choice P)} {k : CtlKind}
    (h : (s.schedule a rest).nextKinds k) : ∃ t, s.AtTerminator a t ∧ t.kinds k := by
  obtain ⟨t, h1, h2⟩ := h
  exact ⟨t, nextTerminator_atTerminator h1, h2⟩

theorem nextKinds_intrinsic {a : Nat} {rest : List (Choice P)} {k : CtlKind} (hk : k ≠ .terminate)
    (h : (s.schedule a rest).nextKinds k) : ∃ op, s.AtIntrinsic a op ∧ op.kinds k := by
  obtain ⟨t, h1, h2⟩ := nextKinds_op h
  cases t with
  | intrinsic op as r n => exact ⟨op, ⟨as, r, n, h1⟩, h2⟩
  | «return» => exact (hk h2).elim
  | _ => exact h2.elim

theorem kinds_lockRelease {op : IntrinsicOp} (h : op.kinds .lockRelease) : op = .lock .release := by
  cases op with
  | lock o => cases o <;> simp_all [IntrinsicOp.kinds]
  | _ => simp_all [IntrinsicOp.kinds]
theorem kinds_lockAcquire {op : IntrinsicOp} (h : op.kinds .lockAcquire) : op = .lock .acquire := by
  cases op with
  | lock o => cases o <;> simp_all [IntrinsicOp.kinds]
  | _ => simp_all [IntrinsicOp.kinds]
theorem kinds_lockCreate {op : IntrinsicOp} (h : op.kinds .lockCreate) : op = .lock .create := by
  cases op with
  | lock o => cases o <;> simp_all [IntrinsicOp.kinds]
  | _ => simp_all [IntrinsicOp.kinds]
theorem kinds_join {op : IntrinsicOp} (h : op.kinds .join) : op = .join := by
  cases op with
  | lock o => cases o <;> simp_all [IntrinsicOp.kinds]
  | _ => simp_all [IntrinsicOp.kinds]
theorem kinds_spawn {op : IntrinsicOp} (h : op.kinds .spawn) : op = .spawn := by
  cases op with
  | lock o => cases o <;> simp_all [IntrinsicOp.kinds]
  | _ => simp_all [IntrinsicOp.kinds]

/-! ### The initial machine -/

/-- What the initialisation before the creation of the main thread keeps. -/
structure InitKept (s s' : Machine M P F) : Prop where
  prog : s'.prog = s.prog
  threads : s'.threads = s.threads
  active : s'.activeThread = s.activeThread
  sync : s'.synchronizedThreads = s.synchronizedThreads
  locks : s'.locks = s.locks
  stdout : s'.stdout = s.stdout
  stderr : s'.stderr = s.stderr
  cast : s'.intptrcast = s.intptrcast

instance : PreRel (InitKept (M := M) (P := P) (F := F)) where
  refl s := ⟨rfl, rfl, rfl, rfl, rfl, rfl, rfl, rfl⟩
  trans s s' s'' h1 h2 := ⟨h2.prog.trans h1.prog, h2.threads.trans h1.threads, h2.active.trans h1.active,
    h2.sync.trans h1.sync, h2.locks.trans h1.locks, h2.stdout.trans h1.stdout, h2.stderr.trans h1.stderr,
    h2.cast.trans h1.cast⟩

section
variable [SoftMem M P F]

theorem init_memAllocate {k n a} : Tri Soft InitKept (memAllocate k n a : EM M P F _) where
  ok s u s' h := by
    unfold memAllocate at h
    obtain ⟨i, s1, h1, h2⟩ := EM.bind_eq_ok.1 h
    obtain ⟨rest, _, rfl⟩ := EM.popInt_eq_ok.1 h1
    obtain ⟨⟨p, m⟩, _, h4⟩ := Res.bind_eq_ok.1 h2
    cases h4
    exact ⟨rfl, rfl, rfl, rfl, rfl, rfl, rfl, rfl⟩
  err s e h := (tri_memHeap (Rm := AnyMem)).err _ _ h
theorem init_memStore {p b al at'} : Tri Soft InitKept (memStore p b al at' : EM M P F _) where
  ok s u s' h := by
    unfold memStore at h
    obtain ⟨m, _, h4⟩ := Res.bind_eq_ok.1 h
    cases h4
    exact ⟨rfl, rfl, rfl, rfl, rfl, rfl, rfl, rfl⟩
  err s e h := (tri_memStore (Rm := AnyMem)).err _ _ h

theorem init_allocGlobals : ∀ {gs}, Tri Soft InitKept (allocGlobals gs : EM M P F _)
  | [] => by unfold allocGlobals; exact .pure
  | (n, g) :: gs => by
    unfold allocGlobals
    exact .bind init_memAllocate fun _ => .bind (.modify fun _ => ⟨rfl, rfl, rfl, rfl, rfl, rfl, rfl, rfl⟩)
      fun _ => init_allocGlobals
theorem init_allocFunctions : ∀ {gs}, Tri Soft InitKept (allocFunctions gs : EM M P F _)
  | [] => by unfold allocFunctions; exact .pure
  | n :: gs => by
    unfold allocFunctions
    exact .bind init_memAllocate fun _ => .bind (.modify fun _ => ⟨rfl, rfl, rfl, rfl, rfl, rfl, rfl, rfl⟩)
      fun _ => init_allocFunctions
theorem init_allocVTables : ∀ {gs}, Tri Soft InitKept (allocVTables gs : EM M P F _)
  | [] => by unfold allocVTables; exact .pure
  | n :: gs => by
    unfold allocVTables
    exact .bind init_memAllocate fun _ => .bind (.modify fun _ => ⟨rfl, rfl, rfl, rfl, rfl, rfl, rfl, rfl⟩)
      fun _ => init_allocVTables

theorem soft_relocate : ∀ {rs bs}, ResE Soft (s.relocate rs bs)
  | [], _ => by unfold Machine.relocate; exact .ok
  | (i, r) :: rs, _ => by
    unfold Machine.relocate
    exact .bind (.mapGet .panic) fun _ => .bind soft_encodePtr fun _ => .bind (.writeSubslice .panic) fun _ =>
      soft_relocate

theorem init_fillGlobals : ∀ {gs}, Tri Soft InitKept (fillGlobals gs : EM M P F _)
  | [] => by unfold fillGlobals; exact .pure
  | (n, g) :: gs => by
    unfold fillGlobals
    exact .bind (.read fun _ => soft_relocate) fun _ => .bind (.read fun _ => .mapGet .panic) fun _ =>
      .bind (.unwrapRes init_memStore .panic) fun _ => init_fillGlobals

/-- A machine created by `Machine::new` has one enabled thread, running the start function, no locks
and no synchronized threads. -/
theorem new_eq_ok {prog : Program} {oracle : List (Choice P)} (h : Machine.new prog oracle = .ok s) :
    prog.checkWf = .ok () ∧ s.prog = prog ∧ s.activeThread = 0 ∧ s.locks = [] ∧ s.synchronizedThreads = [] ∧
      ∃ f : StackFrame P F, s.threads = [{ state := .enabled, stack := [f], unwindPayloads := [] }] := by
  unfold Machine.new at h
  obtain ⟨_, h1, h⟩ := Res.bind_eq_ok.1 h
  obtain ⟨⟨_, s1⟩, h2, h⟩ := Res.bind_eq_ok.1 h
  cases h
  unfold initMachine at h2
  obtain ⟨_, a1, k1, g1⟩ := EM.bind_eq_ok.1 h2
  obtain ⟨_, a2, k2, g2⟩ := EM.bind_eq_ok.1 g1
  obtain ⟨_, a3, k3, g3⟩ := EM.bind_eq_ok.1 g2
  obtain ⟨_, a4, k4, g4⟩ := EM.bind_eq_ok.1 g3
  obtain ⟨fn, a5, k5, g5⟩ := EM.bind_eq_ok.1 g4
  obtain ⟨_, a6, k6, g6⟩ := EM.bind_eq_ok.1 g5
  cases g6
  obtain ⟨_, rfl⟩ := EM.lift_eq_ok.1 k5
  obtain ⟨fr, a7, k7, _, rfl⟩ := newThread_eq_ok.1 k6
  have i4 := PreRel.trans _ _ _ (PreRel.trans _ _ _ (PreRel.trans _ _ _ (init_allocGlobals.ok _ _ _ k1)
    (init_fillGlobals.ok _ _ _ k2)) (init_allocFunctions.ok _ _ _ k3)) (init_allocVTables.ok _ _ _ k4)
  have q := (tri_createFrame (Rm := AnyMem)).ok _ _ _ k7
  have ht : a7.threads = [] := by
    have := q.threads.states
    rw [i4.threads] at this
    simpa [Machine.empty] using this
  refine ⟨h1, ?_, ?_, ?_, ?_, fr, ?_⟩
  · show a7.prog = _; rw [q.prog, i4.prog]; rfl
  · show a7.activeThread = _; rw [q.active, i4.active]; rfl
  · show a7.locks = _; rw [q.locks, i4.locks]; rfl
  · show a7.synchronizedThreads = _; rw [q.sync, i4.sync]; rfl
  · show a7.threads ++ _ = _; rw [ht]; rfl
end

/-! ### The invariant -/

/-- The invariant of thread states, locks and synchronized threads. -/
structure SkelInv (k : Skel) : Prop where
  lockHeld : ∀ i l : Nat, k.states[i]? = some (.blockedOnLock l) → ∃ u, k.locks[l]? = some (.lockedBy u)
  joinLive : ∀ i j : Nat, k.states[i]? = some (.blockedOnJoin j) → ∃ st, k.states[j]? = some st ∧ st ≠ .terminated
  ownerExists : ∀ l u : Nat, k.locks[l]? = some (.lockedBy u) → u < k.states.length
  mainAlive : ∃ st, k.states[0]? = some st ∧ st ≠ .terminated
  spawned : ∀ i, 0 < i → i < k.states.length → i ∈ k.sync
  syncExists : ∀ i ∈ k.sync, i < k.states.length

omit T in
theorem getElem?_lt {α : Type} {l : List α} {i : Nat} {a : α} (h : l[i]? = some a) : i < l.length :=
  (List.getElem?_eq_some_iff.1 h).1

omit T in
theorem set_some {α : Type} {l : List α} {i j : Nat} {a b : α} (h : (l.set i a)[j]? = some b) :
    (j = i ∧ b = a) ∨ (j ≠ i ∧ l[j]? = some b) := by
  by_cases hij : j = i
  · subst hij
    have hl := getElem?_lt h
    rw [List.length_set] at hl
    rw [List.getElem?_set_self hl] at h
    exact .inl ⟨rfl, by cases h; rfl⟩
  · rw [List.getElem?_set_ne (Ne.symm hij)] at h
    exact .inr ⟨hij, h⟩

omit T in
theorem wake_map {k : List ThreadState} {a i : Nat} {st : ThreadState}
    (h : ((k.set a .terminated).map (ThreadState.wake a))[i]? = some st) :
    (i = a ∧ st = .terminated) ∨ (i ≠ a ∧ k[i]? = some (.blockedOnJoin a) ∧ st = .enabled) ∨
      (i ≠ a ∧ k[i]? = some st ∧ st ≠ .blockedOnJoin a) := by
  rw [List.getElem?_map, Option.map_eq_some_iff] at h
  obtain ⟨st', h1, h2⟩ := h
  rcases set_some h1 with ⟨rfl, rfl⟩ | ⟨hi, h1⟩
  · left; exact ⟨rfl, by rw [← h2]; rfl⟩
  · right
    unfold ThreadState.wake at h2
    split at h2
    · rename_i h3; subst h3; exact .inl ⟨hi, h1, h2.symm⟩
    · rename_i h3; subst h2; exact .inr ⟨hi, h1, h3⟩

omit T in
theorem wake_map_other {k : List ThreadState} {a i : Nat} {st : ThreadState} (hi : i ≠ a) (h : k[i]? = some st) :
    ((k.set a .terminated).map (ThreadState.wake a))[i]? = some (st.wake a) := by
  rw [List.getElem?_map, List.getElem?_set_ne (Ne.symm hi), h]; rfl

omit T in
theorem SkelOp.length_le {K : CtlKind → Prop} {a : Nat} {k k' : Skel} (h : SkelOp K a k k') :
    k.states.length ≤ k'.states.length := by
  cases h
  case spawn hk => simp
  all_goals simp

omit T in
theorem SkelInv.step {K : CtlKind → Prop} {a : Nat} {k k' : Skel} (inv : SkelInv k)
    (ha : k.states[a]? = some .enabled) (h : SkelOp K a k k') : SkelInv k' := by
  have hal := getElem?_lt ha
  cases h with
  | none => exact inv
  | lockCreate hk =>
    refine ⟨fun i l h => ?_, inv.joinLive, fun l u h => ?_, inv.mainAlive, inv.spawned, inv.syncExists⟩
    · obtain ⟨u, hu⟩ := inv.lockHeld i l h
      exact ⟨u, by show (_ ++ _)[l]? = _; rw [List.getElem?_append_left (getElem?_lt hu)]; exact hu⟩
    · have h : (k.locks ++ [.unlocked])[l]? = some (.lockedBy u) := h
      rw [List.getElem?_append] at h
      split at h
      · exact inv.ownerExists l u h
      · rw [List.getElem?_singleton] at h; split at h <;> cases h
  | acquire l hk h1 =>
    refine ⟨fun i l' h => ?_, inv.joinLive, fun l' u h => ?_, inv.mainAlive, inv.spawned, inv.syncExists⟩
    · obtain ⟨u, hu⟩ := inv.lockHeld i l' h
      refine ⟨u, ?_⟩
      show (k.locks.set l _)[l']? = _
      rw [List.getElem?_set_ne]
      · exact hu
      · rintro rfl; rw [h1] at hu; cases hu
    · rcases set_some h with ⟨_, h⟩ | ⟨_, h⟩
      · cases h; exact hal
      · exact inv.ownerExists _ _ h
  | blockLock l u hk h1 =>
    refine ⟨fun i l' h => ?_, fun i j h => ?_, fun l' u' h => ?_, ?_, fun i h0 h => ?_, fun i h => ?_⟩
    · rcases set_some h with ⟨_, h⟩ | ⟨_, h⟩
      · cases h; exact ⟨u, h1⟩
      · exact inv.lockHeld _ _ h
    · rcases set_some h with ⟨_, h⟩ | ⟨_, h⟩
      · cases h
      · obtain ⟨st, h2, h3⟩ := inv.joinLive _ _ h
        by_cases hj : j = a
        · subst hj; exact ⟨_, List.getElem?_set_self hal, by simp⟩
        · exact ⟨st, by show (k.states.set a _)[j]? = _; rw [List.getElem?_set_ne (Ne.symm hj)]; exact h2, h3⟩
    · have := inv.ownerExists _ _ h
      simpa using this
    · obtain ⟨st, h2, h3⟩ := inv.mainAlive
      by_cases hj : 0 = a
      · subst hj; exact ⟨_, List.getElem?_set_self hal, by simp⟩
      · exact ⟨st, by show (k.states.set a _)[0]? = _; rw [List.getElem?_set_ne (Ne.symm hj)]; exact h2, h3⟩
    · exact inv.spawned i h0 (by simpa using h)
    · simpa using inv.syncExists i h
  | handover l u hk h1 h2 =>
    have hul := getElem?_lt h2
    have hll := getElem?_lt h1
    refine ⟨fun i l' h => ?_, fun i j h => ?_, fun l' u' h => ?_, ?_, fun i h0 h => ?_, fun i h => ?_⟩
    · rcases set_some h with ⟨_, h⟩ | ⟨_, h⟩
      · cases h
      · obtain ⟨u', hu'⟩ := inv.lockHeld _ _ h
        by_cases hl : l' = l
        · subst hl; exact ⟨u, List.getElem?_set_self hll⟩
        · exact ⟨u', by show (k.locks.set l _)[l']? = _; rw [List.getElem?_set_ne (Ne.symm hl)]; exact hu'⟩
    · rcases set_some h with ⟨_, h⟩ | ⟨_, h⟩
      · cases h
      · obtain ⟨st, h3, h4⟩ := inv.joinLive _ _ h
        by_cases hj : j = u
        · subst hj; exact ⟨_, List.getElem?_set_self hul, by simp⟩
        · exact ⟨st, by show (k.states.set u _)[j]? = _; rw [List.getElem?_set_ne (Ne.symm hj)]; exact h3, h4⟩
    · show u' < (k.states.set u _).length
      rw [List.length_set]
      rcases set_some h with ⟨_, h⟩ | ⟨_, h⟩
      · cases h; exact hul
      · exact inv.ownerExists _ _ h
    · obtain ⟨st, h3, h4⟩ := inv.mainAlive
      by_cases hj : 0 = u
      · subst hj; exact ⟨_, List.getElem?_set_self hul, by simp⟩
      · exact ⟨st, by show (k.states.set u _)[0]? = _; rw [List.getElem?_set_ne (Ne.symm hj)]; exact h3, h4⟩
    · exact mem_setInsert.2 (.inl (inv.spawned i h0 (by simpa using h)))
    · show i < (k.states.set u _).length
      rw [List.length_set]
      rcases mem_setInsert.1 h with h | rfl
      · exact inv.syncExists i h
      · exact hul
  | release l hk h1 h2 =>
    refine ⟨fun i l' h => ?_, inv.joinLive, fun l' u h => ?_, inv.mainAlive, inv.spawned, inv.syncExists⟩
    · obtain ⟨u, hu⟩ := inv.lockHeld i l' h
      refine ⟨u, ?_⟩
      show (k.locks.set l _)[l']? = _
      rw [List.getElem?_set_ne]
      · exact hu
      · rintro rfl; exact h2 (List.mem_of_getElem? h)
    · rcases set_some h with ⟨_, h⟩ | ⟨_, h⟩
      · cases h
      · exact inv.ownerExists _ _ h
  | blockJoin j st hk h1 h2 =>
    refine ⟨fun i l' h => ?_, fun i j' h => ?_, fun l' u' h => ?_, ?_, fun i h0 h => ?_, fun i h => ?_⟩
    · rcases set_some h with ⟨_, h⟩ | ⟨_, h⟩
      · cases h
      · exact inv.lockHeld _ _ h
    · have key : ∀ (j' : Nat) st', k.states[j']? = some st' → st' ≠ .terminated →
          ∃ st, (k.states.set a (.blockedOnJoin j))[j']? = some st ∧ st ≠ .terminated := by
        intro j' st' h3 h4
        by_cases hj : j' = a
        · subst hj; exact ⟨_, List.getElem?_set_self hal, by simp⟩
        · exact ⟨st', by rw [List.getElem?_set_ne (Ne.symm hj)]; exact h3, h4⟩
      rcases set_some h with ⟨_, h⟩ | ⟨_, h⟩
      · cases h; exact key _ _ h1 h2
      · obtain ⟨st, h2, h3⟩ := inv.joinLive _ _ h
        exact key _ _ h2 h3
    · have := inv.ownerExists _ _ h
      simpa using this
    · obtain ⟨st, h2, h3⟩ := inv.mainAlive
      by_cases hj : 0 = a
      · subst hj; exact ⟨_, List.getElem?_set_self hal, by simp⟩
      · exact ⟨st, by show (k.states.set a _)[0]? = _; rw [List.getElem?_set_ne (Ne.symm hj)]; exact h2, h3⟩
    · exact inv.spawned i h0 (by simpa using h)
    · simpa using inv.syncExists i h
  | terminate sync' hk h1 h2 =>
    refine ⟨fun i l' h => ?_, fun i j' h => ?_, fun l' u' h => ?_, ?_, fun i h0 h => ?_, fun i h => ?_⟩
    · rcases wake_map h with ⟨_, h⟩ | ⟨_, _, h⟩ | ⟨_, h, _⟩
      · cases h
      · cases h
      · exact inv.lockHeld _ _ h
    · rcases wake_map h with ⟨_, h⟩ | ⟨_, _, h⟩ | ⟨_, h, h3⟩
      · cases h
      · cases h
      · obtain ⟨st, h4, h5⟩ := inv.joinLive _ _ h
        have hj : j' ≠ a := by rintro rfl; exact h3 rfl
        refine ⟨_, wake_map_other hj h4, ?_⟩
        unfold ThreadState.wake; split
        · simp
        · exact h5
    · have := inv.ownerExists _ _ h
      simpa using this
    · obtain ⟨st, h4, h5⟩ := inv.mainAlive
      refine ⟨_, wake_map_other (Ne.symm h1) h4, ?_⟩
      unfold ThreadState.wake; split
      · simp
      · exact h5
    · exact (h2 i).2 (.inl (inv.spawned i h0 (by simpa using h)))
    · rw [List.length_map, List.length_set]
      rcases (h2 i).1 h with h | h
      · exact inv.syncExists i h
      · exact getElem?_lt h
  | spawn hk =>
    have key : ∀ (i : Nat) st, k.states[i]? = some st → (k.states ++ [.enabled])[i]? = some st := fun i st h => by
      rw [List.getElem?_append_left (getElem?_lt h)]; exact h
    have key' : ∀ (i : Nat) st, (k.states ++ [.enabled])[i]? = some st → k.states[i]? = some st ∨ st = .enabled := by
      intro i st h
      rw [List.getElem?_append] at h
      split at h
      · exact .inl h
      · rw [List.getElem?_singleton] at h; split at h
        · cases h; exact .inr rfl
        · cases h
    refine ⟨fun i l' h => ?_, fun i j h => ?_, fun l' u' h => ?_, ?_, fun i h0 h => ?_, fun i h => ?_⟩
    · rcases key' _ _ h with h | h
      · exact inv.lockHeld _ _ h
      · cases h
    · rcases key' _ _ h with h | h
      · obtain ⟨st, h2, h3⟩ := inv.joinLive _ _ h
        exact ⟨st, key _ _ h2, h3⟩
      · cases h
    · have := inv.ownerExists _ _ h
      show u' < (k.states ++ [ThreadState.enabled]).length
      rw [List.length_append]; omega
    · obtain ⟨st, h2, h3⟩ := inv.mainAlive
      exact ⟨st, key _ _ h2, h3⟩
    · have h : i < (k.states ++ [ThreadState.enabled]).length := h
      rw [List.length_append, List.length_singleton] at h
      refine mem_setInsert.2 ?_
      by_cases hi : i = k.states.length
      · exact .inr hi
      · exact .inl (inv.spawned i h0 (by omega))
    · show i < (k.states ++ [ThreadState.enabled]).length
      rw [List.length_append, List.length_singleton]
      rcases mem_setInsert.1 h with h | rfl
      · have := inv.syncExists i h; omega
      · omega

section
variable [SoftMem M P F]

/-- A property of machines that holds initially and is kept by steps holds in every reachable state. -/
theorem Reachable.induct {prog : Program} {I : Machine M P F → Prop}
    (h0 : ∀ oracle s, Machine.new prog oracle = .ok s → I s)
    (h1 : ∀ s s', I s → step s = .ok ((), s') → I s') (h : Reachable prog s) : I s := by
  obtain ⟨o, s0, hn, hs⟩ := h
  induction hs with
  | refl => exact h0 _ _ hn
  | tail _ hst ih => exact h1 _ _ ih hst

theorem Reachable.skelInv {prog : Program} (h : Reachable prog s) :
    SkelInv s.skel ∧ s.activeThread < s.skel.states.length := by
  refine h.induct (I := fun s => SkelInv s.skel ∧ s.activeThread < s.skel.states.length) ?_ ?_
  · intro o s hn
    obtain ⟨_, _, h1, h2, h3, f, h4⟩ := new_eq_ok hn
    unfold Machine.skel
    rw [h2, h3, h4, h1]
    refine ⟨⟨fun i l h => ?_, fun i j h => ?_, fun l u h => ?_, ⟨_, rfl, by simp⟩, fun i h0 h => ?_, fun i h => ?_⟩, by simp⟩
    · simp only [List.map_cons, List.map_nil, List.getElem?_singleton] at h; split at h <;> cases h
    · simp only [List.map_cons, List.map_nil, List.getElem?_singleton] at h; split at h <;> cases h
    · simp at h
    · simp at h; omega
    · cases h
  · intro s s' ih hst
    obtain ⟨_, _, h1, h2, _⟩ := step_skel hst
    refine ⟨ih.1.step h1 h2, ?_⟩
    exact lt_of_lt_of_le (getElem?_lt h1) h2.length_le

theorem Reachable.step {prog : Program} (h : Reachable prog s) (h' : step s = .ok ((), s')) :
    Reachable prog s' := by
  obtain ⟨o, s0, hn, hs⟩ := h
  exact ⟨o, s0, hn, .tail hs h'⟩

theorem Steps.trans {s t u : Machine M P F} (h1 : Steps s t) (h2 : Steps t u) : Steps s u := by
  induction h2 with
  | refl => exact h1
  | tail _ h ih => exact .tail ih h
end
end MiniRust
