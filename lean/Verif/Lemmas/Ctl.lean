import Verif.Lemmas.Quiet
import Verif.Spec.Threads
/-
The operations on locks and threads, and what a whole step can change.
-/
set_option linter.unusedSectionVars false
namespace MiniRust
variable {M P F : Type} [Memory M P F] [DecidableEq P] [T : Target] {s s' : Machine M P F}

/-- The thread with another state. -/
def Thread.withState (t : Thread P F) (st : ThreadState) : Thread P F := { t with state := st }

/-- The kinds of operations on locks and threads. -/
inductive CtlKind
  | lockCreate | lockAcquire | lockRelease | spawn | join | terminate

/-- The operations on locks and threads of kind `K`, as relations between machines. -/
inductive CtlOp (K : CtlKind → Prop) (s : Machine M P F) : Machine M P F → Prop
  | none : CtlOp K s s
  | lockCreate : K .lockCreate → CtlOp K s { s with locks := s.locks ++ [.unlocked] }
  | acquire (l : Nat) : K .lockAcquire → s.locks[l]? = some .unlocked →
      CtlOp K s { s with locks := s.locks.set l (.lockedBy s.activeThread) }
  | blockLock (l u : Nat) (t : Thread P F) : K .lockAcquire → s.locks[l]? = some (.lockedBy u) →
      s.threads[s.activeThread]? = some t →
      CtlOp K s { s with threads := s.threads.set s.activeThread (t.withState (.blockedOnLock l)) }
  | handover (l u : Nat) (t : Thread P F) : K .lockRelease → s.locks[l]? = some (.lockedBy s.activeThread) →
      s.threads[u]? = some t → t.state = .blockedOnLock l →
      CtlOp K s { s with
        threads := s.threads.set u (t.withState .enabled)
        synchronizedThreads := setInsert s.synchronizedThreads u
        locks := s.locks.set l (.lockedBy u) }
  | release (l : Nat) : K .lockRelease → s.locks[l]? = some (.lockedBy s.activeThread) →
      (∀ t ∈ s.threads, t.state ≠ .blockedOnLock l) →
      CtlOp K s { s with locks := s.locks.set l .unlocked }
  | blockJoin (j : Nat) (tj t : Thread P F) : K .join → s.threads[j]? = some tj → tj.state ≠ .terminated →
      s.threads[s.activeThread]? = some t →
      CtlOp K s { s with threads := s.threads.set s.activeThread (t.withState (.blockedOnJoin j)) }
  | terminate (t : Thread P F) : K .terminate → s.activeThread ≠ 0 → s.threads[s.activeThread]? = some t →
      t.stack = [] →
      CtlOp K s { s with
        threads := (s.threads.set s.activeThread (t.withState .terminated)).map (Thread.wakeJoin s.activeThread)
        synchronizedThreads := syncJoined s.activeThread
          (s.threads.set s.activeThread (t.withState .terminated)) 0 s.synchronizedThreads }
  | spawn (f : StackFrame P F) : K .spawn →
      CtlOp K s { s with
        threads := s.threads ++ [{ state := .enabled, stack := [f], unwindPayloads := [] }]
        synchronizedThreads := setInsert s.synchronizedThreads s.threads.length }

/-- The effect of executing one statement or terminator. -/
def CtlRel (Rm : ConcMem M → ConcMem M → Prop) (K : CtlKind → Prop) (s s' : Machine M P F) : Prop :=
  ∃ s1 s2, Quiet Rm s s1 ∧ CtlOp K s1 s2 ∧ Quiet Rm s2 s'

theorem CtlOp.mono {K K' : CtlKind → Prop} (h : ∀ k, K k → K' k) (hs : CtlOp K s s') : CtlOp K' s s' := by
  cases hs with
  | none => exact .none
  | lockCreate hk => exact .lockCreate (h _ hk)
  | acquire l hk h1 => exact .acquire l (h _ hk) h1
  | blockLock l u t hk h1 h2 => exact .blockLock l u t (h _ hk) h1 h2
  | handover l u t hk h1 h2 h3 => exact .handover l u t (h _ hk) h1 h2 h3
  | release l hk h1 h2 => exact .release l (h _ hk) h1 h2
  | blockJoin j tj t hk h1 h2 h3 => exact .blockJoin j tj t (h _ hk) h1 h2 h3
  | terminate t hk h1 h2 h3 => exact .terminate t (h _ hk) h1 h2 h3
  | spawn f hk => exact .spawn f (h _ hk)

theorem Tri.bindC {α β : Type} {E : Err → Prop} {R1 R2 R3 : Machine M P F → Machine M P F → Prop}
    {x : EM M P F α} {f : α → EM M P F β} (hx : Tri E R1 x) (hf : ∀ a, Tri E R2 (f a))
    (h : ∀ s s' s'', R1 s s' → R2 s' s'' → R3 s s'') : Tri E R3 (x >>= f) where
  ok s b s' hs := by
    rw [EM.bind_eq_ok] at hs
    obtain ⟨a, s1, h1, h2⟩ := hs
    exact h _ _ _ (hx.ok _ _ _ h1) ((hf _).ok _ _ _ h2)
  err s e h := by
    rw [EM.bind_eq_error] at h
    rcases h with h | ⟨a, s1, _, h⟩
    · exact hx.err _ _ h
    · exact (hf _).err _ _ h

theorem getInt?_eq_some {α : Type} {l : List α} {i : Int} {a : α} :
    getInt? l i = some a ↔ 0 ≤ i ∧ l[i.toNat]? = some a := by
  unfold getInt?
  split
  · rename_i h; simp; omega
  · rename_i h; simp; omega

section
variable [hm : SoftMem M P F] {Rm : ConcMem M → ConcMem M → Prop} [hR : MemRel (P := P) (F := F) Rm]
  {K : CtlKind → Prop}

theorem Quiet.ctl (h : Quiet Rm s s') : CtlRel Rm K s s' := ⟨s', s', h, .none, PreRel.refl _⟩
theorem CtlOp.ctl (h : CtlOp K s s') : CtlRel Rm K s s' := ⟨s, s', PreRel.refl _, h, PreRel.refl _⟩
theorem Quiet.ctlRel {s s' s'' : Machine M P F} (h : Quiet Rm s s') (h' : CtlRel Rm K s' s'') :
    CtlRel Rm K s s'' := by
  obtain ⟨s1, s2, h1, h2, h3⟩ := h'
  exact ⟨s1, s2, PreRel.trans _ _ _ h h1, h2, h3⟩
theorem CtlRel.quiet {s s' s'' : Machine M P F} (h : CtlRel Rm K s s') (h' : Quiet Rm s' s'') :
    CtlRel Rm K s s'' := by
  obtain ⟨s1, s2, h1, h2, h3⟩ := h
  exact ⟨s1, s2, h1, h2, PreRel.trans _ _ _ h3 h'⟩

theorem Tri.toCtl {α : Type} {x : EM M P F α} (h : Tri Soft (Quiet Rm) x) : Tri Soft (CtlRel Rm K) x :=
  h.mono (fun _ h => h) fun _ _ h => h.ctl
theorem Tri.qc {α β : Type} {E : Err → Prop} {x : EM M P F α} {f : α → EM M P F β} (hx : Tri E (Quiet Rm) x)
    (hf : ∀ a, Tri E (CtlRel Rm K) (f a)) : Tri E (CtlRel Rm K) (x >>= f) :=
  .bindC hx hf fun _ _ _ h h' => h.ctlRel h'
theorem Tri.cq {α β : Type} {E : Err → Prop} {x : EM M P F α} {f : α → EM M P F β} (hx : Tri E (CtlRel Rm K) x)
    (hf : ∀ a, Tri E (Quiet Rm) (f a)) : Tri E (CtlRel Rm K) (x >>= f) :=
  .bindC hx hf fun _ _ _ h h' => h.quiet h'

theorem setThreadState_eq_ok {i : Nat} {st : ThreadState} {u : Unit} :
    setThreadState i st s = .ok (u, s') ↔ ∃ t, s.threads[i]? = some t ∧
      s' = { s with threads := s.threads.set i (t.withState st) } := by
  unfold setThreadState
  simp only [Res.bind_eq_ok, index_eq_ok, Except.ok.injEq, Prod.mk.injEq]
  constructor
  · rintro ⟨t, h, _, rfl⟩; exact ⟨t, h, rfl⟩
  · rintro ⟨t, h, rfl⟩; exact ⟨t, h, trivial, rfl⟩

theorem soft_setThreadState {i : Nat} {st : ThreadState} : ResE Soft (setThreadState i st s) := by
  unfold setThreadState; soft

theorem lockAcquire_eq_ok {l : Int} {u : Unit} :
    lockAcquire l s = .ok (u, s') ↔ 0 ≤ l ∧
      ((s.locks[l.toNat]? = some .unlocked ∧
        s' = { s with locks := s.locks.set l.toNat (.lockedBy s.activeThread) }) ∨
      (∃ o t, s.locks[l.toNat]? = some (.lockedBy o) ∧ s.threads[s.activeThread]? = some t ∧
        s' = { s with threads := s.threads.set s.activeThread (t.withState (.blockedOnLock l.toNat)) })) := by
  unfold lockAcquire
  cases h : getInt? s.locks l with
  | none =>
    simp only [reduceCtorEq, false_iff, not_and, not_or, not_exists]
    intro h0
    have : s.locks[l.toNat]? = none := by
      rw [← Option.not_isSome_iff_eq_none, Option.isSome_iff_exists]
      rintro ⟨x, hx⟩
      rw [(getInt?_eq_some).2 ⟨h0, hx⟩] at h; cases h
    rw [this]; simp
  | some st =>
    obtain ⟨h0, h⟩ := getInt?_eq_some.1 h
    cases st with
    | unlocked => simp [h, h0, eq_comm]
    | lockedBy o => simp [h, h0, setThreadState_eq_ok]

theorem tri_lockAcquire (hk : K .lockAcquire) {l : Int} : Tri Soft (CtlRel Rm K) (lockAcquire l : EM M P F _) where
  ok s u s' h := by
    rw [lockAcquire_eq_ok] at h
    rcases h with ⟨h0, ⟨h1, rfl⟩ | ⟨o, t, h1, h2, rfl⟩⟩
    · exact (CtlOp.acquire _ hk h1).ctl
    · exact (CtlOp.blockLock _ _ _ hk h1 h2).ctl
  err s e h := by
    unfold lockAcquire at h
    split at h
    · cases h; exact .ub
    · cases h
    · exact soft_setThreadState.err _ h

theorem lockRelease_eq_ok {l : Int} {u : Unit} :
    lockRelease l s = .ok (u, s') ↔ 0 ≤ l ∧ s.locks[l.toNat]? = some (.lockedBy s.activeThread) ∧
      (((∀ t ∈ s.threads, t.state ≠ .blockedOnLock l.toNat) ∧
        s' = { s with locks := s.locks.set l.toNat .unlocked }) ∨
      (∃ a t rest, s.oracle = .int a :: rest ∧ 0 ≤ a ∧ s.threads[a.toNat]? = some t ∧
        t.state = .blockedOnLock l.toNat ∧
        s' = { s with
          oracle := rest
          threads := s.threads.set a.toNat (t.withState .enabled)
          synchronizedThreads := setInsert s.synchronizedThreads a.toNat
          locks := s.locks.set l.toNat (.lockedBy a.toNat) })) := by
  unfold lockRelease
  refine EM.bind_eq_ok.trans ?_
  simp only [Except.ok.injEq, Prod.mk.injEq]
  constructor
  · rintro ⟨_, _, ⟨rfl, rfl⟩, h⟩
    cases hl : getInt? s.locks l with
    | none => rw [hl] at h; cases h
    | some st =>
      rw [hl] at h
      obtain ⟨h0, hl⟩ := getInt?_eq_some.1 hl
      cases st with
      | unlocked => cases h
      | lockedBy o =>
        simp only at h
        split at h
        · cases h
        · rename_i ho
          have ho : o = s.activeThread := by simpa using ho
          subst ho
          refine ⟨h0, hl, ?_⟩
          split at h
          · rename_i hany
            refine .inr ?_
            simp only [EM.bind_eq_ok, EM.popInt_eq_ok] at h
            obtain ⟨a, s1, ⟨rest, ho, rfl⟩, h⟩ := h
            cases ht : getInt? s.threads a with
            | none => rw [ht] at h; cases h
            | some t =>
              rw [ht] at h
              obtain ⟨ha, ht⟩ := getInt?_eq_some.1 ht
              simp only at h
              split at h
              · cases h
              · rename_i hst
                simp only [EM.bind_eq_ok, setThreadState_eq_ok, EM.modify_eq_ok] at h
                obtain ⟨_, _, ⟨t', ht', rfl⟩, rfl⟩ := h
                rw [ht] at ht'; cases ht'
                exact ⟨a, t, rest, ho, ha, ht, by simpa using hst, rfl⟩
          · rename_i hany
            rw [EM.modify_eq_ok] at h
            refine .inl ⟨?_, h⟩
            intro t ht
            have := hany
            simp only [List.any_eq_true, decide_eq_true_eq, not_exists, not_and] at this
            exact this t ht
  · rintro ⟨h0, hl, h⟩
    refine ⟨_, _, ⟨rfl, rfl⟩, ?_⟩
    rw [getInt?_eq_some.2 ⟨h0, hl⟩]
    simp only [ne_eq, not_true_eq_false, if_false]
    rcases h with ⟨h1, rfl⟩ | ⟨a, t, rest, h1, h2, h3, h4, rfl⟩
    · rw [if_neg, EM.modify_eq_ok]
      simp only [List.any_eq_true, decide_eq_true_eq, not_exists, not_and]
      exact h1
    · rw [if_pos]
      · simp only [EM.bind_eq_ok, EM.popInt_eq_ok]
        refine ⟨a, _, ⟨rest, h1, rfl⟩, ?_⟩
        rw [getInt?_eq_some.2 ⟨h2, h3⟩]
        simp only [h4, not_true_eq_false, if_false, EM.bind_eq_ok, setThreadState_eq_ok, EM.modify_eq_ok]
        exact ⟨(), _, ⟨t, h3, rfl⟩, rfl⟩
      · simp only [List.any_eq_true, decide_eq_true_eq]
        exact ⟨t, List.mem_of_getElem? h3, h4⟩

theorem Quiet.ofOracle {o : List (Choice P)} : Quiet Rm s { s with oracle := o } :=
  ⟨hR.refl _, rfl, rfl, rfl, rfl, rfl, rfl, rfl, .inl rfl, List.prefix_refl _, List.prefix_refl _,
    fun _ h => h⟩

theorem tri_lockRelease (hk : K .lockRelease) {l : Int} : Tri Soft (CtlRel Rm K) (lockRelease l : EM M P F _) where
  ok s u s' h := by
    rw [lockRelease_eq_ok] at h
    rcases h with ⟨h0, hl, ⟨h1, rfl⟩ | ⟨a, t, rest, h1, h2, h3, h4, rfl⟩⟩
    · exact (CtlOp.release _ hk hl h1).ctl
    · refine ⟨{ s with oracle := rest }, _, .ofOracle, ?_, PreRel.refl _⟩
      exact CtlOp.handover (s := { s with oracle := rest }) l.toNat a.toNat t hk hl h3 h4
  err s e h := by
    unfold lockRelease at h
    rcases EM.bind_eq_error.1 h with h | ⟨_, _, h0, h⟩
    · cases h
    cases h0
    cases hl : getInt? s.locks l with
    | none => rw [hl] at h; cases h; exact .ub
    | some st =>
      rw [hl] at h
      cases st with
      | unlocked => cases h; exact .ub
      | lockedBy o =>
      simp only at h
      split at h
      · cases h; exact .ub
      · split at h
        · rw [EM.bind_eq_error] at h
          rcases h with h | ⟨a, s1, _, h⟩
          · exact (tri_popInt (Rm := Rm)).err _ _ h
          · cases ht : getInt? s.threads a with
            | none => rw [ht] at h; cases h; exact .noBehavior
            | some t =>
              rw [ht] at h
              simp only at h
              split at h
              · cases h; exact .noBehavior
              · simp only [EM.bind_eq_error, EM.modify_ne_error, and_false, exists_false, or_false] at h
                exact soft_setThreadState.err _ h
        · simp at h

theorem tri_lockCreate (hk : K .lockCreate) : Tri Soft (CtlRel Rm K) (lockCreate : EM M P F _) where
  ok s u s' h := by
    unfold lockCreate at h
    cases h
    exact (CtlOp.lockCreate hk).ctl
  err s e h := by cases h

theorem join_eq_ok {j : Int} {u : Unit} :
    join j s = .ok (u, s') ↔ 0 ≤ j ∧ ∃ tj, s.threads[j.toNat]? = some tj ∧
      ((tj.state = .terminated ∧ s' = s) ∨ (tj.state ≠ .terminated ∧ ∃ t,
        s.threads[s.activeThread]? = some t ∧
        s' = { s with threads := s.threads.set s.activeThread (t.withState (.blockedOnJoin j.toNat)) })) := by
  unfold join
  cases h : getInt? s.threads j with
  | none =>
    simp only [reduceCtorEq, false_iff, not_and, not_exists]
    intro h0 tj htj
    rw [(getInt?_eq_some).2 ⟨h0, htj⟩] at h; cases h
  | some tj =>
    obtain ⟨h0, h⟩ := getInt?_eq_some.1 h
    simp only [h, h0, true_and, Option.some.injEq, exists_eq_left']
    cases hs : tj.state <;> simp [setThreadState_eq_ok]
    exact eq_comm

theorem tri_join (hk : K .join) {j : Int} : Tri Soft (CtlRel Rm K) (join j : EM M P F _) where
  ok s u s' h := by
    rw [join_eq_ok] at h
    rcases h with ⟨h0, tj, h1, ⟨h2, rfl⟩ | ⟨h2, t, h3, rfl⟩⟩
    · exact CtlOp.none.ctl
    · exact (CtlOp.blockJoin _ _ _ hk h1 h2 h3).ctl
  err s e h := by
    unfold join at h
    split at h
    · cases h; exact .ub
    · split at h
      · cases h
      · exact soft_setThreadState.err _ h

theorem terminateActiveThread_eq_ok {u : Unit} :
    terminateActiveThread s = .ok (u, s') ↔ s.activeThread ≠ 0 ∧ ∃ t, s.threads[s.activeThread]? = some t ∧
      t.stack = [] ∧ s' = { s with
        threads := (s.threads.set s.activeThread (t.withState .terminated)).map (Thread.wakeJoin s.activeThread)
        synchronizedThreads := syncJoined s.activeThread
          (s.threads.set s.activeThread (t.withState .terminated)) 0 s.synchronizedThreads } := by
  unfold terminateActiveThread
  split
  · rename_i h; simp [h]
  · rename_i h
    simp only [Res.bind_eq_ok, getActive_eq_ok, rassert_eq_ok, List.isEmpty_iff, Except.ok.injEq,
      Prod.mk.injEq]
    constructor
    · rintro ⟨t, h1, _, h2, _, rfl⟩; exact ⟨h, t, h1, h2, rfl⟩
    · rintro ⟨_, t, h1, h2, rfl⟩; exact ⟨t, h1, (), h2, trivial, rfl⟩

theorem tri_terminateActiveThread (hk : K .terminate) : Tri Soft (CtlRel Rm K) (terminateActiveThread : EM M P F _) where
  ok s u s' h := by
    rw [terminateActiveThread_eq_ok] at h
    obtain ⟨h0, t, h1, h2, rfl⟩ := h
    exact (CtlOp.terminate _ hk h0 h1 h2).ctl
  err s e h := by
    revert h
    refine ResE.err (?_ : ResE Soft _) e
    unfold terminateActiveThread; soft

theorem newThread_eq_ok {f} {as : List (Value P × Ty)} {n : Nat} :
    newThread f as s = .ok (n, s') ↔ ∃ fr s1, createFrame f .bottomOfStack .c unitTy as s = .ok (fr, s1) ∧
      n = s1.threads.length ∧
      s' = { s1 with threads := s1.threads ++ [{ state := .enabled, stack := [fr], unwindPayloads := [] }] } := by
  unfold newThread
  refine EM.bind_eq_ok.trans ?_
  constructor
  · rintro ⟨fr, s1, h1, h2⟩; cases h2; exact ⟨fr, s1, h1, rfl, rfl⟩
  · rintro ⟨fr, s1, h1, rfl, rfl⟩; exact ⟨fr, s1, h1, rfl⟩

theorem soft_newThread {f} {as : List (Value P × Ty)} {e} (h : newThread f as s = .error e) : Soft e := by
  unfold newThread at h
  rcases EM.bind_eq_error.1 h with h | ⟨_, _, _, h⟩
  · exact (tri_createFrame (Rm := AnyMem)).err _ _ h
  · cases h

theorem tri_spawn (hk : K .spawn) {f} {d : Value P × Ty} : Tri Soft (CtlRel Rm K) (spawn f d : EM M P F _) := by
  constructor
  · intro s u s' h
    unfold spawn at h
    simp only [EM.bind_eq_ok, EM.modify_eq_ok, EM.pure_eq_ok, newThread_eq_ok] at h
    obtain ⟨_, _, ⟨fr, s1, h1, rfl, rfl⟩, _, _, rfl, rfl, rfl⟩ := h
    exact ⟨s1, _, tri_createFrame.ok _ _ _ h1, CtlOp.spawn fr hk, PreRel.refl _⟩
  · intro s e h
    unfold spawn at h
    simp only [EM.bind_eq_error, EM.modify_ne_error, EM.pure_apply, reduceCtorEq, and_false, exists_false,
      or_false] at h
    exact soft_newThread h

/-! ### Intrinsics -/

theorem soft_intArg {a : Value P × Ty} : ResE Soft (intArg a) := by unfold intArg; soft
macro_rules | `(tactic| soft_step) => `(tactic| apply soft_intArg)
theorem soft_boolArg {a : Value P × Ty} : ResE Soft (boolArg a) := by unfold boolArg; soft
macro_rules | `(tactic| soft_step) => `(tactic| apply soft_boolArg)
theorem soft_thinPtrArg {a : Value P × Ty} : ResE Soft (thinPtrArg a) := by unfold thinPtrArg; soft
macro_rules | `(tactic| soft_step) => `(tactic| apply soft_thinPtrArg)
theorem soft_sizeArg {i} : ResE Soft (sizeArg i) := by unfold sizeArg; soft
macro_rules | `(tactic| soft_step) => `(tactic| apply soft_sizeArg)
theorem soft_alignArg {i} : ResE Soft (alignArg i) := by unfold alignArg; soft
macro_rules | `(tactic| soft_step) => `(tactic| apply soft_alignArg)
theorem tri_requireUb {b} : Tri Soft (Quiet Rm) (requireUb b : EM M P F _) := by unfold requireUb; tri
macro_rules | `(tactic| tri_step) => `(tactic| apply tri_requireUb)
theorem soft_evalPrint {as : List (Value P × Ty)} : ResE Soft (evalPrint as) := by
  induction as with
  | nil => unfold evalPrint; soft
  | cons a as ih => obtain ⟨v, ty⟩ := a; cases v <;> unfold evalPrint <;> soft
macro_rules | `(tactic| soft_step) => `(tactic| apply soft_evalPrint)
theorem soft_bytesDataUb {b : List (AByte P)} : ResE Soft (bytesDataUb b) := by
  unfold bytesDataUb; soft
  rename_i h
  constructor
  intro e he
  rcases softN_bytesData.err _ he with rfl | h'
  · exact (h he).elim
  · exact h'
macro_rules | `(tactic| soft_step) => `(tactic| apply soft_bytesDataUb)
theorem tri_loadRawData {p : Pointer P} {t} : Tri Soft (Quiet Rm) (loadRawData p t : EM M P F _) := by
  unfold loadRawData; tri
macro_rules | `(tactic| tri_step) => `(tactic| apply tri_loadRawData)
theorem soft_int2ptr {c : IntPtrCast P} {a p} : ResE Soft (c.int2ptr a p) := by
  unfold IntPtrCast.int2ptr; soft
macro_rules | `(tactic| soft_step) => `(tactic| apply soft_int2ptr)
theorem soft_fetchOpResult {op ity} {a b : Value P} : ResE Soft (fetchOpResult op ity a b) := by
  unfold fetchOpResult; soft
macro_rules | `(tactic| soft_step) => `(tactic| apply soft_fetchOpResult)

theorem Quiet.ofExpose {p : ThinPtr P} : Quiet Rm s { s with intptrcast := s.intptrcast.expose p } := by
  refine ⟨hR.refl _, rfl, rfl, rfl, rfl, rfl, rfl, rfl, .inl rfl, List.prefix_refl _, List.prefix_refl _, ?_⟩
  intro q hq
  show q ∈ (s.intptrcast.expose p).exposed
  unfold IntPtrCast.expose
  split
  · simp only [setInsert]; split
    · exact hq
    · exact List.mem_append_left _ hq
  · exact hq

theorem tri_intrinsicExpose {as t} : Tri Soft (Quiet Rm) (intrinsicExpose as t : EM M P F _) := by
  unfold intrinsicExpose; tri
  exact .modify fun s => .ofExpose
theorem tri_intrinsicWithExposed {as t} : Tri Soft (Quiet Rm) (intrinsicWithExposed as t : EM M P F _) := by
  unfold intrinsicWithExposed; tri
theorem tri_intrinsicAssume {as t} : Tri Soft (Quiet Rm) (intrinsicAssume as t : EM M P F _) := by
  unfold intrinsicAssume; tri
theorem tri_intrinsicPrintStdout {as t} : Tri Soft (Quiet Rm) (intrinsicPrintStdout as t : EM M P F _) := by
  unfold intrinsicPrintStdout; tri
  exact .modify fun s => ⟨hR.refl _, rfl, rfl, rfl, rfl, rfl, rfl, rfl, .inl rfl, List.prefix_append _ _,
    List.prefix_refl _, fun _ h => h⟩
theorem tri_intrinsicPrintStderr {as t} : Tri Soft (Quiet Rm) (intrinsicPrintStderr as t : EM M P F _) := by
  unfold intrinsicPrintStderr; tri
  exact .modify fun s => ⟨hR.refl _, rfl, rfl, rfl, rfl, rfl, rfl, rfl, .inl rfl, List.prefix_refl _,
    List.prefix_append _ _, fun _ h => h⟩
theorem tri_intrinsicAllocate {Rm : ConcMem M → ConcMem M → Prop} [hR : AllocRel (P := P) (F := F) Rm] {as t} : Tri Soft (Quiet Rm) (intrinsicAllocate as t : EM M P F _) := by
  unfold intrinsicAllocate; tri
theorem tri_intrinsicDeallocate {Rm : ConcMem M → ConcMem M → Prop} [hR : FreeRel (P := P) (F := F) Rm] {as t} : Tri Soft (Quiet Rm) (intrinsicDeallocate as t : EM M P F _) := by
  unfold intrinsicDeallocate; tri
theorem tri_intrinsicRawEq {as t} : Tri Soft (Quiet Rm) (intrinsicRawEq as t : EM M P F _) := by
  unfold intrinsicRawEq; tri
theorem tri_intrinsicAtomicStore {as t} : Tri Soft (Quiet Rm) (intrinsicAtomicStore as t : EM M P F _) := by
  unfold intrinsicAtomicStore; tri
theorem tri_intrinsicAtomicLoad {as t} : Tri Soft (Quiet Rm) (intrinsicAtomicLoad as t : EM M P F _) := by
  unfold intrinsicAtomicLoad; tri
theorem tri_storeIf {b p v ty al} : Tri Soft (Quiet Rm) (storeIf b p v ty al : EM M P F _) := by
  unfold storeIf; tri
macro_rules | `(tactic| tri_step) => `(tactic| apply tri_storeIf)
theorem tri_intrinsicCompareExchange {as t} :
    Tri Soft (Quiet Rm) (intrinsicCompareExchange as t : EM M P F _) := by
  unfold intrinsicCompareExchange; tri
theorem tri_intrinsicFetchAndOp {op as t} : Tri Soft (Quiet Rm) (intrinsicFetchAndOp op as t : EM M P F _) := by
  unfold intrinsicFetchAndOp; tri
theorem tri_intrinsicGetUnwindPayload {as t} :
    Tri Soft (Quiet Rm) (intrinsicGetUnwindPayload as t : EM M P F _) := by
  unfold intrinsicGetUnwindPayload; tri

theorem tri_intrinsicSpawn (hk : K .spawn) {as t} : Tri Soft (CtlRel Rm K) (intrinsicSpawn as t : EM M P F _) := by
  unfold intrinsicSpawn
  split
  · exact .qc (.read fun _ => soft_fnFromPtr) fun _ => .qc tri_requireUb fun _ => .qc tri_requireUb fun _ =>
      .cq (tri_spawn hk) fun _ => .pure
  · exact (Tri.throw .ub)
theorem tri_intrinsicJoin (hk : K .join) {as t} : Tri Soft (CtlRel Rm K) (intrinsicJoin as t : EM M P F _) := by
  unfold intrinsicJoin
  split
  · exact .qc (.lift soft_intArg) fun _ => .qc tri_requireUb fun _ => .cq (tri_join hk) fun _ => .pure
  · exact (Tri.throw .ub)

/-- The operations on locks and threads an intrinsic can perform. -/
def IntrinsicOp.kinds : IntrinsicOp → CtlKind → Prop
  | .lock .create, k => k = .lockCreate
  | .lock .acquire, k => k = .lockAcquire
  | .lock .release, k => k = .lockRelease
  | .spawn, k => k = .spawn
  | .join, k => k = .join
  | _, _ => False

/-- The operations on locks and threads a terminator can perform. -/
def Terminator.kinds : Terminator → CtlKind → Prop
  | .intrinsic op _ _ _, k => op.kinds k
  | .return, k => k = .terminate
  | _, _ => False

theorem tri_intrinsicLock {op as t} :
    Tri Soft (CtlRel Rm (IntrinsicOp.lock op).kinds) (intrinsicLock op as t : EM M P F _) := by
  unfold intrinsicLock
  split
  · exact .qc tri_requireUb fun _ => .qc tri_requireUb fun _ =>
      .cq (tri_lockCreate (K := IntrinsicOp.kinds (.lock .create)) rfl) fun _ => .pure
  · split
    · exact .qc (.lift soft_intArg) fun _ => .qc tri_requireUb fun _ =>
        .cq (tri_lockAcquire (K := IntrinsicOp.kinds (.lock .acquire)) rfl) fun _ => .pure
    · exact (Tri.throw .ub)
  · split
    · exact .qc (.lift soft_intArg) fun _ => .qc tri_requireUb fun _ =>
        .cq (tri_lockRelease (K := IntrinsicOp.kinds (.lock .release)) rfl) fun _ => .pure
    · exact (Tri.throw .ub)

/-- All intrinsics but `Abort` and `Exit`. -/
theorem tri_evalIntrinsic {op} (h1 : op ≠ .abort) (h2 : op ≠ .exit) 
    (h3 : op = .allocate → AllocRel (P := P) (F := F) Rm) (h4 : op = .deallocate → FreeRel (P := P) (F := F) Rm) {as t} :
    Tri Soft (CtlRel Rm op.kinds) (evalIntrinsic op as t : EM M P F _) := by
  unfold evalIntrinsic
  cases op with
  | abort => exact (h1 rfl).elim
  | exit => exact (h2 rfl).elim
  | assume => exact tri_intrinsicAssume.toCtl
  | printStdout => exact tri_intrinsicPrintStdout.toCtl
  | printStderr => exact tri_intrinsicPrintStderr.toCtl
  | allocate => have := h3 rfl; exact tri_intrinsicAllocate.toCtl
  | deallocate => have := h4 rfl; exact tri_intrinsicDeallocate.toCtl
  | spawn => exact tri_intrinsicSpawn (K := IntrinsicOp.kinds .spawn) rfl
  | join => exact tri_intrinsicJoin (K := IntrinsicOp.kinds .join) rfl
  | rawEq => exact tri_intrinsicRawEq.toCtl
  | atomicStore => exact tri_intrinsicAtomicStore.toCtl
  | atomicLoad => exact tri_intrinsicAtomicLoad.toCtl
  | atomicCompareExchange => exact tri_intrinsicCompareExchange.toCtl
  | atomicFetchAndOp op => exact tri_intrinsicFetchAndOp.toCtl
  | lock op => exact tri_intrinsicLock
  | pointerExposeProvenance => exact tri_intrinsicExpose.toCtl
  | pointerWithExposedProvenance => exact tri_intrinsicWithExposed.toCtl
  | getUnwindPayload => exact tri_intrinsicGetUnwindPayload.toCtl

/-! ### Terminators and steps -/

theorem tri_returnAction (hk : K .terminate) {fr : StackFrame P F} {ty al v} :
    Tri Soft (CtlRel Rm K) (returnAction fr ty al v : EM M P F _) := by
  unfold returnAction
  split
  · exact tri_terminateActiveThread hk
  · apply Tri.toCtl; tri
theorem tri_evalReturn (hk : K .terminate) : Tri Soft (CtlRel Rm K) (evalReturn : EM M P F _) := by
  unfold evalReturn
  exact .qc tri_popFrame fun _ => .qc (.lift (.mapGet .panic)) fun _ => .qc (.lift soft_alignOf) fun _ =>
    .qc (.lift (.mapGet .panic)) fun _ => .qc tri_typedLoad.quiet fun _ => .qc tri_storageDeadAll fun _ =>
    .qc tri_memEndCall fun _ => tri_returnAction hk

/-- The terminators that end the execution on purpose. -/
def Terminator.Stops : Terminator → Prop
  | .intrinsic .abort _ _ _ => True
  | .intrinsic .exit _ _ _ => True
  | _ => False

/-- The terminators that allocate heap memory. -/
def Terminator.Allocates : Terminator → Prop
  | .intrinsic .allocate _ _ _ => True
  | _ => False

/-- The terminators that free heap memory. -/
def Terminator.Frees : Terminator → Prop
  | .intrinsic .deallocate _ _ _ => True
  | _ => False

theorem tri_evalTerminator {t : Terminator} (h : ¬ t.Stops) (ha : t.Allocates → AllocRel (P := P) (F := F) Rm)
    (hf : t.Frees → FreeRel (P := P) (F := F) Rm) :
    Tri Soft (CtlRel Rm t.kinds) (evalTerminator t : EM M P F _) := by
  cases t with
  | intrinsic op as r n =>
    have h1 : op ≠ .abort := by rintro rfl; exact h trivial
    have h2 : op ≠ .exit := by rintro rfl; exact h trivial
    unfold evalTerminator
    exact .qc (tri_evalPlace _).quiet fun _ => .qc (tri_evalValues _).quiet fun _ =>
      .cq (tri_evalIntrinsic h1 h2 (by rintro rfl; exact ha trivial)
        (by rintro rfl; exact hf trivial)) fun _ => .bind tri_placeStore fun _ => tri_jumpOrUb
  | «return» => unfold evalTerminator; exact tri_evalReturn (K := Terminator.kinds .return) rfl
  | _ => unfold evalTerminator; apply Tri.toCtl; tri

/-- The terminator executed by the next step of the active thread, if it is at a terminator. -/
def Machine.nextTerminator (s : Machine M P F) : Option Terminator :=
  match s.curFrame with
  | .ok f =>
    match f.func.blocks.get? f.nextBlock with
    | some b => if f.nextStmt = b.statements.length then some b.terminator else none
    | none => none
  | .error _ => none

/-- The operations on locks and threads the next step of the active thread can perform. -/
def Machine.nextKinds (s : Machine M P F) (k : CtlKind) : Prop :=
  ∃ t, s.nextTerminator = some t ∧ t.kinds k

theorem execStep_of_not_stops (h : ∀ t, s.nextTerminator = some t → ¬ t.Stops)
    (ha : ∀ t, s.nextTerminator = some t → t.Allocates → AllocRel (P := P) (F := F) Rm)
    (hf : ∀ t, s.nextTerminator = some t → t.Frees → FreeRel (P := P) (F := F) Rm) :
    (∀ u s', execStep s = .ok (u, s') → CtlRel Rm s.nextKinds s s') ∧ (∀ e, execStep s = .error e → Soft e) := by
  have key : ∀ fr b, s.curFrame = .ok fr → fr.func.blocks.get fr.nextBlock = .ok b →
      Tri Soft (CtlRel Rm s.nextKinds) (if fr.nextStmt = b.statements.length then
          (evalTerminator b.terminator : EM M P F _)
        else do
          let stmt ← EM.lift (index b.statements fr.nextStmt)
          evalStatement stmt
          bumpStmt) := by
    intro fr b h1 h2
    split
    · rename_i h3
      have ht : s.nextTerminator = some b.terminator := by
        unfold Machine.nextTerminator
        rw [Map.get, unwrap_eq_ok] at h2
        rw [h1]; simp [h2, h3]
      exact (tri_evalTerminator (h _ ht) (ha _ ht) (hf _ ht)).mono (fun _ h => h) fun _ _ ⟨s1, s2, h1, h2, h3⟩ =>
        ⟨s1, s2, h1, h2.mono fun k hk => ⟨_, ht, hk⟩, h3⟩
    · apply Tri.toCtl; tri
  constructor
  · intro u s' hs
    unfold execStep at hs
    simp only [EM.bind_eq_ok, EM.read_eq_ok, EM.lift_eq_ok] at hs
    obtain ⟨fr, _, ⟨h1, rfl⟩, b, _, ⟨h2, rfl⟩, hs⟩ := hs
    exact (key fr b h1 h2).ok _ _ _ hs
  · intro e hs
    unfold execStep at hs
    simp only [EM.bind_eq_error, EM.read_eq_error, EM.lift_eq_error, EM.read_eq_ok, EM.lift_eq_ok] at hs
    rcases hs with hs | ⟨fr, _, ⟨h1, rfl⟩, hs | ⟨b, _, ⟨h2, rfl⟩, hs⟩⟩
    · exact soft_curFrame.err _ hs
    · exact (ResE.mapGet .panic).err _ hs
    · exact (key fr b h1 h2).err _ _ hs

/-- A terminator that stops never succeeds. -/
theorem stops_ne_ok {t : Terminator} (h : t.Stops) {u} : evalTerminator t s ≠ .ok (u, s') := by
  intro hs
  cases t with
  | intrinsic op as r n =>
    unfold evalTerminator at hs
    simp only [EM.bind_eq_ok] at hs
    obtain ⟨_, s1, _, _, s2, _, _, s3, h3, _⟩ := hs
    cases op <;> first | exact h | skip
    · cases h3
    · unfold evalIntrinsic intrinsicExit at h3
      simp only [EM.bind_eq_ok, EM.throw_apply, reduceCtorEq, and_false, exists_false] at h3
  | _ => exact h

theorem execStep_ok' {u : Unit} (ha : ∀ t, s.nextTerminator = some t → t.Allocates → AllocRel (P := P) (F := F) Rm)
    (hf : ∀ t, s.nextTerminator = some t → t.Frees → FreeRel (P := P) (F := F) Rm)
    (h : execStep s = .ok (u, s')) : CtlRel Rm s.nextKinds s s' := by
  by_cases hs : ∀ t, s.nextTerminator = some t → ¬ t.Stops
  · exact (execStep_of_not_stops hs ha hf).1 _ _ h
  · simp only [not_forall, not_not] at hs
    obtain ⟨t, ht, hst⟩ := hs
    unfold execStep at h
    simp only [EM.bind_eq_ok, EM.read_eq_ok, EM.lift_eq_ok] at h
    obtain ⟨fr, _, ⟨h1, rfl⟩, b, _, ⟨h2, rfl⟩, h⟩ := h
    unfold Machine.nextTerminator at ht
    rw [h1] at ht
    rw [Map.get, unwrap_eq_ok] at h2
    simp only [h2] at ht
    split at ht
    · rename_i h3
      cases ht
      rw [if_pos h3] at h
      exact (stops_ne_ok hst h).elim
    · cases ht

theorem execStep_ok {Rm : ConcMem M → ConcMem M → Prop} [hR : FullRel (P := P) (F := F) Rm] {u : Unit} (h : execStep s = .ok (u, s')) :
    CtlRel Rm s.nextKinds s s' := execStep_ok' (fun _ _ _ => inferInstance) (fun _ _ _ => inferInstance) h
end

theorem pickThread_eq_ok {u : Unit} :
    pickThread s = .ok (u, s') ↔ ∃ a t rest, s.oracle = .int a :: rest ∧ 0 ≤ a ∧
      s.threads[a.toNat]? = some t ∧ t.state = .enabled ∧
      s' = { s with activeThread := a.toNat, oracle := rest } := by
  unfold pickThread
  refine EM.bind_eq_ok.trans ?_
  simp only [EM.popInt_eq_ok]
  constructor
  · rintro ⟨a, _, ⟨rest, h1, rfl⟩, h⟩
    cases ht : getInt? s.threads a with
    | none => simp only [ht] at h; cases h
    | some t =>
      simp only [ht] at h
      obtain ⟨h0, ht⟩ := getInt?_eq_some.1 ht
      split at h
      · rename_i h2; cases h; exact ⟨a, t, rest, h1, h0, ht, h2, rfl⟩
      · cases h
  · rintro ⟨a, t, rest, h1, h2, h3, h4, rfl⟩
    refine ⟨a, _, ⟨rest, h1, rfl⟩, ?_⟩
    simp only [getInt?_eq_some.2 ⟨h2, h3⟩, h4, if_true]

/-- A successful step: an enabled thread is chosen, it executes its next statement or terminator, and
its accesses do not race with those of the previous step. -/
theorem step_eq_ok {u : Unit} :
    step s = .ok (u, s') ↔ ∃ (a : Nat) (t : Thread P F) (rest : List (Choice P)), s.oracle = .int a :: rest ∧
      s.threads[a]? = some t ∧ t.state = .enabled ∧
      execStep (s.schedule a rest) = .ok ((), s') ∧
      s'.mem.checkDataRaces s'.activeThread (setInsert s.synchronizedThreads s.activeThread) s.mem.accesses
        = .ok () := by
  unfold step
  simp only [EM.bind_eq_ok, EM.read_eq_ok]
  constructor
  · rintro ⟨en, _, ⟨h1, rfl⟩, h⟩
    split at h
    · cases h
    · simp only [EM.bind_eq_ok, EM.read_eq_ok, pickThread_eq_ok, resetDataRaceTracking, Except.ok.injEq,
        Prod.mk.injEq] at h
      obtain ⟨_, _, ⟨rfl, rfl⟩, _, _, ⟨a, t, rest, h2, h3, h4, h5, rfl⟩, _, _, h6, h7, rfl⟩ := h
      obtain ⟨n, rfl⟩ := Int.eq_ofNat_of_zero_le h3
      exact ⟨n, t, rest, h2, h4, h5, h6, h7⟩
  · rintro ⟨a, t, rest, h1, h2, h3, h4, h5⟩
    refine ⟨true, s, ⟨?_, rfl⟩, ?_⟩
    · simp only [Machine.anyEnabled, Except.ok.injEq, List.any_eq_true, decide_eq_true_eq]
      exact ⟨t, List.mem_of_getElem? h2, h3⟩
    · simp only [Bool.not_true, Bool.false_eq_true, if_false, EM.bind_eq_ok, EM.read_eq_ok, pickThread_eq_ok,
        resetDataRaceTracking, Except.ok.injEq, Prod.mk.injEq]
      exact ⟨_, _, ⟨rfl, rfl⟩, (), _, ⟨a, t, rest, h1, Int.natCast_nonneg _, h2, h3, rfl⟩, (), _, h4, h5, rfl⟩

end MiniRust
