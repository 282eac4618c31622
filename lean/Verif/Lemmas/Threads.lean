import Verif.Lemmas.Ctl
import Verif.Lemmas.SoftMem
/-
The skeleton of a machine: thread states, locks and synchronized threads, and how a step changes them.
-/
set_option linter.unusedSectionVars false
namespace MiniRust
variable {M P F : Type} [Memory M P F] [DecidableEq P] [T : Target] {s s' : Machine M P F}

omit T in
theorem mem_setInsert {α : Type} [DecidableEq α] {l : List α} {a b : α} :
    b ∈ setInsert l a ↔ b ∈ l ∨ b = a := by
  unfold setInsert; split
  · rename_i h; constructor
    · exact .inl
    · rintro (h' | rfl); exacts [h', h]
  · simp

/-- Thread states, locks and synchronized threads. -/
structure Skel where
  states : List ThreadState
  locks : List LockState
  sync : List Nat

/-- The skeleton of a machine. -/
def Machine.skel (s : Machine M P F) : Skel := ⟨s.threads.map (·.state), s.locks, s.synchronizedThreads⟩

/-- The state after thread `a` terminated. -/
def ThreadState.wake (a : Nat) (st : ThreadState) : ThreadState :=
  if st = .blockedOnJoin a then .enabled else st

/-- What a step of thread `a` can do to the skeleton. -/
inductive SkelOp (K : CtlKind → Prop) (a : Nat) (k : Skel) : Skel → Prop
  | none : SkelOp K a k k
  | lockCreate : K .lockCreate → SkelOp K a k { k with locks := k.locks ++ [.unlocked] }
  | acquire (l : Nat) : K .lockAcquire → k.locks[l]? = some .unlocked →
      SkelOp K a k { k with locks := k.locks.set l (.lockedBy a) }
  | blockLock (l u : Nat) : K .lockAcquire → k.locks[l]? = some (.lockedBy u) →
      SkelOp K a k { k with states := k.states.set a (.blockedOnLock l) }
  | handover (l u : Nat) : K .lockRelease → k.locks[l]? = some (.lockedBy a) →
      k.states[u]? = some (.blockedOnLock l) →
      SkelOp K a k { states := k.states.set u .enabled, locks := k.locks.set l (.lockedBy u),
                     sync := setInsert k.sync u }
  | release (l : Nat) : K .lockRelease → k.locks[l]? = some (.lockedBy a) →
      ThreadState.blockedOnLock l ∉ k.states →
      SkelOp K a k { k with locks := k.locks.set l .unlocked }
  | blockJoin (j : Nat) (st : ThreadState) : K .join → k.states[j]? = some st → st ≠ .terminated →
      SkelOp K a k { k with states := k.states.set a (.blockedOnJoin j) }
  | terminate (sync' : List Nat) : K .terminate → a ≠ 0 →
      (∀ i, i ∈ sync' ↔ i ∈ k.sync ∨ k.states[i]? = some (.blockedOnJoin a)) →
      SkelOp K a k { k with states := (k.states.set a .terminated).map (ThreadState.wake a), sync := sync' }
  | spawn : K .spawn →
      SkelOp K a k { k with states := k.states ++ [.enabled], sync := setInsert k.sync k.states.length }

theorem mem_syncJoined {a : Nat} {ts : List (Thread P F)} {n : Nat} {sync : List Nat} {i : Nat} :
    i ∈ syncJoined a ts n sync ↔ i ∈ sync ∨ ∃ j t, i = n + j ∧ ts[j]? = some t ∧ t.state = .blockedOnJoin a := by
  induction ts generalizing n sync with
  | nil => simp [syncJoined]
  | cons t ts ih =>
    unfold syncJoined
    rw [ih]
    constructor
    · rintro (h | ⟨j, t', rfl, h1, h2⟩)
      · split at h
        · rename_i ht
          rcases mem_setInsert.1 h with h | rfl
          · exact .inl h
          · exact .inr ⟨0, t, rfl, rfl, ht⟩
        · exact .inl h
      · exact .inr ⟨j + 1, t', by omega, by simpa using h1, h2⟩
    · rintro (h | ⟨j, t', rfl, h1, h2⟩)
      · left; split
        · exact mem_setInsert.2 (.inl h)
        · exact h
      · cases j with
        | zero =>
          simp only [List.getElem?_cons_zero, Option.some.injEq] at h1
          subst h1
          left; rw [if_pos h2]; exact mem_setInsert.2 (.inr rfl)
        | succ j => exact .inr ⟨j, t', by omega, by simpa using h1, h2⟩

/-! ### Effects on the skeleton -/

/-- Two lists of threads that agree, for every thread but `a`, in stack and payloads. -/
def OthersKept (a : Nat) (ts ts' : List (Thread P F)) : Prop :=
  ∀ i t, i ≠ a → ts[i]? = some t →
    ∃ t', ts'[i]? = some t' ∧ t'.stack = t.stack ∧ t'.unwindPayloads = t.unwindPayloads

theorem OthersKept.trans {a : Nat} {ts ts' ts'' : List (Thread P F)} (h1 : OthersKept a ts ts')
    (h2 : OthersKept a ts' ts'') : OthersKept a ts ts'' := by
  intro i t hi ht
  obtain ⟨t', ht', e1, e2⟩ := h1 i t hi ht
  obtain ⟨t'', ht'', e3, e4⟩ := h2 i t' hi ht'
  exact ⟨t'', ht'', e3.trans e1, e4.trans e2⟩
theorem OthersKept.refl {a : Nat} {ts : List (Thread P F)} : OthersKept a ts ts :=
  fun _ t _ h => ⟨t, h, rfl, rfl⟩

theorem OthersKept.set {a u : Nat} {ts : List (Thread P F)} {t t' : Thread P F} (h : ts[u]? = some t)
    (h1 : t'.stack = t.stack) (h2 : t'.unwindPayloads = t.unwindPayloads) : OthersKept a ts (ts.set u t') := by
  intro i ti hi hti
  by_cases hu : i = u
  · subst hu
    rw [h] at hti; cases hti
    exact ⟨t', List.getElem?_set_self (List.getElem?_eq_some_iff.1 h).1, h1, h2⟩
  · exact ⟨ti, by rw [List.getElem?_set_ne (Ne.symm hu)]; exact hti, rfl, rfl⟩

theorem OnlyActive.others {a : Nat} {ts ts' : List (Thread P F)} (h : OnlyActive a ts ts') :
    OthersKept a ts ts' := by
  rcases h with rfl | ⟨t, t', hg, hs, rfl⟩
  · exact .refl
  · intro i ti hi hti
    exact ⟨ti, by rw [List.getElem?_set_ne (Ne.symm hi)]; exact hti, rfl, rfl⟩

theorem map_set_same {α β : Type} {f : α → β} {l : List α} {i : Nat} {a a' : α} (h : l[i]? = some a)
    (hf : f a' = f a) : (l.set i a').map f = l.map f := by
  rw [List.map_set, hf, ← List.map_set]
  congr 1
  apply List.ext_getElem?
  intro j
  rw [List.getElem?_set]
  split
  · rename_i hij; subst hij; rw [if_pos (List.getElem?_eq_some_iff.1 h).1, h]
  · rfl

theorem OnlyActive.states {a : Nat} {ts ts' : List (Thread P F)} (h : OnlyActive a ts ts') :
    ts'.map (·.state) = ts.map (·.state) := by
  rcases h with rfl | ⟨t, t', hg, hs, rfl⟩
  · rfl
  · exact map_set_same hg hs

theorem Quiet.skel {Rm : ConcMem M → ConcMem M → Prop} (h : Quiet Rm s s') : s'.skel = s.skel := by
  unfold Machine.skel; rw [h.threads.states, h.locks, h.sync]

theorem CtlOp.skel {K : CtlKind → Prop} (h : CtlOp K s s') (he : ∃ t, s.threads[s.activeThread]? = some t ∧ t.state = .enabled) :
    SkelOp K s.activeThread s.skel s'.skel := by
  have hst : ∀ {i : Nat} {t : Thread P F}, s.threads[i]? = some t → s.skel.states[i]? = some t.state := by
    intro i t h; simp [Machine.skel, h]
  cases h with
  | none => exact .none
  | lockCreate hk => exact .lockCreate hk
  | acquire l hk h1 => exact .acquire l hk h1
  | blockLock l u t hk h1 h2 =>
    have := SkelOp.blockLock (a := s.activeThread) (k := s.skel) l u hk h1
    simpa [Machine.skel, List.map_set, Thread.withState] using this
  | handover l u t hk h1 h2 h3 =>
    have := SkelOp.handover (a := s.activeThread) (k := s.skel) l u hk h1 (by rw [hst h2, h3])
    simpa [Machine.skel, List.map_set, Thread.withState] using this
  | release l hk h1 h2 =>
    refine .release (k := s.skel) l hk h1 ?_
    intro h
    obtain ⟨t, ht, he⟩ := List.mem_map.1 h
    exact h2 t ht he
  | blockJoin j tj t hk h1 h2 h3 =>
    have := SkelOp.blockJoin (a := s.activeThread) (k := s.skel) j tj.state hk (hst h1) h2
    simpa [Machine.skel, List.map_set, Thread.withState] using this
  | terminate t hk h1 h2 h3 =>
    obtain ⟨t0, ht0, hen⟩ := he
    rw [h2] at ht0; cases ht0
    have := SkelOp.terminate (a := s.activeThread) (k := s.skel)
      (syncJoined s.activeThread (s.threads.set s.activeThread (t.withState .terminated)) 0 s.synchronizedThreads)
      hk h1 (by
        intro i
        rw [mem_syncJoined]
        refine or_congr Iff.rfl ?_
        constructor
        · rintro ⟨j, t', rfl, hj, hj'⟩
          rw [Nat.zero_add]
          by_cases hja : j = s.activeThread
          · subst hja
            rw [List.getElem?_set_self (List.getElem?_eq_some_iff.1 h2).1] at hj
            cases hj; cases hj'
          · rw [List.getElem?_set_ne (Ne.symm hja)] at hj
            rw [hst hj, hj']
        · intro h
          simp only [Machine.skel, List.getElem?_map, Option.map_eq_some_iff] at h
          obtain ⟨t', ht', hs'⟩ := h
          refine ⟨i, t', (Nat.zero_add _).symm, ?_, hs'⟩
          rw [List.getElem?_set_ne]
          · exact ht'
          · rintro rfl
            rw [h2] at ht'; cases ht'
            rw [hen] at hs'; cases hs')
    have e : ((s.threads.set s.activeThread (t.withState .terminated)).map (Thread.wakeJoin s.activeThread)).map
        (·.state) = (s.skel.states.set s.activeThread .terminated).map (ThreadState.wake s.activeThread) := by
      simp only [Machine.skel, List.map_map]
      rw [show (ThreadState.terminated) = (t.withState .terminated).state from rfl, ← List.map_set, List.map_map]
      apply List.map_congr_left
      intro x _
      simp only [Function.comp, Thread.wakeJoin, ThreadState.wake]
      split <;> rfl
    unfold Machine.skel at this ⊢
    simp only [] at this ⊢
    rw [e]
    exact this
  | spawn f hk =>
    have := SkelOp.spawn (a := s.activeThread) (k := s.skel) hk
    simpa [Machine.skel] using this

theorem CtlOp.others {K : CtlKind → Prop} (h : CtlOp K s s') : OthersKept s.activeThread s.threads s'.threads := by
  cases h with
  | none => exact .refl
  | lockCreate hk => exact .refl
  | acquire l hk h1 => exact .refl
  | blockLock l u t hk h1 h2 => exact .set h2 rfl rfl
  | handover l u t hk h1 h2 h3 => exact .set h2 rfl rfl
  | release l hk h1 h2 => exact .refl
  | blockJoin j tj t hk h1 h2 h3 => exact .set h3 rfl rfl
  | terminate t hk h1 h2 h3 =>
    refine OthersKept.trans (.set (t' := t.withState .terminated) h2 rfl rfl) ?_
    intro i ti hi hti
    refine ⟨Thread.wakeJoin s.activeThread ti, ?_, ?_, ?_⟩
    · show (List.map _ _)[i]? = _
      rw [List.getElem?_map, hti]; rfl
    · unfold Thread.wakeJoin; split <;> rfl
    · unfold Thread.wakeJoin; split <;> rfl
  | spawn f hk =>
    intro i ti hi hti
    refine ⟨ti, ?_, rfl, rfl⟩
    show (_ ++ _)[i]? = _
    rw [List.getElem?_append_left (List.getElem?_eq_some_iff.1 hti).1]; exact hti

theorem CtlOp.active {K : CtlKind → Prop} (h : CtlOp K s s') : s'.activeThread = s.activeThread := by
  cases h <;> rfl

/-- The summary of a successful step. -/
theorem step_skel [SoftMem M P F] (h : step s = .ok ((), s')) :
    ∃ rest, s.oracle = .int s'.activeThread :: rest ∧
      s.skel.states[s'.activeThread]? = some .enabled ∧
      SkelOp (s.schedule s'.activeThread rest).nextKinds s'.activeThread s.skel s'.skel ∧
      OthersKept s'.activeThread s.threads s'.threads := by
  obtain ⟨a, t, rest, h1, h2, h3, h4, _⟩ := step_eq_ok.1 h
  obtain ⟨s1, s2, q1, c, q2⟩ := execStep_ok (Rm := AnyMem) h4
  have ha : s'.activeThread = a := by rw [q2.active, c.active, q1.active]; rfl
  subst ha
  have hk1 : s1.skel = s.skel := q1.skel
  have hk2 : s'.skel = s2.skel := q2.skel
  have hen : s.skel.states[s'.activeThread]? = some .enabled := by simp [Machine.skel, h2, h3]
  have ha1 : s1.activeThread = s'.activeThread := q1.active
  refine ⟨rest, h1, hen, ?_, ?_⟩
  · have := c.skel (by
      rw [ha1]
      rw [← hk1] at hen
      simp only [Machine.skel, List.getElem?_map, Option.map_eq_some_iff] at hen
      exact hen)
    rw [ha1, hk1, ← hk2] at this
    exact this
  · have o1 : OthersKept s'.activeThread s.threads s1.threads := q1.threads.others
    have o2 := c.others
    rw [ha1] at o2
    have o3 := q2.threads.others
    rw [c.active, ha1] at o3
    exact o1.trans (o2.trans o3)

end MiniRust
