import Verif.Lemmas.Threads3
/-
How one operation changes locks, thread states and the set of synchronized threads.
-/
namespace MiniRust
variable {K : CtlKind → Prop} {a : Nat} {k k' : Skel}

theorem SkelOp.lock_change (h : SkelOp K a k k') (l : Nat) :
    k'.locks[l]? = k.locks[l]? ∨
    (k.locks[l]? = Option.none ∧ k'.locks[l]? = some .unlocked ∧ K .lockCreate) ∨
    (k.locks[l]? = some .unlocked ∧ k'.locks[l]? = some (.lockedBy a) ∧ K .lockAcquire) ∨
    (k.locks[l]? = some (.lockedBy a) ∧ K .lockRelease ∧
      ((k'.locks[l]? = some .unlocked ∧ (∀ j : Nat, k.states[j]? ≠ some (.blockedOnLock l))) ∨
        ∃ j : Nat, k.states[j]? = some (.blockedOnLock l) ∧ k'.states[j]? = some .enabled ∧
          k'.locks[l]? = some (.lockedBy j))) := by
  cases h with
  | lockCreate hk =>
    by_cases hl : l = k.locks.length
    · subst hl; exact .inr (.inl ⟨by simp, by simp, hk⟩)
    · left
      show (k.locks ++ [_])[l]? = _
      rw [List.getElem?_append]
      split
      · rfl
      · rw [List.getElem?_singleton, if_neg (by omega), List.getElem?_eq_none (by omega)]
  | acquire l' hk h1 =>
    by_cases hl : l = l'
    · subst hl; exact .inr (.inr (.inl ⟨h1, List.getElem?_set_self (getElem?_lt h1), hk⟩))
    · exact .inl (List.getElem?_set_ne (Ne.symm hl))
  | handover l' u hk h1 h2 =>
    by_cases hl : l = l'
    · subst hl
      exact .inr (.inr (.inr ⟨h1, hk, .inr ⟨u, h2, List.getElem?_set_self (getElem?_lt h2),
        List.getElem?_set_self (getElem?_lt h1)⟩⟩))
    · exact .inl (List.getElem?_set_ne (Ne.symm hl))
  | release l' hk h1 h2 =>
    by_cases hl : l = l'
    · subst hl
      exact .inr (.inr (.inr ⟨h1, hk, .inl ⟨List.getElem?_set_self (getElem?_lt h1),
        fun j hj => h2 (List.mem_of_getElem? hj)⟩⟩))
    · exact .inl (List.getElem?_set_ne (Ne.symm hl))
  | _ => exact .inl rfl

theorem SkelOp.state_change (h : SkelOp K a k k') (ha : k.states[a]? = some .enabled) (i : Nat)
    (st : ThreadState) (hi : k.states[i]? = some st) :
    k'.states[i]? = some st ∨
    (i = a ∧ ∃ l o : Nat, k'.states[i]? = some (.blockedOnLock l) ∧ k.locks[l]? = some (.lockedBy o) ∧
      K .lockAcquire) ∨
    (i = a ∧ ∃ (j : Nat) (stj : ThreadState), k'.states[i]? = some (.blockedOnJoin j) ∧ k.states[j]? = some stj ∧
      stj ≠ .terminated ∧ K .join) ∨
    (i = a ∧ i ≠ 0 ∧ k'.states[i]? = some .terminated ∧ K .terminate) ∨
    (∃ l : Nat, st = .blockedOnLock l ∧ k'.states[i]? = some .enabled ∧ k.locks[l]? = some (.lockedBy a) ∧
      k'.locks[l]? = some (.lockedBy i) ∧ K .lockRelease) ∨
    (st = .blockedOnJoin a ∧ k'.states[i]? = some .enabled ∧ k'.states[a]? = some .terminated ∧ K .terminate) := by
  have hal := getElem?_lt ha
  cases h with
  | blockLock l u hk h1 =>
    by_cases hia : i = a
    · subst hia; exact .inr (.inl ⟨rfl, l, u, List.getElem?_set_self hal, h1, hk⟩)
    · left; show (k.states.set a _)[i]? = _; rw [List.getElem?_set_ne (Ne.symm hia)]; exact hi
  | handover l u hk h1 h2 =>
    by_cases hia : i = u
    · subst hia
      rw [hi] at h2; cases h2
      exact .inr (.inr (.inr (.inr (.inl ⟨l, rfl, List.getElem?_set_self (getElem?_lt hi), h1,
        List.getElem?_set_self (getElem?_lt h1), hk⟩))))
    · left; show (k.states.set u _)[i]? = _; rw [List.getElem?_set_ne (Ne.symm hia)]; exact hi
  | blockJoin j stj hk h1 h2 =>
    by_cases hia : i = a
    · subst hia; exact .inr (.inr (.inl ⟨rfl, j, stj, List.getElem?_set_self hal, h1, h2, hk⟩))
    · left; show (k.states.set a _)[i]? = _; rw [List.getElem?_set_ne (Ne.symm hia)]; exact hi
  | terminate sync' hk h1 h2 =>
    have hta : ((k.states.set a .terminated).map (ThreadState.wake a))[a]? = some .terminated := by
      rw [List.getElem?_map, List.getElem?_set_self hal]; rfl
    by_cases hia : i = a
    · subst hia; exact .inr (.inr (.inr (.inl ⟨rfl, h1, hta, hk⟩)))
    · have hw := wake_map_other hia hi
      by_cases hst : st = .blockedOnJoin a
      · subst hst
        refine .inr (.inr (.inr (.inr (.inr ⟨rfl, ?_, hta, hk⟩))))
        rw [hw]; simp [ThreadState.wake]
      · left; show _ = _; rw [hw]; simp [ThreadState.wake, hst]
  | spawn hk =>
    left; show (k.states ++ [_])[i]? = _
    rw [List.getElem?_append_left (getElem?_lt hi)]; exact hi
  | _ => exact .inl hi

theorem SkelOp.new_thread (h : SkelOp K a k k') (i : Nat) (hi : k.states[i]? = Option.none) :
    k'.states[i]? = Option.none ∨ (i = k.states.length ∧ k'.states[i]? = some .enabled ∧ K .spawn) := by
  have key : ∀ l : List ThreadState, l.length = k.states.length → l[i]? = Option.none := by
    intro l hl
    rw [List.getElem?_eq_none_iff] at hi ⊢; omega
  cases h with
  | spawn hk =>
    by_cases hl : i = k.states.length
    · subst hl; exact .inr ⟨rfl, by simp, hk⟩
    · left
      rw [List.getElem?_eq_none_iff] at hi ⊢
      show (k.states ++ [ThreadState.enabled]).length ≤ i
      rw [List.length_append, List.length_singleton]; omega
  | _ => exact .inl (key _ (by simp))

theorem SkelOp.join_wake (h : SkelOp K a k k') (ha : k.states[a]? = some .enabled) (i j : Nat)
    (hi : k.states[i]? = some (.blockedOnJoin j)) (hj : k.states[j]? ≠ some .terminated) :
    (k'.states[i]? = some .enabled ∧ j = a ∧ k'.states[j]? = some .terminated) ∨
    (k'.states[i]? = some (.blockedOnJoin j) ∧ k'.states[j]? ≠ some .terminated) := by
  have hal := getElem?_lt ha
  have hia : i ≠ a := by rintro rfl; rw [ha] at hi; cases hi
  have key : ∀ (u : Nat) (st : ThreadState), i ≠ u → st ≠ .terminated →
      (k.states.set u st)[i]? = some (.blockedOnJoin j) ∧ (k.states.set u st)[j]? ≠ some .terminated := by
    intro u st hu hst
    refine ⟨by rw [List.getElem?_set_ne (Ne.symm hu)]; exact hi, fun h => ?_⟩
    rcases set_some h with ⟨_, h⟩ | ⟨_, h⟩
    · exact hst h.symm
    · exact hj h
  cases h with
  | blockLock l u hk h1 => exact .inr (key _ _ hia (by simp))
  | handover l u hk h1 h2 =>
    refine .inr (key _ _ ?_ (by simp))
    rintro rfl; rw [h2] at hi; cases hi
  | blockJoin j' stj hk h1 h2 => exact .inr (key _ _ hia (by simp))
  | terminate sync' hk h1 h2 =>
    have hw := wake_map_other hia hi
    by_cases hja : j = a
    · subst hja
      left
      refine ⟨by rw [hw]; simp [ThreadState.wake], rfl, ?_⟩
      rw [List.getElem?_map, List.getElem?_set_self hal]; rfl
    · right
      refine ⟨by rw [hw]; simp [ThreadState.wake, hja], fun h => ?_⟩
      rcases wake_map h with ⟨h, _⟩ | ⟨_, _, h⟩ | ⟨_, h, _⟩
      · exact hja h
      · cases h
      · exact hj h
  | spawn hk =>
    right
    refine ⟨?_, fun h => ?_⟩
    · show (k.states ++ [_])[i]? = _
      rw [List.getElem?_append_left (getElem?_lt hi)]; exact hi
    · have h : (k.states ++ [ThreadState.enabled])[j]? = some .terminated := h
      rw [List.getElem?_append] at h
      split at h
      · exact hj h
      · rw [List.getElem?_singleton] at h; split at h <;> cases h
  | _ => exact .inr ⟨hi, hj⟩

theorem SkelOp.sync_change (h : SkelOp K a k k') (ha : k.states[a]? = some .enabled) (j : Nat) :
    j ∈ k'.sync ↔ j ∈ k.sync ∨ (k.states[j]? = Option.none ∧ k'.states[j]? ≠ Option.none) ∨
      (k.states[j]? ≠ some .enabled ∧ k'.states[j]? = some .enabled) := by
  have hal := getElem?_lt ha
  have same : ∀ (l : List ThreadState), l = k.states → (j ∈ k.sync ↔ j ∈ k.sync ∨
      (k.states[j]? = Option.none ∧ l[j]? ≠ Option.none) ∨ (k.states[j]? ≠ some .enabled ∧ l[j]? = some .enabled)) := by
    rintro l rfl
    constructor
    · exact .inl
    · rintro (h | ⟨h, h'⟩ | ⟨h, h'⟩)
      exacts [h, (h' h).elim, (h h').elim]
  have setNot : ∀ (st : ThreadState), st ≠ .enabled → (j ∈ k.sync ↔ j ∈ k.sync ∨
      (k.states[j]? = Option.none ∧ (k.states.set a st)[j]? ≠ Option.none) ∨
        (k.states[j]? ≠ some .enabled ∧ (k.states.set a st)[j]? = some .enabled)) := by
    intro st hst
    constructor
    · exact .inl
    · rintro (h | ⟨h, h'⟩ | ⟨h, h'⟩)
      · exact h
      · rw [List.getElem?_eq_none_iff] at h
        rw [Ne, List.getElem?_eq_none_iff] at h'; simp at h'; omega
      · rcases set_some h' with ⟨_, h'⟩ | ⟨_, h'⟩
        · exact (hst h'.symm).elim
        · exact (h h').elim
  cases h with
  | blockLock l u hk h1 => exact setNot _ (by simp)
  | blockJoin j' stj hk h1 h2 => exact setNot _ (by simp)
  | handover l u hk h1 h2 =>
    have hul := getElem?_lt h2
    show j ∈ setInsert k.sync u ↔ _ ∨ (_ ∧ (k.states.set u .enabled)[j]? ≠ _) ∨ (_ ∧ (k.states.set u .enabled)[j]? = _)
    rw [mem_setInsert]
    constructor
    · rintro (h | rfl)
      · exact .inl h
      · exact .inr (.inr ⟨by rw [h2]; simp, List.getElem?_set_self hul⟩)
    · rintro (h | ⟨h, h'⟩ | ⟨h, h'⟩)
      · exact .inl h
      · rw [List.getElem?_eq_none_iff] at h
        rw [Ne, List.getElem?_eq_none_iff] at h'; simp at h'; omega
      · rcases set_some h' with ⟨h', _⟩ | ⟨_, h'⟩
        · exact .inr h'
        · exact (h h').elim
  | terminate sync' hk h1 h2 =>
    show j ∈ sync' ↔ _
    rw [h2]
    refine or_congr Iff.rfl ?_
    constructor
    · intro h
      have hja : j ≠ a := by rintro rfl; rw [ha] at h; cases h
      refine .inr ⟨by rw [h]; simp, ?_⟩
      show _ = _; rw [wake_map_other hja h]; simp [ThreadState.wake]
    · rintro (⟨h, h'⟩ | ⟨h, h'⟩)
      · rw [List.getElem?_eq_none_iff] at h
        rw [Ne, List.getElem?_eq_none_iff] at h'; simp at h'; omega
      · rcases wake_map h' with ⟨_, h'⟩ | ⟨_, h', _⟩ | ⟨_, h', _⟩
        · cases h'
        · exact h'
        · exact (h h').elim
  | spawn hk =>
    show j ∈ setInsert k.sync k.states.length ↔
      _ ∨ (_ ∧ (k.states ++ [ThreadState.enabled])[j]? ≠ _) ∨ (_ ∧ (k.states ++ [ThreadState.enabled])[j]? = _)
    rw [mem_setInsert]
    constructor
    · rintro (h | rfl)
      · exact .inl h
      · exact .inr (.inl ⟨by simp, by simp⟩)
    · rintro (h | ⟨h, h'⟩ | ⟨h, h'⟩)
      · exact .inl h
      · rw [List.getElem?_eq_none_iff] at h
        rw [Ne, List.getElem?_eq_none_iff, List.length_append, List.length_singleton] at h'
        right; omega
      · rw [List.getElem?_append] at h'
        split at h'
        · exact (h h').elim
        · rename_i hl
          have := getElem?_lt h'
          rw [List.length_singleton] at this
          right; omega
  | _ => exact same _ rfl

end MiniRust
