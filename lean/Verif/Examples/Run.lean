import Verif.Lemmas.Threads2
/-
Running concrete programs, to exhibit reachable states.
-/
set_option linter.unusedSectionVars false
namespace MiniRust
variable {M P F : Type} [Memory M P F] [DecidableEq P] [T : Target]

/-- `n` steps. -/
def runSteps : Nat → EM M P F Unit
  | 0 => pure ()
  | n + 1 => do
    runSteps n
    step

/-- The observation `f` after `n` steps of `prog` with the given choices. -/
def observe {α : Type} (prog : Program) (oracle : List (Choice P)) (n : Nat) (f : Machine M P F → Res α) :
    Res α := do
  let s ← Machine.new prog oracle
  let (a, _) ← (do runSteps n; EM.read f : EM M P F α) s
  .ok a

theorem runSteps_steps {n : Nat} {s s' : Machine M P F} {u : Unit} (h : runSteps n s = .ok (u, s')) :
    Steps s s' := by
  induction n generalizing s' u with
  | zero => unfold runSteps at h; rw [EM.pure_eq_ok] at h; rw [h.2]; exact .refl _
  | succ n ih =>
    unfold runSteps at h
    obtain ⟨_, s1, h1, h2⟩ := EM.bind_eq_ok.1 h
    exact .tail (ih h1) h2

/-- An observed state is reachable. -/
theorem reachable_of_observe {α : Type} {prog : Program} {oracle : List (Choice P)} {n : Nat}
    {f : Machine M P F → Res α} {a : α} (h : observe prog oracle n f = .ok a) :
    ∃ s : Machine M P F, Reachable prog s ∧ f s = .ok a := by
  unfold observe at h
  obtain ⟨s0, h0, h⟩ := Res.bind_eq_ok.1 h
  obtain ⟨⟨_, s2⟩, h1, h2⟩ := Res.bind_eq_ok.1 h
  cases h2
  obtain ⟨_, s1, h3, h4⟩ := EM.bind_eq_ok.1 h1
  obtain ⟨h5, rfl⟩ := EM.read_eq_ok.1 h4
  exact ⟨_, ⟨oracle, s0, h0, runSteps_steps h3⟩, h5⟩

/-- A reachable state with a decidable property. -/
theorem exists_reachable {prog : Program} (oracle : List (Choice P)) (n : Nat) (Q : Machine M P F → Prop)
    [DecidablePred Q] (h : observe prog oracle n (fun s => .ok (decide (Q s))) = .ok true) :
    ∃ s : Machine M P F, Reachable prog s ∧ Q s := by
  obtain ⟨s, h1, h2⟩ := reachable_of_observe h
  injection h2 with h2
  exact ⟨s, h1, of_decide_eq_true h2⟩

/-- A reachable state and `k` steps from it, with a decidable property. -/
theorem exists_steps {prog : Program} (oracle : List (Choice P)) (n k : Nat)
    (Q : Machine M P F → Machine M P F → Prop) [∀ s s', Decidable (Q s s')]
    (h : observe prog oracle n (fun s => do
      let (_, s') ← runSteps k s
      .ok (decide (Q s s'))) = .ok true) :
    ∃ s s' : Machine M P F, Reachable prog s ∧ runSteps k s = .ok ((), s') ∧ Q s s' := by
  obtain ⟨s, h1, h2⟩ := reachable_of_observe h
  obtain ⟨⟨_, s'⟩, h3, h4⟩ := Res.bind_eq_ok.1 h2
  injection h4 with h4
  exact ⟨s, s', h1, h3, of_decide_eq_true h4⟩

/-- A reachable state and a step from it, with a decidable property. -/
theorem exists_step {prog : Program} (oracle : List (Choice P)) (n : Nat)
    (Q : Machine M P F → Machine M P F → Prop) [∀ s s', Decidable (Q s s')]
    (h : observe prog oracle n (fun s => do
      let (_, s') ← step s
      .ok (decide (Q s s'))) = .ok true) :
    ∃ s s' : Machine M P F, Reachable prog s ∧ step s = .ok ((), s') ∧ Q s s' := by
  obtain ⟨s, h1, h2⟩ := reachable_of_observe h
  obtain ⟨⟨_, s'⟩, h3, h4⟩ := Res.bind_eq_ok.1 h2
  injection h4 with h4
  exact ⟨s, s', h1, h3, of_decide_eq_true h4⟩

/-- A reachable state whose next choice lets thread `i` execute an instruction, with a decidable
property. -/
theorem exists_exec {prog : Program} (oracle : List (Choice P)) (n i : Nat)
    (Q : Machine M P F → Machine M P F → Prop) [∀ s s', Decidable (Q s s')]
    (h : observe prog oracle n (fun s => do
      let s1 ← (match s.oracle with
        | .int (.ofNat j) :: rest => if j = i then (execStep (s.schedule i rest)).map (·.2) else .error .panic
        | _ => .error .panic)
      .ok (decide (s.threadState i = some .enabled ∧ Q s s1))) = .ok true) :
    ∃ (s s1 : Machine M P F) (rest : List (Choice P)), Reachable prog s ∧ s.oracle = .int i :: rest ∧
      s.threadState i = some .enabled ∧ execStep (s.schedule i rest) = .ok ((), s1) ∧ Q s s1 := by
  obtain ⟨s, h1, h2⟩ := reachable_of_observe h
  obtain ⟨s1, h3, h4⟩ := Res.bind_eq_ok.1 h2
  injection h4 with h4
  have h5 := of_decide_eq_true h4
  split at h3
  · rename_i j rest ho
    split at h3
    · rename_i hj
      subst hj
      cases hx : execStep (s.schedule j rest) with
      | error e => rw [hx] at h3; cases h3
      | ok r => rw [hx] at h3; cases h3; exact ⟨s, _, rest, h1, ho, h5.1, hx, h5.2⟩
    · cases h3
  · cases h3

/-- The error of a result. -/
def errOf {α : Type} : Res α → Option Err
  | .ok _ => none
  | .error e => some e

theorem errOf_eq_some {α : Type} {r : Res α} {e : Err} (h : errOf r = some e) : r = .error e := by
  unfold errOf at h; split at h
  · cases h
  · cases h; rfl

/-- The next scheduling choice. -/
def Machine.nextChoice (s : Machine M P F) : Option (Nat × List (Choice P)) :=
  match s.oracle with
  | .int (.ofNat i) :: rest => some (i, rest)
  | _ => none

/-- The intrinsic thread `i` is about to execute. -/
def Machine.atOp (s : Machine M P F) (i : Nat) : Option IntrinsicOp :=
  match (s.schedule i []).nextTerminator with
  | some (.intrinsic op _ _ _) => some op
  | _ => none

theorem atOp_eq_some {s : Machine M P F} {i : Nat} {op : IntrinsicOp} (h : s.atOp i = some op) :
    s.AtIntrinsic i op := by
  unfold Machine.atOp at h
  split at h
  · rename_i op' as r n ht
    cases h
    exact ⟨as, r, n, nextTerminator_atTerminator ht⟩
  · cases h

theorem nextChoice_eq_some {s : Machine M P F} {i : Nat} {rest : List (Choice P)}
    (h : s.nextChoice = some (i, rest)) : s.oracle = .int i :: rest := by
  unfold Machine.nextChoice at h
  split at h
  · rename_i h'; cases h; exact h'
  · cases h

end MiniRust
