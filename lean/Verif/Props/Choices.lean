import Verif.Lemmas.Choices
import Verif.Props.Run
import Verif.Examples.Programs
/-
C84: what a program does does not depend on choices that are made later.
-/
namespace MiniRust
section
variable [T : Target] {M P F : Type} [Memory M P F] [DecidableEq P]

theorem new_pop {prog : Program} {o : List (Choice P)} {s : Machine M P F} (h : Machine.new prog o = .ok s) :
    ∃ used, o = used ++ s.oracle ∧ ∀ r, Machine.new prog (used ++ r) = .ok { s with oracle := r } := by
  unfold Machine.new at h
  obtain ⟨_, h1, h⟩ := Res.bind_eq_ok.1 h
  obtain ⟨⟨_, s'⟩, h2, h⟩ := Res.bind_eq_ok.1 h
  cases h
  obtain ⟨u, e1, g⟩ := Pop.initMachine.ok _ _ _ h2
  refine ⟨u, e1, fun r => ?_⟩
  unfold Machine.new
  rw [h1]
  show (initMachine prog (Machine.empty prog (u ++ r)) >>= _) = _
  rw [show initMachine prog (Machine.empty prog (u ++ r) : Machine M P F) = _ from g r]
  rfl

theorem new_pop_error {prog : Program} {o : List (Choice P)} {e : Err} (h : (Machine.new prog o : Res (Machine M P F)) = .error e)
    (he : e ≠ .noBehavior) :
    ∃ used rest, o = used ++ rest ∧ ∀ r, (Machine.new prog (used ++ r) : Res (Machine M P F)) = .error e := by
  unfold Machine.new at h
  cases h1 : prog.checkWf with
  | error e' =>
    rw [h1] at h
    cases h
    exact ⟨[], o, rfl, fun r => by unfold Machine.new; rw [h1]; rfl⟩
  | ok u0 =>
    rw [h1] at h
    change (initMachine prog (Machine.empty prog o) >>= _) = _ at h
    cases h2 : initMachine prog (Machine.empty prog o : Machine M P F) with
    | ok q => rw [h2] at h; cases h
    | error e' =>
      rw [h2] at h
      cases h
      obtain ⟨u, rest, e1, g⟩ := Pop.initMachine.err _ _ h2 he
      refine ⟨u, rest, e1, fun r => ?_⟩
      unfold Machine.new
      rw [h1]
      show (initMachine prog (Machine.empty prog (u ++ r)) >>= _) = _
      rw [show initMachine prog (Machine.empty prog (u ++ r) : Machine M P F) = _ from g r]
      rfl

theorem steps_pop {s t : Machine M P F} (h : Steps s t) :
    ∃ used, s.oracle = used ++ t.oracle ∧ ∀ r, Steps { s with oracle := used ++ r } { t with oracle := r } := by
  induction h with
  | refl => exact ⟨[], rfl, fun r => .refl _⟩
  | tail _ h ih =>
    obtain ⟨u1, e1, g1⟩ := ih
    obtain ⟨u2, e2, g2⟩ := Pop.step.ok _ _ _ h
    exact ⟨u1 ++ u2, by rw [e1, e2, List.append_assoc], fun r => by rw [List.append_assoc]; exact .tail (g1 _) (g2 r)⟩

/-- C84: when an execution has reached a state, it has used some of the choices, in the order in which they are given; whatever
the remaining choices are, the execution that is given the same first ones reaches the same state. -/
theorem C84_state {prog : Program} {o : List (Choice P)} {s₀ s : Machine M P F} (h0 : Machine.new prog o = .ok s₀) (h : Steps s₀ s) :
    ∃ used, o = used ++ s.oracle ∧ ∀ r, ∃ s₁, Machine.new prog (used ++ r) = .ok s₁ ∧ Steps s₁ { s with oracle := r } := by
  obtain ⟨u1, e1, g1⟩ := new_pop h0
  obtain ⟨u2, e2, g2⟩ := steps_pop h
  exact ⟨u1 ++ u2, by rw [e1, e2, List.append_assoc], fun r => ⟨_, by rw [List.append_assoc]; exact g1 _, g2 r⟩⟩

/-- C84: so every reachable state is reachable with any choices left to be made. -/
theorem C84_reachable {prog : Program} {s : Machine M P F} (h : Reachable prog s) (r : List (Choice P)) :
    Reachable prog { s with oracle := r } := by
  obtain ⟨o, s0, h0, h⟩ := h
  obtain ⟨u, _, g⟩ := C84_state h0 h
  obtain ⟨s1, h1, h2⟩ := g r
  exact ⟨_, _, h1, h2⟩

theorem runLoop_pop {fuel : Nat} : ∀ {s s' : Machine M P F} {e : Err}, runLoop fuel s = some (e, s') → e ≠ .noBehavior →
    ∃ used rest, s.oracle = used ++ rest ∧ ∀ r, ∃ r', runLoop fuel { s with oracle := used ++ r } = some (e, { s' with oracle := r' }) := by
  induction fuel with
  | zero => intro s s' e h; cases h
  | succ n ih =>
    intro s s' e h he
    unfold runLoop at h
    split at h
    · rename_i s1 h1
      obtain ⟨u2, rest, e2, g2⟩ := ih h he
      obtain ⟨u1, e1, g1⟩ := Pop.step.ok _ _ _ h1
      refine ⟨u1 ++ u2, rest, by rw [e1, e2, List.append_assoc], fun r => ?_⟩
      obtain ⟨r', g⟩ := g2 r
      refine ⟨r', ?_⟩
      unfold runLoop
      rw [List.append_assoc, g1]
      exact g
    · rename_i e' h1
      cases h
      obtain ⟨u, rest, e1, g⟩ := Pop.step.err _ _ h1 he
      refine ⟨u, rest, e1, fun r => ⟨u ++ r, ?_⟩⟩
      unfold runLoop
      rw [g r]

/-- C84: how a program ends and what it prints is determined by the choices that are made until then, of which there are finitely many. -/
theorem C84_run {fuel : Nat} {prog : Program} {o : List (Choice P)} {e : Err} {out err : List Printed}
    (h : run M fuel prog o = some (e, out, err)) (he : e ≠ .noBehavior) :
    ∃ used rest, o = used ++ rest ∧ ∀ r, run M fuel prog (used ++ r) = some (e, out, err) := by
  unfold run at h
  split at h
  · rename_i e' h0
    cases h
    obtain ⟨u, rest, e1, g⟩ := new_pop_error h0 he
    refine ⟨u, rest, e1, fun r => ?_⟩
    unfold run
    rw [g r]
  · rename_i s h0
    obtain ⟨u1, e1, g1⟩ := new_pop h0
    split at h
    · cases h
    · rename_i e' s' h1
      cases h
      obtain ⟨u2, rest, e2, g2⟩ := runLoop_pop h1 he
      refine ⟨u1 ++ u2, rest, by rw [e1, e2, List.append_assoc], fun r => ?_⟩
      obtain ⟨r', g⟩ := g2 r
      unfold run
      rw [List.append_assoc, g1]
      show (match runLoop fuel { s with oracle := u2 ++ r } with
        | none => none
        | some (e, s') => some (e, s'.stdout, s'.stderr)) = _
      rw [g]

/-- C84: in particular, offering further choices changes nothing. -/
theorem C84_more {fuel : Nat} {prog : Program} {o : List (Choice P)} {e : Err} {out err : List Printed}
    (h : run M fuel prog o = some (e, out, err)) (he : e ≠ .noBehavior) (r : List (Choice P)) :
    run M fuel prog (o ++ r) = some (e, out, err) := by
  obtain ⟨u, rest, rfl, g⟩ := C84_run h he
  rw [List.append_assoc]
  exact g _

end

/-! ### A concrete case -/

section
attribute [local instance] x86_64
open Ex

/-- The run of a program that prints; the last choices are not used, and other ones give the same run. -/
example (r : List (Choice (AllocId × Unit))) : run (BasicMem Unit Unit) (F := Unit) 3 printProg ([.int 16, .int 32, .int 0, .int 0, .int 0] ++ r) =
    some (.machineStop, [.int (-120), .bool true, .int 0], []) :=
  C84_more (by decide +kernel) (by decide) r

/-- If the choices end too early or are impossible, the execution stops there, but with other ones it goes on. -/
example : run (BasicMem Unit Unit) (F := Unit) 3 printProg [.int 16, .int 32, .int 0] = some (.noBehavior, [.int (-120), .bool true], []) := by
  decide +kernel

/-- A reachable state after two steps, with one choice used since the machine was set up for each of them. -/
example : ∃ s : Machine (BasicMem Unit Unit) (AllocId × Unit) Unit, Reachable printProg s ∧ s.oracle = [.int 7, .int 0] ∧ s.stdout ≠ [] := by
  obtain ⟨s, h, hs⟩ := reachable_of_observe (M := BasicMem Unit Unit) (F := Unit) (prog := printProg)
    (oracle := [.int 16, .int 32, .int 0, .int 0, .int 0]) (n := 2) (a := true) (f := fun s => .ok (decide (s.stdout ≠ []))) (by decide +kernel)
  injection hs with hs
  exact ⟨_, C84_reachable h [.int 7, .int 0], rfl, of_decide_eq_true hs⟩
end
end MiniRust
