import Verif.Spec.Run
import Verif.Minitest
import Verif.Spec.Threads
/-
What tests say about programs: how an execution ends.
-/
namespace MiniRust

section
variable {M P F : Type} [T : Target] [DecidableEq P] [Memory M P F]

/-- The next step of the machine is in a data race with the step before it: the thread that is scheduled can make its step, which is neither
of the same thread as the step before nor has it been synchronized with it, and one of its accesses conflicts with one of the step before. -/
def Machine.AtRace (s : Machine M P F) : Prop :=
  ∃ (i : Nat) (rest : List (Choice P)) (s1 : Machine M P F), s.oracle = .int i :: rest ∧ s.threadState i = some .enabled ∧
    execStep (s.schedule i rest) = .ok ((), s1) ∧ i ≠ s.activeThread ∧ i ∉ s.synchronizedThreads ∧
    ∃ a ∈ s1.mem.accesses, ∃ b ∈ s.mem.accesses, a.races b = true

/-- With these choices, the program gets to a data race. -/
def EndsInRace (M : Type) {P F : Type} [DecidableEq P] [Memory M P F] (prog : Program) (oracle : List (Choice P)) : Prop :=
  ∃ s : Machine M P F, Exec prog oracle s ∧ s.AtRace

/-- With these choices, the program ends for the reason `e`, which is not a data race. -/
def EndsOtherwise (M : Type) {P F : Type} [DecidableEq P] [Memory M P F] (prog : Program) (oracle : List (Choice P)) (e : Err) : Prop :=
  (Machine.new prog oracle : Res (Machine M P F)) = .error e ∨
    ∃ s : Machine M P F, Exec prog oracle s ∧ step s = .error e ∧ ¬ s.AtRace

/-- With these choices, the program ends in the way that is expected. -/
def EndsAs (M : Type) {P F : Type} [DecidableEq P] [Memory M P F] (prog : Program) (oracle : List (Choice P)) : TestOutcome → Prop
  | .dataRace => EndsInRace M (F := F) prog oracle
  | .other e => EndsOtherwise M (F := F) prog oracle e

end
end MiniRust
