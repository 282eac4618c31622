import Verif.Spec.Footprint
import Verif.Spec.Threads
/-
Runs of steps that threads make on their own, and which of these steps depend on each other.
-/
namespace MiniRust

/-- One step of a run: the thread that made it and the accesses it made. -/
structure StepOf where
  thread : Nat
  accesses : List Access

/-- The choices that schedule the threads of these steps, one after the other. -/
def choices (P : Type) (threads : List Nat) : List (Choice P) := threads.map fun t : Nat => Choice.int (t : Int)

section
variable [T : Target] {M P F : Type} [Memory M P F] [DecidableEq P]

/-- The machine makes these steps; each one is chosen by the next scheduling choice and is one that a thread makes on its own. -/
inductive LocalRun : Machine M P F → List StepOf → Machine M P F → Prop
  | nil (s) : LocalRun s [] s
  | cons {s s1 s' : Machine M P F} {a : Nat} {rest run} (ho : s.oracle = .int a :: rest) (hl : s.NextLocal a)
      (hs : step s = .ok ((), s1)) (hr : LocalRun s1 run s') : LocalRun s (⟨a, s1.mem.accesses⟩ :: run) s'
end

/-- Two steps depend on each other: they are steps of the same thread, or one writes what the other one reads or writes. -/
def StepOf.Dependent (e f : StepOf) : Prop := e.thread = f.thread ∨ ¬ Independent e.accesses f.accesses

/-- Step `i` of the run comes before step `j` in every run that keeps the order of dependent steps. -/
inductive Before (run : List StepOf) : Nat → Nat → Prop
  | dep {i j : Nat} {e f : StepOf} (hij : i < j) (hi : run[i]? = some e) (hj : run[j]? = some f) (hd : e.Dependent f) : Before run i j
  | trans {i j k : Nat} : Before run i j → Before run j k → Before run i k

end MiniRust
