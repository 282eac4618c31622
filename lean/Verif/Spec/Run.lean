import Verif.Run
import Verif.Spec.Refine
/-
How a run of a program ends, and how to read what it prints.
-/
namespace MiniRust

section
variable {P F : Type} [DecidableEq P] [T : Target]

/-- With these choices the program ends for the reason `e`, after printing `out` to stdout and `err` to stderr. -/
def Ends (M : Type) [Memory M P F] (prog : Program) (oracle : List (Choice P)) (e : Err) (out err : List Printed) : Prop :=
  ((Machine.new prog oracle : Res (Machine M P F)) = .error e ∧ out = [] ∧ err = []) ∨
  ∃ s : Machine M P F, Exec prog oracle s ∧ step s = .error e ∧ s.stdout = out ∧ s.stderr = err

end

/-- The value of a decimal digit. -/
def readDigit (c : Char) : Option Nat :=
  if '0' ≤ c ∧ c ≤ '9' then some (c.toNat - '0'.toNat) else none

/-- Reads a decimal number, continuing one whose digits so far are `n`. -/
def readDigits (n : Nat) : List Char → Option Nat
  | [] => some n
  | c :: cs => (readDigit c).bind fun d => readDigits (10 * n + d) cs

/-- Reads a printed line. -/
def readLine (cs : List Char) : Option Printed :=
  if cs = "true".toList then some (.bool true)
  else if cs = "false".toList then some (.bool false)
  else match cs with
    | [] => none
    | '-' :: ds => (readDigits 0 ds).map fun n : Nat => .int (-(n : Int))
    | ds => (readDigits 0 ds).map fun n : Nat => .int (n : Int)

/-- The flag that selects Tree Borrows. -/
def treeBorrowsFlag : List Char := "--minirust-tree-borrows".toList

/-- Arguments that are flags of the machine. -/
def IsFlag (arg : List Char) : Prop := ∃ rest, arg = "--minirust-".toList ++ rest

end MiniRust
