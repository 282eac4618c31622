import Verif.Step
import Verif.TreeBorrows
import Mathlib.Data.Nat.Digits.Defs
/-
How programs are run: `/repo/tooling/miniutil/src/run.rs`, `mock_write.rs`, `cli.rs`, and `/repo/tooling/minirun/src/main.rs`.
-/
namespace MiniRust

/-! ### Printing -/

/-- `write!(stream, "{}", i)` for a natural number, `/repo/spec/lang/step/intrinsics.md:191`: in decimal. -/
def natText (n : Nat) : List Char := if n = 0 then ['0'] else (Nat.digits 10 n).reverse.map Nat.digitChar

/-- `write!(stream, "{}", i)` for an integer, `/repo/spec/lang/step/intrinsics.md:191`: libspecr prints the big integer in decimal. -/
def intText (i : Int) : List Char := if i < 0 then '-' :: natText i.natAbs else natText i.natAbs

/-- `/repo/spec/lang/step/intrinsics.md:190-194`: how a value is printed, without the end of the line. -/
def Printed.text : Printed → List Char
  | .int i => intText i
  | .bool true => ['t', 'r', 'u', 'e']
  | .bool false => ['f', 'a', 'l', 's', 'e']

/-- `/repo/spec/lang/step/intrinsics.md:189-195`, `/repo/tooling/miniutil/src/mock_write.rs:30-34`: what a stream has received when these values
have been printed. Characters stand for their UTF-8 encoding. -/
def streamText (out : List Printed) : List Char := out.flatMap fun p => p.text ++ ['\n']

/-- `str::lines`, as used in `/repo/tooling/miniutil/src/mock_write.rs:24`. -/
def lines : List Char → List (List Char)
  | [] => []
  | '\n' :: cs => [] :: lines cs
  | '\r' :: '\n' :: cs => [] :: lines cs
  | c :: cs => match lines cs with
    | [] => [[c]]
    | l :: ls => (c :: l) :: ls

section
variable {M P F : Type} [Memory M P F] [DecidableEq P] [Target]

/-! ### Running -/

/-- The loop in `run`, `/repo/tooling/miniutil/src/run.rs:42-47`, with a bound on the number of iterations: `none` if it has not ended. The result also
has the last state. What a step that fails prints before failing is not modelled. Dropping what is unreachable (`mark_and_sweep`) has no effect
that can be observed. -/
def runLoop : Nat → Machine M P F → Option (Err × Machine M P F)
  | 0, _ => none
  | n + 1, s => match step s with
    | .ok ((), s') => runLoop n s'
    | .error e => some (e, s)

/-- `run`, `/repo/tooling/miniutil/src/run.rs:34-51`: how the program ends, and what it printed to stdout and stderr. -/
def run (M : Type) {P F : Type} [Memory M P F] [DecidableEq P] (fuel : Nat) (prog : Program) (oracle : List (Choice P)) :
    Option (Err × List Printed × List Printed) :=
  match (Machine.new prog oracle : Res (Machine M P F)) with
  | .error e => some (e, [], [])
  | .ok s => match runLoop fuel s with
    | none => none
    | some (e, s') => some (e, s'.stdout, s'.stderr)

/-- `run_program`, `/repo/tooling/miniutil/src/run.rs:5-14`: how the program ends, and the text that has been forwarded to stdout of the host. -/
def runProgram (M : Type) {P F : Type} [Memory M P F] [DecidableEq P] (fuel : Nat) (prog : Program) (oracle : List (Choice P)) :
    Option (Err × List Char) :=
  match run M fuel prog oracle with
  | none => none
  | some (e, out, _) => some (e, streamText out)

/-- `get_stdout`, `/repo/tooling/miniutil/src/run.rs:18-29`. -/
def getStdout (M : Type) {P F : Type} [Memory M P F] [DecidableEq P] (fuel : Nat) (prog : Program) (oracle : List (Choice P)) :
    Option (Except Err (List (List Char))) :=
  match run M fuel prog oracle with
  | none => none
  | some (.machineStop, out, _) => some (.ok (lines (streamText out)))
  | some (e, _, _) => some (.error e)

/-! ### The command line -/

/-- `"--minirust-"`, `/repo/tooling/miniutil/src/cli.rs:31`. -/
def flagPrefix : String := "--minirust-"

/-- `MinirustMachineConfig::consume_arg`, `/repo/tooling/miniutil/src/cli.rs:30-39`: `none` if the process exits because of an unknown flag; otherwise whether
the argument was a flag, and the new value of `tree_borrows`. -/
def consumeArg (treeBorrows : Bool) (arg : List Char) : Option (Bool × Bool) :=
  if flagPrefix.toList.isPrefixOf arg then
    if arg.drop flagPrefix.toList.length = "tree-borrows".toList then some (true, true) else none
  else some (false, treeBorrows)

/-- `extract_if`, `/repo/tooling/minirun/src/main.rs:9`: consumes the flags and keeps the other arguments. -/
def consumeArgs : Bool → List (List Char) → Option (Bool × List (List Char))
  | treeBorrows, [] => some (treeBorrows, [])
  | treeBorrows, arg :: args => match consumeArg treeBorrows arg with
    | none => none
    | some (isFlag, treeBorrows) => match consumeArgs treeBorrows args with
      | none => none
      | some (treeBorrows, files) => some (treeBorrows, if isFlag then files else arg :: files)

/-- `show_error`, `/repo/tooling/miniutil/src/cli.rs:8-11`: the exit code. Rust panics end a process with the same one. -/
def errorCode : Nat := 101

/-- `MinirustMachineConfig::run_prog_and_print_errors`, `/repo/tooling/miniutil/src/cli.rs:53-67`: the exit code, 0 if it returns. -/
def exitCode : Err → Nat
  | .machineStop => 0
  | _ => errorCode

/-- `main` of minirun, `/repo/tooling/minirun/src/main.rs:5-19`, with `run_prog`, `/repo/tooling/miniutil/src/cli.rs:42-48`: exit code and text on stdout. Parsing the program from a
file (`some name`) or from stdin (`none`) is a parameter; it gives nothing if it panics. The choices that the machine makes are the
parameters `basic` and `tree`. -/
def minirun (fuel : Nat) (load : Option (List Char) → Option Program) (basic : List (Choice (AllocId × Unit)))
    (tree : List (Choice TBProv)) (args : List (List Char)) : Option (Nat × List Char) :=
  match consumeArgs false args with
  | none => some (errorCode, [])
  | some (treeBorrows, files) =>
    match (match files with | [] => load none | [f] => load (some f) | _ :: _ :: _ => none) with
    | none => some (errorCode, [])
    | some prog =>
      match (if treeBorrows then runProgram TBMem fuel prog tree else runProgram (BasicMem Unit Unit) fuel prog basic) with
      | none => none
      | some (e, out) => some (exitCode e, out)

end
end MiniRust
