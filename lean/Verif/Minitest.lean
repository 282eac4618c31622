import Verif.Run
import Verif.ProgramBuilder
import Verif.Mir
/-
The helpers of minitest (`/repo/tooling/minitest/src/lib.rs`) with which tests say how programs end.

The random choices that the attempts of a helper make come from lists, one for each attempt. Messages of undefined behavior are not modelled,
except that data races are told apart: this is the undefined behavior with the message "Data race"
(`/repo/spec/mem/concurrent.md:144`). Attempts may take at most `fuel` steps: `none` means that one of them has not ended by then.
-/
namespace MiniRust

/-- `TerminationInfo`, as far as tests tell them apart. -/
inductive TestOutcome
  /-- undefined behavior with the message "Data race" -/
  | dataRace
  | other (e : Err)
  deriving DecidableEq, Repr

section
variable {M P F : Type} [Memory M P F] [DecidableEq P] [Target]

/-- In a step that fails: is it the check for data races that fails? This is the last part of a step
(`/repo/spec/lang/machine.md:197-239`). -/
def Machine.failsInRaceCheck (s : Machine M P F) : Bool :=
  s.anyEnabled && match (do let _ ← resetDataRaceTracking; pickThread; execStep : EM M P F Unit) s with
    | .ok _ => true
    | .error _ => false

/-- `run_program`, `/repo/tooling/miniutil/src/run.rs:5-14`, as minitest uses it. -/
def runOutcome (M : Type) {P F : Type} [Memory M P F] [DecidableEq P] (fuel : Nat) (prog : Program) (oracle : List (Choice P)) : Option TestOutcome :=
  match (Machine.new prog oracle : Res (Machine M P F)) with
  | .error e => some (.other e)
  | .ok s => match runLoop fuel s with
    | none => none
    | some (e, s') => some (if e = .ub ∧ s'.failsInRaceCheck then .dataRace else .other e)

/-- `assert_eq!(run_program(prog), ..)`: `assert_stop`, `assert_abort`, `assert_ub`, `assert_deadlock` and `assert_memory_leak`,
`/repo/tooling/minitest/src/lib.rs:25-27, 37-39, 42-47, 93-95, 98-100`, and `assert_ill_formed`, `:85-90`. -/
def assertOutcome (M : Type) {P F : Type} [Memory M P F] [DecidableEq P] (fuel : Nat) (prog : Program) (expected : TestOutcome)
    (oracle : List (Choice P)) : Option (Res Unit) :=
  match runOutcome M (F := F) fuel prog oracle with
  | none => none
  | some o => some (rassert (decide (o = expected)))

/-- The loop of `assert_stop_always`, `/repo/tooling/minitest/src/lib.rs:31-33`. -/
def stopLoop (M : Type) {P F : Type} [Memory M P F] [DecidableEq P] (fuel : Nat) (prog : Program) : List (List (Choice P)) → Option (Res Unit)
  | [] => some (.ok ())
  | o :: os => match assertOutcome M (F := F) fuel prog (.other .machineStop) o with
    | some (.ok ()) => stopLoop M (F := F) fuel prog os
    | r => r

/-- `assert_stop_always`, `/repo/tooling/minitest/src/lib.rs:30-34`. -/
def assertStopAlways (M : Type) {P F : Type} [Memory M P F] [DecidableEq P] (fuel : Nat) (prog : Program) (attempts : Nat)
    (runs : Nat → List (Choice P)) : Option (Res Unit) :=
  stopLoop M (F := F) fuel prog ((List.range attempts).map runs)

/-- The loop of `assert_ub_eventually`, and what comes after it, `/repo/tooling/minitest/src/lib.rs:52-64`. -/
def ubLoop (M : Type) {P F : Type} [Memory M P F] [DecidableEq P] (fuel : Nat) (prog : Program) (ub : TestOutcome) :
    List (List (Choice P)) → Option (Res Unit)
  | [] => some panic
  | o :: os => match runOutcome M (F := F) fuel prog o with
    | none => none
    | some r =>
      if r = .other .machineStop then ubLoop M (F := F) fuel prog ub os
      else if r = ub then some (.ok ())
      else some panic

/-- `assert_ub_eventually`, `/repo/tooling/minitest/src/lib.rs:50-65`; the expected undefined behavior is a data race or any other. -/
def assertUbEventually (M : Type) {P F : Type} [Memory M P F] [DecidableEq P] (fuel : Nat) (prog : Program) (attempts : Nat)
    (race : Bool) (runs : Nat → List (Choice P)) : Option (Res Unit) :=
  ubLoop M (F := F) fuel prog (if race then .dataRace else .other .ub) ((List.range attempts).map runs)

/-- The loop of `has_data_race`, and what comes after it, `/repo/tooling/minitest/src/lib.rs:108-120`. -/
def dataRaceLoop (M : Type) {P F : Type} [Memory M P F] [DecidableEq P] (fuel : Nat) (prog : Program) : List (List (Choice P)) → Option (Res Bool)
  | [] => some (.ok false)
  | o :: os => match runOutcome M (F := F) fuel prog o with
    | none => none
    | some (.other .machineStop) => dataRaceLoop M (F := F) fuel prog os
    | some .dataRace => some (.ok true)
    | some (.other _) => some panic

/-- `has_data_race`, `/repo/tooling/minitest/src/lib.rs:105-121`. -/
def hasDataRace (M : Type) {P F : Type} [Memory M P F] [DecidableEq P] (fuel : Nat) (prog : Program) (runs : Nat → List (Choice P)) :
    Option (Res Bool) :=
  dataRaceLoop M (F := F) fuel prog ((List.range 32).map runs)

end

/-- The program that `assert_ub_expr` runs, `/repo/tooling/minitest/src/lib.rs:70-80`; `storage_live` and `assign` are
`/repo/tooling/miniutil/src/build/statement.rs:4-6, 24-27`, `exit` is `/repo/tooling/miniutil/src/build/terminator.rs:25-27`. -/
def ubExprProgram [Target] (t : ConvTy) (expr : ValueExpr) : Res Program := do
  let p := ProgBuilder.new
  let ((name, f), p) ← p.declareFunction
  let (l, f) ← f.declareLocal (← t.getType)
  let x ← match l with | .local x => .ok x | _ => panic
  let f ← f.statement (.storageLive x)
  let f ← f.statement (.assign l expr)
  let f ← f.finishBlock (.intrinsic .exit [] unitPlace none)
  let (name, p) ← p.finishFunction name f
  p.finishProgram name

end MiniRust
