import Verif.Step
/-
Vocabulary for the properties about threads, locks and data races (C22-C25).
-/
namespace MiniRust
variable {M P F : Type}

/-- The state of thread `i`; `none` if there is no such thread. -/
def Machine.threadState (s : Machine M P F) (i : Nat) : Option ThreadState := (s.threads[i]?).map (·.state)

/-- Thread `i` is about to execute the terminator `t`. -/
def Machine.AtTerminator (s : Machine M P F) (i : Nat) (t : Terminator) : Prop :=
  ∃ (th : Thread P F) (f : StackFrame P F) (fs : List (StackFrame P F)) (b : BasicBlock),
    s.threads[i]? = some th ∧ th.stack = f :: fs ∧ f.func.blocks.get? f.nextBlock = some b ∧
      f.nextStmt = b.statements.length ∧ t = b.terminator

/-- Thread `i` is about to execute the intrinsic `op`. -/
def Machine.AtIntrinsic (s : Machine M P F) (i : Nat) (op : IntrinsicOp) : Prop :=
  ∃ args ret next, s.AtTerminator i (.intrinsic op args ret next)

/-- The machine in which the chosen thread executes its step: the accesses of the last step are
forgotten and the choice is consumed. -/
def Machine.schedule (s : Machine M P F) (a : Nat) (rest : List (Choice P)) : Machine M P F :=
  { s with activeThread := a, mem := s.mem.resetAccesses.2, oracle := rest }

/-- Two accesses conflict: they share a byte, at least one of them writes, and at least one of them is
not atomic. -/
def Access.Conflict (a b : Access) : Prop :=
  (a.ty = .store ∨ b.ty = .store) ∧ (a.atomicity = .none ∨ b.atomicity = .none) ∧
    ∃ x : Int, (a.addr ≤ x ∧ x < a.addr + a.len) ∧ (b.addr ≤ x ∧ x < b.addr + b.len)

/-- An access of at least one byte. -/
def Access.NonEmpty (a : Access) : Prop := 0 < a.len

end MiniRust
