import Verif.Spec.Threads
import Verif.Spec.Memory
/-
Vocabulary for the properties about control flow, calls, unwinding and the storage of locals
(C35, C36, C46, C49).
-/
namespace MiniRust
variable {M P F : Type}

/-- The frame executes the block `b`. -/
def StackFrame.InBlock (f : StackFrame P F) (b : BasicBlock) : Prop := f.func.blocks.get? f.nextBlock = some b

/-- The frame is about to execute the statement `st`. -/
def StackFrame.AtStmt (f : StackFrame P F) (st : Statement) : Prop :=
  ∃ b, f.InBlock b ∧ b.statements[f.nextStmt]? = some st

/-- The frame is about to execute the terminator `t`. -/
def StackFrame.AtTerm (f : StackFrame P F) (t : Terminator) : Prop :=
  ∃ b, f.InBlock b ∧ f.nextStmt = b.statements.length ∧ t = b.terminator

/-- `f'` is the same activation of the same function as `f`, with the same live locals. -/
structure StackFrame.Same (f f' : StackFrame P F) : Prop where
  func : f'.func = f.func
  locals : f'.locals = f.locals
  action : f'.stackPopAction = f.stackPopAction

/-- `f'` is `f`, at the first statement of block `b`. -/
structure StackFrame.MovedTo (f : StackFrame P F) (b : BbName) (f' : StackFrame P F) : Prop where
  same : f.Same f'
  block : f'.nextBlock = b
  stmt : f'.nextStmt = 0

/-- `f'` is `f`, at the same position. -/
structure StackFrame.Stays (f f' : StackFrame P F) : Prop where
  same : f.Same f'
  block : f'.nextBlock = f.nextBlock
  stmt : f'.nextStmt = f.nextStmt

/-- `f'` is `f` after the statement `st`: one statement further in the same block, and `StorageLive` and
`StorageDead` make their local live and dead. -/
structure StackFrame.AfterStmt (f : StackFrame P F) (st : Statement) (f' : StackFrame P F) : Prop where
  func : f'.func = f.func
  action : f'.stackPopAction = f.stackPopAction
  block : f'.nextBlock = f.nextBlock
  stmt : f'.nextStmt = f.nextStmt + 1
  live : ∀ l, l ∈ f'.locals.keys ↔ st = .storageLive l ∨ (l ∈ f.locals.keys ∧ st ≠ .storageDead l)
  keep : ∀ l, st ≠ .storageLive l → st ≠ .storageDead l → f'.locals.get? l = f.locals.get? l

/-- `g` is a new activation of `fn`: it is at the start of `fn`, and exactly the return local and the
arguments are live. -/
structure StackFrame.Fresh (fn : Function) (g : StackFrame P F) : Prop where
  func : g.func = fn
  block : g.nextBlock = fn.start
  stmt : g.nextStmt = 0
  live : ∀ l, l ∈ g.locals.keys ↔ l = fn.ret ∨ l ∈ fn.args

/-- How the stack of a thread (top frame first) and its pending unwind payloads (innermost first) change in
one step of that thread. -/
inductive StackStep (prog : Program) : List (StackFrame P F) → List (ThinPtr P) → List (StackFrame P F) →
    List (ThinPtr P) → Prop
  | stmt {f f' : StackFrame P F} {rest st pl} : f.AtStmt st → f.AfterStmt st f' → StackStep prog (f :: rest) pl (f' :: rest) pl
  | goto {f f' : StackFrame P F} {rest b pl} : f.AtTerm (.goto b) → f.MovedTo b f' → StackStep prog (f :: rest) pl (f' :: rest) pl
  | switch {f f' : StackFrame P F} {rest v cases fb b pl} : f.AtTerm (.switch v cases fb) → (b = fb ∨ ∃ i, cases.get? i = some b) →
      f.MovedTo b f' → StackStep prog (f :: rest) pl (f' :: rest) pl
  | intrinsic {f f' : StackFrame P F} {rest op as r b pl} : f.AtTerm (.intrinsic op as r (some b)) → f.MovedTo b f' →
      StackStep prog (f :: rest) pl (f' :: rest) pl
  | startUnwind {f f' : StackFrame P F} {rest v b pl x} : f.AtTerm (.startUnwind v b) → f.MovedTo b f' →
      StackStep prog (f :: rest) pl (f' :: rest) (x :: pl)
  | stopUnwind {f f' : StackFrame P F} {rest b pl x} : f.AtTerm (.stopUnwind b) → f.MovedTo b f' →
      StackStep prog (f :: rest) (x :: pl) (f' :: rest) pl
  | call {f f' g : StackFrame P F} {rest c conv as r n u pl name fn} : f.AtTerm (.call c conv as r n u) →
      prog.functions.get? name = some fn → g.Fresh fn → f.Stays f' → StackStep prog (f :: rest) pl (g :: f' :: rest) pl
  | ret {f g g' : StackFrame P F} {rest c conv as r b u pl} : f.AtTerm .return → g.AtTerm (.call c conv as r (some b) u) →
      g.MovedTo b g' → StackStep prog (f :: g :: rest) pl (g' :: rest) pl
  | resume {f g g' : StackFrame P F} {rest c conv as r n b pl} : f.AtTerm .resumeUnwind →
      g.AtTerm (.call c conv as r n (some b)) → g.MovedTo b g' → StackStep prog (f :: g :: rest) pl (g' :: rest) pl
  | finish {f : StackFrame P F} {pl} : f.AtTerm .return → StackStep prog [f] pl [] pl

/-- Each function of the program starts at one of its blocks, and that block is a regular one. The
well-formedness check of the code does not check this, see DESIGN.md. -/
def Program.StartsOk (prog : Program) : Prop :=
  ∀ name f, prog.functions.get? name = some f → ∃ b, f.blocks.get? f.start = some b ∧ b.kind = .regular

/-- The number of frames of the stack that execute a block of kind `k`. -/
def framesIn (k : BbKind) (st : List (StackFrame P F)) : Nat :=
  st.countP fun f => match f.func.blocks.get? f.nextBlock with
    | some b => b.kind == k
    | none => false

/-- After the history, the memory at `p` contains the given bytes. -/
def Contains {PE : Type} (h : MemHistory PE) (p : ThinPtr (AllocId × PE)) (bytes : List (AByte (AllocId × PE))) : Prop :=
  ∀ (k : Nat) b, bytes[k]? = some b → ∃ id i, p.HasId id ∧ LiveIn h id i ∧ lastStored h id (p.addr + (k : Nat)) = b

/-- The next choice schedules thread `a`, which is the enabled thread `t`, to execute the next instruction of its
top frame `f`; below it are the frames `rest`. -/
structure Machine.Runs (s : Machine M P F) (a : Nat) (r : List (Choice P)) (t : Thread P F) (f : StackFrame P F)
    (rest : List (StackFrame P F)) : Prop where
  oracle : s.oracle = .int a :: r
  thread : s.threads[a]? = some t
  enabled : t.state = .enabled
  stack : t.stack = f :: rest

/-- Local `l` of frame number `k` of thread number `i` is live, and `p` points to its storage. -/
def Machine.LocalAt (s : Machine M P F) (i k : Nat) (l : LocalName) (p : ThinPtr P) : Prop :=
  ∃ t f, s.threads[i]? = some t ∧ t.stack[k]? = some f ∧ f.locals.get? l = some p

end MiniRust
