import Verif.Step
/-
Changing the code of a program: renaming the basic blocks, and replacing the ones that are not used.
-/
namespace MiniRust

/-- The terminator with its targets renamed. -/
def Terminator.rename (σ : BbName → BbName) : Terminator → Terminator
  | .goto b => .goto (σ b)
  | .switch v cases fallback => .switch v (cases.map fun c => (c.1, σ c.2)) (σ fallback)
  | .unreachable => .unreachable
  | .intrinsic op args ret next => .intrinsic op args ret (next.map σ)
  | .call callee conv args ret next unwind => .call callee conv args ret (next.map σ) (unwind.map σ)
  | .return => .return
  | .startUnwind payload b => .startUnwind payload (σ b)
  | .stopUnwind b => .stopUnwind (σ b)
  | .resumeUnwind => .resumeUnwind

/-- The blocks to which control goes from a terminator, within the function. -/
inductive Terminator.Target : Terminator → BbName → Prop
  | goto {b} : Target (.goto b) b
  | case {v fallback b} {cases : Map Int BbName} {i} : cases.get? i = some b → Target (.switch v cases fallback) b
  | fallback {v cases b} : Target (.switch v cases b) b
  | intrinsic {op args ret b} : Target (.intrinsic op args ret (some b)) b
  | next {callee conv args ret b unwind} : Target (.call callee conv args ret (some b) unwind) b
  | unwind {callee conv args ret next b} : Target (.call callee conv args ret next (some b)) b
  | startUnwind {payload b} : Target (.startUnwind payload b) b
  | stopUnwind {b} : Target (.stopUnwind b) b

/-- The blocks that can be reached from the start of the function by following terminators. -/
inductive Function.Reaches (f : Function) : BbName → Prop
  | start : Reaches f f.start
  | step {b bb c} : Reaches f b → f.blocks.get? b = some bb → bb.terminator.Target c → Reaches f c

/-- `f'` has the signature and the locals of `f`. Its blocks have other names, given by `σ`; blocks that are not in `V` may be missing,
or be any other ones. -/
structure Function.Recoded (V : Function → BbName → Prop) (σ : BbName → BbName) (f f' : Function) : Prop where
  locals : f'.locals = f.locals
  args : f'.args = f.args
  ret : f'.ret = f.ret
  callingConvention : f'.callingConvention = f.callingConvention
  start : f'.start = σ f.start
  blocks : ∀ b, V f b → f'.blocks.get? (σ b) = (f.blocks.get? b).map fun bb => { bb with terminator := bb.terminator.rename σ }

/-- The same for every function of a program. Everything else is the same. -/
structure Program.Recoded (V : Function → BbName → Prop) (σ : BbName → BbName) (p p' : Program) : Prop where
  functions : List.Forall₂ (fun x y => y.1 = x.1 ∧ Function.Recoded V σ x.2 y.2) p.functions p'.functions
  start : p'.start = p.start
  globals : p'.globals = p.globals
  traits : p'.traits = p.traits
  vtables : p'.vtables = p.vtables

/-- The function with its blocks renamed. -/
def Function.renameBlocks (σ : BbName → BbName) (f : Function) : Function :=
  { f with
    start := σ f.start
    blocks := f.blocks.map fun x => (σ x.1, { x.2 with terminator := x.2.terminator.rename σ }) }

/-- The program with the blocks of its functions renamed, by a function that may be another one for each function of the program. -/
def Program.renameBlocks (τ : FnName → BbName → BbName) (p : Program) : Program :=
  { p with functions := p.functions.map fun x => (x.1, x.2.renameBlocks (τ x.1)) }

/-- Every thread that has not terminated is in a block in `V`. -/
def Machine.InBlocks {M P F : Type} (V : Function → BbName → Prop) (s : Machine M P F) : Prop :=
  ∀ th ∈ s.threads, ∀ fr rest, th.stack = fr :: rest → V fr.func fr.nextBlock

end MiniRust
