import Verif.Spec.Recode
import Verif.Spec.Init
import Verif.Spec.Builder
import Mathlib.Logic.Relation
/-
Programs without loops and recursion.
-/
namespace MiniRust

/-- In `f`, control can go from the end of block `b` to block `c`. -/
def Function.Jump (f : Function) (b c : BbName) : Prop := ∃ bb, f.blocks.get? b = some bb ∧ bb.terminator.Target c

/-- No block that can be reached from the start of the function can be reached again from itself. -/
def Function.LoopFree (f : Function) : Prop := ∀ b, f.Reaches b → ¬ Relation.TransGen f.Jump b b

/-- The expression for the function that the terminator calls, or starts in a new thread. -/
def Terminator.callee : Terminator → Option ValueExpr
  | .call c _ _ _ _ _ => some c
  | .intrinsic .spawn (c :: _) _ _ => some c
  | _ => none

/-- Some block of the function calls the function `g`, or starts it in a new thread, by its name. -/
def Function.CallsTo (f : Function) (g : FnName) : Prop :=
  ∃ b bb ty, f.blocks.get? b = some bb ∧ bb.terminator.callee = some (.constant (.fnPointer g) ty)

/-- The function with the first name calls the one with the second. -/
def Program.Calls (prog : Program) (f g : FnName) : Prop := ∃ fn, prog.functions.get? f = some fn ∧ fn.CallsTo g

/-- No function calls itself, directly or through other functions. -/
def Program.NoRecursion (prog : Program) : Prop := ∀ f, ¬ Relation.TransGen prog.Calls f f

/-- Functions are called and started in threads only by their names. -/
def Program.DirectCalls (prog : Program) : Prop :=
  ∀ name fn b bb c, prog.functions.get? name = some fn → fn.blocks.get? b = some bb → bb.terminator.callee = some c →
    ∃ g ty, c = .constant (.fnPointer g) ty

/-- A program without loops and recursion, in which functions are only called by their names. -/
structure Program.Straight (prog : Program) : Prop where
  keys : prog.KeysUnique
  loops : ∀ name f, prog.functions.get? name = some f → f.LoopFree
  direct : prog.DirectCalls
  recursion : prog.NoRecursion

mutual
/-- The structured program does not use `while_`. -/
def Code.NoWhile : Code → Prop
  | .nil => True
  | .stmt _ rest | .op _ _ _ rest | .halt _ _ _ rest | .unreachable rest | .ret rest | .resume rest | .callNoret _ _ _ rest
  | .callNounwind _ _ _ rest | .stop rest => rest.NoWhile
  | .call _ _ handler rest | .tryCall _ handler rest | .startUnwind _ _ handler rest | .tryUnwind _ handler rest => handler.NoWhile ∧ rest.NoWhile
  | .switch _ cases fallback rest => cases.NoWhile ∧ fallback.NoWhile ∧ rest.NoWhile
  | .while_ _ _ _ => False
def Cases.NoWhile : Cases → Prop
  | .nil => True
  | .cons _ body rest => body.NoWhile ∧ rest.NoWhile
end

end MiniRust
