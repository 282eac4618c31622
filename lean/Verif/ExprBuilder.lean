import Verif.TypeConv
import Verif.ProgramBuilder
import Verif.Rvalue
/-
The functions of miniutil that build expressions (`/repo/tooling/miniutil/src/build/expr.rs`), terminators of numbered blocks
(`/repo/tooling/miniutil/src/build/terminator.rs`) and small programs. Functions that only apply a constructor (`load`, `deref`, `field`,
`goto`, ..) are that constructor. A type parameter with `TypeConv` is a `ConvTy`.
-/
namespace MiniRust

section
variable [T : Target]

/-- `const_int` and `const_int_typed`, `/repo/tooling/miniutil/src/build/expr.rs:5-10`. -/
def mkConstInt (t : ConvTy) (i : Int) : Res ValueExpr := do .ok (.constant (.int i) (← t.getType))

/-- `const_bool`, `/repo/tooling/miniutil/src/build/expr.rs:12-14`. -/
def mkConstBool (b : Bool) : ValueExpr := .constant (.bool b) .bool

/-- `tuple`, `/repo/tooling/miniutil/src/build/expr.rs:16-23`. -/
def mkTuple (args : List ValueExpr) (ty : Ty) : Res ValueExpr := do
  match ty with
  | .tuple sizedFields _ _ => do
    rassert (sizedFields.length == args.length)
    .ok (.tuple args ty)
  | _ => panic

/-- `array`, `/repo/tooling/miniutil/src/build/expr.rs:25-28`, with `array_ty`, `/repo/tooling/miniutil/src/build/ty.rs:90-92`. -/
def mkArray (args : List ValueExpr) (elem : Ty) : ValueExpr := .tuple args (.array elem args.length)

/-- `unit`, `/repo/tooling/miniutil/src/build/expr.rs:38-41`. -/
def mkUnit : ValueExpr := .tuple [] unitTy

/-- `null`, `/repo/tooling/miniutil/src/build/expr.rs:43-45`; `<*const ()>::get_type()` is a raw pointer without metadata. -/
def mkNull : ValueExpr := .constant (.pointerWithoutProvenance 0) (.ptr rawVoidPtr)

/-- `addr_of`, `/repo/tooling/miniutil/src/build/expr.rs:51-57`. -/
def mkAddrOf (target : PlaceExpr) : Ty → Res ValueExpr
  | .ptr p => .ok (.addrOf target p)
  | _ => panic

/-- `int_cast`, `/repo/tooling/miniutil/src/build/expr.rs:73-79`. -/
def mkIntCast (t : ConvTy) (v : ValueExpr) : Res ValueExpr := do
  match ← t.getType with
  | .int ity => .ok (.unOp (.cast (.intToInt ity)) v)
  | _ => panic

/-- `ptr_addr`, `/repo/tooling/miniutil/src/build/expr.rs:89-91`. -/
def mkPtrAddr (v : ValueExpr) : ValueExpr := mkTransmute v (.int usizeTy)

/-- `ptr_to_ptr`, `/repo/tooling/miniutil/src/build/expr.rs:93-99`. -/
def mkPtrToPtr (v : ValueExpr) : Ty → Res ValueExpr
  | .ptr p => .ok (mkTransmute v (.ptr p))
  | _ => panic

/-- `bool_to_int`, `/repo/tooling/miniutil/src/build/expr.rs:101-107`. -/
def mkBoolToInt (t : ConvTy) (v : ValueExpr) : Res ValueExpr := do
  let int := mkTransmute v u8Ty
  if (← t.getType) = u8Ty then .ok int else mkIntCast t int

/-- `global` and `global_by_name`, `/repo/tooling/miniutil/src/build/expr.rs:296-304`. -/
def mkGlobal (t : ConvTy) (name : GlobalName) : Res PlaceExpr := do
  .ok (.deref (.constant (.globalPointer ⟨name, 0⟩) (.ptr (.raw .none))) (← t.getType))

/-- `if_`, `/repo/tooling/miniutil/src/build/terminator.rs:324-330`. -/
def mkIf (condition : ValueExpr) (thenBlk elseBlk : BbName) : Res Terminator := do
  .ok (.switch (← mkBoolToInt .u8 condition) [(1, thenBlk)] elseBlk)

end

/-- `small_program`, `/repo/tooling/miniutil/src/build/mod.rs:473-478`. -/
def smallProgram (locals : List Ty) (statements : List Statement) : Res Program := do
  let f ← functionOf false 0 locals [⟨statements, .intrinsic .exit [] unitPlace none, .regular⟩]
  .ok (programOf [f] [])

end MiniRust
