import Verif.Mir
/-
Model of `/repo/tooling/minimize/src/rvalue.rs` and of the expressions of `/repo/tooling/miniutil/src/build/expr.rs` it uses:
translating the rvalues, operands and places of MIR.

Simplifications: the types that rustc computes for operands, places and rvalues come translated (`ty.rs` and `enums.rs` are
modelled in `RsTypes.lean` and `Enums.lean`), constants too; functions, vtables and traits come with the names they get;
everything that ends in `span_bug!`, `panic!` or `unreachable!` is a panic.
-/
namespace MiniRust

/-! ### MIR -/

/-- `smir::ProjectionElem`, `/repo/tooling/minimize/src/rvalue.rs:409-443`. -/
inductive RsProj
  | field (f : Nat)
  /-- the type of what the pointer points to -/
  | deref (ty : Ty)
  | index (l : Nat)
  /-- the discriminant of the variant -/
  | downcast (discriminant : Int)
  /-- `ConstantIndex`, `Subslice`, `OpaqueCast` -/
  | unsupported

/-- `smir::Place`. -/
structure RsPlace where
  base : Nat
  projections : List RsProj

/-- `smir::Operand`, `/repo/tooling/minimize/src/rvalue.rs:377-395`; whether checks are enabled is known. -/
inductive RsOperand
  | const (v : ValueExpr)
  | copy (p : RsPlace)
  | move (p : RsPlace)
  | runtimeChecks (enabled : Bool)

/-- `smir::BinOp`, `/repo/tooling/minimize/src/rvalue.rs:20-71`. -/
inductive RsBinOp
  | add | addUnchecked | sub | subUnchecked | mul | mulUnchecked | div | rem
  | bitXor | bitAnd | bitOr | shl | shlUnchecked | shr | shrUnchecked
  | eq | lt | le | ne | ge | gt | cmp | offset
  deriving DecidableEq, Repr

/-- `smir::UnOp`, `/repo/tooling/minimize/src/rvalue.rs:94-99`. -/
inductive RsUnOp
  | not | neg | ptrMetadata
  deriving DecidableEq, Repr

/-- What is known about an unsizing coercion, `/repo/tooling/minimize/src/rvalue.rs:284-323`. -/
inductive RsUnsize
  | arrayToSlice (sameElem : Bool) (count : Nat)
  | dynToDyn (same : Bool)
  | toDyn (vtable : VTableName) (trait : TraitName)
  | other

/-- `smir::Rvalue`, `/repo/tooling/minimize/src/rvalue.rs:9-369`. -/
inductive RsRvalue
  | use (operand : RsOperand)
  /-- For `Offset`: the size of the pointee. -/
  | binary (op : RsBinOp) (lTy rTy : Ty) (pointeeSize : Nat) (l r : RsOperand)
  | checkedBinary (op : RsBinOp) (l r : RsOperand)
  | unary (op : RsUnOp) (ty : Ty) (operand : RsOperand)
  | ref (mutbl : Mutability) (pointee : PointeeInfo) (place : RsPlace)
  | addressOf (metaKind : MetaKind) (place : RsPlace)
  /-- the active field of a union, the discriminant of the variant of an enum -/
  | aggregate (ty : Ty) (activeField : Option Nat) (discriminant : Option Int) (operands : List RsOperand)
  | copyForDeref (place : RsPlace)
  /-- the type of the place -/
  | len (ty : Ty) (place : RsPlace)
  | discriminant (place : RsPlace)
  | repeat (operand : RsOperand) (elemTy : Ty) (count : Nat)
  | intToInt (operandTy castTy : Ty) (operand : RsOperand)
  | ptrToPtr (operandTy castTy : Ty) (operand : RsOperand)
  | unsize (kind : RsUnsize) (castTy : Ty) (operand : RsOperand)
  /-- `Transmute`, `FnPtrToPtr`, `UnsafeFnPointer` -/
  | transmute (castTy : Ty) (operand : RsOperand)
  | reifyFnPointer (f : FnName)
  | unsupported

/-! ### Building expressions -/

/-- `int_binop`, `/repo/tooling/miniutil/src/build/expr.rs:141-192`. -/
def mkInt (op : IntBinOp) (l r : ValueExpr) : ValueExpr := .binOp (.int op) l r

/-- `rel_op` and `cmp`, `/repo/tooling/miniutil/src/build/expr.rs:212-241`. -/
def mkRel (op : RelOp) (l r : ValueExpr) : ValueExpr := .binOp (.rel op) l r

/-- `bool_and`, `bool_or`, `bool_xor`, `/repo/tooling/miniutil/src/build/expr.rs:243-254`. -/
def mkBool (op : IntBinOp) (l r : ValueExpr) : ValueExpr :=
  mkTransmute (mkInt op (FnBuilder.boolToInt l) (FnBuilder.boolToInt r)) .bool

/-- `construct_wide_pointer`, `/repo/tooling/miniutil/src/build/expr.rs:127-139`. -/
def mkWide (ptr metadata : ValueExpr) : Ty → Res ValueExpr
  | .ptr p => .ok (.binOp (.constructWidePointer p) ptr metadata)
  | _ => panic

/-- `const_int_typed::<usize>`, `/repo/tooling/miniutil/src/build/expr.rs:8-10`. -/
def mkUsize [Target] (n : Int) : ValueExpr := .constant (.int n) (.int usizeTy)

/-- `const_vtable`, `/repo/tooling/miniutil/src/build/expr.rs:307-312`. -/
def mkVTable (v : VTableName) (t : TraitName) : ValueExpr := .constant (.vtablePointer v) (.ptr (.vtablePtr t))

/-- What rustc says about `core::cmp::Ordering` (`ty_ordering_enum`): an `i8` with the values -1, 0, 1, all of them used as
tags, where the tag is the discriminant. -/
def orderingEnum : RsEnum where
  size := 1
  align := Align.one
  discriminantTy := ⟨.signed, 1⟩
  variants := [⟨255, []⟩, ⟨0, []⟩, ⟨1, []⟩]
  layout := .multiple ⟨.signed, 1⟩ (255, 1) .direct 0

/-- `translate_ty(ty_ordering_enum(..))`, `/repo/tooling/minimize/src/rvalue.rs:64-65`. -/
def orderingTy : Res Ty := translateEnum orderingEnum

/-! ### The translation -/

/-- `self.local_name_map[..]`, `/repo/tooling/minimize/src/rvalue.rs:403, 424`: there are `n` locals, named by their numbers. -/
def localNameOf (n l : Nat) : Res LocalName := if l < n then .ok l else panic

/-- A step of the fold, `/repo/tooling/minimize/src/rvalue.rs:409-443`. -/
def RsProj.translate (n : Nat) (expr : PlaceExpr) : RsProj → Res PlaceExpr
  | .field f => .ok (.field expr f)
  | .deref ty => .ok (.deref (.load expr) ty)
  | .index l => do
    let i ← localNameOf n l
    .ok (.index expr (.load (.local i)))
  | .downcast d => .ok (.downcast expr d)
  | .unsupported => panic

/-- The fold over the projections, `/repo/tooling/minimize/src/rvalue.rs:406-445`. -/
def RsProj.fold (n : Nat) (expr : PlaceExpr) : List RsProj → Res PlaceExpr
  | [] => .ok expr
  | p :: ps => do
    let expr ← p.translate n expr
    RsProj.fold n expr ps

/-- `translate_place_smir`, `/repo/tooling/minimize/src/rvalue.rs:401-447`. -/
def RsPlace.translate (n : Nat) (p : RsPlace) : Res PlaceExpr := do
  let l ← localNameOf n p.base
  RsProj.fold n (.local l) p.projections

/-- `translate_operand_smir`, `/repo/tooling/minimize/src/rvalue.rs:377-395`. -/
def RsOperand.translate (n : Nat) : RsOperand → Res ValueExpr
  | .const v => .ok v
  | .copy p => do
    let p ← p.translate n
    .ok (.load p)
  | .move p => do
    let p ← p.translate n
    .ok (.load p)
  | .runtimeChecks b => .ok (.constant (.bool b) .bool)

/-- `operands.iter().map(|x| self.translate_operand_smir(x, span)).collect()`. -/
def RsOperand.translateAll (n : Nat) : List RsOperand → Res (List ValueExpr)
  | [] => .ok []
  | o :: os => do
    let e ← o.translate n
    let es ← RsOperand.translateAll n os
    .ok (e :: es)

/-- The `match` on the operator and the type of the left operand, `/repo/tooling/minimize/src/rvalue.rs:20-75`. -/
def RsBinOp.translate (lTy rTy : Ty) (pointeeSize : Nat) (l r : ValueExpr) (op : RsBinOp) : Res ValueExpr :=
  match op, lTy with
  | .offset, .ptr _ =>
    .ok (.binOp (.ptrOffset true) l (mkInt .mulUnchecked r (.constant (.int pointeeSize) rTy)))
  | .add, .int _ => .ok (mkInt .add l r)
  | .sub, .int _ => .ok (mkInt .sub l r)
  | .mul, .int _ => .ok (mkInt .mul l r)
  | .div, .int _ => .ok (mkInt .div l r)
  | .rem, .int _ => .ok (mkInt .rem l r)
  | .shl, .int _ => .ok (mkInt .shl l r)
  | .shr, .int _ => .ok (mkInt .shr l r)
  | .bitAnd, .int _ => .ok (mkInt .bitAnd l r)
  | .bitOr, .int _ => .ok (mkInt .bitOr l r)
  | .bitXor, .int _ => .ok (mkInt .bitXor l r)
  | .addUnchecked, .int _ => .ok (mkInt .addUnchecked l r)
  | .subUnchecked, .int _ => .ok (mkInt .subUnchecked l r)
  | .mulUnchecked, .int _ => .ok (mkInt .mulUnchecked l r)
  | .shlUnchecked, .int _ => .ok (mkInt .shlUnchecked l r)
  | .shrUnchecked, .int _ => .ok (mkInt .shrUnchecked l r)
  | .lt, _ => .ok (mkRel .lt l r)
  | .le, _ => .ok (mkRel .le l r)
  | .gt, _ => .ok (mkRel .gt l r)
  | .ge, _ => .ok (mkRel .ge l r)
  | .eq, _ => .ok (mkRel .eq l r)
  | .ne, _ => .ok (mkRel .ne l r)
  | .cmp, _ => do
    let ty ← orderingTy
    .ok (mkTransmute (mkRel .cmp l r) ty)
  | .bitAnd, .bool => .ok (mkBool .bitAnd l r)
  | .bitOr, .bool => .ok (mkBool .bitOr l r)
  | .bitXor, .bool => .ok (mkBool .bitXor l r)
  | _, _ => panic

/-- The operators of `CheckedBinaryOp`, `/repo/tooling/minimize/src/rvalue.rs:81-86`. -/
def RsBinOp.withOverflow : RsBinOp → Res IntBinOpWithOverflow
  | .add => .ok .add
  | .sub => .ok .sub
  | .mul => .ok .mul
  | _ => panic

/-- The `match` on the operator and the type of the operand, `/repo/tooling/minimize/src/rvalue.rs:94-102`. -/
def RsUnOp.translate (ty : Ty) (v : ValueExpr) (op : RsUnOp) : Res ValueExpr :=
  match op, ty with
  | .neg, .int _ => .ok (.unOp (.int .neg) v)
  | .not, .int _ => .ok (.unOp (.int .bitNot) v)
  | .not, .bool => .ok (mkNot v)
  | .ptrMetadata, .ptr _ => .ok (.unOp .getMetadata v)
  | _, _ => panic

/-- `Aggregate`, `/repo/tooling/minimize/src/rvalue.rs:129-184`. -/
def translateAggregate (ty : Ty) (activeField : Option Nat) (discriminant : Option Int) (ops : List ValueExpr) :
    Res ValueExpr :=
  match ty with
  | .union _ _ _ _ =>
    match activeField, ops with
    | some f, [e] => .ok (.union f e ty)
    | _, _ => panic
  | .tuple _ _ _ => .ok (.tuple ops ty)
  | .array _ _ => .ok (.tuple ops ty)
  | .enum variants _ _ _ _ =>
    match discriminant with
    | some d =>
      match Map.get? variants d with
      | some v => .ok (.variant d (.tuple ops v.1) ty)
      | none => panic
    | none => panic
  | .ptr (.raw _) =>
    match ops with
    | [ptr, metadata] => mkWide ptr metadata ty
    | _ => panic
  | _ => panic

/-- `Len`, `/repo/tooling/minimize/src/rvalue.rs:188-204`. -/
def translateLen [Target] (n : Nat) (place : RsPlace) : Ty → Res ValueExpr
  | .array _ count => .ok (mkUsize count)
  | .slice _ => do
    let p ← place.translate n
    .ok (.unOp .getMetadata (.addrOf p (.raw .elementCount)))
  | _ => panic

/-- `IntToInt`, `/repo/tooling/minimize/src/rvalue.rs:224-246`. -/
def translateIntToInt (operandTy castTy : Ty) (v : ValueExpr) : Res ValueExpr :=
  match castTy with
  | .int ity =>
    match operandTy with
    | .int _ => .ok (.unOp (.cast (.intToInt ity)) v)
    | .bool => .ok (.unOp (.cast (.intToInt ity)) (mkTransmute v u8Ty))
    | _ => panic
  | _ => panic

/-- `PtrToPtr`, `/repo/tooling/minimize/src/rvalue.rs:248-272`. -/
def translatePtrToPtr (operandTy castTy : Ty) (v : ValueExpr) : Res ValueExpr :=
  match operandTy, castTy with
  | .ptr (.raw oldKind), .ptr (.raw newKind) =>
    if oldKind = newKind then .ok v
    else if newKind = .none then .ok (.unOp .getThinPointer v)
    else panic
  | _, _ => panic

/-- `Unsize`, `/repo/tooling/minimize/src/rvalue.rs:273-324`. -/
def translateUnsize [Target] (castTy : Ty) (v : ValueExpr) : RsUnsize → Res ValueExpr
  | .arrayToSlice sameElem count => do
    rassert sameElem
    mkWide v (mkUsize count) castTy
  | .dynToDyn same => if same then .ok v else panic
  | .toDyn vtable t => mkWide v (mkVTable vtable t) castTy
  | .other => panic

/-- `translate_rvalue_smir`, `/repo/tooling/minimize/src/rvalue.rs:8-371`. -/
def RsRvalue.translate [Target] (n : Nat) : RsRvalue → Res ValueExpr
  | .use o => o.translate n
  | .binary op lTy rTy size l r => do
    let l ← l.translate n
    let r ← r.translate n
    op.translate lTy rTy size l r
  | .checkedBinary op l r => do
    let l ← l.translate n
    let r ← r.translate n
    let op ← op.withOverflow
    .ok (.binOp (.intWithOverflow op) l r)
  | .unary op ty o => do
    let v ← o.translate n
    op.translate ty v
  | .ref mutbl pointee p => do
    let p ← p.translate n
    .ok (.addrOf p (.ref mutbl pointee))
  | .addressOf k p => do
    let p ← p.translate n
    .ok (.addrOf p (.raw k))
  | .aggregate ty f d os => do
    let ops ← RsOperand.translateAll n os
    translateAggregate ty f d ops
  | .copyForDeref p => do
    let p ← p.translate n
    .ok (.load p)
  | .len ty p => translateLen n p ty
  | .discriminant p => do
    let p ← p.translate n
    .ok (.getDiscriminant p)
  | .repeat o elemTy count => do
    let v ← o.translate n
    .ok (.tuple (List.replicate count v) (.array elemTy count))
  | .intToInt operandTy castTy o => do
    let v ← o.translate n
    translateIntToInt operandTy castTy v
  | .ptrToPtr operandTy castTy o => do
    let v ← o.translate n
    translatePtrToPtr operandTy castTy v
  | .unsize kind castTy o => do
    let v ← o.translate n
    translateUnsize castTy v kind
  | .transmute castTy o => do
    let v ← o.translate n
    .ok (mkTransmute v castTy)
  | .reifyFnPointer f => .ok (mkFnPtr f)
  | .unsupported => panic

end MiniRust
