import Verif.WellFormedTypes
import Verif.Operators
/-
Model of the expression, statement, function and program part of `/repo/spec/lang/well-formed.md`
(lines 289-934).
-/
namespace MiniRust

/-- `List` indexing with an `Int`: panics when negative or too large. -/
def indexInt {α : Type} (l : List α) (i : Int) : Res α :=
  if i < 0 then panic else index l i.toNat

/-- `List::get` with an `Int`. -/
def getInt? {α : Type} (l : List α) (i : Int) : Option α :=
  if i < 0 then none else l[i.toNat]?

/-- `throw_ill_formed!`, `/repo/spec/prelude/main.md`. -/
abbrev illFormed {α : Type} : Res α := .error .illFormed

/-- `Relocation::check_wf`, `/repo/spec/lang/well-formed.md:877-888`. -/
def Relocation.checkWf (r : Relocation) (globals : Map GlobalName Global) : Res Unit :=
  match globals.get? r.name with
  | none => illFormed
  | some global => ensureWf (decide (r.offset ≤ global.bytes.length))

/-- `Constant::check_wf`, `/repo/spec/lang/well-formed.md:295-326`. -/
def Constant.checkWf [T : Target] (prog : Program) : Constant → Ty → Res Unit
  | .int i, .int ity => ensureWf (ity.canRepresent i)
  | .bool _, .bool => .ok ()
  | .globalPointer r, .ptr _ => r.checkWf prog.globals
  | .fnPointer f, .ptr p => do
    ensureWf (decide (p = .fnPtr))
    ensureWf (prog.functions.contains f)
  | .vtablePointer v, .ptr p =>
    match prog.vtables.get? v with
    | none => illFormed
    | some vt => ensureWf (decide (p = .vtablePtr vt.traitName))
  | .pointerWithoutProvenance addr, .ptr _ => ensureWf (inBounds .unsigned T.ptrSize addr)
  | _, _ => illFormed

/-- The cast cases of `ValueExpr::check_wf`, `/repo/spec/lang/well-formed.md:426-439`. -/
def CastOp.checkWf [Target] (operand : Ty) : CastOp → Res Ty
  | .intToInt ity =>
    match operand with
    | .int _ => .ok (.int ity)
    | _ => illFormed
  | .transmute newTy => do
    ensureWf (← operand.layout).isSized
    ensureWf (← newTy.layout).isSized
    .ok newTy

/-- The unary operator cases of `ValueExpr::check_wf`, `/repo/spec/lang/well-formed.md:413-471`. -/
def UnOp.checkWf [Target] (prog : Program) (operand : Ty) : UnOp → Res Ty
  | .int op =>
    match operand with
    | .int ity => .ok (.int (op.retTy ity))
    | _ => illFormed
  | .cast op => op.checkWf operand
  | .getThinPointer =>
    match operand with
    | .ptr _ => .ok (.ptr (.raw .none))
    | _ => illFormed
  | .getMetadata =>
    match operand with
    | .ptr p => .ok p.metaKind.ty
    | _ => illFormed
  | .computeSize ty | .computeAlign ty => do
    ty.checkWf prog
    if operand ≠ ty.metaKind.ty then illFormed else .ok (.int IntType.usize)
  | .vtableMethodLookup method =>
    match operand with
    | .ptr (.vtablePtr t) => do
      let methods ← prog.traits.get t
      ensureWf (decide (method ∈ methods))
      .ok (.ptr .fnPtr)
    | _ => illFormed

/-- `matches!(int_op, Shl | Shr | ShlUnchecked | ShrUnchecked)`, `/repo/spec/lang/well-formed.md:488`. -/
def IntBinOp.isShift : IntBinOp → Bool
  | .shl | .shr | .shlUnchecked | .shrUnchecked => true
  | _ => false

/-- The binary operator cases of `ValueExpr::check_wf`, `/repo/spec/lang/well-formed.md:478-550`. -/
def BinOp.checkWf [T : Target] (left right : Ty) : BinOp → Res Ty
  | .int op =>
    match left, right with
    | .int l, .int r => do
      if !op.isShift then ensureWf (l == r)
      .ok (.int l)
    | _, _ => illFormed
  | .intWithOverflow _ =>
    match left with
    | .int ity => do
      ensureWf (decide (right = .int ity))
      ity.withOverflow
    | _ => illFormed
  | .rel op => do
    ensureWf (match left with | .int _ | .bool | .ptr _ => true | _ => false)
    ensureWf (decide (right = left))
    match op with
    | .cmp => .ok (.int IntType.i8)
    | _ => .ok .bool
  | .ptrOffset _ =>
    match left with
    | .ptr p =>
      if p.metaKind ≠ .none then illFormed
      else match right with
        | .int _ => .ok left
        | _ => illFormed
    | _ => illFormed
  | .ptrOffsetFrom _ _ =>
    match left with
    | .ptr l =>
      if l.metaKind ≠ .none then illFormed
      else match right with
        | .ptr r =>
          if r.metaKind ≠ .none then illFormed
          else .ok (.int ⟨.signed, T.ptrSize⟩)
        | _ => illFormed
    | _ => illFormed
  | .constructWidePointer ptrTy =>
    match left with
    | .ptr l =>
      if l.metaKind ≠ .none then illFormed
      else if right ≠ ptrTy.metaKind.ty then illFormed
      else .ok (.ptr ptrTy)
    | _ => illFormed

/-- The type of a place projected to a field, `/repo/spec/lang/well-formed.md:578-599`. -/
def fieldTy (root : Ty) (field : Int) : Res Ty :=
  match root with
  | .tuple sizedFields _ unsizedField =>
    if field ≥ 0 ∧ field < sizedFields.length then do .ok (← indexInt sizedFields field).2
    else if field = sizedFields.length then
      match unsizedField with
      | none => illFormed
      | some ty => .ok ty
    else illFormed
  | .union fields _ _ _ =>
    match getInt? fields field with
    | none => illFormed
    | some f => .ok f.2
  | _ => illFormed

mutual
/-- `ValueExpr::check_wf`, `/repo/spec/lang/well-formed.md:331-553`. -/
def ValueExpr.checkWf [Target] (prog : Program) (locals : Map LocalName Ty) : ValueExpr → Res Ty
  | .constant c ty => do
    ty.checkWf prog
    c.checkWf prog ty
    .ok ty
  | .tuple exprs ty => do
    ty.checkWf prog
    match ty with
    | .tuple sizedFields _ unsizedField => do
      ensureWf unsizedField.isNone
      ensureWf (exprs.length == sizedFields.length)
      ValueExpr.checkFields prog locals exprs (sizedFields.map (·.2))
      .ok ty
    | .array elem count => do
      ensureWf (decide ((exprs.length : Int) = count))
      ValueExpr.checkFields prog locals exprs (List.replicate exprs.length elem)
      .ok ty
    | _ => illFormed
  | .union field expr unionTy => do
    unionTy.checkWf prog
    match unionTy with
    | .union fields _ _ _ => do
      ensureWf (decide (field < fields.length))
      let (_, ty) ← indexInt fields field
      let checked ← expr.checkWf prog locals
      ensureWf (decide (checked = ty))
      .ok unionTy
    | _ => illFormed
  | .variant discriminant data enumTy =>
    match enumTy with
    | .enum variants _ _ _ _ => do
      enumTy.checkWf prog
      match Map.get? variants discriminant with
      | none => illFormed
      | some (ty, _) => do
        let checked ← data.checkWf prog locals
        ensureWf (decide (checked = ty))
        .ok enumTy
    | _ => illFormed
  | .getDiscriminant place => do
    match ← place.checkWf prog locals with
    | .enum _ discriminantTy _ _ _ => .ok (.int discriminantTy)
    | _ => illFormed
  | .load source => do
    let ty ← source.checkWf prog locals
    ensureWf (← ty.layout).isSized
    .ok ty
  | .addrOf target ptrTy => do
    ptrTy.checkWf prog
    let targetTy ← target.checkWf prog locals
    ensureWf (decide (targetTy.metaKind = ptrTy.metaKind))
    .ok (.ptr ptrTy)
  | .unOp op operand => do
    let operand ← operand.checkWf prog locals
    op.checkWf prog operand
  | .binOp op left right => do
    let left ← left.checkWf prog locals
    let right ← right.checkWf prog locals
    op.checkWf left right
/-- The loops over tuple fields and array elements, `/repo/spec/lang/well-formed.md:346-349, 353-356`. -/
def ValueExpr.checkFields [Target] (prog : Program) (locals : Map LocalName Ty) :
    List ValueExpr → List Ty → Res Unit
  | e :: es, ty :: tys => do
    let checked ← e.checkWf prog locals
    ensureWf (decide (checked = ty))
    ValueExpr.checkFields prog locals es tys
  | _, _ => .ok ()
/-- `PlaceExpr::check_wf`, `/repo/spec/lang/well-formed.md:557-624`. -/
def PlaceExpr.checkWf [Target] (prog : Program) (locals : Map LocalName Ty) : PlaceExpr → Res Ty
  | .local l =>
    match locals.get? l with
    | none => illFormed
    | some ty => .ok ty
  | .deref operand ty => do
    ty.checkWf prog
    match ← operand.checkWf prog locals with
    | .ptr p => do
      ensureWf (decide (p.metaKind = ty.metaKind))
      .ok ty
    | _ => illFormed
  | .field root field => do
    let root ← root.checkWf prog locals
    fieldTy root field
  | .index root idx => do
    let root ← root.checkWf prog locals
    let idxTy ← idx.checkWf prog locals
    ensureWf (match idxTy with | .int _ => true | _ => false)
    match root with
    | .array elem _ => .ok elem
    | .slice elem => .ok elem
    | _ => illFormed
  | .downcast root discriminant => do
    match ← root.checkWf prog locals with
    | .enum variants _ _ _ _ =>
      match Map.get? variants discriminant with
      | none => illFormed
      | some (ty, _) => .ok ty
    | _ => illFormed
end

/-- `ArgumentExpr::check_wf`, `/repo/spec/lang/well-formed.md:628-633`. -/
def ArgumentExpr.checkWf [Target] (prog : Program) (locals : Map LocalName Ty) : ArgumentExpr → Res Ty
  | .byValue v => v.checkWf prog locals
  | .inPlace p => p.checkWf prog locals

/-- `Statement::check_wf`, `/repo/spec/lang/well-formed.md:641-692`. -/
def Statement.checkWf [Target] (prog : Program) (func : Function) : Statement → Res Unit
  | .assign destination source => do
    let left ← destination.checkWf prog func.locals
    let right ← source.checkWf prog func.locals
    ensureWf (decide (left = right))
    rassert (← right.layout).isSized
  | .placeMention place => do
    let _ ← place.checkWf prog func.locals
    .ok ()
  | .setDiscriminant destination value => do
    match ← destination.checkWf prog func.locals with
    | .enum variants _ _ _ _ =>
      if (Map.get? variants value).isNone then illFormed else .ok ()
    | _ => illFormed
  | .validate place _ => do
    let ty ← place.checkWf prog func.locals
    ensureWf (← ty.layout).isSized
  | .deinit place => do
    let ty ← place.checkWf prog func.locals
    ensureWf (← ty.layout).isSized
  | .storageLive l => ensureWf (func.locals.contains l)
  | .storageDead l => do
    ensureWf (func.locals.contains l)
    if l = func.ret ∨ l ∈ func.args then illFormed else .ok ()

/-- `is_atomic_binop`, `/repo/spec/lang/well-formed.md:699-705`. -/
def isAtomicBinop : IntBinOp → Bool
  | .add | .sub => true
  | _ => false

/-- `Function::check_next_block`, `/repo/spec/lang/well-formed.md:846-855`. -/
def Function.checkNextBlock (func : Function) (expected : BbKind) (next : BbName) : Res Unit :=
  match func.blocks.get? next with
  | none => illFormed
  | some b => ensureWf (b.kind == expected)

/-- `Function::check_unwind_block`, `/repo/spec/lang/well-formed.md:858-872`. -/
def Function.checkUnwindBlock (func : Function) (current : BbKind) (unwind : BbName) : Res Unit := do
  let expected ← match current with
    | .regular => .ok [BbKind.cleanup, .catch]
    | .cleanup | .terminate => .ok [BbKind.terminate]
    | .catch => illFormed
  match func.blocks.get? unwind with
  | none => illFormed
  | some b => ensureWf (expected.any (· == b.kind))

/-- The loop over switch cases, `/repo/spec/lang/well-formed.md:731-734`. -/
def checkSwitchCases (func : Function) (kind : BbKind) (ity : IntType) : List (Int × BbName) → Res Unit
  | [] => .ok ()
  | (c, next) :: rest => do
    ensureWf (ity.canRepresent c)
    func.checkNextBlock kind next
    checkSwitchCases func kind ity rest

/-- The loop over intrinsic arguments, `/repo/spec/lang/well-formed.md:744-747`. -/
def checkIntrinsicArgs [Target] (prog : Program) (locals : Map LocalName Ty) : List ValueExpr → Res Unit
  | [] => .ok ()
  | arg :: rest => do
    let ty ← arg.checkWf prog locals
    ensureWf (← ty.layout).isSized
    checkIntrinsicArgs prog locals rest

/-- The loop over call arguments, `/repo/spec/lang/well-formed.md:770-773`. -/
def checkCallArgs [Target] (prog : Program) (locals : Map LocalName Ty) : List ArgumentExpr → Res Unit
  | [] => .ok ()
  | arg :: rest => do
    let ty ← arg.checkWf prog locals
    ensureWf (← ty.layout).isSized
    checkCallArgs prog locals rest

/-- `if let Some(next_block) = next_block { func.check_next_block(..)? }`. -/
def Function.checkNextOpt (func : Function) (kind : BbKind) : Option BbName → Res Unit
  | none => .ok ()
  | some b => func.checkNextBlock kind b

/-- `if let Some(unwind_block) = unwind_block { func.check_unwind_block(..)? }`. -/
def Function.checkUnwindOpt (func : Function) (kind : BbKind) : Option BbName → Res Unit
  | none => .ok ()
  | some b => func.checkUnwindBlock kind b

/-- The extra requirement on intrinsics, `/repo/spec/lang/well-formed.md:750-757`. -/
def IntrinsicOp.checkWf : IntrinsicOp → Res Unit
  | .atomicFetchAndOp op => if !isAtomicBinop op then illFormed else .ok ()
  | _ => .ok ()

/-- `Terminator::check_wf`, `/repo/spec/lang/well-formed.md:710-809`. -/
def Terminator.checkWf [Target] (prog : Program) (func : Function) (kind : BbKind) :
    Terminator → Res Unit
  | .goto b => func.checkNextBlock kind b
  | .switch value cases fallback => do
    match ← value.checkWf prog func.locals with
    | .int ity => do
      checkSwitchCases func kind ity cases
      func.checkNextBlock kind fallback
    | _ => illFormed
  | .unreachable => .ok ()
  | .intrinsic op arguments ret nextBlock => do
    let retTy ← ret.checkWf prog func.locals
    ensureWf (← retTy.layout).isSized
    checkIntrinsicArgs prog func.locals arguments
    op.checkWf
    func.checkNextOpt kind nextBlock
  | .call callee _ arguments ret nextBlock unwindBlock => do
    let ty ← callee.checkWf prog func.locals
    ensureWf (decide (ty = .ptr .fnPtr))
    let retTy ← ret.checkWf prog func.locals
    ensureWf (← retTy.layout).isSized
    checkCallArgs prog func.locals arguments
    func.checkNextOpt kind nextBlock
    func.checkUnwindOpt kind unwindBlock
  | .return => ensureWf (kind == .regular)
  | .startUnwind payload unwindBlock => do
    let ty ← payload.checkWf prog func.locals
    ensureWf (decide (ty = .ptr (.raw .none)))
    ensureWf (kind == .regular)
    func.checkUnwindBlock kind unwindBlock
  | .stopUnwind next => do
    ensureWf (kind == .catch)
    func.checkNextBlock .regular next
  | .resumeUnwind => ensureWf (kind == .cleanup)

/-- The loop over locals, `/repo/spec/lang/well-formed.md:815-818`. -/
def checkLocals [Target] (prog : Program) : List Ty → Res Unit
  | [] => .ok ()
  | ty :: rest => do
    ensureWf (← ty.layout).isSized
    ty.checkWf prog
    checkLocals prog rest

/-- The loop over arguments, `/repo/spec/lang/well-formed.md:822-828`; returns the set `start_live`. -/
def checkArgs (locals : Map LocalName Ty) : List LocalName → List LocalName → Res (List LocalName)
  | [], live => .ok live
  | arg :: rest, live => do
    ensureWf (locals.contains arg)
    if arg ∈ live then illFormed else checkArgs locals rest (live ++ [arg])

/-- The loop over the statements of a block, `/repo/spec/lang/well-formed.md:836-838`. -/
def checkStatements [Target] (prog : Program) (func : Function) : List Statement → Res Unit
  | [] => .ok ()
  | s :: rest => do
    s.checkWf prog func
    checkStatements prog func rest

/-- The loop over basic blocks, `/repo/spec/lang/well-formed.md:835-840`. -/
def checkBlocks [Target] (prog : Program) (func : Function) : List BasicBlock → Res Unit
  | [] => .ok ()
  | b :: rest => do
    checkStatements prog func b.statements
    b.terminator.checkWf prog func b.kind
    checkBlocks prog func rest

/-- `Function::check_wf`, `/repo/spec/lang/well-formed.md:813-843`. -/
def Function.checkWf [Target] (prog : Program) (func : Function) : Res Unit := do
  checkLocals prog func.locals.values
  let startLive ← checkArgs func.locals func.args []
  ensureWf (func.locals.contains func.ret)
  if func.ret ∈ startLive then illFormed else checkBlocks prog func func.blocks.values

/-- The loop over vtables, `/repo/spec/lang/well-formed.md:894-902`. -/
def checkVTables (prog : Program) : List VTable → Res Unit
  | [] => .ok ()
  | vt :: rest => do
    ensureWf (vt.size % vt.align.bytes == 0)
    checkCells vt.cells vt.size
    match prog.traits.get? vt.traitName with
    | none => illFormed
    | some traitMethods => do
      ensureWf (vt.methods.keys.all (· ∈ traitMethods) && traitMethods.all (· ∈ vt.methods.keys))
      checkVTables prog rest

/-- The loop over functions, `/repo/spec/lang/well-formed.md:905-907`. -/
def checkFunctions [Target] (prog : Program) : List Function → Res Unit
  | [] => .ok ()
  | f :: rest => do
    f.checkWf prog
    checkFunctions prog rest

/-- The loop over relocations, `/repo/spec/lang/well-formed.md:924-929`. -/
def checkRelocations [T : Target] (prog : Program) (size : Nat) : List (Nat × Relocation) → Res Unit
  | [] => .ok ()
  | (offset, r) :: rest => do
    ensureWf (decide (offset + T.ptrSize ≤ size))
    r.checkWf prog.globals
    checkRelocations prog size rest

/-- The loop over globals, `/repo/spec/lang/well-formed.md:922-930`. -/
def checkGlobals [Target] (prog : Program) : List Global → Res Unit
  | [] => .ok ()
  | g :: rest => do
    checkRelocations prog g.bytes.length g.relocations
    checkGlobals prog rest

/-- `Program::check_wf`, `/repo/spec/lang/well-formed.md:892-933`. -/
def Program.checkWf [Target] (prog : Program) : Res Unit := do
  checkVTables prog prog.vtables.values
  checkFunctions prog prog.functions.values
  match prog.functions.get? prog.start with
  | none => illFormed
  | some start => do
    ensureWf (start.callingConvention == .c)
    let retLayout ← (← start.locals.get start.ret).layout
    ensureWf (decide (retLayout = .sized 0 Align.one))
    ensureWf start.args.isEmpty
    checkGlobals prog prog.globals.values

end MiniRust
