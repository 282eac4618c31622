import Verif.Builder
import Verif.Enums
/-
Model of `/repo/tooling/minimize/src/function.rs` and `/repo/tooling/minimize/src/bb.rs`: translating the MIR body of a
function to a MiniRust function.

The input is a monomorphic MIR body in which types, places, constants and rvalues are already translated (`ty.rs` is
modelled in `RsTypes.lean`; `rvalue.rs` and `constant.rs` are not looked at here), calls are resolved to an instance, and
functions have the names that `get_fn_name` gives them. Simplifications: names are unbounded (`strict_add` on `u32` does not
overflow); everything that ends in `span_bug!` or `panic!` because it is not supported is a panic; the order in which the
hash map of blocks is traversed is a parameter; the types of the locals are inserted in order.
-/
namespace MiniRust

/-! ### MIR -/

/-- `rs::Operand`, `/repo/tooling/minimize/src/rvalue.rs:370-389`; the constants are translated. -/
inductive MirOperand
  | const (v : ValueExpr)
  | copy (p : PlaceExpr)
  | move (p : PlaceExpr)

/-- `translate_operand`, `/repo/tooling/minimize/src/rvalue.rs:366-389`. -/
def MirOperand.translate : MirOperand → ValueExpr
  | .const v => v
  | .copy p => .load p
  | .move p => .load p

/-- Passing an operand to a function, `/repo/tooling/minimize/src/bb.rs:721-728, 812-818, 826-832`. -/
def MirOperand.argument : MirOperand → ArgumentExpr
  | .move p => .inPlace p
  | op => .byValue op.translate

/-- `rs::StatementKind`, `/repo/tooling/minimize/src/bb.rs:69-149`. -/
inductive MirStmt
  /-- an assignment of an rvalue other than the next two -/
  | assign (destination : PlaceExpr) (source : ValueExpr)
  | assignExpose (destination : PlaceExpr) (operand : MirOperand)
  | assignWithExposed (destination : PlaceExpr) (operand : MirOperand)
  | storageLive (l : Nat)
  | storageDead (l : Nat)
  | retag (fnEntry : Bool) (place : PlaceExpr)
  | setDiscriminant (place : PlaceExpr) (value : Int)
  | assume (operand : MirOperand)
  | placeMention (place : PlaceExpr)
  | unsupported

/-- `rs::UnwindAction`, `/repo/tooling/minimize/src/bb.rs:616-669`. -/
inductive UnwindAction
  | continue | unreachable | terminate
  | cleanup (b : Nat)

/-- The Rust intrinsics, `/repo/tooling/minimize/src/bb.rs:458-606`, with what rustc knows about their generic argument. -/
inductive RsIntrinsic
  /-- `assert_inhabited`, `assert_zero_valid`, `assert_mem_uninitialized_valid` -/
  | assertValidity (shouldPanic : Bool)
  | rawEq
  /-- the size of the pointee, the type of the offset -/
  | arithOffset (size : Nat) (ty : Ty)
  | ptrOffsetFrom (unsigned : Bool) (size : Nat)
  | ctpop
  | exactDiv
  | sizeOfVal (ty : Ty)
  | alignOfVal (ty : Ty)
  | coldPath
  | catchUnwind
  | abort
  | unsupported

/-- What is called, `/repo/tooling/minimize/src/bb.rs:706-885`. -/
inductive MirCallee
  | fnPtr (func : MirOperand) (conv : CallingConvention)
  | rsIntrinsic (i : RsIntrinsic)
  /-- a function of the crate `intrinsics` -/
  | intrinsic (op : IntrinsicOp)
  /-- a function that panics (`is_panic_fn`); some of them must not unwind -/
  | panicFn (nounwind : Bool)
  | foreign
  /-- For the "rust-call" ABI with at least one argument: the number of fields of the last argument. -/
  | fn (name : FnName) (conv : CallingConvention) (rustCall : Option Nat)
  | virtual (method : TraitMethodName) (conv : CallingConvention) (rustCall : Option Nat)

/-- How a place is dropped, `/repo/tooling/minimize/src/bb.rs:222-251`. -/
inductive MirDrop
  | dyn (t : TraitName)
  | glue (f : FnName)

/-- `rs::TerminatorKind`, `/repo/tooling/minimize/src/bb.rs:155-275`. -/
inductive MirTerm
  | return
  | goto (target : Nat)
  | call (callee : MirCallee) (args : List MirOperand) (destination : PlaceExpr) (target : Option Nat)
      (unwind : UnwindAction)
  /-- The values of the targets are bits; `ty` is the type of the operand. -/
  | switchInt (discr : MirOperand) (ty : Ty) (targets : List (Nat × Nat)) (otherwise : Nat)
  | unreachable
  | assert (cond : MirOperand) (expected : Bool) (target : Nat) (unwind : UnwindAction)
  | drop (how : MirDrop) (place : PlaceExpr) (target : Nat) (unwind : UnwindAction)
  | resume
  | unsupported

/-- `rs::BasicBlockData`. -/
structure MirBlock where
  statements : List MirStmt
  terminator : MirTerm
  isCleanup : Bool

/-- `rs::Body`, `/repo/tooling/minimize/src/function.rs:45-70`: the types of the locals, how many of them (after the first)
are arguments, which argument is spread and the types of its fields, which locals need no `StorageLive`. -/
structure MirBody where
  locals : List Ty
  argCount : Nat
  spread : Option (Nat × List Ty)
  alwaysLive : List Nat
  blocks : List MirBlock
  conv : CallingConvention

/-! ### Expressions that are built -/

/-- `<u8>::get_type()`. -/
def u8Ty : Ty := .int ⟨.unsigned, 1⟩

/-- `transmute`, `/repo/tooling/miniutil/src/build/expr.rs:114-116`. -/
def mkTransmute (v : ValueExpr) (t : Ty) : ValueExpr := .unOp (.cast (.transmute t)) v

/-- `not`, `/repo/tooling/miniutil/src/build/expr.rs:109-112`. -/
def mkNot (v : ValueExpr) : ValueExpr :=
  mkTransmute (.binOp (.int .sub) (.constant (.int 1) u8Ty) (FnBuilder.boolToInt v)) .bool

/-- `raw_void_ptr_ty`, `/repo/tooling/miniutil/src/build/ty.rs:55-61`. -/
def rawVoidPtr : PtrType := .raw .none

/-- `unit_ptr`, `/repo/tooling/miniutil/src/build/expr.rs:334-337`. -/
def unitPtr : ValueExpr := .constant (.pointerWithoutProvenance 1) (.ptr rawVoidPtr)

/-- `unit_place`, `/repo/tooling/miniutil/src/build/expr.rs:338-341`. -/
def unitPlace : PlaceExpr := .deref unitPtr unitTy

/-- `abort`, `/repo/tooling/miniutil/src/build/terminator.rs:397-404`. -/
def mkAbort : Terminator := .intrinsic .abort [] unitPlace none

/-- `fn_ptr`, `/repo/tooling/miniutil/src/build/function.rs:7-11`. -/
def mkFnPtr (f : FnName) : ValueExpr := .constant (.fnPointer f) (.ptr .fnPtr)

/-- `isize`, `usize` as integer types. -/
def isizeTy [T : Target] : IntType := ⟨.signed, T.ptrSize⟩
def usizeTy [T : Target] : IntType := ⟨.unsigned, T.ptrSize⟩

/-- The value that an intrinsic which is an assignment assigns, `/repo/tooling/minimize/src/bb.rs:492-575`; `none` for the
other intrinsics. Too few arguments are a panic (in the model: also too many). -/
def RsIntrinsic.value [Target] (i : RsIntrinsic) (args : List MirOperand) : Option (Res ValueExpr) :=
  match i with
  | .arithOffset size ty => some <| match args with
    | [l, r] => .ok (.binOp (.ptrOffset false) l.translate
        (.binOp (.int .mulUnchecked) r.translate (.constant (.int size) ty)))
    | _ => panic
  | .ptrOffsetFrom unsigned size => some <| match args with
    | [l, r] =>
      let offset := .binOp (.int .divExact) (.binOp (.ptrOffsetFrom false unsigned) l.translate r.translate)
        (.constant (.int size) (.int isizeTy))
      .ok (if unsigned then .unOp (.cast (.intToInt usizeTy)) offset else offset)
    | _ => panic
  | .ctpop => some <| match args with
    | [v] => .ok (.unOp (.int .countOnes) v.translate)
    | _ => panic
  | .exactDiv => some <| match args with
    | [l, r] => .ok (.binOp (.int .divExact) l.translate r.translate)
    | _ => panic
  | .sizeOfVal ty => some <| match args with
    | [p] => .ok (.unOp (.computeSize ty) (.unOp .getMetadata p.translate))
    | _ => panic
  | .alignOfVal ty => some <| match args with
    | [p] => .ok (.unOp (.computeAlign ty) (.unOp .getMetadata p.translate))
    | _ => panic
  | _ => none

/-! ### The translation -/

/-- The mutable part of `FnCtxt`, `/repo/tooling/minimize/src/function.rs:23-30`. The maps from MIR names to MiniRust names are
the identity on the numbers below `numBlocks` and `numLocals`. -/
structure FnCtxt where
  numBlocks : Nat
  numLocals : Nat
  nextBb : Nat
  nextLocal : Nat
  locals : Map LocalName Ty
  blocks : Map BbName BasicBlock

namespace FnCtxt

/-- `fresh_bb_name`, `/repo/tooling/minimize/src/function.rs:76-80`. -/
def freshBb (c : FnCtxt) : BbName × FnCtxt := (c.nextBb, { c with nextBb := c.nextBb + 1 })

/-- `fresh_local_name` and declaring the local, `/repo/tooling/minimize/src/function.rs:82-86`,
`/repo/tooling/minimize/src/bb.rs:329-343`. -/
def freshLocal (c : FnCtxt) (ty : Ty) : LocalName × FnCtxt :=
  (c.nextLocal, { c with nextLocal := c.nextLocal + 1, locals := c.locals.insert c.nextLocal ty })

/-- `self.bb_name_map[&b]`: panics if there is no such block. -/
def bbName (c : FnCtxt) (b : Nat) : Res BbName := if b < c.numBlocks then .ok b else panic

/-- `self.local_name_map[&l]`. -/
def localName (c : FnCtxt) (l : Nat) : Res LocalName := if l < c.numLocals then .ok l else panic

/-- `target.as_ref().map(|t| self.bb_name_map[t])`. -/
def bbNameOpt (c : FnCtxt) : Option Nat → Res (Option BbName)
  | none => .ok none
  | some b => do .ok (some (← c.bbName b))

/-- `self.blocks.insert(name, block)`. -/
def insertBlock (c : FnCtxt) (name : BbName) (b : BasicBlock) : FnCtxt := { c with blocks := c.blocks.insert name b }

/-- Insertion followed by `assert!(old.is_none())`, or `try_insert(..).unwrap()`. -/
def insertNewBlock (c : FnCtxt) (name : BbName) (b : BasicBlock) : Res FnCtxt := do
  let blocks ← c.blocks.tryInsert name b
  .ok { c with blocks := blocks }

/-- The kind of a block and of the blocks it is split into, `/repo/tooling/minimize/src/bb.rs:29, 203`. -/
def kindOf (isCleanup : Bool) : BbKind := if isCleanup then .cleanup else .regular

/-- The kind of an added unwind block, `/repo/tooling/minimize/src/bb.rs:641, 653`. -/
def unwindKind (isCleanup : Bool) : BbKind := if isCleanup then .terminate else .cleanup

/-- A statement becomes a statement or an intrinsic; `StatementResult`, `/repo/tooling/minimize/src/bb.rs:8-13`. -/
inductive StatementResult
  | statement (s : Statement)
  | intrinsic (op : IntrinsicOp) (destination : PlaceExpr) (arguments : List ValueExpr)

/-- `translate_stmt`, `/repo/tooling/minimize/src/bb.rs:69-149`. -/
def translateStmt (c : FnCtxt) : MirStmt → Res StatementResult
  | .assign d s => .ok (.statement (.assign d s))
  | .assignExpose d o => .ok (.intrinsic .pointerExposeProvenance d [o.translate])
  | .assignWithExposed d o => .ok (.intrinsic .pointerWithExposedProvenance d [o.translate])
  | .storageLive l => do .ok (.statement (.storageLive (← c.localName l)))
  | .storageDead l => do .ok (.statement (.storageDead (← c.localName l)))
  | .retag fnEntry p => .ok (.statement (.validate p fnEntry))
  | .setDiscriminant p v => .ok (.statement (.setDiscriminant p v))
  | .assume o => .ok (.intrinsic .assume unitPlace [o.translate])
  | .placeMention p => .ok (.statement (.placeMention p))
  | .unsupported => panic

/-- `translate_unwind_action`, `/repo/tooling/minimize/src/bb.rs:611-669`. -/
def translateUnwindAction (c : FnCtxt) (isCleanup : Bool) : UnwindAction → Res (BbName × FnCtxt)
  | .continue => do
    rassert (!isCleanup)
    let (name, c) := c.freshBb
    .ok (name, c.insertBlock name ⟨[], .resumeUnwind, .cleanup⟩)
  | .unreachable =>
    let (name, c) := c.freshBb
    .ok (name, c.insertBlock name ⟨[], .unreachable, unwindKind isCleanup⟩)
  | .terminate =>
    let (name, c) := c.freshBb
    .ok (name, c.insertBlock name ⟨[], mkAbort, unwindKind isCleanup⟩)
  | .cleanup b => do .ok (← c.bbName b, c)

/-- `translate_panic`, `/repo/tooling/minimize/src/bb.rs:673-693`; `unwinds` is the panic strategy. -/
def translatePanic (unwinds : Bool) (c : FnCtxt) (isCleanup : Bool) (unwind : UnwindAction) : Res (Terminator × FnCtxt) :=
  if unwinds then do
    let (name, c) ← c.translateUnwindAction isCleanup unwind
    .ok (.startUnwind unitPtr name, c)
  else .ok (mkAbort, c)

/-- `translate_catch_unwind`, `/repo/tooling/minimize/src/bb.rs:303-452`. -/
def translateCatchUnwind (c : FnCtxt) (args : List ValueExpr) (destination : PlaceExpr) (target : BbName) :
    Res (Terminator × FnCtxt) :=
  match args with
  | [tryFn, data, catchFn] =>
    let (tryBb, c) := c.freshBb
    let (returnBb, c) := c.freshBb
    let (getPayloadBb, c) := c.freshBb
    let (catchBb, c) := c.freshBb
    let (stopUnwindBb, c) := c.freshBb
    let (retTmp, c) := c.freshLocal (.ptr rawVoidPtr)
    let (tryFnTmp, c) := c.freshLocal (.ptr .fnPtr)
    let (dataTmp, c) := c.freshLocal (.ptr rawVoidPtr)
    let (catchFnTmp, c) := c.freshLocal (.ptr .fnPtr)
    let (payloadTmp, c) := c.freshLocal (.ptr rawVoidPtr)
    let c := c.insertBlock tryBb ⟨[.storageLive retTmp, .storageLive tryFnTmp, .storageLive dataTmp, .storageLive catchFnTmp,
        .assign (.local retTmp) (.addrOf destination rawVoidPtr), .assign (.local tryFnTmp) tryFn,
        .assign (.local dataTmp) data, .assign (.local catchFnTmp) catchFn],
      .call (.load (.local tryFnTmp)) .rust [.byValue (.load (.local dataTmp))] unitPlace (some returnBb) (some getPayloadBb),
      .regular⟩
    let c := c.insertBlock returnBb ⟨[.assign (.deref (.load (.local retTmp)) (.int ⟨.signed, 4⟩)) (.constant (.int 0) (.int ⟨.signed, 4⟩)),
        .storageDead retTmp, .storageDead tryFnTmp, .storageDead dataTmp, .storageDead catchFnTmp], .goto target, .regular⟩
    let c := c.insertBlock getPayloadBb ⟨[.storageLive payloadTmp],
      .intrinsic .getUnwindPayload [] (.local payloadTmp) (some catchBb), .catch⟩
    let c := c.insertBlock catchBb ⟨[.assign (.deref (.load (.local retTmp)) (.int ⟨.signed, 4⟩)) (.constant (.int 1) (.int ⟨.signed, 4⟩))],
      .call (.load (.local catchFnTmp)) .rust [.byValue (.load (.local dataTmp)), .byValue (.load (.local payloadTmp))] unitPlace
        (some stopUnwindBb) none, .catch⟩
    let c := c.insertBlock stopUnwindBb ⟨[.storageDead retTmp, .storageDead tryFnTmp, .storageDead dataTmp,
        .storageDead catchFnTmp], .stopUnwind target, .catch⟩
    .ok (.goto tryBb, c)
  | _ => panic

/-- `translate_rs_intrinsic`, `/repo/tooling/minimize/src/bb.rs:454-609`: statements, terminator, context. -/
def translateRsIntrinsic [Target] (c : FnCtxt) (i : RsIntrinsic) (args : List MirOperand) (destination : PlaceExpr)
    (target : Option Nat) : Res (List Statement × Terminator × FnCtxt) :=
  match i.value args with
  | some v => do
    let v ← v
    let target ← c.bbName (← unwrap target)
    .ok ([.assign destination v], .goto target, c)
  | none =>
    match i with
    | .assertValidity true => .ok ([], mkAbort, c)
    | .assertValidity false => do .ok ([], .goto (← c.bbName (← unwrap target)), c)
    | .rawEq => do .ok ([], .intrinsic .rawEq (args.map (·.translate)) destination (← c.bbNameOpt target), c)
    | .coldPath => do .ok ([], .goto (← c.bbName (← unwrap target)), c)
    | .catchUnwind => do
      let target ← c.bbName (← unwrap target)
      let (t, c) ← c.translateCatchUnwind (args.map (·.translate)) destination target
      .ok ([], t, c)
    | .abort => .ok ([], mkAbort, c)
    | _ => panic

/-- The arguments of a call, `/repo/tooling/minimize/src/bb.rs:778-833`. With the "rust-call" ABI, the fields of the last
argument become arguments of their own. -/
def callArgs (args : List MirOperand) : Option Nat → Res (List ArgumentExpr)
  | none => .ok (args.map (·.argument))
  | some n =>
    match args.getLast? with
    | some (.move p) | some (.copy p) =>
      .ok (args.dropLast.map (·.argument) ++ (List.range n).map fun (i : Nat) => .inPlace (.field p (i : Int)))
    | _ => panic

/-- `translate_call`, `/repo/tooling/minimize/src/bb.rs:695-887`. -/
def translateCall [Target] (unwinds : Bool) (c : FnCtxt) (isCleanup : Bool) (callee : MirCallee) (args : List MirOperand)
    (destination : PlaceExpr) (target : Option Nat) (unwind : UnwindAction) : Res (List Statement × Terminator × FnCtxt) :=
  match callee with
  | .fnPtr func conv => do
    let (u, c) ← c.translateUnwindAction isCleanup unwind
    .ok ([], .call func.translate conv (args.map (·.argument)) destination (← c.bbNameOpt target) (some u), c)
  | .rsIntrinsic i => c.translateRsIntrinsic i args destination target
  | .intrinsic op => do .ok ([], .intrinsic op (args.map (·.translate)) destination (← c.bbNameOpt target), c)
  | .panicFn _ => do
    let (t, c) ← c.translatePanic unwinds isCleanup unwind
    .ok ([], t, c)
  | .foreign => panic
  | .fn name conv rustCall => do
    let args ← callArgs args rustCall
    let (u, c) ← c.translateUnwindAction isCleanup unwind
    .ok ([], .call (mkFnPtr name) conv args destination (← c.bbNameOpt target) (some u), c)
  | .virtual method conv rustCall => do
    let args' ← callArgs args rustCall
    let (u, c) ← c.translateUnwindAction isCleanup unwind
    match args with
    | [] => panic
    | receiver :: _ =>
      let args' := args'.set 0 (.byValue (.unOp .getThinPointer receiver.translate))
      .ok ([], .call (.unOp (.vtableMethodLookup method) (.unOp .getMetadata receiver.translate)) conv args' destination
        (← c.bbNameOpt target) (some u), c)

/-- The cases of a switch, collected into a map: `/repo/tooling/minimize/src/bb.rs:186-191`. -/
def switchCases (c : FnCtxt) (ity : IntType) : List (Nat × Nat) → Map Int BbName → Res (Map Int BbName)
  | [], m => .ok m
  | (bits, target) :: rest, m => do
    let v ← intFromBits bits ity
    let target ← c.bbName target
    switchCases c ity rest (m.insert v target)

/-- The function that drops and its argument, `/repo/tooling/minimize/src/bb.rs:222-251`. Method 0 of a vtable drops. -/
def dropCall : MirDrop → PlaceExpr → ValueExpr × ValueExpr
  | .dyn t, place =>
    let ptr := .addrOf place (.raw (.vtablePointer t))
    (.unOp (.vtableMethodLookup 0) (.unOp .getMetadata ptr), .unOp .getThinPointer ptr)
  | .glue f, place => (mkFnPtr f, .addrOf place rawVoidPtr)

/-- `translate_terminator`, `/repo/tooling/minimize/src/bb.rs:151-276`. -/
def translateTerm [Target] (unwinds : Bool) (c : FnCtxt) (isCleanup : Bool) : MirTerm → Res (List Statement × Terminator × FnCtxt)
  | .return => .ok ([], .return, c)
  | .goto target => do .ok ([], .goto (← c.bbName target), c)
  | .call callee args destination target unwind => c.translateCall unwinds isCleanup callee args destination target unwind
  | .switchInt discr ty targets otherwise => do
    let (value, ity) ← match ty with
      | .bool => .ok (mkTransmute discr.translate u8Ty, ⟨.unsigned, 1⟩)
      | .int ity => .ok (discr.translate, ity)
      | _ => panic
    let cases ← c.switchCases ity targets []
    let fallback ← c.bbName otherwise
    .ok ([], .switch value cases fallback, c)
  | .unreachable => .ok ([], .unreachable, c)
  | .assert cond expected target unwind => do
    let condition := if expected then cond.translate else mkNot cond.translate
    let (t, c) ← c.translatePanic unwinds isCleanup unwind
    let (panicBb, c) := c.freshBb
    let c ← c.insertNewBlock panicBb ⟨[], t, kindOf isCleanup⟩
    let next ← c.bbName target
    .ok ([], .switch (FnBuilder.boolToInt condition) [(1, next)] panicBb, c)
  | .drop how place target _ => do
    let (dropFn, ptr) := dropCall how place
    let target ← c.bbName target
    .ok ([], .call dropFn .rust [.byValue ptr] unitPlace (some target) none, c)
  | .resume => .ok ([], .resumeUnwind, c)
  | .unsupported => panic

/-- `translate_bb`, `/repo/tooling/minimize/src/bb.rs:24-67`: `name` and `statements` are those of the current block, the
MIR statements are those that are left. -/
def translateBlock [Target] (unwinds : Bool) (isCleanup : Bool) (t : MirTerm) :
    (c : FnCtxt) → (name : BbName) → (statements : List Statement) → List MirStmt → Res FnCtxt
  | c, name, statements, [] => do
    let (stmts, t, c) ← c.translateTerm unwinds isCleanup t
    c.insertNewBlock name ⟨statements ++ stmts, t, kindOf isCleanup⟩
  | c, name, statements, s :: rest => do
    match ← c.translateStmt s with
    | .statement s => translateBlock unwinds isCleanup t c name (statements ++ [s]) rest
    | .intrinsic op destination arguments =>
      let (next, c) := c.freshBb
      let c ← c.insertNewBlock name ⟨statements, .intrinsic op arguments destination (some next), kindOf isCleanup⟩
      translateBlock unwinds isCleanup t c next [] rest

/-- The loop over the blocks, `/repo/tooling/minimize/src/function.rs:184-188`. -/
def translateBlocks [Target] (unwinds : Bool) (body : MirBody) : FnCtxt → List Nat → Res FnCtxt
  | c, [] => .ok c
  | c, b :: rest => do
    let block ← MiniRust.index body.blocks b
    let c ← translateBlock unwinds block.isCleanup block.terminator c b [] block.statements
    translateBlocks unwinds body c rest

/-- The loop over the fields of the spread argument, `/repo/tooling/minimize/src/function.rs:136-154`. -/
def spreadLoop (c : FnCtxt) (spread : LocalName) (args : List LocalName) (stmts : List Statement) :
    Nat → List Ty → FnCtxt × List LocalName × List Statement
  | _, [] => (c, args, stmts)
  | i, ty :: rest =>
    let (tmp, c) := c.freshLocal ty
    spreadLoop c spread (args ++ [tmp]) (stmts ++ [.assign (.field (.local spread) i) (.load (.local tmp))]) (i + 1) rest

/-- The loop over the arguments, `/repo/tooling/minimize/src/function.rs:115-158`: `n` iterations left, the next one for
argument `i`. -/
def argsLoop (spread : Option (Nat × List Ty)) : FnCtxt → List LocalName → List Statement → Nat → Nat →
    Res (FnCtxt × List LocalName × List Statement)
  | c, args, stmts, 0, _ => .ok (c, args, stmts)
  | c, args, stmts, n + 1, i =>
    match spread with
    | none => argsLoop spread c (args ++ [i]) stmts n (i + 1)
    | some (s, fields) =>
      if i = s then do
        let name ← c.localName s
        let (c, args, stmts) := c.spreadLoop name args (stmts ++ [.storageLive name]) 0 fields
        argsLoop spread c args stmts n (i + 1)
      else argsLoop spread c (args ++ [i]) stmts n (i + 1)

/-- The names of the locals that are always live, except the return place and the arguments,
`/repo/tooling/minimize/src/function.rs:160-174`. -/
def alwaysLive (c : FnCtxt) (freeArgc : Nat) : List Nat → Res (List Statement)
  | [] => .ok []
  | l :: rest => do
    let name ← c.localName l
    let stmts ← c.alwaysLive freeArgc rest
    .ok (if name ≥ freeArgc then .storageLive name :: stmts else stmts)

end FnCtxt

/-- The context after names were given to blocks and locals, `/repo/tooling/minimize/src/function.rs:91-109`. -/
def MirBody.context (body : MirBody) : FnCtxt :=
  ⟨body.blocks.length, body.locals.length, body.blocks.length, body.locals.length, body.locals.zipIdx.map fun (ty, i) => (i, ty), []⟩

/-- `FnCtxt::translate`, `/repo/tooling/minimize/src/function.rs:90-206`. -/
def MirBody.translate [Target] (unwinds : Bool) (body : MirBody) (order : List Nat) : Res Function := do
  let (c, args, stmts) ← FnCtxt.argsLoop body.spread body.context [] [] body.argCount 1
  let (initBb, c) := c.freshBb
  let live ← c.alwaysLive (body.argCount + 1) body.alwaysLive
  let start ← c.bbName 0
  let c := c.insertBlock initBb ⟨stmts ++ live, .goto start, .regular⟩
  let c ← FnCtxt.translateBlocks unwinds body c order
  .ok ⟨c.locals, args, 0, body.conv, c.blocks, initBb⟩

end MiniRust
