import Verif.WellFormed
import Verif.Memory
/-
Model of `/repo/spec/lang/machine.md` (the machine state), of the machine-dependent part of
`/repo/spec/lang/step/operators.md`, and of `/repo/spec/lang/step/expressions.md`.

Simplifications:
* stacks (of frames and of unwind payloads) are stored with their top first;
* the nondeterministic choices an execution makes (`pick` of an address or a thread, `predict` of a
  provenance) are read from the list `oracle`, which is not part of the Rust struct. Every execution
  of the specification is a run with some list of choices; a choice that the predicate of the
  `pick`/`predict` rejects, or a missing one, gives `noBehavior` and is not an execution;
* the output streams record the values printed instead of their decimal text.
-/
namespace MiniRust

/-- One nondeterministic choice: the integer of a `pick` or the provenance of a `predict`. -/
inductive Choice (P : Type)
  | int (i : Int)
  | prov (p : Option P)

/-- `StackPopAction`, `/repo/spec/lang/machine.md:78-93`. -/
inductive StackPopAction (P : Type)
  | bottomOfStack
  | backToCaller (nextBlock unwindBlock : Option BbName) (retValPtr : ThinPtr P)

/-- `StackFrame`, `/repo/spec/lang/machine.md:55-75`. -/
structure StackFrame (P F : Type) where
  func : Function
  locals : Map LocalName (ThinPtr P)
  stackPopAction : StackPopAction P
  nextBlock : BbName
  nextStmt : Nat
  extra : F

/-- `LockId`, `/repo/spec/lang/step/locks.md:14`: an index into the list of locks. -/
macro "LockId" : term => `(Nat)

/-- `ThreadState`, `/repo/spec/lang/machine.md:112-121`. -/
inductive ThreadState
  | enabled
  | blockedOnJoin (t : ThreadId)
  | blockedOnLock (l : LockId)
  | terminated
  deriving DecidableEq, Repr

/-- `Thread`, `/repo/spec/lang/machine.md:99-110`; both stacks have their top first. -/
structure Thread (P F : Type) where
  stack : List (StackFrame P F)
  state : ThreadState
  unwindPayloads : List (ThinPtr P)

/-- `LockState`, `/repo/spec/lang/step/locks.md:9-12`. -/
inductive LockState
  | unlocked
  | lockedBy (t : ThreadId)
  deriving DecidableEq, Repr

/-- What `PrintStdout`/`PrintStderr` can print, `/repo/spec/lang/step/intrinsics.md:190-194`. -/
inductive Printed
  | int (i : Int)
  | bool (b : Bool)
  deriving DecidableEq, Repr

/-- `Machine`, `/repo/spec/lang/machine.md:14-52`, plus the remaining choices `oracle`. -/
structure Machine (M P F : Type) where
  prog : Program
  mem : ConcMem M
  intptrcast : IntPtrCast P
  threads : List (Thread P F)
  activeThread : ThreadId
  synchronizedThreads : List ThreadId
  locks : List LockState
  globalPtrs : Map GlobalName (ThinPtr P)
  fnPtrs : Map FnName (ThinPtr P)
  vtablePtrs : Map VTableName (ThinPtr P)
  stdout : List Printed
  stderr : List Printed
  oracle : List (Choice P)

/-! ### The execution monad -/

/-- A `&mut self` method of `Machine` returning `NdResult<α>`. -/
def EM (M P F α : Type) : Type := Machine M P F → Res (α × Machine M P F)

namespace EM
variable {M P F α β : Type}

instance : Monad (EM M P F) where
  pure a := fun s => .ok (a, s)
  bind x f := fun s =>
    match x s with
    | .ok (a, s') => f a s'
    | .error e => .error e

/-- A function that does not touch the machine. -/
def lift (r : Res α) : EM M P F α := fun s =>
  match r with
  | .ok a => .ok (a, s)
  | .error e => .error e

/-- A `&self` method. -/
def read (f : Machine M P F → Res α) : EM M P F α := fun s =>
  match f s with
  | .ok a => .ok (a, s)
  | .error e => .error e

/-- An infallible update. -/
def modify (f : Machine M P F → Machine M P F) : EM M P F Unit := fun s => .ok ((), f s)

/-- `throw_*!` and panics. -/
def throw (e : Err) : EM M P F α := fun _ => .error e

/-- `Result::unwrap`: any failure becomes a panic (a rejected choice stays one). -/
def unwrapRes (x : EM M P F α) : EM M P F α := fun s =>
  match x s with
  | .ok r => .ok r
  | .error .noBehavior => .error .noBehavior
  | .error _ => .error .panic

/-- The integer chosen by the next `pick`. -/
def popInt : EM M P F Int := fun s =>
  match s.oracle with
  | .int i :: rest => .ok (i, { s with oracle := rest })
  | _ => .error .noBehavior

/-- The provenance chosen by the next `predict`. -/
def popProv : EM M P F (Option P) := fun s =>
  match s.oracle with
  | .prov p :: rest => .ok (p, { s with oracle := rest })
  | _ => .error .noBehavior
end EM

variable {M P F : Type}

/-! ### Threads and frames -/

/-- `Machine::active_thread`, `/repo/spec/lang/machine.md:247-249`. -/
def Machine.getActive (s : Machine M P F) : Res (Thread P F) := index s.threads s.activeThread

/-- `Thread::cur_frame`, `/repo/spec/lang/machine.md:273-275`. -/
def Thread.curFrame (t : Thread P F) : Res (StackFrame P F) := unwrap t.stack.head?

/-- `Machine::cur_frame`, `/repo/spec/lang/machine.md:255-257`. -/
def Machine.curFrame (s : Machine M P F) : Res (StackFrame P F) := do
  (← s.getActive).curFrame

/-- `self.threads.mutate_at(active, ..)`, `/repo/spec/lang/machine.md:251-253`. -/
def Machine.setActive (s : Machine M P F) (t : Thread P F) : Machine M P F :=
  { s with threads := s.threads.set s.activeThread t }

/-- Replacing the top frame, `/repo/spec/lang/machine.md:277-284`; panics on an empty stack. -/
def Thread.setCurFrame (t : Thread P F) (f : StackFrame P F) : Res (Thread P F) :=
  match t.stack with
  | [] => panic
  | _ :: rest => .ok { t with stack := f :: rest }

/-- `Machine::(try_)mutate_cur_frame`, `/repo/spec/lang/machine.md:259-265`: `f` maps the current
frame and the machine (for its memory) to the new ones. -/
def mutateCurFrame {α : Type} (f : StackFrame P F → EM M P F (α × StackFrame P F)) : EM M P F α := do
  let frame ← EM.read (·.curFrame)
  let (a, frame) ← f frame
  let thread ← EM.read (·.getActive)
  let thread ← EM.lift (thread.setCurFrame frame)
  EM.modify (·.setActive thread)
  pure a

/-- `StackFrame::jump_to_block`, `/repo/spec/lang/machine.md:298-301`. -/
def StackFrame.jumpToBlock (f : StackFrame P F) (b : BbName) : StackFrame P F :=
  { f with nextBlock := b, nextStmt := 0 }

/-! ### Lookup of functions and vtables -/

section
variable [DecidableEq P]

/-- `map.iter().find(|(_, p)| *p == ptr)`. -/
def findPtr {K : Type} : Map K (ThinPtr P) → ThinPtr P → Option K
  | [], _ => none
  | (k, p) :: rest, q => if p = q then some k else findPtr rest q

/-- `Machine::fn_from_ptr`, `/repo/spec/lang/machine.md:332-344`. -/
def Machine.fnFromPtr (s : Machine M P F) (v : Value P) : Res Function :=
  match v with
  | .ptr ⟨thin, metadata⟩ =>
    if metadata.isSome then ub
    else match findPtr s.fnPtrs thin with
      | none => ub
      | some name => s.prog.functions.get name
  | _ => ub

/-- `Machine::vtable_from_ptr`, `/repo/spec/lang/machine.md:347-352`. -/
def Machine.vtableFromPtr (s : Machine M P F) (ptr : ThinPtr P) : Res VTable :=
  match findPtr s.vtablePtrs ptr with
  | none => ub
  | some name => s.prog.vtables.get name

/-- `Machine::vtable_lookup`, `/repo/spec/lang/machine.md:372-381`. -/
def Machine.vtableLookup (s : Machine M P F) (ptr : ThinPtr P) : Res VTable :=
  match findPtr s.vtablePtrs ptr with
  | none => panic
  | some name => s.prog.vtables.get name

/-- The part of the machine that value validity depends on. -/
def Machine.valEnv [Memory M P F] (s : Machine M P F) : ValEnv P where
  vtableFromPtr := s.vtableFromPtr
  vtableLookup := s.vtableLookup
  dereferenceable := s.mem.dereferenceable

end

variable [Memory M P F] [DecidableEq P] [T : Target]

/-! ### Operators -/

/-- `eval_un_op` at `UnOp::Int`, `/repo/spec/lang/step/operators.md:32-47`. -/
def Machine.evalUnOpInt (s : Machine M P F) (op : IntUnOp) : Value P × Ty → Res (Value P × Ty)
  | (.int operand, .int ity) => do
    let result := evalIntUnOp op operand ity
    rassert (← isOk (checkValue s.valEnv (.int (op.retTy ity)) (.int result)))
    .ok (.int result, .int (op.retTy ity))
  | _ => panic

/-- `eval_cast_op`, `/repo/spec/lang/step/operators.md:77-95`. -/
def Machine.evalCastOp (s : Machine M P F) (op : CastOp) (operand : Value P × Ty) : Res (Value P × Ty) :=
  match op with
  | .intToInt ity =>
    match operand.1 with
    | .int i => .ok (.int (ity.bringInBounds i), .int ity)
    | _ => panic
  | .transmute newTy => do
    if (← operand.2.size) ≠ (← newTy.size) then ub
    else do
      let v ← transmute s.valEnv operand.1 operand.2 newTy
      .ok (v, newTy)

/-- `eval_un_op` at `UnOp::GetMetadata`, `/repo/spec/lang/step/operators.md:114-123`. -/
def Machine.evalGetMetadata (s : Machine M P F) : Value P × Ty → Res (Value P × Ty)
  | (.ptr ptr, .ptr ptrTy) => do
    let metaValue ← ptrTy.metaKind.encodeAsValue ptr.metadata
    rassert (← isOk (checkValue s.valEnv ptrTy.metaKind.ty metaValue))
    .ok (metaValue, ptrTy.metaKind.ty)
  | _ => panic

/-- `eval_un_op` at `UnOp::VTableMethodLookup`, `/repo/spec/lang/step/operators.md:153-164`. -/
def Machine.evalVTableMethodLookup (s : Machine M P F) (method : TraitMethodName) :
    Value P × Ty → Res (Value P × Ty)
  | (.ptr ptr, .ptr _) => do
    let vtable ← s.vtableLookup ptr.thin
    let fnName ← vtable.methods.get method
    let fnPtr ← s.fnPtrs.get fnName
    .ok (.ptr (fnPtr.widen none), .ptr .fnPtr)
  | _ => panic

/-- `eval_un_op`, `/repo/spec/lang/step/operators.md:12` and its cases (`:32-47`, `:96-98`,
`:106-112`, `:114-123`, `:131-135`, `:137-141`, `:153-164`). -/
def Machine.evalUnOp (s : Machine M P F) (op : UnOp) (operand : Value P × Ty) : Res (Value P × Ty) :=
  match op with
  | .int op => s.evalUnOpInt op operand
  | .cast op => s.evalCastOp op operand
  | .getThinPointer =>
    match operand.1 with
    | .ptr ptr => .ok (.ptr { ptr with metadata := none }, .ptr (.raw .none))
    | _ => panic
  | .getMetadata => s.evalGetMetadata operand
  | .computeSize ty => do
    let m ← ty.metaKind.decodeValue operand.1
    let size ← s.valEnv.computeSize (← ty.layout) m
    .ok (.int size, .int IntType.usize)
  | .computeAlign ty => do
    let m ← ty.metaKind.decodeValue operand.1
    let align ← s.valEnv.computeAlign (← ty.layout) m
    .ok (.int align.bytes, .int IntType.usize)
  | .vtableMethodLookup method => s.evalVTableMethodLookup method operand

/-- `ptr_offset_inbounds`, `/repo/spec/lang/step/operators.md:389-399`. -/
def Machine.ptrOffsetInbounds (s : Machine M P F) (ptr : ThinPtr P) (offset : Int) : Res (ThinPtr P) := do
  s.mem.signedDereferenceable ptr offset
  rassert (inBounds .signed T.ptrSize offset)
  rassert (inBounds .unsigned T.ptrSize (ptr.addr + offset))
  .ok { ptr with addr := ptr.addr + offset }

/-- `eval_bin_op` at `BinOp::PtrOffset`, `/repo/spec/lang/step/operators.md:401-418`
(`ptr_offset_wrapping` is `:383-385`). -/
def Machine.evalPtrOffset (s : Machine M P F) (inbounds : Bool) (left right : Value P × Ty) :
    Res (Value P × Ty) :=
  match left.1, right.1 with
  | .ptr ⟨l, none⟩, .int r =>
    if inbounds then do
      let p ← s.ptrOffsetInbounds l r
      .ok (.ptr (p.widen none), left.2)
    else .ok (.ptr ((l.wrappingOffset r).widen none), left.2)
  | _, _ => panic

/-- The distance computed by `BinOp::PtrOffsetFrom`, `/repo/spec/lang/step/operators.md:433-443`. -/
def Machine.ptrDistance (s : Machine M P F) (inbounds : Bool) (l r : ThinPtr P) : Res Int :=
  let distance := l.addr - r.addr
  if inbounds then do
    s.mem.signedDereferenceable l (-distance)
    s.mem.signedDereferenceable r distance
    .ok distance
  else .ok (bringInBounds .signed T.ptrSize distance)

/-- `eval_bin_op` at `BinOp::PtrOffsetFrom`, `/repo/spec/lang/step/operators.md:420-451`. -/
def Machine.evalPtrOffsetFrom (s : Machine M P F) (inbounds nonneg : Bool) (left right : Value P × Ty) :
    Res (Value P × Ty) :=
  match left.1, right.1 with
  | .ptr ⟨l, none⟩, .ptr ⟨r, none⟩ => do
    let distance ← s.ptrDistance inbounds l r
    if nonneg && decide (distance < 0) then ub
    else .ok (.int distance, .int ⟨.signed, T.ptrSize⟩)
  | _, _ => panic

/-- `eval_bin_op` at `BinOp::ConstructWidePointer`, `/repo/spec/lang/step/operators.md:459-474`. -/
def Machine.evalConstructWidePointer (s : Machine M P F) (ptrTy : PtrType) (left right : Value P × Ty) :
    Res (Value P × Ty) :=
  match left.1 with
  | .ptr ⟨thin, none⟩ => do
    let metadata ← ptrTy.metaKind.decodeValue right.1
    checkValue s.valEnv (.ptr ptrTy) (.ptr ⟨thin, metadata⟩)
    .ok (.ptr ⟨thin, metadata⟩, .ptr ptrTy)
  | _ => panic

/-- `eval_bin_op`, `/repo/spec/lang/step/operators.md:173-179` and its cases (`:273-288`, `:290-313`,
`:354-374`, `:401-418`, `:420-451`, `:459-474`). -/
def Machine.evalBinOp (s : Machine M P F) (op : BinOp) (left right : Value P × Ty) :
    Res (Value P × Ty) :=
  match op with
  | .int op =>
    match left, right.1 with
    | (.int l, .int ity), .int r => do
      let result ← evalIntBinOpWrapped op l r ity
      .ok (.int result, .int ity)
    | _, _ => panic
  | .intWithOverflow op =>
    match left, right.1 with
    | (.int l, .int ity), .int r => do
      let (result, overflow) := evalIntWithOverflow op l r ity
      let ty ← ity.withOverflow
      .ok (.tuple [.int result, .bool overflow], ty)
    | _, _ => panic
  | .rel op => do
    let ord ← compareValues left.2 left.1 right.1
    .ok (evalRelOp op ord)
  | .ptrOffset inbounds => s.evalPtrOffset inbounds left right
  | .ptrOffsetFrom inbounds nonneg => s.evalPtrOffsetFrom inbounds nonneg left right
  | .constructWidePointer ptrTy => s.evalConstructWidePointer ptrTy left right

/-! ### Memory accesses -/

/-- `self.mem.load`. -/
def memLoad (ptr : ThinPtr P) (len : Nat) (align : Align) (atomicity : Atomicity) :
    EM M P F (List (AByte P)) := fun s => do
  let (bytes, mem) ← s.mem.load ptr len align atomicity
  .ok (bytes, { s with mem := mem })

/-- `self.mem.store`. -/
def memStore (ptr : ThinPtr P) (bytes : List (AByte P)) (align : Align) (atomicity : Atomicity) :
    EM M P F Unit := fun s => do
  let mem ← s.mem.store ptr bytes align atomicity
  .ok ((), { s with mem := mem })

/-- `self.mem.allocate`. -/
def memAllocate (kind : AllocKind) (size : Nat) (align : Align) : EM M P F (ThinPtr P) := do
  let pick ← EM.popInt
  fun s => do
    let (ptr, mem) ← s.mem.allocate kind size align pick
    .ok (ptr, { s with mem := mem })

/-- `self.mem.deallocate`. -/
def memDeallocate (ptr : ThinPtr P) (kind : AllocKind) (size : Nat) (align : Align) :
    EM M P F Unit := fun s => do
  let mem ← s.mem.deallocate ptr kind size align
  .ok ((), { s with mem := mem })

/-- `self.mem.end_call`. -/
def memEndCall (extra : F) : EM M P F Unit := fun s => do
  let mem ← s.mem.endCall extra
  .ok ((), { s with mem := mem })

/-- `ConcurrentMemory::deinit`, `/repo/spec/lang/step/statements.md:140-143`. -/
def memDeinit (ptr : ThinPtr P) (len : Nat) (align : Align) : EM M P F Unit :=
  memStore ptr (List.replicate len .uninit) align .none

/-- `mutate_cur_frame(|frame, mem| mem.retag_ptr(&mut frame.extra, ..))`,
`/repo/spec/lang/step/expressions.md:171-174`. -/
def retagPtrM (ptr : Pointer P) (ptrTy : PtrType) (fnEntry : Bool) : EM M P F (Pointer P) :=
  mutateCurFrame fun frame s => do
    let (ptr, extra, mem) ← s.mem.retagPtr frame.extra ptr ptrTy fnEntry s.vtableLookup
    .ok ((ptr, { frame with extra := extra }), { s with mem := mem })

/-- The result of `Type::decode` in `typed_load`, `/repo/spec/lang/representation.md:611-618`. -/
def Machine.decodeChecked (s : Machine M P F) (ty : Ty) (bytes : List (AByte P)) : Res (Value P) :=
  match decode ty bytes with
  | .ok val => do
    checkValue s.valEnv ty val
    .ok val
  | .error .none => ub
  | .error e => .error e

/-- `typed_load`, `/repo/spec/lang/representation.md:609-619`. -/
def typedLoad (ptr : ThinPtr P) (ty : Ty) (align : Align) (atomicity : Atomicity) :
    EM M P F (Value P) := do
  let size ← EM.lift ty.size
  let bytes ← memLoad ptr size align atomicity
  EM.read (·.decodeChecked ty bytes)

/-- The bytes `typed_store` writes, `/repo/spec/lang/representation.md:601-603`. -/
def Machine.encodeChecked (s : Machine M P F) (ty : Ty) (val : Value P) : Res (List (AByte P)) := do
  rassert (← isOk (checkValue s.valEnv ty val))
  encode ty val

/-- `typed_store`, `/repo/spec/lang/representation.md:600-607`. -/
def typedStore (ptr : ThinPtr P) (val : Value P) (ty : Ty) (align : Align) (atomicity : Atomicity) :
    EM M P F Unit := do
  let bytes ← EM.read (·.encodeChecked ty val)
  memStore ptr bytes align atomicity

/-! ### Expressions -/

/-- `eval_constant`, `/repo/spec/lang/step/expressions.md:34-57`. -/
def Machine.evalConstant (s : Machine M P F) : Constant → Res (Value P)
  | .int i => .ok (.int i)
  | .bool b => .ok (.bool b)
  | .globalPointer r => do
    let ptr ← s.globalPtrs.get r.name
    .ok (.ptr ((ptr.wrappingOffset r.offset).widen none))
  | .fnPointer f => do
    let ptr ← s.fnPtrs.get f
    .ok (.ptr (ptr.widen none))
  | .vtablePointer v => do
    let ptr ← s.vtablePtrs.get v
    .ok (.ptr (ptr.widen none))
  | .pointerWithoutProvenance addr => .ok (.ptr (ThinPtr.widen ⟨addr, none⟩ none))

/-- `union_ty.decode(data).unwrap()`. -/
def unwrapDecode (r : Res (Value P)) : Res (Value P) :=
  match r with
  | .error .none => panic
  | r => r

/-- `/repo/spec/lang/step/expressions.md:83-86`: the union value with one field written. -/
def unionValue (unionTy : Ty) (size offset : Nat) (exprTy : Ty) (val : Value P) : Res (Value P) := do
  let data ← writeSubslice (List.replicate size .uninit) offset (← encode exprTy val)
  unwrapDecode (decode unionTy data)

/-- `eval_value` at `GetDiscriminant` after evaluating the place,
`/repo/spec/lang/step/expressions.md:109-127`. -/
def getDiscriminant (place : Place P) (ty : Ty) : EM M P F (Value P × Ty) :=
  match ty with
  | .enum _ discriminantTy discriminator _ _ =>
    if !place.aligned then EM.throw .ub
    else do
      let discriminant ← fun s => decodeDiscriminant (fun (s : Machine M P F) idx size => do
        let ptr ← s.ptrOffsetInbounds place.ptr.thin idx
        memLoad ptr size Align.one .none s) discriminator s
      match discriminant with
      | none => EM.throw .ub
      | some d => pure (.int d, .int discriminantTy)
  | _ => EM.throw .panic

/-- `place_load`, `/repo/spec/lang/step/expressions.md:138-145`. -/
def placeLoad (place : Place P) (ty : Ty) : EM M P F (Value P) :=
  if !place.aligned then EM.throw .ub
  else typedLoad place.ptr.thin ty Align.one .none

/-- `eval_value` at `AddrOf` after evaluating the place, `/repo/spec/lang/step/expressions.md:168-176`. -/
def addrOf (place : Place P) (ptrTy : PtrType) : EM M P F (Value P × Ty) := do
  EM.read fun s => checkValue s.valEnv (.ptr ptrTy) (.ptr place.ptr)
  let ptr ← retagPtrM place.ptr ptrTy false
  pure (.ptr ptr, .ptr ptrTy)

/-- `eval_place` at `Local`, `/repo/spec/lang/step/expressions.md:228-235`. -/
def Machine.localPlace (s : Machine M P F) (name : LocalName) : Res (Place P × Ty) := do
  let frame ← s.curFrame
  let ty ← frame.func.locals.get name
  match frame.locals.get? name with
  | none => ub
  | some ptr => .ok (⟨ptr.widen none, true⟩, ty)

/-- The check on safe pointers of `eval_place` at `Deref`, `/repo/spec/lang/step/expressions.md:252-256`. -/
def Machine.checkSafeDeref (s : Machine M P F) (ptr : Pointer P) (ptrTy : PtrType) : Res Unit :=
  match ptrTy.safePointee with
  | some pointee => do
    rassert ((← s.valEnv.computeAlign pointee.layout ptr.metadata).isAligned ptr.thin.addr)
    s.mem.dereferenceable ptr.thin (← s.valEnv.computeSize pointee.layout ptr.metadata)
  | none => .ok ()

/-- `eval_place` at `Deref` after evaluating the operand, `/repo/spec/lang/step/expressions.md:247-262`. -/
def Machine.derefPlace (s : Machine M P F) (ty : Ty) : Value P × Ty → Res (Place P × Ty)
  | (.ptr ptr, .ptr ptrTy) => do
    s.checkSafeDeref ptr ptrTy
    let align ← s.valEnv.computeAlign (← ty.layout) ptr.metadata
    .ok (⟨ptr, align.isAligned ptr.thin.addr⟩, ty)
  | _ => panic

/-- Offset and type of a field, `/repo/spec/lang/step/expressions.md:273-288`. -/
def Machine.fieldOffset (s : Machine M P F) (root : Place P) (ty : Ty) (field : Int) : Res (Nat × Ty) :=
  match ty with
  | .tuple sizedFields head unsizedField =>
    if field ≥ 0 ∧ field < sizedFields.length then indexInt sizedFields field
    else if field = sizedFields.length then do
      let tailTy ← unwrap unsizedField
      let tailAlign ← s.valEnv.computeAlign (← tailTy.layout) root.ptr.metadata
      .ok (head.tailOffset tailAlign, tailTy)
    else panic
  | .union fields _ _ _ => indexInt fields field
  | _ => panic

/-- `eval_place` at `Field` after evaluating the root, `/repo/spec/lang/step/expressions.md:273-298`. -/
def Machine.fieldPlace (s : Machine M P F) (field : Int) (root : Place P × Ty) : Res (Place P × Ty) := do
  let (offset, fieldTy) ← s.fieldOffset root.1 root.2 field
  rassert (decide (offset ≤ (← s.valEnv.computeSize (← root.2.layout) root.1.ptr.metadata)))
  let ptr ← s.ptrOffsetInbounds root.1.ptr.thin offset
  let metadata := if !(← fieldTy.layout).isSized then root.1.ptr.metadata else none
  .ok ({ root.1 with ptr := ptr.widen metadata }, fieldTy)

/-- Element type and count, `/repo/spec/lang/step/expressions.md:306-315`. -/
def indexInfo (root : Place P) (ty : Ty) : Res (Ty × Int) :=
  match ty with
  | .array elem count => .ok (elem, count)
  | .slice elem =>
    match root.ptr.metadata with
    | some (.elementCount count) => .ok (elem, count)
    | _ => panic
  | _ => panic

/-- `eval_place` at `Index` after evaluating root and index, `/repo/spec/lang/step/expressions.md:303-328`. -/
def Machine.indexPlace (s : Machine M P F) (root : Place P × Ty) (idx : Value P) : Res (Place P × Ty) :=
  match idx with
  | .int i => do
    let (elemTy, count) ← indexInfo root.1 root.2
    if i < 0 ∨ i ≥ count then ub
    else do
      let offset ← sizeMul (← elemTy.size) i
      rassert (decide (offset ≤ (← s.valEnv.computeSize (← root.2.layout) root.1.ptr.metadata)))
      let ptr ← s.ptrOffsetInbounds root.1.ptr.thin offset
      .ok ({ root.1 with ptr := ptr.widen none }, elemTy)
  | _ => panic

/-- `eval_place` at `Downcast` after evaluating the root, `/repo/spec/lang/step/expressions.md:333-339`. -/
def downcastPlace (root : Place P × Ty) (discriminant : Int) : Res (Place P × Ty) :=
  match root.2 with
  | .enum variants _ _ _ _ => do
    let (varTy, _) ← Map.get variants discriminant
    .ok (root.1, varTy)
  | _ => panic

mutual
/-- `eval_value`, `/repo/spec/lang/step/expressions.md:22` and its cases (`:59-61`, `:69-72`, `:80-87`,
`:95-97`, `:106-128`, `:147-153`, `:163-177`, `:187-192`, `:194-200`). -/
def evalValue : ValueExpr → EM M P F (Value P × Ty)
  | .constant c ty => do
    let v ← EM.read (·.evalConstant c)
    pure (v, ty)
  | .tuple exprs ty => do
    let vals ← evalValues exprs
    pure (.tuple (vals.map (·.1)), ty)
  | .union field expr unionTy =>
    match unionTy with
    | .union fields _ size _ => do
      let (offset, exprTy) ← EM.lift (indexInt fields field)
      let (val, _) ← evalValue expr
      let v ← EM.lift (unionValue unionTy size offset exprTy val)
      pure (v, unionTy)
    | _ => EM.throw .panic
  | .variant discriminant data enumTy => do
    let (v, _) ← evalValue data
    pure (.variant discriminant v, enumTy)
  | .getDiscriminant place => do
    let (place, ty) ← evalPlace place
    getDiscriminant place ty
  | .load source => do
    let (place, ty) ← evalPlace source
    let v ← placeLoad place ty
    pure (v, ty)
  | .addrOf target ptrTy => do
    let (place, _) ← evalPlace target
    addrOf place ptrTy
  | .unOp op operand => do
    let operand ← evalValue operand
    EM.read (·.evalUnOp op operand)
  | .binOp op left right => do
    let left ← evalValue left
    let right ← evalValue right
    EM.read (·.evalBinOp op left right)
/-- `exprs.try_map(|e| self.eval_value(e))`. -/
def evalValues : List ValueExpr → EM M P F (List (Value P × Ty))
  | [] => pure []
  | e :: es => do
    let v ← evalValue e
    let vs ← evalValues es
    pure (v :: vs)
/-- `eval_place`, `/repo/spec/lang/step/expressions.md:216` and its cases (`:228-235`, `:246-263`,
`:271-299`, `:301-329`, `:331-340`). -/
def evalPlace : PlaceExpr → EM M P F (Place P × Ty)
  | .local name => EM.read (·.localPlace name)
  | .deref operand ty => do
    let v ← evalValue operand
    EM.read (·.derefPlace ty v)
  | .field root field => do
    let root ← evalPlace root
    EM.read (·.fieldPlace field root)
  | .index root idx => do
    let root ← evalPlace root
    let (i, _) ← evalValue idx
    EM.read (·.indexPlace root i)
  | .downcast root discriminant => do
    let root ← evalPlace root
    EM.lift (downcastPlace root discriminant)
end

end MiniRust
