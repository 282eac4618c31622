import Verif.Machine
/-
Model of `/repo/spec/lang/step/{statements,terminators,intrinsics,locks}.md` and of `Machine::new`
and `Machine::step` in `/repo/spec/lang/machine.md`.
-/
namespace MiniRust
variable {M P F : Type} [Memory M P F] [DecidableEq P] [T : Target]

/-! ### Statements -/

/-- `place_store`, `/repo/spec/lang/step/statements.md:23-30`. -/
def placeStore (place : Place P) (val : Value P) (ty : Ty) : EM M P F Unit :=
  if !place.aligned then EM.throw .ub
  else typedStore place.ptr.thin val ty Align.one .none

/-- `eval_statement` at `SetDiscriminant` after evaluating the place,
`/repo/spec/lang/step/statements.md:62-83`. -/
def setDiscriminant (place : Place P) (ty : Ty) (value : Int) : EM M P F Unit :=
  match ty with
  | .enum variants _ _ _ _ =>
    if !place.aligned then EM.throw .ub
    else match Map.get? variants value with
      | none => EM.throw .panic
      | some (_, tagger) => fun s => do
        let s ← encodeDiscriminant (fun (s : Machine M P F) offset bytes => do
          let ptr ← s.ptrOffsetInbounds place.ptr.thin offset
          let (_, s) ← memStore ptr bytes Align.one .none s
          .ok s) tagger s
        .ok ((), s)
  | _ => EM.throw .panic

mutual
/-- `retag_val`, `/repo/spec/lang/step/statements.md:97-118`. -/
def retagVal (fnEntry : Bool) : Value P → Ty → EM M P F (Value P)
  | .int i, _ => pure (.int i)
  | .bool b, _ => pure (.bool b)
  | .union data, _ => pure (.union data)
  | .ptr ptr, .ptr ptrTy => do
    let ptr ← retagPtrM ptr ptrTy fnEntry
    pure (.ptr ptr)
  | .tuple vals, .tuple sizedFields _ _ => do
    let vals ← retagVals fnEntry vals (sizedFields.map (·.2))
    pure (.tuple vals)
  | .tuple vals, .array elem _ => do
    let vals ← retagVals fnEntry vals (List.replicate vals.length elem)
    pure (.tuple vals)
  | .variant d data, .enum variants _ _ _ _ => do
    let (ty, _) ← EM.lift (Map.get variants d)
    let data ← retagVal fnEntry data ty
    pure (.variant d data)
  | _, _ => EM.throw .panic
/-- The two `try_map`s of `/repo/spec/lang/step/statements.md:110, 112` (the first over a `zip`). -/
def retagVals (fnEntry : Bool) : List (Value P) → List Ty → EM M P F (List (Value P))
  | v :: vs, ty :: tys => do
    let v ← retagVal fnEntry v ty
    let vs ← retagVals fnEntry vs tys
    pure (v :: vs)
  | _, _ => pure []
end

/-- Size and alignment of a local, `/repo/spec/lang/step/statements.md:171-172, 179-180`. -/
def StackFrame.localLayout (frame : StackFrame P F) (l : LocalName) : Res (Nat × Align) := do
  let layout ← (← frame.func.locals.get l).layout
  let size ← layout.expectSize
  let align ← layout.expectAlign
  .ok (size, align)

/-- `StackFrame::storage_dead`, `/repo/spec/lang/step/statements.md:178-185`; returns the frame. -/
def storageDead (frame : StackFrame P F) (l : LocalName) : EM M P F (StackFrame P F) := do
  let (size, align) ← EM.lift (frame.localLayout l)
  match frame.locals.get? l with
  | some ptr =>
    memDeallocate ptr .stack size align
    pure { frame with locals := frame.locals.erase l }
  | none => pure frame

/-- `StackFrame::storage_live`, `/repo/spec/lang/step/statements.md:166-176`; returns the frame. -/
def storageLive (frame : StackFrame P F) (l : LocalName) : EM M P F (StackFrame P F) := do
  let frame ← storageDead frame l
  let (size, align) ← EM.lift (frame.localLayout l)
  let ptr ← memAllocate .stack size align
  pure { frame with locals := frame.locals.insert l ptr }

/-- `eval_statement`, `/repo/spec/lang/step/statements.md:9` and its cases (`:32-38`, `:50-53`, `:61-84`,
`:120-130`, `:147-156`, `:189-193`, `:195-199`). -/
def evalStatement : Statement → EM M P F Unit
  | .assign destination source => do
    let (place, ty) ← evalPlace destination
    let (val, _) ← evalValue source
    placeStore place val ty
  | .placeMention place => do
    let _ ← evalPlace place
    pure ()
  | .setDiscriminant destination value => do
    let (place, ty) ← evalPlace destination
    setDiscriminant place ty value
  | .validate place fnEntry => do
    let (place, ty) ← evalPlace place
    let val ← placeLoad place ty
    let val ← retagVal fnEntry val ty
    placeStore place val ty
  | .deinit place => do
    let (p, ty) ← evalPlace place
    if !p.aligned then EM.throw .ub
    else do
      let size ← EM.lift ty.size
      memDeinit p.ptr.thin size Align.one
  | .storageLive l => mutateCurFrame fun frame => do
    let frame ← storageLive frame l
    pure ((), frame)
  | .storageDead l => mutateCurFrame fun frame => do
    let frame ← storageDead frame l
    pure ((), frame)

/-! ### Calls -/

mutual
/-- `check_abi_compatibility`, `/repo/spec/lang/step/terminators.md:71-134`. -/
def abiCompat : Ty → Ty → Res Bool
  | .int caller, .int callee => .ok (caller == callee)
  | .bool, .bool => .ok true
  | .ptr caller, .ptr callee => .ok (decide (caller.metaKind = callee.metaKind))
  | .tuple callerFields callerHead callerUnsized, .tuple calleeFields calleeHead calleeUnsized => do
    rassert callerUnsized.isNone
    rassert calleeUnsized.isNone
    if callerFields.length ≠ calleeFields.length then .ok false
    else if !(← abiFields callerFields calleeFields) then .ok false
    else .ok (callerHead.headSizeAndAlign.1 == calleeHead.headSizeAndAlign.1 &&
      callerHead.headSizeAndAlign.2 == calleeHead.headSizeAndAlign.2)
  | .array callerElem callerCount, .array calleeElem calleeCount => do
    if !(← abiCompat callerElem calleeElem) then .ok false
    else .ok (decide (callerCount = calleeCount))
  | .union callerFields callerChunks callerSize callerAlign,
    .union calleeFields calleeChunks calleeSize calleeAlign => do
    if callerFields.length ≠ calleeFields.length then .ok false
    else if !(← abiFields callerFields calleeFields) then .ok false
    else .ok (callerChunks == calleeChunks && callerSize == calleeSize && callerAlign == calleeAlign)
  | .enum callerVariants callerDiscrTy callerDiscr callerSize callerAlign,
    .enum calleeVariants calleeDiscrTy calleeDiscr calleeSize calleeAlign => do
    if callerVariants.length ≠ calleeVariants.length then .ok false
    else if !(← abiVariants callerVariants calleeVariants) then .ok false
    else .ok (decide (callerDiscr = calleeDiscr) && callerDiscrTy == calleeDiscrTy &&
      callerSize == calleeSize && callerAlign == calleeAlign)
  | _, _ => .ok false
/-- The zip over fields, `/repo/spec/lang/step/terminators.md:96-98, 108-110`. -/
def abiFields : List (Nat × Ty) → List (Nat × Ty) → Res Bool
  | (callerOff, callerTy) :: callers, (calleeOff, calleeTy) :: callees => do
    if callerOff ≠ calleeOff then .ok false
    else if !(← abiCompat callerTy calleeTy) then .ok false
    else abiFields callers callees
  | _, _ => .ok true
/-- The loop over variants, `/repo/spec/lang/step/terminators.md:119-125`. -/
def abiVariants : List (Int × (Ty × Tagger)) → List (Int × (Ty × Tagger)) → Res Bool
  | [], _ => .ok true
  | (d, (callerTy, callerTagger)) :: callers, callees =>
    match Map.get? callees d with
    | none => .ok false
    | some (calleeTy, calleeTagger) => do
      if !(← abiCompat callerTy calleeTy) then .ok false
      else if callerTagger ≠ calleeTagger then .ok false
      else abiVariants callers callees
end

/-- Size and alignment of a type, as `layout().expect_size()` and `layout().expect_align()`. -/
def Ty.sizeAlign (ty : Ty) : Res (Nat × Align) := do
  let layout ← ty.layout
  let size ← layout.expectSize
  let align ← layout.expectAlign
  .ok (size, align)

/-- `layout().expect_align()`. -/
def Ty.alignOf (ty : Ty) : Res Align := do (← ty.layout).expectAlign

/-- `Machine::prepare_for_inplace_passing`, `/repo/spec/lang/step/terminators.md:138-154`. -/
def prepareForInplacePassing (place : Place P) (ty : Ty) : EM M P F Unit := do
  let (size, align) ← EM.lift ty.sizeAlign
  memDeinit place.ptr.thin size align

/-- `Machine::eval_argument`, `/repo/spec/lang/step/terminators.md:157-175`. -/
def evalArgument : ArgumentExpr → EM M P F (Value P × Ty)
  | .byValue value => evalValue value
  | .inPlace place => do
    let (place, ty) ← evalPlace place
    let value ← placeLoad place ty
    prepareForInplacePassing place ty
    pure (value, ty)

/-- `arguments.try_map(|arg| self.eval_argument(arg))`, `/repo/spec/lang/step/terminators.md:278`. -/
def evalArguments : List ArgumentExpr → EM M P F (List (Value P × Ty))
  | [] => pure []
  | a :: as => do
    let v ← evalArgument a
    let vs ← evalArguments as
    pure (v :: vs)

/-- The loop allocating arguments, `/repo/spec/lang/step/terminators.md:198-200`. -/
def storageLives : StackFrame P F → List LocalName → EM M P F (StackFrame P F)
  | frame, [] => pure frame
  | frame, l :: ls => do
    let frame ← storageLive frame l
    storageLives frame ls

/-- The loop passing arguments, `/repo/spec/lang/step/terminators.md:216-226`. -/
def passArguments (frame : StackFrame P F) : List LocalName → List (Value P × Ty) → EM M P F Unit
  | calleeLocal :: locals, (callerVal, callerTy) :: args => do
    let calleeTy ← EM.lift (frame.func.locals.get calleeLocal)
    let compatible ← EM.lift (abiCompat callerTy calleeTy)
    if !compatible then EM.throw .ub
    else do
      let align ← EM.lift callerTy.alignOf
      let ptr ← EM.lift (frame.locals.get calleeLocal)
      EM.unwrapRes (typedStore ptr callerVal callerTy align .none)
      passArguments frame locals args
  | _, _ => pure ()

/-- The initial frame of a call, `/repo/spec/lang/step/terminators.md:187-194`. -/
def StackFrame.init (func : Function) (action : StackPopAction P) (extra : F) : StackFrame P F where
  func := func
  locals := []
  stackPopAction := action
  nextBlock := func.start
  nextStmt := 0
  extra := extra

/-- `Machine::create_frame`, `/repo/spec/lang/step/terminators.md:179-229`. -/
def createFrame (func : Function) (action : StackPopAction P) (callerConv : CallingConvention)
    (callerRetTy : Ty) (callerArgs : List (Value P × Ty)) : EM M P F (StackFrame P F) := do
  let frame := StackFrame.init func action (Memory.newCall M)
  let frame ← storageLive frame func.ret
  let frame ← storageLives frame func.args
  if callerConv ≠ func.callingConvention then EM.throw .ub
  else do
    let retTy ← EM.lift (func.locals.get func.ret)
    let compatible ← EM.lift (abiCompat callerRetTy retTy)
    if !compatible then EM.throw .ub
    else if func.args.length ≠ callerArgs.length then EM.throw .ub
    else do
      passArguments frame func.args callerArgs
      pure frame

/-- `self.mutate_cur_stack(|stack| stack.push(frame))`, `/repo/spec/lang/step/terminators.md:257`. -/
def pushFrame (frame : StackFrame P F) : EM M P F Unit := do
  let thread ← EM.read (·.getActive)
  EM.modify (·.setActive { thread with stack := frame :: thread.stack })

/-- `self.mutate_cur_stack(|stack| stack.pop().unwrap())`, `/repo/spec/lang/step/terminators.md:324-326`. -/
def popFrame : EM M P F (StackFrame P F) := do
  let thread ← EM.read (·.getActive)
  match thread.stack with
  | [] => EM.throw .panic
  | frame :: rest =>
    EM.modify (·.setActive { thread with stack := rest })
    pure frame

/-- `Machine::jump_to_block`, `/repo/spec/lang/step/terminators.md:20-25`. -/
def jumpToBlock (b : BbName) : EM M P F Unit :=
  mutateCurFrame fun frame => pure ((), frame.jumpToBlock b)

/-- Jump if a block was given, else UB, `/repo/spec/lang/step/terminators.md:364-368, 446-450, 480-484`. -/
def jumpOrUb : Option BbName → EM M P F Unit
  | some b => jumpToBlock b
  | none => EM.throw .ub

/-- `Machine::eval_call`, `/repo/spec/lang/step/terminators.md:231-259`. -/
def evalCall (callee : Function) (callerConv : CallingConvention) (arguments : List (Value P × Ty))
    (retPlace : Place P) (retTy : Ty) (nextBlock unwindBlock : Option BbName) : EM M P F Unit := do
  let frame ← createFrame callee (.backToCaller nextBlock unwindBlock retPlace.ptr.thin)
    callerConv retTy arguments
  pushFrame frame

/-- `Machine::new_thread`, `/repo/spec/lang/machine.md:310-329`. -/
def newThread (func : Function) (args : List (Value P × Ty)) : EM M P F Nat := do
  let frame ← createFrame func .bottomOfStack .c unitTy args
  fun s => .ok (s.threads.length,
    { s with threads := s.threads ++ [{ state := .enabled, stack := [frame], unwindPayloads := [] }] })

/-! ### Returning -/

/-- The state of a thread after the thread `active` terminated,
`/repo/spec/lang/step/terminators.md:314-317`. -/
def Thread.wakeJoin (active : ThreadId) (t : Thread P F) : Thread P F :=
  if t.state = .blockedOnJoin active then { t with state := .enabled } else t

/-- The threads added to `synchronized_threads` by a termination,
`/repo/spec/lang/step/terminators.md:313-318`; `i` is the index of the first thread of the list. -/
def syncJoined (active : ThreadId) : List (Thread P F) → Nat → List ThreadId → List ThreadId
  | [], _, sync => sync
  | t :: ts, i, sync =>
    syncJoined active ts (i + 1) (if t.state = .blockedOnJoin active then setInsert sync i else sync)

/-- `Machine::terminate_active_thread`, `/repo/spec/lang/step/terminators.md:299-321`. The loop over the
threads is split into its two independent effects. -/
def terminateActiveThread : EM M P F Unit := fun s =>
  if s.activeThread = 0 then ub
  else do
    let thread ← s.getActive
    rassert thread.stack.isEmpty
    let threads := s.threads.set s.activeThread { thread with state := .terminated }
    .ok ((), { s with
      threads := threads.map (Thread.wakeJoin s.activeThread)
      synchronizedThreads := syncJoined s.activeThread threads 0 s.synchronizedThreads })

/-- The loop `while let Some(local) = frame.locals.keys().next() { frame.storage_dead(local) }`,
`/repo/spec/lang/step/terminators.md:336-338, 430-432`. The first argument bounds the number of
iterations; it is the number of live locals, of which each iteration removes one. -/
def storageDeadAll : Nat → StackFrame P F → EM M P F (StackFrame P F)
  | 0, frame => pure frame
  | n + 1, frame =>
    match frame.locals with
    | [] => pure frame
    | (l, _) :: _ => do
      let frame ← storageDead frame l
      storageDeadAll n frame

/-- The stack pop action of `Return`, `/repo/spec/lang/step/terminators.md:344-370`. -/
def returnAction (frame : StackFrame P F) (calleeTy : Ty) (align : Align) (retVal : Value P) :
    EM M P F Unit :=
  match frame.stackPopAction with
  | .bottomOfStack => terminateActiveThread
  | .backToCaller nextBlock _ callerRetPtr => do
    let thread ← EM.read (·.getActive)
    EM.lift (rassert (!thread.stack.isEmpty))
    typedStore callerRetPtr retVal calleeTy align .none
    jumpOrUb nextBlock

/-- `eval_terminator` at `Return`, `/repo/spec/lang/step/terminators.md:323-372`. -/
def evalReturn : EM M P F Unit := do
  let frame ← popFrame
  let calleeTy ← EM.lift (frame.func.locals.get frame.func.ret)
  let align ← EM.lift calleeTy.alignOf
  let retPtr ← EM.lift (frame.locals.get frame.func.ret)
  let retVal ← typedLoad retPtr calleeTy align .none
  let frame ← storageDeadAll frame.locals.length frame
  memEndCall frame.extra
  returnAction frame calleeTy align retVal

/-- `eval_terminator` at `ResumeUnwind`, `/repo/spec/lang/step/terminators.md:424-454`. -/
def evalResumeUnwind : EM M P F Unit := do
  let frame ← popFrame
  let frame ← storageDeadAll frame.locals.length frame
  memEndCall frame.extra
  match frame.stackPopAction with
  | .bottomOfStack => EM.throw .ub
  | .backToCaller _ unwindBlock _ => jumpOrUb unwindBlock

/-! ### Locks -/

/-- `Machine::lock_create`, `/repo/spec/lang/step/locks.md:23-29`. -/
def lockCreate : EM M P F Nat := fun s =>
  .ok (s.locks.length, { s with locks := s.locks ++ [.unlocked] })

/-- Set the state of a thread, as `self.threads.mutate_at(i, |t| t.state = ..)`. -/
def setThreadState (i : ThreadId) (st : ThreadState) : EM M P F Unit := fun s => do
  let t ← index s.threads i
  .ok ((), { s with threads := s.threads.set i { t with state := st } })

/-- `Machine::lock_acquire`, `/repo/spec/lang/step/locks.md:31-54`. -/
def lockAcquire (lockId : Int) : EM M P F Unit := fun s =>
  match getInt? s.locks lockId with
  | none => ub
  | some .unlocked =>
    .ok ((), { s with locks := s.locks.set lockId.toNat (.lockedBy s.activeThread) })
  | some (.lockedBy _) => setThreadState s.activeThread (.blockedOnLock lockId.toNat) s

/-- `Machine::lock_release`, `/repo/spec/lang/step/locks.md:56-107`. -/
def lockRelease (lockId : Int) : EM M P F Unit := do
  let s ← fun s => .ok (s, s)
  match getInt? s.locks lockId with
  | some (.lockedBy threadId) =>
    if threadId ≠ s.activeThread then EM.throw .ub
    else if s.threads.any (fun t => t.state = .blockedOnLock lockId.toNat) then do
      let acquirerId ← EM.popInt
      match getInt? s.threads acquirerId with
      | none => EM.throw .noBehavior
      | some t =>
        if t.state ≠ .blockedOnLock lockId.toNat then EM.throw .noBehavior
        else do
          setThreadState acquirerId.toNat .enabled
          EM.modify fun s => { s with
            synchronizedThreads := setInsert s.synchronizedThreads acquirerId.toNat
            locks := s.locks.set lockId.toNat (.lockedBy acquirerId.toNat) }
    else EM.modify fun s => { s with locks := s.locks.set lockId.toNat .unlocked }
  | _ => EM.throw .ub

/-! ### Intrinsics -/

/-- `throw_ub!` unless the condition holds. -/
def requireUb (b : Bool) : EM M P F Unit := EM.lift (ensureUb b)

/-- `let Value::Int(i) = v else { throw_ub!(..) }`. -/
def intArg : Value P × Ty → Res Int
  | (.int i, _) => .ok i
  | _ => ub

/-- `let Value::Bool(b) = v else { throw_ub!(..) }`. -/
def boolArg : Value P × Ty → Res Bool
  | (.bool b, _) => .ok b
  | _ => ub

/-- `let Value::Ptr(Pointer { thin_pointer: ptr, metadata: None }) = v else { throw_ub!(..) }`. -/
def thinPtrArg : Value P × Ty → Res (ThinPtr P)
  | (.ptr ⟨thin, none⟩, _) => .ok thin
  | _ => ub

/-- `let Some(size) = Size::from_bytes(size) else { throw_ub!(..) }`. -/
def sizeArg (i : Int) : Res Nat :=
  match sizeFromBytes i with
  | some n => .ok n
  | none => ub

/-- `let Some(align) = Align::from_bytes(align) else { throw_ub!(..) }`; negative numbers are not
powers of two. -/
def alignArg (i : Int) : Res Align :=
  if i < 0 then ub
  else match Align.fromBytes i.toNat with
    | some a => .ok a
    | none => ub

/-- Is this a pointer type without metadata? Used by `Allocate`, `PointerWithExposedProvenance` and
`GetUnwindPayload`, e.g. `/repo/spec/lang/step/intrinsics.md:232-237`. -/
def isThinPtrTy : Ty → Bool
  | .ptr p => decide (p.metaKind = .none)
  | _ => false

/-- `matches!(ty, Type::Int(_))`. -/
def isIntTy : Ty → Bool
  | .int _ => true
  | _ => false

/-- `matches!(ty, Type::Ptr(_))`. -/
def isPtrTy : Ty → Bool
  | .ptr _ => true
  | _ => false

/-- `PointerExposeProvenance`, `/repo/spec/lang/step/intrinsics.md:37-54`. -/
def intrinsicExpose (args : List (Value P × Ty)) (retTy : Ty) : EM M P F (Value P) := do
  match args with
  | [arg] => do
    let ptr ← EM.lift (thinPtrArg arg)
    requireUb (decide (retTy = .int ⟨.unsigned, T.ptrSize⟩))
    EM.modify fun s => { s with intptrcast := s.intptrcast.expose ptr }
    pure (.int ptr.addr)
  | _ => EM.throw .ub

/-- `PointerWithExposedProvenance`, `/repo/spec/lang/step/intrinsics.md:56-76`. -/
def intrinsicWithExposed (args : List (Value P × Ty)) (retTy : Ty) : EM M P F (Value P) := do
  match args with
  | [arg] => do
    let addr ← EM.lift (intArg arg)
    requireUb (isThinPtrTy retTy)
    let predict ← EM.popProv
    let ptr ← EM.read fun s => s.intptrcast.int2ptr addr predict
    pure (.ptr (ptr.widen none))
  | _ => EM.throw .ub

/-- `Exit`, `/repo/spec/lang/step/intrinsics.md:86-100`. -/
def intrinsicExit : EM M P F (Value P) := do
  EM.read (·.mem.leakCheck)
  EM.throw .machineStop

/-- `Assume`, `/repo/spec/lang/step/intrinsics.md:123-144`. -/
def intrinsicAssume (args : List (Value P × Ty)) (retTy : Ty) : EM M P F (Value P) := do
  match args with
  | [arg] => do
    let b ← EM.lift (boolArg arg)
    requireUb (decide (retTy = unitTy))
    requireUb b
    pure unitValue
  | _ => EM.throw .ub

/-- `eval_print`, `/repo/spec/lang/step/intrinsics.md:184-198`: what gets printed. -/
def evalPrint : List (Value P × Ty) → Res (List Printed)
  | [] => .ok []
  | (.int i, _) :: rest => do
    let out ← evalPrint rest
    .ok (.int i :: out)
  | (.bool b, _) :: rest => do
    let out ← evalPrint rest
    .ok (.bool b :: out)
  | _ :: _ => ub

/-- `PrintStdout`, `/repo/spec/lang/step/intrinsics.md:154-167`. -/
def intrinsicPrintStdout (args : List (Value P × Ty)) (retTy : Ty) : EM M P F (Value P) := do
  requireUb (decide (retTy = unitTy))
  let out ← EM.lift (evalPrint args)
  EM.modify fun s => { s with stdout := s.stdout ++ out }
  pure unitValue

/-- `PrintStderr`, `/repo/spec/lang/step/intrinsics.md:169-182`. -/
def intrinsicPrintStderr (args : List (Value P × Ty)) (retTy : Ty) : EM M P F (Value P) := do
  requireUb (decide (retTy = unitTy))
  let out ← EM.lift (evalPrint args)
  EM.modify fun s => { s with stderr := s.stderr ++ out }
  pure unitValue

/-- `Allocate`, `/repo/spec/lang/step/intrinsics.md:208-242`. -/
def intrinsicAllocate (args : List (Value P × Ty)) (retTy : Ty) : EM M P F (Value P) := do
  match args with
  | [sizeA, alignA] => do
    let size ← EM.lift (intArg sizeA)
    let size ← EM.lift (sizeArg size)
    let align ← EM.lift (intArg alignA)
    let align ← EM.lift (alignArg align)
    requireUb (isThinPtrTy retTy)
    let ptr ← memAllocate .heap size align
    pure (.ptr (ptr.widen none))
  | _ => EM.throw .ub

/-- `Deallocate`, `/repo/spec/lang/step/intrinsics.md:244-279`. -/
def intrinsicDeallocate (args : List (Value P × Ty)) (retTy : Ty) : EM M P F (Value P) := do
  match args with
  | [ptrA, sizeA, alignA] => do
    let ptr ← EM.lift (thinPtrArg ptrA)
    let size ← EM.lift (intArg sizeA)
    let size ← EM.lift (sizeArg size)
    let align ← EM.lift (intArg alignA)
    let align ← EM.lift (alignArg align)
    requireUb (decide (retTy = unitTy))
    memDeallocate ptr .heap size align
    pure unitValue
  | _ => EM.throw .ub

/-- `spawn`, `/repo/spec/lang/step/intrinsics.md:289-298`. -/
def spawn (func : Function) (dataPtr : Value P × Ty) : EM M P F Nat := do
  let threadId ← newThread func [dataPtr]
  EM.modify fun s => { s with synchronizedThreads := setInsert s.synchronizedThreads threadId }
  pure threadId

/-- `Spawn`, `/repo/spec/lang/step/intrinsics.md:300-324`. -/
def intrinsicSpawn (args : List (Value P × Ty)) (retTy : Ty) : EM M P F (Value P) := do
  match args with
  | [fnA, dataA] => do
    let func ← EM.read (·.fnFromPtr fnA.1)
    requireUb (isPtrTy dataA.2)
    requireUb (isIntTy retTy)
    let threadId ← spawn func dataA
    pure (.int threadId)
  | _ => EM.throw .ub

/-- `join`, `/repo/spec/lang/step/intrinsics.md:326-341`. -/
def join (threadId : Int) : EM M P F Unit := fun s =>
  match getInt? s.threads threadId with
  | none => ub
  | some thread =>
    match thread.state with
    | .terminated => .ok ((), s)
    | _ => setThreadState s.activeThread (.blockedOnJoin threadId.toNat) s

/-- `Join`, `/repo/spec/lang/step/intrinsics.md:343-363`. -/
def intrinsicJoin (args : List (Value P × Ty)) (retTy : Ty) : EM M P F (Value P) := do
  match args with
  | [arg] => do
    let threadId ← EM.lift (intArg arg)
    requireUb (decide (retTy = unitTy))
    join threadId
    pure unitValue
  | _ => EM.throw .ub

/-- `bytes.try_map(|byte| byte.data())` failing with UB, `/repo/spec/lang/step/intrinsics.md:379-381`. -/
def bytesDataUb (bytes : List (AByte P)) : Res (List UInt8) :=
  match bytesData bytes with
  | .error .none => ub
  | r => r

/-- `load_raw_data`, `/repo/spec/lang/step/intrinsics.md:369-384`. -/
def loadRawData (ptr : Pointer P) (ptrTy : PtrType) : EM M P F (List UInt8) :=
  match ptrTy with
  | .ref _ pointee =>
    match pointee.layout with
    | .sized size align => do
      let bytes ← memLoad ptr.thin size align .none
      EM.lift (bytesDataUb bytes)
    | _ => EM.throw .ub
  | _ => EM.throw .ub

/-- `RawEq`, `/repo/spec/lang/step/intrinsics.md:386-422`. -/
def intrinsicRawEq (args : List (Value P × Ty)) (retTy : Ty) : EM M P F (Value P) := do
  match args with
  | [(left, lTy), (right, rTy)] => do
    requireUb (decide (retTy = .bool))
    requireUb (decide (lTy = rTy))
    match left, right, lTy with
    | .ptr left, .ptr right, .ptr ptrTy => do
      let leftData ← loadRawData left ptrTy
      let rightData ← loadRawData right ptrTy
      pure (.bool (decide (leftData = rightData)))
    | _, _, _ => EM.throw .ub
  | _ => EM.throw .ub

/-- `AtomicStore`, `/repo/spec/lang/step/intrinsics.md:432-463`. -/
def intrinsicAtomicStore (args : List (Value P × Ty)) (retTy : Ty) : EM M P F (Value P) := do
  match args with
  | [ptrA, (val, ty)] => do
    let ptr ← EM.lift (thinPtrArg ptrA)
    let layout ← EM.lift ty.layout
    match layout with
    | .sized size _ => do
      let align ← EM.lift (alignArg size)
      requireUb (decide (size ≤ T.maxAtomicSize))
      requireUb (decide (retTy = unitTy))
      typedStore ptr val ty align .atomic
      pure unitValue
    | _ => EM.throw .ub
  | _ => EM.throw .ub

/-- `AtomicLoad`, `/repo/spec/lang/step/intrinsics.md:465-490`. -/
def intrinsicAtomicLoad (args : List (Value P × Ty)) (retTy : Ty) : EM M P F (Value P) := do
  match args with
  | [ptrA] => do
    let ptr ← EM.lift (thinPtrArg ptrA)
    let size ← EM.lift retTy.size
    let align ← EM.lift (alignArg size)
    requireUb (decide (size ≤ T.maxAtomicSize))
    typedLoad ptr retTy align .atomic
  | _ => EM.throw .ub

/-- The store of a successful compare-exchange, `/repo/spec/lang/step/intrinsics.md:533-538`. -/
def storeIf (b : Bool) (ptr : ThinPtr P) (val : Value P) (ty : Ty) (align : Align) : EM M P F Unit :=
  if b then typedStore ptr val ty align .atomic else pure ()

/-- `AtomicCompareExchange`, `/repo/spec/lang/step/intrinsics.md:492-541`. -/
def intrinsicCompareExchange (args : List (Value P × Ty)) (retTy : Ty) : EM M P F (Value P) := do
  match args with
  | [ptrA, (current, currTy), (next, nextTy)] => do
    let ptr ← EM.lift (thinPtrArg ptrA)
    requireUb (decide (currTy = retTy))
    requireUb (decide (nextTy = retTy))
    requireUb (isIntTy retTy)
    let size ← EM.lift retTy.size
    let align ← EM.lift (unwrap (Align.fromBytes size))
    requireUb (decide (size ≤ T.maxAtomicSize))
    let before ← typedLoad ptr retTy align .atomic
    storeIf (decide (current = before)) ptr next retTy align
    pure before
  | _ => EM.throw .ub

/-- The new value of a fetch-and-op, `/repo/spec/lang/step/intrinsics.md:577-582`. -/
def fetchOpResult (op : IntBinOp) (ity : IntType) (previous other : Value P) : Res (Value P) :=
  match other, previous with
  | .int other, .int previous => do
    let next ← evalIntBinOp op previous other ity
    .ok (.int next)
  | _, _ => panic

/-- `AtomicFetchAndOp`, `/repo/spec/lang/step/intrinsics.md:543-588`. -/
def intrinsicFetchAndOp (op : IntBinOp) (args : List (Value P × Ty)) (retTy : Ty) :
    EM M P F (Value P) := do
  match args with
  | [ptrA, (other, otherTy)] => do
    let ptr ← EM.lift (thinPtrArg ptrA)
    requireUb (decide (otherTy = retTy))
    match retTy with
    | .int ity => do
      let size ← EM.lift (Ty.int ity).size
      let align ← EM.lift (unwrap (Align.fromBytes size))
      requireUb (decide (size ≤ T.maxAtomicSize))
      let previous ← typedLoad ptr (.int ity) align .atomic
      let next ← EM.lift (fetchOpResult op ity previous other)
      typedStore ptr next (.int ity) align .atomic
      pure previous
    | _ => EM.throw .ub
  | _ => EM.throw .ub

/-- `GetUnwindPayload`, `/repo/spec/lang/step/intrinsics.md:595-619`. -/
def intrinsicGetUnwindPayload (args : List (Value P × Ty)) (retTy : Ty) : EM M P F (Value P) := do
  requireUb args.isEmpty
  requireUb (isThinPtrTy retTy)
  let thread ← EM.read (·.getActive)
  match thread.unwindPayloads with
  | [] => EM.throw .ub
  | payload :: _ => pure (.ptr ⟨payload, none⟩)

/-- The lock intrinsics, `/repo/spec/lang/step/locks.md:117-180`. -/
def intrinsicLock (op : IntrinsicLockOp) (args : List (Value P × Ty)) (retTy : Ty) :
    EM M P F (Value P) := do
  match op with
  | .create => do
    requireUb args.isEmpty
    requireUb (isIntTy retTy)
    let id ← lockCreate
    pure (.int id)
  | .acquire =>
    match args with
    | [arg] => do
      let lockId ← EM.lift (intArg arg)
      requireUb (decide (retTy = unitTy))
      lockAcquire lockId
      pure unitValue
    | _ => EM.throw .ub
  | .release =>
    match args with
    | [arg] => do
      let lockId ← EM.lift (intArg arg)
      requireUb (decide (retTy = unitTy))
      lockRelease lockId
      pure unitValue
    | _ => EM.throw .ub

/-- `eval_intrinsic`, `/repo/spec/lang/step/intrinsics.md:8-13`. The order of independent UB checks
inside the cases is simplified (they all give UB). -/
def evalIntrinsic (op : IntrinsicOp) (args : List (Value P × Ty)) (retTy : Ty) : EM M P F (Value P) :=
  match op with
  | .abort => EM.throw .abort
  | .assume => intrinsicAssume args retTy
  | .exit => intrinsicExit
  | .printStdout => intrinsicPrintStdout args retTy
  | .printStderr => intrinsicPrintStderr args retTy
  | .allocate => intrinsicAllocate args retTy
  | .deallocate => intrinsicDeallocate args retTy
  | .spawn => intrinsicSpawn args retTy
  | .join => intrinsicJoin args retTy
  | .rawEq => intrinsicRawEq args retTy
  | .atomicStore => intrinsicAtomicStore args retTy
  | .atomicLoad => intrinsicAtomicLoad args retTy
  | .atomicCompareExchange => intrinsicCompareExchange args retTy
  | .atomicFetchAndOp op => intrinsicFetchAndOp op args retTy
  | .lock op => intrinsicLock op args retTy
  | .pointerExposeProvenance => intrinsicExpose args retTy
  | .pointerWithExposedProvenance => intrinsicWithExposed args retTy
  | .getUnwindPayload => intrinsicGetUnwindPayload args retTy

/-! ### Terminators -/

/-- `eval_terminator` at `Switch`, `/repo/spec/lang/step/terminators.md:38-46`: the block jumped to. -/
def switchTarget (cases : Map Int BbName) (fallback : BbName) : Value P → Res BbName
  | .int value => .ok ((cases.get? value).getD fallback)
  | _ => panic

/-- The payload of `StartUnwind`, `/repo/spec/lang/step/terminators.md:387-391`. -/
def unwindPayload : Value P × Ty → Res (ThinPtr P)
  | (.ptr ptr, .ptr (.raw .none)) => .ok ptr.thin
  | _ => panic

/-- `thread.unwind_payloads.push(..)`, `/repo/spec/lang/step/terminators.md:392-394`. -/
def pushPayload (payload : ThinPtr P) : EM M P F Unit := do
  let thread ← EM.read (·.getActive)
  EM.modify (·.setActive { thread with unwindPayloads := payload :: thread.unwindPayloads })

/-- `thread.unwind_payloads.pop()`, `/repo/spec/lang/step/terminators.md:408-413`. -/
def popPayload : EM M P F Unit := do
  let thread ← EM.read (·.getActive)
  match thread.unwindPayloads with
  | [] => EM.throw .ub
  | _ :: rest => EM.modify (·.setActive { thread with unwindPayloads := rest })

/-- `eval_terminator`, `/repo/spec/lang/step/terminators.md:10` and its cases (`:27-30`, `:38-46`,
`:54-56`, `:261-288`, `:323-372`, `:386-397`, `:407-416`, `:424-454`, `:462-487`). -/
def evalTerminator : Terminator → EM M P F Unit
  | .goto b => jumpToBlock b
  | .switch value cases fallback => do
    let (v, _) ← evalValue value
    let next ← EM.lift (switchTarget cases fallback v)
    jumpToBlock next
  | .unreachable => EM.throw .ub
  | .call callee callerConv arguments retExpr nextBlock unwindBlock => do
    let (retPlace, retTy) ← evalPlace retExpr
    prepareForInplacePassing retPlace retTy
    let (calleeVal, _) ← evalValue callee
    let func ← EM.read (·.fnFromPtr calleeVal)
    let args ← evalArguments arguments
    evalCall func callerConv args retPlace retTy nextBlock unwindBlock
  | .return => evalReturn
  | .startUnwind payload unwindBlock => do
    let v ← evalValue payload
    let ptr ← EM.lift (unwindPayload v)
    pushPayload ptr
    jumpToBlock unwindBlock
  | .stopUnwind b => do
    popPayload
    jumpToBlock b
  | .resumeUnwind => evalResumeUnwind
  | .intrinsic op arguments retExpr nextBlock => do
    let (retPlace, retTy) ← evalPlace retExpr
    let args ← evalValues arguments
    let value ← evalIntrinsic op args retTy
    placeStore retPlace value retTy
    jumpOrUb nextBlock

/-! ### Steps -/

/-- `reset_data_race_tracking`, `/repo/spec/lang/machine.md:358-369`. -/
def resetDataRaceTracking : EM M P F (List ThreadId × List Access) := fun s =>
  let (prevAccesses, mem) := s.mem.resetAccesses
  .ok ((setInsert s.synchronizedThreads s.activeThread, prevAccesses), { s with mem := mem })

/-- The `pick` of the next thread, `/repo/spec/lang/machine.md:206-217`. -/
def pickThread : EM M P F Unit := do
  let id ← EM.popInt
  fun s =>
    match getInt? s.threads id with
    | none => .error .noBehavior
    | some thread =>
      if thread.state = .enabled then .ok ((), { s with activeThread := id.toNat })
      else .error .noBehavior

/-- `frame.next_stmt += 1`, `/repo/spec/lang/machine.md:229-232`. -/
def bumpStmt : EM M P F Unit :=
  mutateCurFrame fun frame => pure ((), { frame with nextStmt := frame.nextStmt + 1 })

/-- The execution of the next statement or terminator of the active thread,
`/repo/spec/lang/machine.md:220-233`. -/
def execStep : EM M P F Unit := do
  let frame ← EM.read (·.curFrame)
  let block ← EM.lift (frame.func.blocks.get frame.nextBlock)
  if frame.nextStmt = block.statements.length then evalTerminator block.terminator
  else do
    let stmt ← EM.lift (index block.statements frame.nextStmt)
    evalStatement stmt
    bumpStmt

/-- Is some thread enabled? -/
def Machine.anyEnabled (s : Machine M P F) : Bool := s.threads.any (fun t => t.state = .enabled)

/-- `Machine::step`, `/repo/spec/lang/machine.md:197-239`. -/
def step : EM M P F Unit := do
  let enabled ← EM.read (fun s => .ok s.anyEnabled)
  if !enabled then EM.throw .deadlock
  else do
    let (prevSync, prevAccesses) ← resetDataRaceTracking
    pickThread
    execStep
    EM.read fun s => s.mem.checkDataRaces s.activeThread prevSync prevAccesses

/-! ### The initial machine -/

/-- The loop allocating the globals, `/repo/spec/lang/machine.md:138-142`. -/
def allocGlobals : List (GlobalName × Global) → EM M P F Unit
  | [] => pure ()
  | (name, global) :: rest => do
    let ptr ← memAllocate .global global.bytes.length global.align
    EM.modify fun s => { s with globalPtrs := s.globalPtrs.insert name ptr }
    allocGlobals rest

/-- The loop writing the relocations of a global, `/repo/spec/lang/machine.md:152-156`. -/
def Machine.relocate (s : Machine M P F) : List (Nat × Relocation) → List (AByte P) → Res (List (AByte P))
  | [], bytes => .ok bytes
  | (i, r) :: rest, bytes => do
    let ptr ← s.globalPtrs.get r.name
    let bytes ← writeSubslice bytes i (← encodePtr (ptr.wrappingOffset r.offset))
    s.relocate rest bytes

/-- The bytes of a global before relocation, `/repo/spec/lang/machine.md:146-151`. -/
def Global.abstractBytes (g : Global) : List (AByte P) :=
  g.bytes.map fun b => match b with
    | some x => .init x none
    | none => .uninit

/-- The loop filling the globals, `/repo/spec/lang/machine.md:145-159`. -/
def fillGlobals : List (GlobalName × Global) → EM M P F Unit
  | [] => pure ()
  | (name, global) :: rest => do
    let bytes ← EM.read (·.relocate global.relocations global.abstractBytes)
    let ptr ← EM.read (·.globalPtrs.get name)
    EM.unwrapRes (memStore ptr bytes global.align .none)
    fillGlobals rest

/-- The loop allocating functions, `/repo/spec/lang/machine.md:162-165`. -/
def allocFunctions : List FnName → EM M P F Unit
  | [] => pure ()
  | name :: rest => do
    let ptr ← memAllocate .function 0 Align.one
    EM.modify fun s => { s with fnPtrs := s.fnPtrs.insert name ptr }
    allocFunctions rest

/-- The loop allocating vtables, `/repo/spec/lang/machine.md:168-171`. -/
def allocVTables : List VTableName → EM M P F Unit
  | [] => pure ()
  | name :: rest => do
    let ptr ← memAllocate .vtable 0 Align.one
    EM.modify fun s => { s with vtablePtrs := s.vtablePtrs.insert name ptr }
    allocVTables rest

/-- The machine before anything is allocated, `/repo/spec/lang/machine.md:132-135, 174-187`. -/
def Machine.empty (prog : Program) (oracle : List (Choice P)) : Machine M P F where
  prog := prog
  mem := ConcMem.new
  intptrcast := IntPtrCast.new
  threads := []
  activeThread := 0
  synchronizedThreads := []
  locks := []
  globalPtrs := []
  fnPtrs := []
  vtablePtrs := []
  stdout := []
  stderr := []
  oracle := oracle

/-- The body of `Machine::new` after the well-formedness check, `/repo/spec/lang/machine.md:132-193`.
The struct is built before the loops instead of after them. -/
def initMachine (prog : Program) : EM M P F Unit := do
  allocGlobals prog.globals
  fillGlobals prog.globals
  allocFunctions prog.functions.keys
  allocVTables prog.vtables.keys
  let start ← EM.lift (prog.functions.get prog.start)
  let _ ← newThread start []
  pure ()

/-- `Machine::new`, `/repo/spec/lang/machine.md:129-194`. -/
def Machine.new (prog : Program) (oracle : List (Choice P)) : Res (Machine M P F) := do
  prog.checkWf
  let (_, s) ← initMachine prog (Machine.empty prog oracle)
  .ok s

/-! ### Executions -/

/-- `t` is reached from `s` by some number of successful steps. -/
inductive Steps : Machine M P F → Machine M P F → Prop
  | refl (s) : Steps s s
  | tail {s t u} : Steps s t → step t = .ok ((), u) → Steps s u

/-- `s` is a state in which some execution of `prog` can be. -/
def Reachable (prog : Program) (s : Machine M P F) : Prop :=
  ∃ oracle s₀, Machine.new prog oracle = .ok s₀ ∧ Steps s₀ s

end MiniRust
