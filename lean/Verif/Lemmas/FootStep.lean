import Verif.Lemmas.Foot
import Verif.Lemmas.Eval
/-
Steps of machines whose memories agree on what is read.
-/
set_option linter.unusedSectionVars false
namespace MiniRust

section
variable [T : Target] {M PE AE F α β : Type} [Memory M (AllocId × PE) F] [K : BasicBacked M PE AE F] [DecidableEq PE]
variable {B : Int → Prop} {solo : Prop} {s t : Machine M (AllocId × PE) F}

namespace Loc
variable {x : EM M (AllocId × PE) F α} {f : α → EM M (AllocId × PE) F β}

/-- Computations that do not involve the memory. -/
theorem noMem (hs : ¬ solo)
    (hx : ∀ s m, x { s with mem := m } = (x s).map fun r => (r.1, { r.2 with mem := m })) : Loc B solo x := by
  have hm : ∀ s a s', x s = .ok (a, s') → s'.mem = s.mem := by
    intro s a s' h
    have h1 := hx s s.mem
    change x s = _ at h1
    rw [h] at h1
    injection h1 with h1
    injection h1 with _ h1
    rw [h1]
  refine ⟨fun s a s' h => by rw [hm _ _ _ h]; exact List.prefix_refl _, fun h => absurd h hs, fun s t a s' L h _ => ?_⟩
  have hf := L.full hs
  have h1 := hx s t.mem
  rw [← hf, h] at h1
  refine ⟨{ s' with mem := t.mem }, h1, ?_⟩
  have hm := hm _ _ _ h
  refine ⟨?_, ?_, ?_, rfl, rfl, rfl, rfl, rfl, rfl, fun _ => rfl⟩
  · show MemAgree _ (K.mem s'.mem.memory) (K.mem t.mem.memory)
    rw [hm]; exact L.mem
  · show t.mem.accesses = s'.mem.accesses
    rw [hm]; exact L.acc
  · rw [hm]; exact L.reach

theorem requireUb {b : Bool} : Loc B solo (requireUb b : EM M (AllocId × PE) F Unit) := .lift

variable [BM : ByteMem M PE AE F]

theorem memDeinit {p : ThinPtr (AllocId × PE)} {n al} : Loc B solo (memDeinit p n al : EM M (AllocId × PE) F _) := .memStore

/-! ### Statements -/

theorem placeStore {p : Place (AllocId × PE)} {v ty} : Loc B solo (placeStore p v ty : EM M (AllocId × PE) F _) := .ite .throw .typedStore

omit BM in
theorem encodeDiscriminant {acc : Machine M (AllocId × PE) F → Nat → List (AByte (AllocId × PE)) → Res (Machine M (AllocId × PE) F)}
    (hacc : ∀ o b, Loc B solo (show EM M (AllocId × PE) F Unit from fun s => acc s o b >>= fun s => .ok ((), s))) :
    ∀ tg, Loc B solo (show EM M (AllocId × PE) F Unit from fun s => encodeDiscriminant acc tg s >>= fun s => .ok ((), s))
  | [] => by
    have : (show EM M (AllocId × PE) F Unit from fun s => MiniRust.encodeDiscriminant acc [] s >>= fun s => .ok ((), s)) = Pure.pure () := by
      funext s; simp only [MiniRust.encodeDiscriminant]; rfl
    rw [this]; exact .pure
  | (o, (vt, v)) :: rest => by
    have : (show EM M (AllocId × PE) F Unit from fun s => MiniRust.encodeDiscriminant acc ((o, (vt, v)) :: rest) s >>= fun s => .ok ((), s)) =
        (EM.lift (encodeInt vt v) >>= fun b => (show EM M (AllocId × PE) F Unit from fun s => acc s o b >>= fun s => .ok ((), s)) >>=
          fun _ => (show EM M (AllocId × PE) F Unit from fun s => MiniRust.encodeDiscriminant acc rest s >>= fun s => .ok ((), s))) := by
      funext s
      simp only [MiniRust.encodeDiscriminant]
      cases h : encodeInt (P := AllocId × PE) vt v with
      | error e => rfl
      | ok b =>
        rw [EM.bind_of_ok (EM.lift_eq_ok.2 ⟨rfl, rfl⟩)]
        show (acc s o b >>= fun s => MiniRust.encodeDiscriminant acc rest s) >>= _ = _
        cases h1 : acc s o b with
        | error e =>
          symm
          exact EM.bind_of_error (by show acc s o b >>= _ = _; rw [h1]; rfl)
        | ok s1 =>
          symm
          exact EM.bind_of_ok (M := M) (P := AllocId × PE) (F := F) (x := fun s => acc s o b >>= fun s => .ok ((), s))
            (a := ()) (s' := s1) (by show acc s o b >>= _ = _; rw [h1]; rfl)
    rw [this]
    exact .bind .lift fun b => .bind (hacc _ _) fun _ => encodeDiscriminant hacc rest

theorem setDiscriminant {p : Place (AllocId × PE)} {ty v} : Loc B solo (setDiscriminant p ty v : EM M (AllocId × PE) F _) := by
  unfold MiniRust.setDiscriminant
  split
  · refine .ite .throw ?_
    split
    · exact .throw
    · refine .encodeDiscriminant (fun o b => ?_) _
      have : (show EM M (AllocId × PE) F Unit from fun s => (do
          let ptr ← s.ptrOffsetInbounds p.ptr.thin o
          let (_, s) ← MiniRust.memStore ptr b Align.one .none s
          .ok s) >>= fun s => .ok ((), s)) =
          (EM.read (fun s => s.ptrOffsetInbounds p.ptr.thin o) >>= fun ptr => MiniRust.memStore ptr b Align.one .none) := by
        funext s
        cases h : s.ptrOffsetInbounds p.ptr.thin o with
        | error e => symm; exact EM.bind_of_error (EM.read_of_error h)
        | ok ptr =>
          symm
          rw [EM.bind_of_ok (EM.read_of_ok h)]
          show _ = (MiniRust.memStore ptr b Align.one .none s >>= fun r => Except.ok r.2) >>= _
          cases MiniRust.memStore ptr b Align.one .none s <;> rfl
      show Loc B solo (show EM M (AllocId × PE) F Unit from _)
      rw [this]
      exact .bind (.read fun _ _ L => by rw [L.ptrOffsetInbounds]) fun _ => .memStore
  · exact .throw

mutual
theorem retagVal (e : Bool) : ∀ v ty, Loc B solo (retagVal e v ty : EM M (AllocId × PE) F _)
  | v, ty => by
    unfold MiniRust.retagVal
    split
    · exact .pure
    · exact .pure
    · exact .pure
    · exact .bind .retagPtrM fun _ => .pure
    · exact .bind (retagVals e _ _) fun _ => .pure
    · exact .bind (retagVals e _ _) fun _ => .pure
    · exact .bind .lift fun _ => .bind (retagVal e _ _) fun _ => .pure
    · exact .throw
theorem retagVals (e : Bool) : ∀ vs tys, Loc B solo (retagVals e vs tys : EM M (AllocId × PE) F _)
  | v :: vs, ty :: tys => by
    unfold MiniRust.retagVals
    exact .bind (retagVal e v ty) fun _ => .bind (retagVals e vs tys) fun _ => .pure
  | [], _ => by unfold MiniRust.retagVals; exact .pure
  | _ :: _, [] => by unfold MiniRust.retagVals; exact .pure
end

theorem storageDead (hs : ¬ solo) {fr : StackFrame (AllocId × PE) F} {l} : Loc B solo (storageDead fr l : EM M (AllocId × PE) F _) := by
  unfold MiniRust.storageDead
  refine .bind .lift fun _ => ?_
  dsimp only
  split
  · exact .bind (.memDeallocate hs) fun _ => .pure
  · exact .pure

theorem storageLive (hs : ¬ solo) {fr : StackFrame (AllocId × PE) F} {l} : Loc B solo (storageLive fr l : EM M (AllocId × PE) F _) :=
  .bind (.storageDead hs) fun _ => .bind .lift fun _ => .bind (.memAllocate hs) fun _ => .pure

theorem evalStatement : ∀ {st : Statement}, (solo → st.isLocal = true) → Loc B solo (evalStatement st : EM M (AllocId × PE) F _)
  | .assign _ _, _ => .bind (.evalPlace _) fun _ => .bind (.evalValue _) fun _ => .placeStore
  | .placeMention _, _ => .bind (.evalPlace _) fun _ => .pure
  | .setDiscriminant _ _, _ => .bind (.evalPlace _) fun _ => .setDiscriminant
  | .validate _ _, _ => .bind (.evalPlace _) fun _ => .bind .placeLoad fun _ => .bind (.retagVal _ _ _) fun _ => .placeStore
  | .deinit _, _ => .bind (.evalPlace _) fun _ => .ite .throw (.bind .lift fun _ => .memDeinit)
  | .storageLive l, h =>
    have hs : ¬ solo := fun hs => by cases h hs
    .mutateCurFrame fun _ => .bind (.storageLive hs) fun _ => .pure
  | .storageDead _, h =>
    have hs : ¬ solo := fun hs => by cases h hs
    .mutateCurFrame fun _ => .bind (.storageDead hs) fun _ => .pure

/-! ### Calls -/

theorem prepareForInplacePassing {p : Place (AllocId × PE)} {ty} : Loc B solo (prepareForInplacePassing p ty : EM M (AllocId × PE) F _) :=
  .bind .lift fun _ => .memDeinit

theorem evalArgument : ∀ {a}, Loc B solo (evalArgument a : EM M (AllocId × PE) F _)
  | .byValue _ => .evalValue _
  | .inPlace _ => .bind (.evalPlace _) fun _ => .bind .placeLoad fun _ => .bind .prepareForInplacePassing fun _ => .pure

theorem evalArguments : ∀ as, Loc B solo (evalArguments as : EM M (AllocId × PE) F _)
  | [] => .pure
  | _ :: as => .bind .evalArgument fun _ => .bind (evalArguments as) fun _ => .pure

theorem storageLives (hs : ¬ solo) : ∀ ls {fr : StackFrame (AllocId × PE) F}, Loc B solo (storageLives fr ls : EM M (AllocId × PE) F _)
  | [], _ => .pure
  | _ :: ls, _ => .bind (.storageLive hs) fun _ => storageLives hs ls

theorem passArguments {fr : StackFrame (AllocId × PE) F} : ∀ ls args, Loc B solo (passArguments fr ls args : EM M (AllocId × PE) F _)
  | [], _ => by unfold MiniRust.passArguments; exact .pure
  | _ :: _, [] => by unfold MiniRust.passArguments; exact .pure
  | _ :: ls, _ :: args => by
    unfold MiniRust.passArguments
    exact .bind .lift fun _ => .bind .lift fun _ => .ite .throw (.bind .lift fun _ => .bind .lift fun _ =>
      .bind (.unwrapRes .typedStore) fun _ => passArguments ls args)

theorem createFrame (hs : ¬ solo) {f a c r args} : Loc B solo (createFrame f a c r args : EM M (AllocId × PE) F _) :=
  .bind (.storageLive hs) fun _ => .bind (.storageLives hs _) fun _ => .ite .throw (.bind .lift fun _ => .bind .lift fun _ =>
    .ite .throw (.ite .throw (.bind (.passArguments _ _) fun _ => .pure)))

theorem pushFrame {fr : StackFrame (AllocId × PE) F} : Loc B solo (pushFrame fr : EM M (AllocId × PE) F _) :=
  .bind (.read fun _ _ L => L.getActive) fun _ => .setActive

theorem popFrame : Loc B solo (popFrame : EM M (AllocId × PE) F _) := by
  refine .bind (.read fun _ _ L => L.getActive) fun th => ?_
  split
  · exact .throw
  · exact .bind .setActive fun _ => .pure

theorem jumpToBlock {b} : Loc B solo (jumpToBlock b : EM M (AllocId × PE) F _) := .mutateCurFrame fun _ => .pure

theorem jumpOrUb : ∀ {b}, Loc B solo (jumpOrUb b : EM M (AllocId × PE) F _)
  | some _ => .jumpToBlock
  | none => .throw

theorem evalCall (hs : ¬ solo) {f c args p ty n u} : Loc B solo (evalCall f c args p ty n u : EM M (AllocId × PE) F _) :=
  .bind (.createFrame hs) fun _ => .pushFrame

theorem newThread (hs : ¬ solo) {f args} : Loc B solo (newThread f args : EM M (AllocId × PE) F _) :=
  .bind (.createFrame hs) fun _ => .noMem hs fun _ _ => rfl

theorem terminateActiveThread (hs : ¬ solo) : Loc B solo (terminateActiveThread : EM M (AllocId × PE) F _) := by
  refine .noMem hs fun s m => ?_
  unfold MiniRust.terminateActiveThread
  by_cases h : s.activeThread = 0
  · rw [if_pos h, if_pos h]; rfl
  · rw [if_neg h, if_neg h]
    show (s.getActive >>= _) = _
    cases s.getActive with
    | error e => rfl
    | ok th =>
      show (rassert th.stack.isEmpty >>= _) = Except.map _ (rassert th.stack.isEmpty >>= _)
      cases rassert th.stack.isEmpty <;> rfl

theorem storageDeadAll (hs : ¬ solo) : ∀ n {fr : StackFrame (AllocId × PE) F}, Loc B solo (storageDeadAll n fr : EM M (AllocId × PE) F _)
  | 0, _ => .pure
  | n + 1, fr => by
    unfold MiniRust.storageDeadAll
    split
    · exact .pure
    · exact .bind (.storageDead hs) fun _ => storageDeadAll hs n

theorem returnAction (hs : ¬ solo) {fr : StackFrame (AllocId × PE) F} {ty al v} : Loc B solo (returnAction fr ty al v : EM M (AllocId × PE) F _) := by
  unfold MiniRust.returnAction
  split
  · exact .terminateActiveThread hs
  · exact .bind (.read fun _ _ L => L.getActive) fun _ => .bind .lift fun _ => .bind .typedStore fun _ => .jumpOrUb

theorem evalReturn (hs : ¬ solo) : Loc B solo (evalReturn : EM M (AllocId × PE) F _) :=
  .bind .popFrame fun _ => .bind .lift fun _ => .bind .lift fun _ => .bind .lift fun _ => .bind .typedLoad fun _ =>
    .bind (.storageDeadAll hs _) fun _ => .bind .memEndCall fun _ => .returnAction hs

theorem evalResumeUnwind (hs : ¬ solo) : Loc B solo (evalResumeUnwind : EM M (AllocId × PE) F _) := by
  refine .bind .popFrame fun _ => .bind (.storageDeadAll hs _) fun fr => .bind .memEndCall fun _ => ?_
  split
  · exact .throw
  · exact .jumpOrUb

/-! ### Intrinsics -/

theorem setThreadState (hs : ¬ solo) {i st} : Loc B solo (setThreadState i st : EM M (AllocId × PE) F _) := by
  refine .noMem hs fun s m => ?_
  show (index s.threads i >>= _) = Except.map _ (index s.threads i >>= _)
  cases index s.threads i <;> rfl

theorem lockAcquire (hs : ¬ solo) {i} : Loc B solo (lockAcquire i : EM M (AllocId × PE) F _) := by
  refine .noMem hs fun s m => ?_
  unfold MiniRust.lockAcquire
  dsimp only
  cases getInt? s.locks i with
  | none => rfl
  | some l =>
    cases l with
    | unlocked => rfl
    | lockedBy j =>
      show (index s.threads _ >>= _) = Except.map _ (index s.threads _ >>= _)
      cases index s.threads s.activeThread <;> rfl

theorem lockRelease (hs : ¬ solo) {i} : Loc B solo (lockRelease i : EM M (AllocId × PE) F _) := by
  have : (MiniRust.lockRelease i : EM M (AllocId × PE) F _) =
      (EM.read (fun s => .ok (s.locks, s.activeThread, s.threads)) >>= fun r =>
        match getInt? r.1 i with
        | some (.lockedBy threadId) =>
          if threadId ≠ r.2.1 then EM.throw .ub
          else if r.2.2.any (fun t => t.state = ThreadState.blockedOnLock i.toNat) then do
            let acquirerId ← EM.popInt
            match getInt? r.2.2 acquirerId with
            | none => EM.throw .noBehavior
            | some t =>
              if t.state ≠ ThreadState.blockedOnLock i.toNat then EM.throw .noBehavior
              else do
                MiniRust.setThreadState acquirerId.toNat .enabled
                EM.modify fun s => { s with
                  synchronizedThreads := setInsert s.synchronizedThreads acquirerId.toNat
                  locks := s.locks.set i.toNat (.lockedBy acquirerId.toNat) }
          else EM.modify fun s => { s with locks := s.locks.set i.toNat .unlocked }
        | _ => EM.throw .ub) := by
    funext s
    symm
    refine (EM.bind_of_ok (a := (s.locks, s.activeThread, s.threads)) (s' := s) (EM.read_of_ok rfl)).trans ?_
    unfold MiniRust.lockRelease
    symm
    refine (EM.bind_of_ok (a := s) (s' := s) rfl).trans ?_
    dsimp only
    cases getInt? s.locks i with
    | none => rfl
    | some l =>
      cases l with
      | unlocked => rfl
      | lockedBy j =>
        dsimp only
        refine congrFun (ite_congr rfl (fun _ => rfl) fun _ => ite_congr rfl (fun _ => ?_) fun _ => rfl) s
        refine congrArg (EM.popInt >>= ·) (funext fun a => ?_)
        cases getInt? s.threads a <;> rfl
  rw [this]
  refine .bind (.read fun s t L => by rw [L.full hs]) fun r => ?_
  split
  · refine .ite .throw (.ite (.bind (.popInt hs) fun a => ?_) (.noMem hs fun _ _ => rfl))
    split
    · exact .throw
    · exact .ite .throw (.bind (.setThreadState hs) fun _ => .noMem hs fun _ _ => rfl)
  · exact .throw

theorem join (hs : ¬ solo) {i} : Loc B solo (join i : EM M (AllocId × PE) F _) := by
  refine .noMem hs fun s m => ?_
  unfold MiniRust.join
  dsimp only
  cases getInt? s.threads i with
  | none => rfl
  | some l =>
    dsimp only
    split
    · rfl
    · show (index s.threads _ >>= _) = Except.map _ (index s.threads _ >>= _)
      cases index s.threads s.activeThread <;> rfl

theorem loadRawData {p : Pointer (AllocId × PE)} {ty} : Loc B solo (loadRawData p ty : EM M (AllocId × PE) F _) := by
  unfold MiniRust.loadRawData
  split
  · split
    · exact .bind .memLoad fun _ => .lift
    · exact .throw
  · exact .throw

theorem evalIntrinsic {op args ty} (hl : solo → op.isLocal = true) : Loc B solo (evalIntrinsic op args ty : EM M (AllocId × PE) F _) := by
  cases op <;> dsimp only [MiniRust.evalIntrinsic]
  case abort => exact .throw
  case assume =>
    unfold intrinsicAssume; split
    · exact .bind .lift fun _ => .bind .requireUb fun _ => .bind .requireUb fun _ => .pure
    · exact .throw
  case exit => exact .bind (.read fun _ _ L => by rw [L.leak]) fun _ => .throw
  case printStdout =>
    have hs : ¬ solo := fun hs => by cases hl hs
    exact .bind .requireUb fun _ => .bind .lift fun _ => .bind (.noMem hs fun _ _ => rfl) fun _ => .pure
  case printStderr =>
    have hs : ¬ solo := fun hs => by cases hl hs
    exact .bind .requireUb fun _ => .bind .lift fun _ => .bind (.noMem hs fun _ _ => rfl) fun _ => .pure
  case allocate =>
    have hs : ¬ solo := fun hs => by cases hl hs
    unfold intrinsicAllocate; split
    · exact .bind .lift fun _ => .bind .lift fun _ => .bind .lift fun _ => .bind .lift fun _ => .bind .requireUb fun _ =>
        .bind (.memAllocate hs) fun _ => .pure
    · exact .throw
  case deallocate =>
    have hs : ¬ solo := fun hs => by cases hl hs
    unfold intrinsicDeallocate; split
    · exact .bind .lift fun _ => .bind .lift fun _ => .bind .lift fun _ => .bind .lift fun _ => .bind .lift fun _ => .bind .requireUb fun _ =>
        .bind (.memDeallocate hs) fun _ => .pure
    · exact .throw
  case spawn =>
    have hs : ¬ solo := fun hs => by cases hl hs
    unfold intrinsicSpawn; split
    · exact .bind (.read fun _ _ L => by rw [L.fnFromPtr]) fun _ => .bind .requireUb fun _ => .bind .requireUb fun _ =>
        .bind (.bind (.newThread hs) fun _ => .bind (.noMem hs fun _ _ => rfl) fun _ => .pure) fun _ => .pure
    · exact .throw
  case join =>
    have hs : ¬ solo := fun hs => by cases hl hs
    unfold intrinsicJoin; split
    · exact .bind .lift fun _ => .bind .requireUb fun _ => .bind (.join hs) fun _ => .pure
    · exact .throw
  case rawEq =>
    unfold intrinsicRawEq; split
    · refine .bind .requireUb fun _ => .bind .requireUb fun _ => ?_
      split
      · exact .bind .loadRawData fun _ => .bind .loadRawData fun _ => .pure
      · exact .throw
    · exact .throw
  case atomicStore =>
    unfold intrinsicAtomicStore; split
    · refine .bind .lift fun _ => .bind .lift fun _ => ?_
      split
      · exact .bind .lift fun _ => .bind .requireUb fun _ => .bind .requireUb fun _ => .bind .typedStore fun _ => .pure
      · exact .throw
    · exact .throw
  case atomicLoad =>
    unfold intrinsicAtomicLoad; split
    · exact .bind .lift fun _ => .bind .lift fun _ => .bind .lift fun _ => .bind .requireUb fun _ => .typedLoad
    · exact .throw
  case atomicCompareExchange =>
    unfold intrinsicCompareExchange; split
    · exact .bind .lift fun _ => .bind .requireUb fun _ => .bind .requireUb fun _ => .bind .requireUb fun _ => .bind .lift fun _ =>
        .bind .lift fun _ => .bind .requireUb fun _ => .bind .typedLoad fun _ => .bind (.ite .typedStore .pure) fun _ => .pure
    · exact .throw
  case atomicFetchAndOp op =>
    unfold intrinsicFetchAndOp; split
    · refine .bind .lift fun _ => .bind .requireUb fun _ => ?_
      split
      · exact .bind .lift fun _ => .bind .lift fun _ => .bind .requireUb fun _ => .bind .typedLoad fun _ => .bind .lift fun _ =>
          .bind .typedStore fun _ => .pure
      · exact .throw
    · exact .throw
  case lock op =>
    have hs : ¬ solo := fun hs => by cases hl hs
    unfold intrinsicLock
    split
    · exact .bind .requireUb fun _ => .bind .requireUb fun _ => .bind (.noMem hs fun _ _ => rfl) fun _ => .pure
    · split
      · exact .bind .lift fun _ => .bind .requireUb fun _ => .bind (.lockAcquire hs) fun _ => .pure
      · exact .throw
    · split
      · exact .bind .lift fun _ => .bind .requireUb fun _ => .bind (.lockRelease hs) fun _ => .pure
      · exact .throw
  case pointerExposeProvenance =>
    have hs : ¬ solo := fun hs => by cases hl hs
    unfold intrinsicExpose; split
    · exact .bind .lift fun _ => .bind .requireUb fun _ => .bind (.noMem hs fun _ _ => rfl) fun _ => .pure
    · exact .throw
  case pointerWithExposedProvenance =>
    have hs : ¬ solo := fun hs => by cases hl hs
    unfold intrinsicWithExposed; split
    · exact .bind .lift fun _ => .bind .requireUb fun _ => .bind (.popProv hs) fun _ =>
        .bind (.read fun s t L => by rw [L.full hs]) fun _ => .pure
    · exact .throw
  case getUnwindPayload =>
    refine .bind .requireUb fun _ => .bind .requireUb fun _ => .bind (.read fun _ _ L => L.getActive) fun th => ?_
    split
    · exact .throw
    · exact .pure

/-! ### Terminators and steps -/

theorem evalTerminator : ∀ {tm : Terminator}, (solo → tm.isLocal = true) → Loc B solo (evalTerminator tm : EM M (AllocId × PE) F _)
  | .goto _, _ => .jumpToBlock
  | .switch _ _ _, _ => .bind (.evalValue _) fun _ => .bind .lift fun _ => .jumpToBlock
  | .unreachable, _ => .throw
  | .call _ _ _ _ _ _, h =>
    have hs : ¬ solo := fun hs => by cases h hs
    .bind (.evalPlace _) fun _ => .bind .prepareForInplacePassing fun _ => .bind (.evalValue _) fun _ =>
      .bind (.read fun _ _ L => by rw [L.fnFromPtr]) fun _ => .bind (.evalArguments _) fun _ => .evalCall hs
  | .return, h => .evalReturn fun hs => by cases h hs
  | .startUnwind _ _, _ => .bind (.evalValue _) fun _ => .bind .lift fun _ =>
      .bind (.bind (.read fun _ _ L => L.getActive) fun _ => .setActive) fun _ => .jumpToBlock
  | .stopUnwind _, _ => .bind (by
      unfold popPayload
      refine .bind (.read fun _ _ L => L.getActive) fun th => ?_
      split
      · exact .throw
      · exact .setActive) fun _ => .jumpToBlock
  | .resumeUnwind, h => .evalResumeUnwind fun hs => by cases h hs
  | .intrinsic _ _ _ _, h => .bind (.evalPlace _) fun _ => .bind (.evalValues _) fun _ => .bind (.evalIntrinsic h) fun _ =>
      .bind .placeStore fun _ => .jumpOrUb

theorem bumpStmt : Loc B solo (bumpStmt : EM M (AllocId × PE) F _) := .mutateCurFrame fun _ => .pure

theorem execStep (hs : ¬ solo) : Loc B solo (execStep : EM M (AllocId × PE) F _) :=
  .bind (.read fun _ _ L => L.curFrame) fun _ => .bind .lift fun _ => 
    .ite (.evalTerminator fun h => absurd h hs)
    (.bind .lift fun _ => .bind (.evalStatement fun h => absurd h hs) fun _ => .bumpStmt)

theorem pickThread (hs : ¬ solo) : Loc B solo (pickThread : EM M (AllocId × PE) F _) := by
  refine .bind (.popInt hs) fun i => .noMem hs fun s m => ?_
  dsimp only
  cases getInt? s.threads i with
  | none => rfl
  | some l =>
    dsimp only
    split <;> rfl

/-- A step, from machines that agree on what it loads. -/
theorem step {s t s' : Machine M (AllocId × PE) F} (hr : ∃ h : MemHistory PE, MemReach h s.mem.memory) (hm : MemAgree B (K.mem s.mem.memory) (K.mem t.mem.memory))
    (ht : t = { s with mem := t.mem }) (ha : t.mem.accesses = s.mem.accesses)
    (h : step s = .ok ((), s')) (hl : ∀ y, ReadAt s'.mem.accesses y → B y) :
    ∃ t', MiniRust.step t = .ok ((), t') ∧ Look B False s' t' := by
  unfold MiniRust.step at h ⊢
  obtain ⟨en, s1, h1, h0⟩ := EM.bind_eq_ok.1 h
  clear h
  obtain ⟨h1, rfl⟩ := EM.read_eq_ok.1 h1
  have ht1 : t.anyEnabled = s1.anyEnabled := by rw [ht]; rfl
  split at h0
  · cases h0
  rename_i hen
  obtain ⟨⟨ps, pa⟩, s2, h2, h⟩ := EM.bind_eq_ok.1 h0
  unfold resetDataRaceTracking ConcMem.resetAccesses at h2
  cases h2
  have L : Look B False { s1 with mem := { s1.mem with accesses := [] } } { t with mem := { t.mem with accesses := [] } } := by
    refine ⟨hm.mono ?_, rfl, hr, ?_, ?_, ?_, ?_, ?_, ?_, fun _ => ?_⟩
    · rintro x (hx | ⟨a, ha, _⟩)
      · exact hx
      · cases ha
    all_goals (conv => lhs; rw [ht])
  have hx : Loc B False (MiniRust.pickThread >>= fun _ => MiniRust.execStep >>= fun _ => EM.read fun s =>
      s.mem.checkDataRaces s.activeThread (setInsert s1.synchronizedThreads s1.activeThread) s1.mem.accesses : EM M (AllocId × PE) F Unit) :=
    .bind (.pickThread id) fun _ => .bind (.execStep id) fun _ => .read fun _ _ L => by
      unfold ConcMem.checkDataRaces; rw [L.acc, L.active]
  obtain ⟨t', h3, h4⟩ := hx.sim _ _ _ _ L h hl
  refine ⟨t', ?_, h4⟩
  refine EM.bind_eq_ok.2 ⟨_, _, EM.read_eq_ok.2 ⟨rfl, rfl⟩, ?_⟩
  rw [ht1]
  cases h1
  rw [if_neg hen]
  have e1 : t.synchronizedThreads = s1.synchronizedThreads := by rw [ht]
  have e2 : t.activeThread = s1.activeThread := by rw [ht]
  refine EM.bind_eq_ok.2 ⟨(setInsert s1.synchronizedThreads s1.activeThread, s1.mem.accesses), _, ?_, h3⟩
  rw [← e1, ← e2, ← ha]
  rfl

end Loc
end
end MiniRust
