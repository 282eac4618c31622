import Verif.Lemmas.Recode
/-
Programs whose code has been changed run in the same way: the operations of the machine.
-/
set_option linter.unusedSectionVars false
namespace MiniRust

section
variable [T : Target] {M P F α β : Type} [Memory M P F] [DecidableEq P]
variable {V : Function → BbName → Prop} {σ : BbName → BbName}

namespace Same
variable {x : EM M P F α} {f : α → EM M P F β}

theorem memLoad {p : ThinPtr P} {n al at'} : Same V σ (memLoad p n al at' : EM M P F _) := .indep fun s fs ts => by
  show (s.mem.load p n al at' >>= _) = Except.map _ (s.mem.load p n al at' >>= _)
  cases s.mem.load p n al at' <;> rfl

theorem memStore {p : ThinPtr P} {bs al at'} : Same V σ (memStore p bs al at' : EM M P F _) := .indep fun s fs ts => by
  show (s.mem.store p bs al at' >>= _) = Except.map _ (s.mem.store p bs al at' >>= _)
  cases s.mem.store p bs al at' <;> rfl

theorem memDeallocate {p : ThinPtr P} {k n al} : Same V σ (memDeallocate p k n al : EM M P F _) := .indep fun s fs ts => by
  show (s.mem.deallocate p k n al >>= _) = Except.map _ (s.mem.deallocate p k n al >>= _)
  cases s.mem.deallocate p k n al <;> rfl

theorem memEndCall {e : F} : Same V σ (memEndCall e : EM M P F _) := .indep fun s fs ts => by
  show (s.mem.endCall e >>= _) = Except.map _ (s.mem.endCall e >>= _)
  cases s.mem.endCall (P := P) e <;> rfl

theorem popInt : Same V σ (EM.popInt : EM M P F _) := .indep fun s fs ts => by
  unfold EM.popInt
  dsimp only
  split <;> rfl

theorem popProv : Same V σ (EM.popProv : EM M P F _) := .indep fun s fs ts => by
  unfold EM.popProv
  dsimp only
  split <;> rfl

theorem memAllocate {k n al} : Same V σ (memAllocate k n al : EM M P F _) := by
  refine .bind .popInt fun pick => .indep fun s fs ts => ?_
  show (s.mem.allocate k n al pick >>= _) = Except.map _ (s.mem.allocate k n al pick >>= _)
  cases s.mem.allocate (P := P) (F := F) k n al pick <;> rfl

theorem retagPtrM {p : Pointer P} {ty e} : Same V σ (retagPtrM p ty e : EM M P F _) := by
  unfold MiniRust.retagPtrM
  refine RSim.mutateCurFrame fun fr fr' h => ?_
  intro s s' hs
  rw [h.extra]
  have : Same V σ (fun s : Machine M P F => do
      let (ptr, extra, mem) ← s.mem.retagPtr fr.extra p ty e s.vtableLookup
      .ok ((ptr, extra), { s with mem := mem })) := .indep fun s fs ts => by
    show (s.mem.retagPtr _ _ _ _ s.vtableLookup >>= _) = Except.map _ (s.mem.retagPtr _ _ _ _ s.vtableLookup >>= _)
    cases s.mem.retagPtr fr.extra p ty e s.vtableLookup <;> rfl
  have := this s s' hs
  revert this
  dsimp only
  show RR V σ Eq (s.mem.retagPtr _ _ _ _ s.vtableLookup >>= _) (s'.mem.retagPtr _ _ _ _ s'.vtableLookup >>= _) →
    RR V σ _ (s.mem.retagPtr _ _ _ _ s.vtableLookup >>= _) (s'.mem.retagPtr _ _ _ _ s'.vtableLookup >>= _)
  cases s.mem.retagPtr fr.extra p ty e s.vtableLookup <;> cases s'.mem.retagPtr fr.extra p ty e s'.vtableLookup <;> intro this
  · cases this; exact .error _
  · cases this
  · cases this
  · cases this with
    | ok h1 h2 =>
      injection h1 with h1 h3
      exact .ok ⟨h1, by rw [h3]; exact h.withExtra⟩ h2

theorem localPlace {l} : Same V σ (EM.read (·.localPlace l) : EM M P F _) := by
  refine RSim.read fun s s' hs => ?_
  unfold Machine.localPlace
  rcases hs.curFrame with ⟨a, b, h1, h2, h3⟩ | ⟨e, h1, h2⟩
  · rw [h1, h2]
    show (∃ _ _, (a.func.locals.get l >>= _) = _ ∧ (b.func.locals.get l >>= _) = _ ∧ _) ∨
      ∃ _, (a.func.locals.get l >>= _) = _ ∧ (b.func.locals.get l >>= _) = _
    rw [h3.func.locals, h3.locals]
    match (a.func.locals.get l >>= fun ty => match a.locals.get? l with
      | none => ub
      | some ptr => .ok ((⟨ptr.widen none, true⟩ : Place P), ty)) with
    | .ok r => exact .inl ⟨r, r, rfl, rfl, rfl⟩
    | .error e => exact .inr ⟨e, rfl, rfl⟩
  · rw [h1, h2]; exact .inr ⟨_, rfl, rfl⟩

/-! ### Expressions -/

theorem typedLoad {p : ThinPtr P} {ty al at'} : Same V σ (typedLoad p ty al at' : EM M P F _) :=
  .bind .lift fun _ => .bind .memLoad fun _ => .read fun _ _ _ => rfl

theorem typedStore {p : ThinPtr P} {v ty al at'} : Same V σ (typedStore p v ty al at' : EM M P F _) :=
  .bind (.read fun _ _ _ => rfl) fun _ => .memStore

theorem placeLoad {p : Place P} {ty} : Same V σ (placeLoad p ty : EM M P F _) := .ite .throw .typedLoad

theorem addrOf {p : Place P} {ty} : Same V σ (addrOf p ty : EM M P F _) :=
  .bind (.read fun _ _ _ => rfl) fun _ => .bind .retagPtrM fun _ => .pure

mutual
theorem decodeDiscriminant {acc : Machine M P F → Nat → Nat → Res (List (AByte P) × _)}
    (hacc : ∀ i n, Same V σ (fun s => acc s i n)) : ∀ d, Same V σ (fun s => decodeDiscriminant acc d s)
  | .known d => by simp only [MiniRust.decodeDiscriminant]; exact Same.pure
  | .invalid => by simp only [MiniRust.decodeDiscriminant]; exact Same.pure
  | .branch offset vt fb ch => by
    have : (fun s => MiniRust.decodeDiscriminant acc (.branch offset vt fb ch) s) =
        ((show EM M P F _ from fun s => acc s offset vt.size) >>= fun bytes s => match decodeInt vt bytes with
          | .error .none => .ok (none, s)
          | .error e => .error e
          | .ok val => match decodeDiscriminantChildren acc ch val s with
            | some r => r
            | none => MiniRust.decodeDiscriminant acc fb s : EM M P F (Option Int)) := by
      funext s
      simp only [MiniRust.decodeDiscriminant]
      cases h : acc s offset vt.size with
      | error e =>
        symm
        exact EM.bind_of_error (x := (show EM M P F _ from fun s => acc s offset vt.size)) h
      | ok r =>
        symm
        refine Eq.trans (EM.bind_of_ok (M := M) (P := P) (F := F) (x := fun s => acc s offset vt.size) (a := r.1) (s' := r.2) h) ?_
        dsimp only
        cases decodeInt vt r.1 with
        | error e => cases e <;> rfl
        | ok v =>
          dsimp only
          cases decodeDiscriminantChildren acc ch v r.2 <;> rfl
    rw [this]
    refine .bind (hacc _ _) fun bytes => ?_
    cases hd : decodeInt vt bytes with
    | error e =>
      cases e
      case none => exact Same.pure
      all_goals exact Same.throw
    | ok val =>
      simp only
      rcases children hacc ch val with h | ⟨d, h1, h2⟩
      · simp only [h]; exact decodeDiscriminant hacc fb
      · simp only [h1]; exact h2
theorem children {acc : Machine M P F → Nat → Nat → Res (List (AByte P) × _)}
    (hacc : ∀ i n, Same V σ (fun s => acc s i n)) :
    ∀ ch val, (∀ s, decodeDiscriminantChildren acc ch val s = none) ∨
      ∃ x : EM M P F (Option Int),
        (∀ s, decodeDiscriminantChildren acc ch val s = some (x s)) ∧ Same V σ x
  | [], val => .inl fun s => by simp only [decodeDiscriminantChildren]
  | ((a, b), d) :: ch, val => by
    simp only [decodeDiscriminantChildren]
    by_cases h : a ≤ val ∧ val < b
    · simp only [h, and_self, if_true]
      exact .inr ⟨_, fun s => rfl, decodeDiscriminant hacc d⟩
    · simp only [h, if_false]
      exact children hacc ch val
end

theorem getDiscriminant {p : Place P} {ty} : Same V σ (getDiscriminant p ty : EM M P F _) := by
  unfold MiniRust.getDiscriminant
  split
  · refine .ite .throw (.bind (.decodeDiscriminant (fun i n => .readBind (fun _ _ _ => rfl) fun _ => .memLoad) _) fun d => ?_)
    cases d
    · exact .throw
    · exact .pure
  · exact .throw

mutual
theorem evalValue : ∀ e, Same V σ (evalValue e : EM M P F _)
  | .constant _ _ => by unfold MiniRust.evalValue; exact .bind (.read fun _ _ _ => rfl) fun _ => .pure
  | .tuple es _ => by
    unfold MiniRust.evalValue
    exact .bind (evalValues es) fun _ => .pure
  | .union _ e ty => by
    unfold MiniRust.evalValue
    split
    · exact .bind .lift fun _ => .bind (evalValue e) fun _ => .bind .lift fun _ => .pure
    · exact .throw
  | .variant _ e _ => by
    unfold MiniRust.evalValue
    exact .bind (evalValue e) fun _ => .pure
  | .getDiscriminant p => by
    unfold MiniRust.evalValue
    exact .bind (evalPlace p) fun _ => .getDiscriminant
  | .load p => by
    unfold MiniRust.evalValue
    exact .bind (evalPlace p) fun _ => .bind .placeLoad fun _ => .pure
  | .addrOf p _ => by
    unfold MiniRust.evalValue
    exact .bind (evalPlace p) fun _ => .addrOf
  | .unOp _ e => by
    unfold MiniRust.evalValue
    exact .bind (evalValue e) fun _ => .read fun _ _ _ => rfl
  | .binOp _ e e' => by
    unfold MiniRust.evalValue
    exact .bind (evalValue e) fun _ => .bind (evalValue e') fun _ => .read fun _ _ _ => rfl
theorem evalValues : ∀ es, Same V σ (evalValues es : EM M P F _)
  | [] => by unfold MiniRust.evalValues; exact .pure
  | e :: es => by
    unfold MiniRust.evalValues
    exact .bind (evalValue e) fun _ => .bind (evalValues es) fun _ => .pure
theorem evalPlace : ∀ e, Same V σ (evalPlace e : EM M P F _)
  | .local _ => by unfold MiniRust.evalPlace; exact .localPlace
  | .deref e _ => by
    unfold MiniRust.evalPlace
    exact .bind (evalValue e) fun _ => .read fun _ _ _ => rfl
  | .field p _ => by
    unfold MiniRust.evalPlace
    exact .bind (evalPlace p) fun _ => .read fun _ _ _ => rfl
  | .index p e => by
    unfold MiniRust.evalPlace
    exact .bind (evalPlace p) fun _ => .bind (evalValue e) fun _ => .read fun _ _ _ => rfl
  | .downcast p _ => by
    unfold MiniRust.evalPlace
    exact .bind (evalPlace p) fun _ => .lift
end


theorem requireUb {b : Bool} : Same V σ (requireUb b : EM M P F Unit) := .lift

theorem memDeinit {p : ThinPtr P} {n al} : Same V σ (memDeinit p n al : EM M P F _) := .memStore

/-! ### Statements -/

theorem placeStore {p : Place P} {v ty} : Same V σ (placeStore p v ty : EM M P F _) := .ite .throw .typedStore

theorem encodeDiscriminant {acc : Machine M P F → Nat → List (AByte P) → Res (Machine M P F)}
    (hacc : ∀ o b, Same V σ (show EM M P F Unit from fun s => acc s o b >>= fun s => .ok ((), s))) :
    ∀ tg, Same V σ (show EM M P F Unit from fun s => encodeDiscriminant acc tg s >>= fun s => .ok ((), s))
  | [] => by
    have : (show EM M P F Unit from fun s => MiniRust.encodeDiscriminant acc [] s >>= fun s => .ok ((), s)) = Pure.pure () := by
      funext s; simp only [MiniRust.encodeDiscriminant]; rfl
    rw [this]; exact .pure
  | (o, (vt, v)) :: rest => by
    have : (show EM M P F Unit from fun s => MiniRust.encodeDiscriminant acc ((o, (vt, v)) :: rest) s >>= fun s => .ok ((), s)) =
        (EM.lift (encodeInt vt v) >>= fun b => (show EM M P F Unit from fun s => acc s o b >>= fun s => .ok ((), s)) >>=
          fun _ => (show EM M P F Unit from fun s => MiniRust.encodeDiscriminant acc rest s >>= fun s => .ok ((), s))) := by
      funext s
      simp only [MiniRust.encodeDiscriminant]
      cases h : encodeInt (P := P) vt v with
      | error e => rfl
      | ok b =>
        rw [EM.bind_of_ok (EM.lift_eq_ok.2 ⟨rfl, rfl⟩)]
        show (acc s o b >>= fun s => MiniRust.encodeDiscriminant acc rest s) >>= _ = _
        cases h1 : acc s o b with
        | error e =>
          symm
          exact EM.bind_of_error (by show acc s o b >>= _ = _; rw [h1]; rfl)
        | ok s1 =>
          symm
          exact EM.bind_of_ok (M := M) (P := P) (F := F) (x := fun s => acc s o b >>= fun s => .ok ((), s))
            (a := ()) (s' := s1) (by show acc s o b >>= _ = _; rw [h1]; rfl)
    rw [this]
    exact .bind .lift fun b => .bind (hacc _ _) fun _ => encodeDiscriminant hacc rest

theorem setDiscriminant {p : Place P} {ty v} : Same V σ (setDiscriminant p ty v : EM M P F _) := by
  unfold MiniRust.setDiscriminant
  split
  · refine .ite .throw ?_
    split
    · exact .throw
    · refine .encodeDiscriminant (fun o b => ?_) _
      have : (show EM M P F Unit from fun s => (do
          let ptr ← s.ptrOffsetInbounds p.ptr.thin o
          let (_, s) ← MiniRust.memStore ptr b Align.one .none s
          .ok s) >>= fun s => .ok ((), s)) =
          (EM.read (fun s => s.ptrOffsetInbounds p.ptr.thin o) >>= fun ptr => MiniRust.memStore ptr b Align.one .none) := by
        funext s
        cases h : s.ptrOffsetInbounds p.ptr.thin o with
        | error e => symm; exact EM.bind_of_error (EM.read_of_error h)
        | ok ptr =>
          symm
          rw [EM.bind_of_ok (EM.read_of_ok h)]
          show _ = (MiniRust.memStore ptr b Align.one .none s >>= fun r => Except.ok r.2) >>= _
          cases MiniRust.memStore ptr b Align.one .none s <;> rfl
      show Same V σ (show EM M P F Unit from _)
      rw [this]
      exact .bind (.read fun _ _ _ => rfl) fun _ => .memStore
  · exact .throw

mutual
theorem retagVal (e : Bool) : ∀ v ty, Same V σ (retagVal e v ty : EM M P F _)
  | v, ty => by
    unfold MiniRust.retagVal
    split
    · exact .pure
    · exact .pure
    · exact .pure
    · exact .bind .retagPtrM fun _ => .pure
    · exact .bind (retagVals e _ _) fun _ => .pure
    · exact .bind (retagVals e _ _) fun _ => .pure
    · exact .bind .lift fun _ => .bind (retagVal e _ _) fun _ => .pure
    · exact .throw
theorem retagVals (e : Bool) : ∀ vs tys, Same V σ (retagVals e vs tys : EM M P F _)
  | v :: vs, ty :: tys => by
    unfold MiniRust.retagVals
    exact .bind (retagVal e v ty) fun _ => .bind (retagVals e vs tys) fun _ => .pure
  | [], _ => by unfold MiniRust.retagVals; exact .pure
  | _ :: _, [] => by unfold MiniRust.retagVals; exact .pure
end

end Same

theorem RSim.storageDead {fr fr' : StackFrame P F} (h : FrameRel V σ fr fr') {l} :
    RSim V σ (FrameRel V σ) (storageDead fr l : EM M P F _) (storageDead fr' l) := by
  unfold MiniRust.storageDead
  refine .bind (.lift_eq h.localLayout) fun a b e => ?_
  subst e
  rw [h.locals]
  dsimp only
  split
  · exact .bind Same.memDeallocate fun _ _ _ => .pure h.withLocals
  · exact .pure h

theorem RSim.storageLive {fr fr' : StackFrame P F} (h : FrameRel V σ fr fr') {l} :
    RSim V σ (FrameRel V σ) (storageLive fr l : EM M P F _) (storageLive fr' l) := by
  unfold MiniRust.storageLive
  refine .bind (.storageDead h) fun _ _ h1 => .bind (.lift_eq h1.localLayout) fun a b e => ?_
  subst e
  refine .bind Same.memAllocate fun a b e => ?_
  subst e
  rw [h1.locals]
  exact .pure h1.withLocals

namespace Same

theorem evalStatement : ∀ {st : Statement}, Same V σ (evalStatement st : EM M P F _)
  | .assign _ _ => .bind (.evalPlace _) fun _ => .bind (.evalValue _) fun _ => .placeStore
  | .placeMention _ => .bind (.evalPlace _) fun _ => .pure
  | .setDiscriminant _ _ => .bind (.evalPlace _) fun _ => .setDiscriminant
  | .validate _ _ => .bind (.evalPlace _) fun _ => .bind .placeLoad fun _ => .bind (.retagVal _ _ _) fun _ => .placeStore
  | .deinit _ => .bind (.evalPlace _) fun _ => .ite .throw (.bind .lift fun _ => .memDeinit)
  | .storageLive l =>
    RSim.mutateCurFrame fun _ _ h => .bind (.storageLive h) fun _ _ h => .pure ⟨rfl, h⟩
  | .storageDead _ =>
    RSim.mutateCurFrame fun _ _ h => .bind (.storageDead h) fun _ _ h => .pure ⟨rfl, h⟩

/-! ### Calls -/

theorem prepareForInplacePassing {p : Place P} {ty} : Same V σ (prepareForInplacePassing p ty : EM M P F _) :=
  .bind .lift fun _ => .memDeinit

theorem evalArgument : ∀ {a}, Same V σ (evalArgument a : EM M P F _)
  | .byValue _ => .evalValue _
  | .inPlace _ => .bind (.evalPlace _) fun _ => .bind .placeLoad fun _ => .bind .prepareForInplacePassing fun _ => .pure

theorem evalArguments : ∀ as, Same V σ (evalArguments as : EM M P F _)
  | [] => .pure
  | _ :: as => .bind .evalArgument fun _ => .bind (evalArguments as) fun _ => .pure

theorem passArguments {fr fr' : StackFrame P F} (h : FrameRel V σ fr fr') :
    ∀ ls args, RSim V σ Eq (passArguments fr ls args : EM M P F _) (passArguments fr' ls args)
  | [], _ => by unfold MiniRust.passArguments; exact Same.pure
  | _ :: _, [] => by unfold MiniRust.passArguments; exact Same.pure
  | _ :: ls, _ :: args => by
    unfold MiniRust.passArguments
    rw [h.func.locals, h.locals]
    refine RSim.bind Same.lift fun _ _ e => ?_
    subst e
    refine RSim.bind Same.lift fun _ _ e => ?_
    subst e
    refine RSim.ite .throw ?_
    refine RSim.bind Same.lift fun _ _ e => ?_
    subst e
    refine RSim.bind Same.lift fun _ _ e => ?_
    subst e
    exact RSim.bind (Same.unwrapRes .typedStore) fun _ _ _ => passArguments h ls args
end Same

theorem RSim.storageLives : ∀ ls {fr fr' : StackFrame P F}, FrameRel V σ fr fr' →
    RSim V σ (FrameRel V σ) (storageLives fr ls : EM M P F _) (storageLives fr' ls)
  | [], _, _, h => .pure h
  | _ :: ls, _, _, h => .bind (.storageLive h) fun _ _ h => storageLives ls h

theorem RSim.createFrame {f f' a c r args} (h : Function.Recoded V σ f f') :
    RSim V σ (FrameRel V σ) (createFrame f a c r args : EM M P F _) (createFrame f' (a.rename σ) c r args) := by
  unfold MiniRust.createFrame
  have h0 : FrameRel V σ (StackFrame.init f a (Memory.newCall M) : StackFrame P F) (StackFrame.init f' (a.rename σ) (Memory.newCall M)) :=
    ⟨h, by unfold StackFrame.init; rw [h.start]⟩
  rw [h.ret, h.args, h.callingConvention, h.locals]
  refine .bind (.storageLive h0) fun _ _ h1 => .bind (.storageLives _ h1) fun _ _ h2 => .ite .throw ?_
  refine .bind Same.lift fun _ _ e => ?_
  subst e
  refine .bind Same.lift fun _ _ e => ?_
  subst e
  exact .ite .throw (.ite .throw (.bind (Same.passArguments h2 _ _) fun _ _ _ => .pure h2))

theorem RSim.pushFrame {fr fr' : StackFrame P F} (h : FrameRel V σ fr fr') : RSim V σ Eq (pushFrame fr : EM M P F _) (pushFrame fr') :=
  .bind .getActive fun _ _ h1 => .setActive ⟨.cons h h1.stack, by rw [h1.eq]⟩

theorem RSim.popFrame : RSim V σ (FrameRel V σ) (popFrame : EM M P F _) popFrame := by
  refine .bind .getActive fun th th' h => ?_
  have h1 := h.stack
  cases ha : th.stack <;> cases hb : th'.stack <;> rw [ha, hb] at h1
  · exact .throw
  · cases h1
  · cases h1
  · cases h1 with
    | cons h2 h3 => exact .bind (.setActive ⟨h3, by rw [h.eq]⟩) fun _ _ _ => .pure h2

theorem RSim.jumpToBlock {b} : RSim V σ Eq (jumpToBlock b : EM M P F _) (jumpToBlock (σ b)) :=
  .mutateCurFrame fun _ _ h => .pure ⟨rfl, h.jump⟩

theorem RSim.jumpOrUb : ∀ {b}, RSim V σ Eq (jumpOrUb b : EM M P F _) (jumpOrUb (b.map σ))
  | some _ => .jumpToBlock
  | none => .throw

theorem RSim.evalCall {f f' c args p ty n u} (h : Function.Recoded V σ f f') :
    RSim V σ Eq (evalCall f c args p ty n u : EM M P F _) (evalCall f' c args p ty (n.map σ) (u.map σ)) :=
  .bind (.createFrame h) fun _ _ h => .pushFrame h

theorem RSim.newThread {f f' args} (h : Function.Recoded V σ f f') : RSim V σ Eq (newThread f args : EM M P F _) (newThread f' args) :=
  .bind (.createFrame h) fun fr fr' h => fun s s' hs => by
    refine .ok hs.threads.length_eq ⟨hs.functions, ?_, ?_⟩
    · exact rel_append hs.threads (.cons ⟨.cons h .nil, rfl⟩ .nil)
    · show ({ s' with threads := _ } : Machine M P F) = _
      conv_lhs => rw [hs.eq]

namespace Same

theorem isEmpty {a b : Thread P F} (h : ThreadRel V σ a b) : b.stack.isEmpty = a.stack.isEmpty := by
  have h := h.stack
  revert h
  cases a.stack <;> cases b.stack <;> intro h
  · rfl
  · cases h
  · cases h
  · rfl

theorem withState {a b : Thread P F} (h : ThreadRel V σ a b) {st} : ThreadRel V σ { a with state := st } { b with state := st } :=
  ⟨h.stack, by rw [h.eq]⟩

theorem threadState {th th' : Thread P F} (h : ThreadRel V σ th th') : th'.state = th.state := by rw [h.eq]

theorem syncJoined {a : ThreadId} {l l' : List (Thread P F)} (h : List.Forall₂ (ThreadRel V σ) l l') :
    ∀ i sync, syncJoined a l' i sync = syncJoined a l i sync := by
  induction h with
  | nil => intro i sync; rfl
  | cons h _ ih =>
    intro i sync
    unfold MiniRust.syncJoined
    rw [threadState h, ih]

theorem wakeJoin {a : ThreadId} {th th' : Thread P F} (h : ThreadRel V σ th th') : ThreadRel V σ (th.wakeJoin a) (th'.wakeJoin a) := by
  unfold Thread.wakeJoin
  rw [threadState h]
  split
  · exact ⟨h.stack, by rw [h.eq]⟩
  · exact h

theorem terminateActiveThread : Same V σ (terminateActiveThread : EM M P F _) := by
  intro s s' hs
  unfold MiniRust.terminateActiveThread
  rw [hs.activeThread]
  by_cases h : s.activeThread = 0
  · rw [if_pos h, if_pos h]; exact .error _
  · rw [if_neg h, if_neg h]
    rcases hs.getActive with ⟨a, b, h1, h2, h3⟩ | ⟨e, h1, h2⟩
    · rw [h1, h2]
      have he : b.stack.isEmpty = a.stack.isEmpty := isEmpty h3
      show RR V σ _ (rassert a.stack.isEmpty >>= _) (rassert b.stack.isEmpty >>= _)
      rw [he]
      cases rassert a.stack.isEmpty with
      | error e => exact .error e
      | ok u =>
        have hset : List.Forall₂ (ThreadRel V σ) (s.threads.set s.activeThread { a with state := .terminated })
            (s'.threads.set s.activeThread { b with state := .terminated }) :=
          rel_set hs.threads (withState h3) _
        refine .ok rfl ⟨hs.functions, ?_, ?_⟩
        · exact List.forall₂_map_left_iff.2 (List.forall₂_map_right_iff.2 (hset.imp fun _ _ h => wakeJoin h))
        · rw [syncJoined hset, hs.synchronizedThreads]
          generalize hf : (s'.threads.set s.activeThread _).map _ = ths
          rw [hs.eq]
    · rw [h1, h2]; exact .error _

end Same

theorem RSim.storageDeadAll : ∀ n {fr fr' : StackFrame P F}, FrameRel V σ fr fr' →
    RSim V σ (FrameRel V σ) (storageDeadAll n fr : EM M P F _) (storageDeadAll n fr')
  | 0, _, _, h => .pure h
  | n + 1, fr, fr', h => by
    unfold MiniRust.storageDeadAll
    rw [h.locals]
    split
    · exact .pure h
    · exact .bind (.storageDead h) fun _ _ h => storageDeadAll n h

theorem RSim.returnAction {fr fr' : StackFrame P F} (h : FrameRel V σ fr fr') {ty al v} :
    RSim V σ Eq (returnAction fr ty al v : EM M P F _) (returnAction fr' ty al v) := by
  unfold MiniRust.returnAction
  rw [h.stackPopAction]
  cases fr.stackPopAction with
  | bottomOfStack => exact Same.terminateActiveThread
  | backToCaller n u p =>
    refine .bind .getActive fun a b h3 => .bind (.lift_eq ?_) fun _ _ _ => .bind Same.typedStore fun _ _ _ => .jumpOrUb
    rw [Same.isEmpty h3]

theorem RSim.evalReturn : RSim V σ Eq (evalReturn : EM M P F _) evalReturn := by
  refine .bind .popFrame fun fr fr' h => ?_
  rw [h.func.locals, h.func.ret, h.locals]
  refine .bind Same.lift fun _ _ e => ?_
  subst e
  refine .bind Same.lift fun _ _ e => ?_
  subst e
  refine .bind Same.lift fun _ _ e => ?_
  subst e
  refine .bind Same.typedLoad fun _ _ e => ?_
  subst e
  refine .bind (.storageDeadAll _ h) fun fr fr' h => ?_
  rw [h.extra]
  exact .bind Same.memEndCall fun _ _ _ => .returnAction h

theorem RSim.evalResumeUnwind : RSim V σ Eq (evalResumeUnwind : EM M P F _) evalResumeUnwind := by
  refine .bind .popFrame fun fr fr' h => ?_
  rw [h.locals]
  refine .bind (.storageDeadAll _ h) fun fr fr' h => ?_
  rw [h.extra, h.stackPopAction]
  refine .bind Same.memEndCall fun _ _ _ => ?_
  cases fr.stackPopAction with
  | bottomOfStack => exact .throw
  | backToCaller n u p => exact .jumpOrUb

namespace Same

/-! ### Intrinsics -/

theorem setThreadState {i st} : Same V σ (setThreadState i st : EM M P F _) := by
  intro s s' hs
  unfold MiniRust.setThreadState
  rcases rel_index hs.threads i with ⟨a, b, h1, h2, h3⟩ | ⟨e, h1, h2⟩
  · rw [h1, h2]
    refine .ok rfl ⟨hs.functions, rel_set hs.threads (withState h3) _, ?_⟩
    show ({ s' with threads := _ } : Machine M P F) = _
    conv_lhs => rw [hs.eq]
  · rw [h1, h2]; exact .error _

theorem lockAcquire {i} : Same V σ (lockAcquire i : EM M P F _) := by
  intro s s' hs
  unfold MiniRust.lockAcquire
  rw [hs.locks, hs.activeThread]
  split
  · exact .error _
  · refine .ok rfl ⟨hs.functions, hs.threads, ?_⟩
    rw [hs.eq]
  · exact setThreadState s s' hs

theorem getInt?_threads {s s' : Machine M P F} (hs : MRel V σ s s') (i : Int) :
    (getInt? s.threads i = none ∧ getInt? s'.threads i = none) ∨
      ∃ a b, getInt? s.threads i = some a ∧ getInt? s'.threads i = some b ∧ ThreadRel V σ a b := by
  unfold getInt?
  split
  · exact .inl ⟨rfl, rfl⟩
  · exact rel_getElem? hs.threads _

theorem any_state {l l' : List (Thread P F)} (h : List.Forall₂ (ThreadRel V σ) l l') (st : ThreadState) :
    l'.any (fun t => t.state = st) = l.any (fun t => t.state = st) := by
  induction h with
  | nil => rfl
  | cons h _ ih => rw [List.any_cons, List.any_cons, ih, threadState h]

theorem lockRelease {i} : Same V σ (lockRelease i : EM M P F _) := by
  unfold MiniRust.lockRelease
  refine RSim.bind (R := MRel V σ) (fun s s' hs => .ok hs hs) fun s s' hs => ?_
  rw [hs.locks, hs.activeThread, any_state hs.threads]
  split
  · refine .ite .throw (.ite ?_ (Same.indep fun _ _ _ => rfl))
    refine RSim.bind Same.popInt fun a _ e => ?_
    subst e
    rcases getInt?_threads hs a with ⟨h1, h2⟩ | ⟨x, y, h1, h2, h3⟩
    · rw [h1, h2]; exact .throw
    · rw [h1, h2]
      dsimp only
      rw [threadState h3]
      exact Same.ite .throw (.bind .setThreadState fun _ => .indep fun _ _ _ => rfl)
  · exact .throw

theorem join {i} : Same V σ (join i : EM M P F _) := by
  intro s s' hs
  unfold MiniRust.join
  rcases getInt?_threads hs i with ⟨h1, h2⟩ | ⟨x, y, h1, h2, h3⟩
  · rw [h1, h2]; exact .error _
  · rw [h1, h2]
    dsimp only
    rw [threadState h3, hs.activeThread]
    split
    · refine .ok rfl ⟨hs.functions, hs.threads, ?_⟩
      show ({ s' with synchronizedThreads := _ } : Machine M P F) = _
      rw [hs.synchronizedThreads]
      conv_lhs => rw [hs.eq]
    · exact setThreadState s s' hs

theorem functions_get {l l' : Map FnName Function} (h : List.Forall₂ (fun x y => y.1 = x.1 ∧ Function.Recoded V σ x.2 y.2) l l') (n : FnName) :
    (∃ a b, l.get n = .ok a ∧ l'.get n = .ok b ∧ Function.Recoded V σ a b) ∨ ∃ e, l.get n = .error e ∧ l'.get n = .error e := by
  unfold Map.get
  induction h with
  | nil => exact .inr ⟨_, rfl, rfl⟩
  | @cons x y _ _ h _ ih =>
    obtain ⟨k, f⟩ := x
    obtain ⟨k', f'⟩ := y
    obtain ⟨h1, h2⟩ := h
    cases h1
    unfold Map.get?
    split
    · exact .inl ⟨_, _, rfl, rfl, h2⟩
    · exact ih

end Same

theorem RSim.fnFromPtr {v : Value P} : RSim V σ (Function.Recoded V σ) (EM.read (·.fnFromPtr v) : EM M P F _) (EM.read (·.fnFromPtr v)) := by
  refine .read fun s s' hs => ?_
  unfold Machine.fnFromPtr
  rw [hs.fnPtrs]
  split
  · split
    · exact .inr ⟨_, rfl, rfl⟩
    · split
      · exact .inr ⟨_, rfl, rfl⟩
      · exact Same.functions_get hs.functions _
  · exact .inr ⟨_, rfl, rfl⟩

namespace Same

theorem loadRawData {p : Pointer P} {ty} : Same V σ (loadRawData p ty : EM M P F _) := by
  unfold MiniRust.loadRawData
  split
  · split
    · exact .bind .memLoad fun _ => .lift
    · exact .throw
  · exact .throw

theorem evalIntrinsic {op args ty} : Same V σ (evalIntrinsic op args ty : EM M P F _) := by
  cases op <;> dsimp only [MiniRust.evalIntrinsic]
  case abort => exact .throw
  case assume =>
    unfold intrinsicAssume; split
    · exact .bind .lift fun _ => .bind .requireUb fun _ => .bind .requireUb fun _ => .pure
    · exact .throw
  case exit => exact .bind (.read fun _ _ _ => rfl) fun _ => .throw
  case printStdout =>
    exact .bind .requireUb fun _ => .bind .lift fun _ => .bind (.indep fun _ _ _ => rfl) fun _ => .pure
  case printStderr =>
    exact .bind .requireUb fun _ => .bind .lift fun _ => .bind (.indep fun _ _ _ => rfl) fun _ => .pure
  case allocate =>
    unfold intrinsicAllocate; split
    · exact .bind .lift fun _ => .bind .lift fun _ => .bind .lift fun _ => .bind .lift fun _ => .bind .requireUb fun _ =>
        .bind (.memAllocate) fun _ => .pure
    · exact .throw
  case deallocate =>
    unfold intrinsicDeallocate; split
    · exact .bind .lift fun _ => .bind .lift fun _ => .bind .lift fun _ => .bind .lift fun _ => .bind .lift fun _ => .bind .requireUb fun _ =>
        .bind (.memDeallocate) fun _ => .pure
    · exact .throw
  case spawn =>
    unfold intrinsicSpawn; split
    · refine RSim.bind .fnFromPtr fun _ _ h => RSim.bind Same.requireUb fun _ _ _ => RSim.bind Same.requireUb fun _ _ _ => ?_
      refine RSim.bind (R := Eq) (RSim.bind (.newThread h) fun a b e => ?_) fun a b e => ?_
      · subst e; exact Same.bind (.indep fun _ _ _ => rfl) fun _ => .pure
      · subst e; exact Same.pure
    · exact .throw
  case join =>
    unfold intrinsicJoin; split
    · exact .bind .lift fun _ => .bind .requireUb fun _ => .bind (.join) fun _ => .pure
    · exact .throw
  case rawEq =>
    unfold intrinsicRawEq; split
    · refine .bind .requireUb fun _ => .bind .requireUb fun _ => ?_
      split
      · exact .bind .loadRawData fun _ => .bind .loadRawData fun _ => .pure
      · exact .throw
    · exact .throw
  case atomicStore =>
    unfold intrinsicAtomicStore; split
    · refine .bind .lift fun _ => .bind .lift fun _ => ?_
      split
      · exact .bind .lift fun _ => .bind .requireUb fun _ => .bind .requireUb fun _ => .bind .typedStore fun _ => .pure
      · exact .throw
    · exact .throw
  case atomicLoad =>
    unfold intrinsicAtomicLoad; split
    · exact .bind .lift fun _ => .bind .lift fun _ => .bind .lift fun _ => .bind .requireUb fun _ => .typedLoad
    · exact .throw
  case atomicCompareExchange =>
    unfold intrinsicCompareExchange; split
    · exact .bind .lift fun _ => .bind .requireUb fun _ => .bind .requireUb fun _ => .bind .requireUb fun _ => .bind .lift fun _ =>
        .bind .lift fun _ => .bind .requireUb fun _ => .bind .typedLoad fun _ => .bind (.ite .typedStore .pure) fun _ => .pure
    · exact .throw
  case atomicFetchAndOp op =>
    unfold intrinsicFetchAndOp; split
    · refine .bind .lift fun _ => .bind .requireUb fun _ => ?_
      split
      · exact .bind .lift fun _ => .bind .lift fun _ => .bind .requireUb fun _ => .bind .typedLoad fun _ => .bind .lift fun _ =>
          .bind .typedStore fun _ => .pure
      · exact .throw
    · exact .throw
  case lock op =>
    unfold intrinsicLock
    split
    · exact .bind .requireUb fun _ => .bind .requireUb fun _ => .bind (.indep fun _ _ _ => rfl) fun _ => .pure
    · split
      · exact .bind .lift fun _ => .bind .requireUb fun _ => .bind (.lockAcquire) fun _ => .pure
      · exact .throw
    · split
      · exact .bind .lift fun _ => .bind .requireUb fun _ => .bind (.lockRelease) fun _ => .pure
      · exact .throw
  case pointerExposeProvenance =>
    unfold intrinsicExpose; split
    · exact .bind .lift fun _ => .bind .requireUb fun _ => .bind (.indep fun _ _ _ => rfl) fun _ => .pure
    · exact .throw
  case pointerWithExposedProvenance =>
    unfold intrinsicWithExposed; split
    · exact .bind .lift fun _ => .bind .requireUb fun _ => .bind (.popProv) fun _ =>
        .bind (.read fun _ _ _ => rfl) fun _ => .pure
    · exact .throw
  case getUnwindPayload =>
    refine .bind .requireUb fun _ => .bind .requireUb fun _ => RSim.bind .getActive fun th th' h => ?_
    rw [show th'.unwindPayloads = th.unwindPayloads by rw [h.eq]]
    split
    · exact .throw
    · exact Same.pure

/-! ### Terminators and steps -/

end Same

theorem switchTarget_rename {cases : Map Int BbName} {fallback : BbName} {v : Value P} :
    (∃ a b, switchTarget cases fallback v = .ok a ∧ switchTarget (cases.map fun c => (c.1, σ c.2)) (σ fallback) v = .ok b ∧ b = σ a) ∨
      ∃ e, switchTarget cases fallback v = .error e ∧ switchTarget (cases.map fun c => (c.1, σ c.2)) (σ fallback) v = .error e := by
  unfold switchTarget
  split
  · rename_i i
    refine .inl ⟨_, _, rfl, rfl, ?_⟩
    induction cases with
    | nil => rfl
    | cons c cs ih =>
      obtain ⟨k, b⟩ := c
      rw [List.map_cons]
      unfold Map.get?
      dsimp only
      split
      · rfl
      · exact ih
  · exact .inr ⟨_, rfl, rfl⟩

theorem RSim.evalTerminator : ∀ {tm : Terminator}, RSim V σ Eq (evalTerminator tm : EM M P F _) (evalTerminator (tm.rename σ))
  | .goto _ => .jumpToBlock
  | .switch _ _ _ => .bind (Same.evalValue _) fun _ _ e => by
      subst e
      exact .bind (.lift switchTarget_rename) fun _ _ e => by subst e; exact .jumpToBlock
  | .unreachable => .throw
  | .call _ _ _ _ _ _ => .bind (Same.evalPlace _) fun _ _ e => by
      subst e
      refine .bind Same.prepareForInplacePassing fun _ _ _ => .bind (Same.evalValue _) fun _ _ e => ?_
      subst e
      exact .bind .fnFromPtr fun _ _ h => .bind (Same.evalArguments _) fun _ _ e => by subst e; exact .evalCall h
  | .return => .evalReturn
  | .startUnwind _ _ => .bind (Same.evalValue _) fun _ _ e => by
      subst e
      refine .bind Same.lift fun _ _ e => ?_
      subst e
      exact .bind (.bind .getActive fun _ _ h => .setActive ⟨h.stack, by rw [h.eq]⟩) fun _ _ _ => .jumpToBlock
  | .stopUnwind _ => .bind (R := Eq) (by
      unfold popPayload
      refine .bind .getActive fun th th' h => ?_
      rw [show th'.unwindPayloads = th.unwindPayloads by rw [h.eq]]
      split
      · exact .throw
      · exact .setActive ⟨h.stack, by rw [h.eq]⟩) fun _ _ _ => .jumpToBlock
  | .resumeUnwind => .evalResumeUnwind
  | .intrinsic _ _ _ _ => .bind (Same.evalPlace _) fun _ _ e => by
      subst e
      refine .bind (Same.evalValues _) fun _ _ e => ?_
      subst e
      refine .bind Same.evalIntrinsic fun _ _ e => ?_
      subst e
      exact .bind Same.placeStore fun _ _ _ => .jumpOrUb

theorem RSim.bumpStmt : RSim V σ Eq (bumpStmt : EM M P F _) bumpStmt :=
  .mutateCurFrame fun _ _ h => .pure ⟨rfl, by rw [h.nextStmt]; exact h.withStmt⟩

/-- A step of a thread that is in a block in `V`. -/
theorem execStep_rel {s s' : Machine M P F} (hs : MRel V σ s s') (hv : ∀ fr, s.curFrame = .ok fr → V fr.func fr.nextBlock) :
    RR V σ Eq (execStep s) (execStep s') := by
  unfold execStep
  rcases hs.curFrame with ⟨fr, fr', h1, h2, h3⟩ | ⟨e, h1, h2⟩
  · rw [EM.bind_of_ok (EM.read_of_ok h1), EM.bind_of_ok (EM.read_of_ok h2)]
    have hb := h3.func.blocks _ (hv fr h1)
    rw [h3.nextBlock, h3.nextStmt]
    unfold Map.get
    rw [hb]
    generalize fr.func.blocks.get? fr.nextBlock = ob
    cases ob with
    | none => exact .error _
    | some bb =>
      refine RSim.bind (R := fun a b => b = { a with terminator := a.terminator.rename σ }) (.lift (.inl ⟨_, _, rfl, rfl, rfl⟩)) (fun a b e => ?_) s s' hs
      subst e
      refine .ite .evalTerminator (.bind Same.lift fun _ _ e => ?_)
      subst e
      exact .bind Same.evalStatement fun _ _ _ => .bumpStmt
  · rw [EM.bind_of_error (EM.read_of_error h1), EM.bind_of_error (EM.read_of_error h2)]; exact .error _

theorem Same.pickThread : Same V σ (pickThread : EM M P F _) := by
  refine .bind (.popInt) fun i => fun s s' hs => ?_
  rcases Same.getInt?_threads hs i with ⟨h1, h2⟩ | ⟨x, y, h1, h2, h3⟩
  · rw [h1, h2]; exact .error _
  · rw [h1, h2]
    dsimp only
    rw [Same.threadState h3]
    split
    · refine .ok rfl ⟨hs.functions, hs.threads, ?_⟩
      show ({ s' with activeThread := _ } : Machine M P F) = _
      conv_lhs => rw [hs.eq]
    · exact .error _

end
end MiniRust
