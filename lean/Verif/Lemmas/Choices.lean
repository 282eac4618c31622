import Verif.Lemmas.Eval
import Verif.Lemmas.Threads2
/-
Computations use the choices one after the other.
-/
set_option linter.unusedSectionVars false
namespace MiniRust

section
variable [T : Target] {M P F α β : Type} [Memory M P F] [DecidableEq P]

/-- The computation uses the first choices, and what it does does not depend on the others. -/
structure Pop (x : EM M P F α) : Prop where
  ok : ∀ s a s', x s = .ok (a, s') → ∃ used, s.oracle = used ++ s'.oracle ∧ ∀ r, x { s with oracle := used ++ r } = .ok (a, { s' with oracle := r })
  err : ∀ s e, x s = .error e → e ≠ .noBehavior → ∃ used rest, s.oracle = used ++ rest ∧ ∀ r, x { s with oracle := used ++ r } = .error e

namespace Pop
variable {x : EM M P F α} {f : α → EM M P F β}

/-- Computations that do not use any choice. -/
theorem noChoice (hx : ∀ s o, x { s with oracle := o } = (x s).map fun r => (r.1, { r.2 with oracle := o })) : Pop x where
  ok s a s' h := by
    refine ⟨[], ?_, fun r => ?_⟩
    · have h1 := hx s s.oracle
      change x s = _ at h1
      rw [h] at h1
      injection h1 with h1
      injection h1 with _ h1
      rw [h1]; rfl
    · rw [hx, h]; rfl
  err s e h _ := ⟨[], s.oracle, rfl, fun r => by rw [hx, h]; rfl⟩

theorem pure {a : α} : Pop (pure a : EM M P F α) := .noChoice fun _ _ => rfl
theorem throw {e : Err} : Pop (EM.throw e : EM M P F α) := .noChoice fun _ _ => rfl

theorem bind (hx : Pop x) (hf : ∀ a, Pop (f a)) : Pop (x >>= f) where
  ok s a s' h := by
    obtain ⟨b, s1, h1, h2⟩ := EM.bind_eq_ok.1 h
    obtain ⟨u1, e1, g1⟩ := hx.ok _ _ _ h1
    obtain ⟨u2, e2, g2⟩ := (hf _).ok _ _ _ h2
    refine ⟨u1 ++ u2, by rw [e1, e2, List.append_assoc], fun r => ?_⟩
    rw [List.append_assoc]
    exact EM.bind_eq_ok.2 ⟨b, _, g1 _, g2 r⟩
  err s e h he := by
    cases h1 : x s with
    | error e' =>
      rw [EM.bind_of_error h1] at h
      cases h
      obtain ⟨u, rest, e1, g1⟩ := hx.err _ _ h1 he
      exact ⟨u, rest, e1, fun r => EM.bind_of_error (g1 r)⟩
    | ok q =>
      obtain ⟨b, s1⟩ := q
      rw [EM.bind_of_ok h1] at h
      obtain ⟨u1, e1, g1⟩ := hx.ok _ _ _ h1
      obtain ⟨u2, rest, e2, g2⟩ := (hf _).err _ _ h he
      refine ⟨u1 ++ u2, rest, by rw [e1, e2, List.append_assoc], fun r => ?_⟩
      rw [List.append_assoc, EM.bind_of_ok (g1 _)]
      exact g2 r

theorem lift {r : Res α} : Pop (EM.lift r : EM M P F α) := .noChoice fun _ _ => by cases r <;> rfl

theorem read {g : Machine M P F → Res α} (hg : ∀ s o, g { s with oracle := o } = g s) : Pop (EM.read g) :=
  .noChoice fun s o => by
    unfold EM.read
    rw [hg]; cases g s <;> rfl

theorem readBind {g : Machine M P F → Res α} (hg : ∀ s o, g { s with oracle := o } = g s)
    (hf : ∀ a, Pop (f a)) : Pop (fun s => g s >>= fun a => f a s) := by
  have : (fun s => g s >>= fun a => f a s) = (EM.read g >>= f : EM M P F β) := by
    funext s
    cases h : g s with
    | error e => symm; exact EM.bind_of_error (EM.read_of_error h)
    | ok a => symm; exact EM.bind_of_ok (EM.read_of_ok h)
  rw [this]
  exact .bind (.read hg) hf

theorem modify {g : Machine M P F → Machine M P F} (hg : ∀ s o, g { s with oracle := o } = { g s with oracle := o }) : Pop (EM.modify g) :=
  .noChoice fun s o => by
    show Except.ok ((), g _) = .ok ((), _)
    rw [hg]

theorem ite {c : Prop} [Decidable c] {y : EM M P F α} (h1 : Pop x) (h2 : Pop y) :
    Pop (if c then x else y) := by split <;> assumption

theorem unwrapRes (hx : Pop x) : Pop (EM.unwrapRes x) where
  ok s a s' h := by
    obtain ⟨u, e1, g⟩ := hx.ok _ _ _ (EM.unwrapRes_eq_ok.1 h)
    exact ⟨u, e1, fun r => EM.unwrapRes_eq_ok.2 (g r)⟩
  err s e h he := by
    cases h1 : x s with
    | ok q => unfold EM.unwrapRes at h; rw [h1] at h; cases h
    | error e' =>
      have hn : e' ≠ .noBehavior := by
        rintro rfl
        unfold EM.unwrapRes at h; rw [h1] at h
        cases h; exact he rfl
      obtain ⟨u, rest, e1, g⟩ := hx.err _ _ h1 hn
      refine ⟨u, rest, e1, fun r => ?_⟩
      rw [← h]
      unfold EM.unwrapRes
      rw [g r, h1]

theorem setActive {th : Thread P F} : Pop (EM.modify (·.setActive th) : EM M P F Unit) := .modify fun _ _ => rfl

theorem memLoad {p : ThinPtr P} {n al at'} : Pop (memLoad p n al at' : EM M P F _) := .noChoice fun s o => by
  show (s.mem.load p n al at' >>= _) = Except.map _ (s.mem.load p n al at' >>= _)
  cases s.mem.load p n al at' <;> rfl

theorem memStore {p : ThinPtr P} {bs al at'} : Pop (memStore p bs al at' : EM M P F _) := .noChoice fun s o => by
  show (s.mem.store p bs al at' >>= _) = Except.map _ (s.mem.store p bs al at' >>= _)
  cases s.mem.store p bs al at' <;> rfl

theorem memDeallocate {p : ThinPtr P} {k n al} : Pop (memDeallocate p k n al : EM M P F _) := .noChoice fun s o => by
  show (s.mem.deallocate p k n al >>= _) = Except.map _ (s.mem.deallocate p k n al >>= _)
  cases s.mem.deallocate p k n al <;> rfl

theorem memEndCall {e : F} : Pop (memEndCall e : EM M P F _) := .noChoice fun s o => by
  show (s.mem.endCall e >>= _) = Except.map _ (s.mem.endCall e >>= _)
  cases s.mem.endCall (P := P) e <;> rfl

theorem popInt : Pop (EM.popInt : EM M P F _) where
  ok s a s' h := by
    obtain ⟨r, h1, rfl⟩ := EM.popInt_eq_ok.1 h
    exact ⟨[.int a], h1, fun r => rfl⟩
  err s e h he := by
    unfold EM.popInt at h
    split at h
    · cases h
    · cases h; exact absurd rfl he

theorem popProv : Pop (EM.popProv : EM M P F _) where
  ok s a s' h := by
    obtain ⟨r, h1, rfl⟩ := EM.popProv_eq_ok.1 h
    exact ⟨[.prov a], h1, fun r => rfl⟩
  err s e h he := by
    unfold EM.popProv at h
    split at h
    · cases h
    · cases h; exact absurd rfl he

theorem memAllocate {k n al} : Pop (memAllocate k n al : EM M P F _) := by
  refine .bind .popInt fun pick => .noChoice fun s o => ?_
  show (s.mem.allocate k n al pick >>= _) = Except.map _ (s.mem.allocate k n al pick >>= _)
  cases s.mem.allocate (P := P) (F := F) k n al pick <;> rfl

theorem mutateCurFrame {f : StackFrame P F → EM M P F (α × StackFrame P F)}
    (hf : ∀ fr, Pop (f fr)) : Pop (mutateCurFrame f) := by
  unfold MiniRust.mutateCurFrame
  exact .bind (.read fun _ _ => rfl) fun fr => .bind (hf fr) fun _ => .bind (.read fun _ _ => rfl) fun _ =>
    .bind .lift fun _ => .bind .setActive fun _ => .pure

theorem retagPtrM {p : Pointer P} {ty e} : Pop (retagPtrM p ty e : EM M P F _) := by
  unfold MiniRust.retagPtrM
  refine .mutateCurFrame fun fr => .noChoice fun s o => ?_
  show (s.mem.retagPtr _ _ _ _ s.vtableLookup >>= _) = Except.map _ (s.mem.retagPtr _ _ _ _ s.vtableLookup >>= _)
  cases s.mem.retagPtr fr.extra p ty e s.vtableLookup <;> rfl

/-! ### Expressions -/

theorem typedLoad {p : ThinPtr P} {ty al at'} : Pop (typedLoad p ty al at' : EM M P F _) :=
  .bind .lift fun _ => .bind .memLoad fun _ => .read fun _ _ => rfl

theorem typedStore {p : ThinPtr P} {v ty al at'} : Pop (typedStore p v ty al at' : EM M P F _) :=
  .bind (.read fun _ _ => rfl) fun _ => .memStore

theorem placeLoad {p : Place P} {ty} : Pop (placeLoad p ty : EM M P F _) := .ite .throw .typedLoad

theorem addrOf {p : Place P} {ty} : Pop (addrOf p ty : EM M P F _) :=
  .bind (.read fun _ _ => rfl) fun _ => .bind .retagPtrM fun _ => .pure

mutual
theorem decodeDiscriminant {acc : Machine M P F → Nat → Nat → Res (List (AByte P) × _)}
    (hacc : ∀ i n, Pop (fun s => acc s i n)) : ∀ d, Pop (fun s => decodeDiscriminant acc d s)
  | .known d => by simp only [MiniRust.decodeDiscriminant]; exact Pop.pure
  | .invalid => by simp only [MiniRust.decodeDiscriminant]; exact Pop.pure
  | .branch offset vt fb ch => by
    have : (fun s => MiniRust.decodeDiscriminant acc (.branch offset vt fb ch) s) =
        ((show EM M P F _ from fun s => acc s offset vt.size) >>= fun bytes s => match decodeInt vt bytes with
          | .error .none => .ok (none, s)
          | .error e => .error e
          | .ok val => match decodeDiscriminantChildren acc ch val s with
            | some r => r
            | none => MiniRust.decodeDiscriminant acc fb s : EM M P F (Option Int)) := by
      funext s
      simp only [MiniRust.decodeDiscriminant]
      cases h : acc s offset vt.size with
      | error e =>
        symm
        exact EM.bind_of_error (x := (show EM M P F _ from fun s => acc s offset vt.size)) h
      | ok r =>
        symm
        refine Eq.trans (EM.bind_of_ok (M := M) (P := P) (F := F) (x := fun s => acc s offset vt.size) (a := r.1) (s' := r.2) h) ?_
        dsimp only
        cases decodeInt vt r.1 with
        | error e => cases e <;> rfl
        | ok v =>
          dsimp only
          cases decodeDiscriminantChildren acc ch v r.2 <;> rfl
    rw [this]
    refine .bind (hacc _ _) fun bytes => ?_
    cases hd : decodeInt vt bytes with
    | error e =>
      cases e
      case none => exact Pop.pure
      all_goals exact Pop.throw
    | ok val =>
      simp only
      rcases children hacc ch val with h | ⟨d, h1, h2⟩
      · simp only [h]; exact decodeDiscriminant hacc fb
      · simp only [h1]; exact h2
theorem children {acc : Machine M P F → Nat → Nat → Res (List (AByte P) × _)}
    (hacc : ∀ i n, Pop (fun s => acc s i n)) :
    ∀ ch val, (∀ s, decodeDiscriminantChildren acc ch val s = none) ∨
      ∃ x : EM M P F (Option Int),
        (∀ s, decodeDiscriminantChildren acc ch val s = some (x s)) ∧ Pop x
  | [], val => .inl fun s => by simp only [decodeDiscriminantChildren]
  | ((a, b), d) :: ch, val => by
    simp only [decodeDiscriminantChildren]
    by_cases h : a ≤ val ∧ val < b
    · simp only [h, and_self, if_true]
      exact .inr ⟨_, fun s => rfl, decodeDiscriminant hacc d⟩
    · simp only [h, if_false]
      exact children hacc ch val
end

theorem getDiscriminant {p : Place P} {ty} : Pop (getDiscriminant p ty : EM M P F _) := by
  unfold MiniRust.getDiscriminant
  split
  · refine .ite .throw (.bind (.decodeDiscriminant (fun i n => .readBind (fun _ _ => rfl) fun _ => .memLoad) _) fun d => ?_)
    cases d
    · exact .throw
    · exact .pure
  · exact .throw

mutual
theorem evalValue : ∀ e, Pop (evalValue e : EM M P F _)
  | .constant _ _ => by unfold MiniRust.evalValue; exact .bind (.read fun _ _ => rfl) fun _ => .pure
  | .tuple es _ => by
    unfold MiniRust.evalValue
    exact .bind (evalValues es) fun _ => .pure
  | .union _ e ty => by
    unfold MiniRust.evalValue
    split
    · exact .bind .lift fun _ => .bind (evalValue e) fun _ => .bind .lift fun _ => .pure
    · exact .throw
  | .variant _ e _ => by
    unfold MiniRust.evalValue
    exact .bind (evalValue e) fun _ => .pure
  | .getDiscriminant p => by
    unfold MiniRust.evalValue
    exact .bind (evalPlace p) fun _ => .getDiscriminant
  | .load p => by
    unfold MiniRust.evalValue
    exact .bind (evalPlace p) fun _ => .bind .placeLoad fun _ => .pure
  | .addrOf p _ => by
    unfold MiniRust.evalValue
    exact .bind (evalPlace p) fun _ => .addrOf
  | .unOp _ e => by
    unfold MiniRust.evalValue
    exact .bind (evalValue e) fun _ => .read fun _ _ => rfl
  | .binOp _ e e' => by
    unfold MiniRust.evalValue
    exact .bind (evalValue e) fun _ => .bind (evalValue e') fun _ => .read fun _ _ => rfl
theorem evalValues : ∀ es, Pop (evalValues es : EM M P F _)
  | [] => by unfold MiniRust.evalValues; exact .pure
  | e :: es => by
    unfold MiniRust.evalValues
    exact .bind (evalValue e) fun _ => .bind (evalValues es) fun _ => .pure
theorem evalPlace : ∀ e, Pop (evalPlace e : EM M P F _)
  | .local _ => by unfold MiniRust.evalPlace; exact .read fun _ _ => rfl
  | .deref e _ => by
    unfold MiniRust.evalPlace
    exact .bind (evalValue e) fun _ => .read fun _ _ => rfl
  | .field p _ => by
    unfold MiniRust.evalPlace
    exact .bind (evalPlace p) fun _ => .read fun _ _ => rfl
  | .index p e => by
    unfold MiniRust.evalPlace
    exact .bind (evalPlace p) fun _ => .bind (evalValue e) fun _ => .read fun _ _ => rfl
  | .downcast p _ => by
    unfold MiniRust.evalPlace
    exact .bind (evalPlace p) fun _ => .lift
end


theorem requireUb {b : Bool} : Pop (requireUb b : EM M P F Unit) := .lift

theorem memDeinit {p : ThinPtr P} {n al} : Pop (memDeinit p n al : EM M P F _) := .memStore

/-! ### Statements -/

theorem placeStore {p : Place P} {v ty} : Pop (placeStore p v ty : EM M P F _) := .ite .throw .typedStore

theorem encodeDiscriminant {acc : Machine M P F → Nat → List (AByte P) → Res (Machine M P F)}
    (hacc : ∀ o b, Pop (show EM M P F Unit from fun s => acc s o b >>= fun s => .ok ((), s))) :
    ∀ tg, Pop (show EM M P F Unit from fun s => encodeDiscriminant acc tg s >>= fun s => .ok ((), s))
  | [] => by
    have : (show EM M P F Unit from fun s => MiniRust.encodeDiscriminant acc [] s >>= fun s => .ok ((), s)) = Pure.pure () := by
      funext s; simp only [MiniRust.encodeDiscriminant]; rfl
    rw [this]; exact .pure
  | (o, (vt, v)) :: rest => by
    have : (show EM M P F Unit from fun s => MiniRust.encodeDiscriminant acc ((o, (vt, v)) :: rest) s >>= fun s => .ok ((), s)) =
        (EM.lift (encodeInt vt v) >>= fun b => (show EM M P F Unit from fun s => acc s o b >>= fun s => .ok ((), s)) >>=
          fun _ => (show EM M P F Unit from fun s => MiniRust.encodeDiscriminant acc rest s >>= fun s => .ok ((), s))) := by
      funext s
      simp only [MiniRust.encodeDiscriminant]
      cases h : encodeInt (P := P) vt v with
      | error e => rfl
      | ok b =>
        rw [EM.bind_of_ok (EM.lift_eq_ok.2 ⟨rfl, rfl⟩)]
        show (acc s o b >>= fun s => MiniRust.encodeDiscriminant acc rest s) >>= _ = _
        cases h1 : acc s o b with
        | error e =>
          symm
          exact EM.bind_of_error (by show acc s o b >>= _ = _; rw [h1]; rfl)
        | ok s1 =>
          symm
          exact EM.bind_of_ok (M := M) (P := P) (F := F) (x := fun s => acc s o b >>= fun s => .ok ((), s))
            (a := ()) (s' := s1) (by show acc s o b >>= _ = _; rw [h1]; rfl)
    rw [this]
    exact .bind .lift fun b => .bind (hacc _ _) fun _ => encodeDiscriminant hacc rest

theorem setDiscriminant {p : Place P} {ty v} : Pop (setDiscriminant p ty v : EM M P F _) := by
  unfold MiniRust.setDiscriminant
  split
  · refine .ite .throw ?_
    split
    · exact .throw
    · refine .encodeDiscriminant (fun o b => ?_) _
      have : (show EM M P F Unit from fun s => (do
          let ptr ← s.ptrOffsetInbounds p.ptr.thin o
          let (_, s) ← MiniRust.memStore ptr b Align.one .none s
          .ok s) >>= fun s => .ok ((), s)) =
          (EM.read (fun s => s.ptrOffsetInbounds p.ptr.thin o) >>= fun ptr => MiniRust.memStore ptr b Align.one .none) := by
        funext s
        cases h : s.ptrOffsetInbounds p.ptr.thin o with
        | error e => symm; exact EM.bind_of_error (EM.read_of_error h)
        | ok ptr =>
          symm
          rw [EM.bind_of_ok (EM.read_of_ok h)]
          show _ = (MiniRust.memStore ptr b Align.one .none s >>= fun r => Except.ok r.2) >>= _
          cases MiniRust.memStore ptr b Align.one .none s <;> rfl
      show Pop (show EM M P F Unit from _)
      rw [this]
      exact .bind (.read fun _ _ => rfl) fun _ => .memStore
  · exact .throw

mutual
theorem retagVal (e : Bool) : ∀ v ty, Pop (retagVal e v ty : EM M P F _)
  | v, ty => by
    unfold MiniRust.retagVal
    split
    · exact .pure
    · exact .pure
    · exact .pure
    · exact .bind .retagPtrM fun _ => .pure
    · exact .bind (retagVals e _ _) fun _ => .pure
    · exact .bind (retagVals e _ _) fun _ => .pure
    · exact .bind .lift fun _ => .bind (retagVal e _ _) fun _ => .pure
    · exact .throw
theorem retagVals (e : Bool) : ∀ vs tys, Pop (retagVals e vs tys : EM M P F _)
  | v :: vs, ty :: tys => by
    unfold MiniRust.retagVals
    exact .bind (retagVal e v ty) fun _ => .bind (retagVals e vs tys) fun _ => .pure
  | [], _ => by unfold MiniRust.retagVals; exact .pure
  | _ :: _, [] => by unfold MiniRust.retagVals; exact .pure
end

theorem storageDead {fr : StackFrame P F} {l} : Pop (storageDead fr l : EM M P F _) := by
  unfold MiniRust.storageDead
  refine .bind .lift fun _ => ?_
  dsimp only
  split
  · exact .bind (.memDeallocate) fun _ => .pure
  · exact .pure

theorem storageLive {fr : StackFrame P F} {l} : Pop (storageLive fr l : EM M P F _) :=
  .bind (.storageDead) fun _ => .bind .lift fun _ => .bind (.memAllocate) fun _ => .pure

theorem evalStatement : ∀ {st : Statement}, Pop (evalStatement st : EM M P F _)
  | .assign _ _ => .bind (.evalPlace _) fun _ => .bind (.evalValue _) fun _ => .placeStore
  | .placeMention _ => .bind (.evalPlace _) fun _ => .pure
  | .setDiscriminant _ _ => .bind (.evalPlace _) fun _ => .setDiscriminant
  | .validate _ _ => .bind (.evalPlace _) fun _ => .bind .placeLoad fun _ => .bind (.retagVal _ _ _) fun _ => .placeStore
  | .deinit _ => .bind (.evalPlace _) fun _ => .ite .throw (.bind .lift fun _ => .memDeinit)
  | .storageLive l =>
    .mutateCurFrame fun _ => .bind (.storageLive) fun _ => .pure
  | .storageDead _ =>
    .mutateCurFrame fun _ => .bind (.storageDead) fun _ => .pure

/-! ### Calls -/

theorem prepareForInplacePassing {p : Place P} {ty} : Pop (prepareForInplacePassing p ty : EM M P F _) :=
  .bind .lift fun _ => .memDeinit

theorem evalArgument : ∀ {a}, Pop (evalArgument a : EM M P F _)
  | .byValue _ => .evalValue _
  | .inPlace _ => .bind (.evalPlace _) fun _ => .bind .placeLoad fun _ => .bind .prepareForInplacePassing fun _ => .pure

theorem evalArguments : ∀ as, Pop (evalArguments as : EM M P F _)
  | [] => .pure
  | _ :: as => .bind .evalArgument fun _ => .bind (evalArguments as) fun _ => .pure

theorem storageLives : ∀ ls {fr : StackFrame P F}, Pop (storageLives fr ls : EM M P F _)
  | [], _ => .pure
  | _ :: ls, _ => .bind (.storageLive) fun _ => storageLives ls

theorem passArguments {fr : StackFrame P F} : ∀ ls args, Pop (passArguments fr ls args : EM M P F _)
  | [], _ => by unfold MiniRust.passArguments; exact .pure
  | _ :: _, [] => by unfold MiniRust.passArguments; exact .pure
  | _ :: ls, _ :: args => by
    unfold MiniRust.passArguments
    exact .bind .lift fun _ => .bind .lift fun _ => .ite .throw (.bind .lift fun _ => .bind .lift fun _ =>
      .bind (.unwrapRes .typedStore) fun _ => passArguments ls args)

theorem createFrame {f a c r args} : Pop (createFrame f a c r args : EM M P F _) :=
  .bind (.storageLive) fun _ => .bind (.storageLives _) fun _ => .ite .throw (.bind .lift fun _ => .bind .lift fun _ =>
    .ite .throw (.ite .throw (.bind (.passArguments _ _) fun _ => .pure)))

theorem pushFrame {fr : StackFrame P F} : Pop (pushFrame fr : EM M P F _) :=
  .bind (.read fun _ _ => rfl) fun _ => .setActive

theorem popFrame : Pop (popFrame : EM M P F _) := by
  refine .bind (.read fun _ _ => rfl) fun th => ?_
  split
  · exact .throw
  · exact .bind .setActive fun _ => .pure

theorem jumpToBlock {b} : Pop (jumpToBlock b : EM M P F _) := .mutateCurFrame fun _ => .pure

theorem jumpOrUb : ∀ {b}, Pop (jumpOrUb b : EM M P F _)
  | some _ => .jumpToBlock
  | none => .throw

theorem evalCall {f c args p ty n u} : Pop (evalCall f c args p ty n u : EM M P F _) :=
  .bind (.createFrame) fun _ => .pushFrame

theorem newThread {f args} : Pop (newThread f args : EM M P F _) :=
  .bind (.createFrame) fun _ => .noChoice fun _ _ => rfl

theorem terminateActiveThread : Pop (terminateActiveThread : EM M P F _) := by
  refine .noChoice fun s m => ?_
  unfold MiniRust.terminateActiveThread
  by_cases h : s.activeThread = 0
  · rw [if_pos h, if_pos h]; rfl
  · rw [if_neg h, if_neg h]
    show (s.getActive >>= _) = _
    cases s.getActive with
    | error e => rfl
    | ok th =>
      show (rassert th.stack.isEmpty >>= _) = Except.map _ (rassert th.stack.isEmpty >>= _)
      cases rassert th.stack.isEmpty <;> rfl

theorem storageDeadAll : ∀ n {fr : StackFrame P F}, Pop (storageDeadAll n fr : EM M P F _)
  | 0, _ => .pure
  | n + 1, fr => by
    unfold MiniRust.storageDeadAll
    split
    · exact .pure
    · exact .bind (.storageDead) fun _ => storageDeadAll n

theorem returnAction {fr : StackFrame P F} {ty al v} : Pop (returnAction fr ty al v : EM M P F _) := by
  unfold MiniRust.returnAction
  split
  · exact .terminateActiveThread
  · exact .bind (.read fun _ _ => rfl) fun _ => .bind .lift fun _ => .bind .typedStore fun _ => .jumpOrUb

theorem evalReturn : Pop (evalReturn : EM M P F _) :=
  .bind .popFrame fun _ => .bind .lift fun _ => .bind .lift fun _ => .bind .lift fun _ => .bind .typedLoad fun _ =>
    .bind (.storageDeadAll _) fun _ => .bind .memEndCall fun _ => .returnAction

theorem evalResumeUnwind : Pop (evalResumeUnwind : EM M P F _) := by
  refine .bind .popFrame fun _ => .bind (.storageDeadAll _) fun fr => .bind .memEndCall fun _ => ?_
  split
  · exact .throw
  · exact .jumpOrUb

/-! ### Intrinsics -/

theorem setThreadState {i st} : Pop (setThreadState i st : EM M P F _) := by
  refine .noChoice fun s m => ?_
  show (index s.threads i >>= _) = Except.map _ (index s.threads i >>= _)
  cases index s.threads i <;> rfl

theorem lockAcquire {i} : Pop (lockAcquire i : EM M P F _) := by
  refine .noChoice fun s m => ?_
  unfold MiniRust.lockAcquire
  dsimp only
  cases getInt? s.locks i with
  | none => rfl
  | some l =>
    cases l with
    | unlocked => rfl
    | lockedBy j =>
      show (index s.threads _ >>= _) = Except.map _ (index s.threads _ >>= _)
      cases index s.threads s.activeThread <;> rfl

theorem lockRelease {i} : Pop (lockRelease i : EM M P F _) := by
  have : (MiniRust.lockRelease i : EM M P F _) =
      (EM.read (fun s => .ok (s.locks, s.activeThread, s.threads)) >>= fun r =>
        match getInt? r.1 i with
        | some (.lockedBy threadId) =>
          if threadId ≠ r.2.1 then EM.throw .ub
          else if r.2.2.any (fun t => t.state = ThreadState.blockedOnLock i.toNat) then do
            let acquirerId ← EM.popInt
            match getInt? r.2.2 acquirerId with
            | none => EM.throw .noBehavior
            | some t =>
              if t.state ≠ ThreadState.blockedOnLock i.toNat then EM.throw .noBehavior
              else do
                MiniRust.setThreadState acquirerId.toNat .enabled
                EM.modify fun s => { s with
                  synchronizedThreads := setInsert s.synchronizedThreads acquirerId.toNat
                  locks := s.locks.set i.toNat (.lockedBy acquirerId.toNat) }
          else EM.modify fun s => { s with locks := s.locks.set i.toNat .unlocked }
        | _ => EM.throw .ub) := by
    funext s
    symm
    refine (EM.bind_of_ok (a := (s.locks, s.activeThread, s.threads)) (s' := s) (EM.read_of_ok rfl)).trans ?_
    unfold MiniRust.lockRelease
    symm
    refine (EM.bind_of_ok (a := s) (s' := s) rfl).trans ?_
    dsimp only
    cases getInt? s.locks i with
    | none => rfl
    | some l =>
      cases l with
      | unlocked => rfl
      | lockedBy j =>
        dsimp only
        refine congrFun (ite_congr rfl (fun _ => rfl) fun _ => ite_congr rfl (fun _ => ?_) fun _ => rfl) s
        refine congrArg (EM.popInt >>= ·) (funext fun a => ?_)
        cases getInt? s.threads a <;> rfl
  rw [this]
  refine .bind (.read fun _ _ => rfl) fun r => ?_
  split
  · refine .ite .throw (.ite (.bind (.popInt) fun a => ?_) (.noChoice fun _ _ => rfl))
    split
    · exact .throw
    · exact .ite .throw (.bind (.setThreadState) fun _ => .noChoice fun _ _ => rfl)
  · exact .throw

theorem join {i} : Pop (join i : EM M P F _) := by
  refine .noChoice fun s m => ?_
  unfold MiniRust.join
  dsimp only
  cases getInt? s.threads i with
  | none => rfl
  | some l =>
    dsimp only
    split
    · rfl
    · show (index s.threads _ >>= _) = Except.map _ (index s.threads _ >>= _)
      cases index s.threads s.activeThread <;> rfl

theorem loadRawData {p : Pointer P} {ty} : Pop (loadRawData p ty : EM M P F _) := by
  unfold MiniRust.loadRawData
  split
  · split
    · exact .bind .memLoad fun _ => .lift
    · exact .throw
  · exact .throw

theorem evalIntrinsic {op args ty} : Pop (evalIntrinsic op args ty : EM M P F _) := by
  cases op <;> dsimp only [MiniRust.evalIntrinsic]
  case abort => exact .throw
  case assume =>
    unfold intrinsicAssume; split
    · exact .bind .lift fun _ => .bind .requireUb fun _ => .bind .requireUb fun _ => .pure
    · exact .throw
  case exit => exact .bind (.read fun _ _ => rfl) fun _ => .throw
  case printStdout =>
    exact .bind .requireUb fun _ => .bind .lift fun _ => .bind (.noChoice fun _ _ => rfl) fun _ => .pure
  case printStderr =>
    exact .bind .requireUb fun _ => .bind .lift fun _ => .bind (.noChoice fun _ _ => rfl) fun _ => .pure
  case allocate =>
    unfold intrinsicAllocate; split
    · exact .bind .lift fun _ => .bind .lift fun _ => .bind .lift fun _ => .bind .lift fun _ => .bind .requireUb fun _ =>
        .bind (.memAllocate) fun _ => .pure
    · exact .throw
  case deallocate =>
    unfold intrinsicDeallocate; split
    · exact .bind .lift fun _ => .bind .lift fun _ => .bind .lift fun _ => .bind .lift fun _ => .bind .lift fun _ => .bind .requireUb fun _ =>
        .bind (.memDeallocate) fun _ => .pure
    · exact .throw
  case spawn =>
    unfold intrinsicSpawn; split
    · exact .bind (.read fun _ _ => rfl) fun _ => .bind .requireUb fun _ => .bind .requireUb fun _ =>
        .bind (.bind (.newThread) fun _ => .bind (.noChoice fun _ _ => rfl) fun _ => .pure) fun _ => .pure
    · exact .throw
  case join =>
    unfold intrinsicJoin; split
    · exact .bind .lift fun _ => .bind .requireUb fun _ => .bind (.join) fun _ => .pure
    · exact .throw
  case rawEq =>
    unfold intrinsicRawEq; split
    · refine .bind .requireUb fun _ => .bind .requireUb fun _ => ?_
      split
      · exact .bind .loadRawData fun _ => .bind .loadRawData fun _ => .pure
      · exact .throw
    · exact .throw
  case atomicStore =>
    unfold intrinsicAtomicStore; split
    · refine .bind .lift fun _ => .bind .lift fun _ => ?_
      split
      · exact .bind .lift fun _ => .bind .requireUb fun _ => .bind .requireUb fun _ => .bind .typedStore fun _ => .pure
      · exact .throw
    · exact .throw
  case atomicLoad =>
    unfold intrinsicAtomicLoad; split
    · exact .bind .lift fun _ => .bind .lift fun _ => .bind .lift fun _ => .bind .requireUb fun _ => .typedLoad
    · exact .throw
  case atomicCompareExchange =>
    unfold intrinsicCompareExchange; split
    · exact .bind .lift fun _ => .bind .requireUb fun _ => .bind .requireUb fun _ => .bind .requireUb fun _ => .bind .lift fun _ =>
        .bind .lift fun _ => .bind .requireUb fun _ => .bind .typedLoad fun _ => .bind (.ite .typedStore .pure) fun _ => .pure
    · exact .throw
  case atomicFetchAndOp op =>
    unfold intrinsicFetchAndOp; split
    · refine .bind .lift fun _ => .bind .requireUb fun _ => ?_
      split
      · exact .bind .lift fun _ => .bind .lift fun _ => .bind .requireUb fun _ => .bind .typedLoad fun _ => .bind .lift fun _ =>
          .bind .typedStore fun _ => .pure
      · exact .throw
    · exact .throw
  case lock op =>
    unfold intrinsicLock
    split
    · exact .bind .requireUb fun _ => .bind .requireUb fun _ => .bind (.noChoice fun _ _ => rfl) fun _ => .pure
    · split
      · exact .bind .lift fun _ => .bind .requireUb fun _ => .bind (.lockAcquire) fun _ => .pure
      · exact .throw
    · split
      · exact .bind .lift fun _ => .bind .requireUb fun _ => .bind (.lockRelease) fun _ => .pure
      · exact .throw
  case pointerExposeProvenance =>
    unfold intrinsicExpose; split
    · exact .bind .lift fun _ => .bind .requireUb fun _ => .bind (.noChoice fun _ _ => rfl) fun _ => .pure
    · exact .throw
  case pointerWithExposedProvenance =>
    unfold intrinsicWithExposed; split
    · exact .bind .lift fun _ => .bind .requireUb fun _ => .bind (.popProv) fun _ =>
        .bind (.read fun _ _ => rfl) fun _ => .pure
    · exact .throw
  case getUnwindPayload =>
    refine .bind .requireUb fun _ => .bind .requireUb fun _ => .bind (.read fun _ _ => rfl) fun th => ?_
    split
    · exact .throw
    · exact .pure

/-! ### Terminators and steps -/

theorem evalTerminator : ∀ {tm : Terminator}, Pop (evalTerminator tm : EM M P F _)
  | .goto _ => .jumpToBlock
  | .switch _ _ _ => .bind (.evalValue _) fun _ => .bind .lift fun _ => .jumpToBlock
  | .unreachable => .throw
  | .call _ _ _ _ _ _ =>
    .bind (.evalPlace _) fun _ => .bind .prepareForInplacePassing fun _ => .bind (.evalValue _) fun _ =>
      .bind (.read fun _ _ => rfl) fun _ => .bind (.evalArguments _) fun _ => .evalCall
  | .return => .evalReturn
  | .startUnwind _ _ => .bind (.evalValue _) fun _ => .bind .lift fun _ =>
      .bind (.bind (.read fun _ _ => rfl) fun _ => .setActive) fun _ => .jumpToBlock
  | .stopUnwind _ => .bind (by
      unfold popPayload
      refine .bind (.read fun _ _ => rfl) fun th => ?_
      split
      · exact .throw
      · exact .setActive) fun _ => .jumpToBlock
  | .resumeUnwind => .evalResumeUnwind
  | .intrinsic _ _ _ _ => .bind (.evalPlace _) fun _ => .bind (.evalValues _) fun _ => .bind .evalIntrinsic fun _ =>
      .bind .placeStore fun _ => .jumpOrUb

theorem bumpStmt : Pop (bumpStmt : EM M P F _) := .mutateCurFrame fun _ => .pure

theorem execStep : Pop (execStep : EM M P F _) :=
  .bind (.read fun _ _ => rfl) fun _ => .bind .lift fun _ => 
    .ite .evalTerminator
    (.bind .lift fun _ => .bind .evalStatement fun _ => .bumpStmt)

theorem pickThread : Pop (pickThread : EM M P F _) := by
  refine .bind (.popInt) fun i => .noChoice fun s m => ?_
  dsimp only
  cases getInt? s.threads i with
  | none => rfl
  | some l =>
    dsimp only
    split <;> rfl


theorem step : Pop (step : EM M P F Unit) := by
  unfold MiniRust.step
  refine .bind (.read fun _ _ => rfl) fun en => .ite .throw (.bind (.noChoice fun _ _ => rfl) fun q => ?_)
  exact .bind .pickThread fun _ => .bind .execStep fun _ => .read fun _ _ => rfl

theorem allocGlobals : ∀ gs, Pop (allocGlobals gs : EM M P F _)
  | [] => .pure
  | _ :: gs => .bind .memAllocate fun _ => .bind (.modify fun _ _ => rfl) fun _ => allocGlobals gs

omit T in
theorem relocate_oracle {s : Machine M P F} {o} [Target] : ∀ rs bytes, ({ s with oracle := o } : Machine M P F).relocate rs bytes = s.relocate rs bytes
  | [], _ => rfl
  | (i, r) :: rs, bytes => by
    unfold Machine.relocate
    simp only [relocate_oracle rs]

theorem fillGlobals : ∀ gs, Pop (fillGlobals gs : EM M P F _)
  | [] => .pure
  | _ :: gs => .bind (.read fun _ _ => relocate_oracle _ _) fun _ => .bind (.read fun _ _ => rfl) fun _ => .bind (.unwrapRes .memStore) fun _ => fillGlobals gs

theorem allocFunctions : ∀ gs, Pop (allocFunctions gs : EM M P F _)
  | [] => .pure
  | _ :: gs => .bind .memAllocate fun _ => .bind (.modify fun _ _ => rfl) fun _ => allocFunctions gs

theorem allocVTables : ∀ gs, Pop (allocVTables gs : EM M P F _)
  | [] => .pure
  | _ :: gs => .bind .memAllocate fun _ => .bind (.modify fun _ _ => rfl) fun _ => allocVTables gs

theorem initMachine {prog} : Pop (initMachine prog : EM M P F _) :=
  .bind (.allocGlobals _) fun _ => .bind (.fillGlobals _) fun _ => .bind (.allocFunctions _) fun _ => .bind (.allocVTables _) fun _ =>
    .bind .lift fun _ => .bind .newThread fun _ => .pure

end Pop
end
end MiniRust
