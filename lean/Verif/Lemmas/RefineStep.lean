import Verif.Lemmas.RefineExpr
/-
Statements, terminators, steps and the initial machine are monotone in definedness, across memory
models.
-/
set_option linter.unusedSectionVars false
namespace MiniRust

section
variable {M PE AE F : Type} [T : Target] [DecidableEq PE] [Memory M (AllocId × PE) F]
  [S : SoftMem M (AllocId × PE) F] [B : BasicBacked M PE AE F] [RP : RootProv M PE F]
  {N QE QA G : Type} [DecidableEq QE] [Memory N (AllocId × QE) G] [Plain QE] [PlainAlloc QA] [PlainFrame G]
  [C : QuietMem N QE QA G]
  {α β γ δ : Type}

/-! ### Statements -/

theorem placeStore_sim {p q} (hp : PlaceBelow p q) {v w} (h : ValueBelow v w) (ty : Ty) :
    MSim M N (fun _ _ => True) (placeStore p v ty) (placeStore q w ty) := by
  unfold placeStore
  rw [hp.2]
  split
  · exact .ub
  · exact typedStore_sim hp.1.1 h ty _ _

theorem setDiscriminant_sim {p q} (hp : PlaceBelow p q) (ty : Ty) (d : Int) :
    MSim M N (fun _ _ => True) (setDiscriminant p ty d) (setDiscriminant q ty d) := by
  unfold setDiscriminant
  cases ty <;> first | exact .panic | skip
  simp only [hp.2]
  split
  · exact .ub
  · split
    · exact .panic
    · rename_i tagger _
      intro s t hs
      refine .bind (encodeDiscriminant_refines (RS := StateBelow) (fun s t o b c hs hb => ?_) tagger s t hs) fun _ _ h => .ok ⟨trivial, h⟩
      exact .bind (ptrOffsetInbounds_below hs hp.1.1 o) fun _ _ h =>
        .bind (memStore_sim h hb _ _ s t hs) fun _ _ h => .ok h.2

theorem Refines.eq_ok {α : Type} {x : Res α} : Refines (fun a b => a = b ∧ x = .ok b) x x := by
  cases x with
  | ok a => exact .ok ⟨rfl, rfl⟩
  | error e => exact .err

theorem allPtr_tuple {q : PtrType → Prop} {fields head tail} (h : (Ty.tuple fields head tail).AllPtr q) :
    ∀ ty ∈ fields.map (·.2), ty.AllPtr q := by
  intro ty ht
  obtain ⟨x, hx, rfl⟩ := List.mem_map.1 ht
  cases tail with
  | none => simp only [Ty.AllPtr] at h; exact h.mem hx
  | some => simp only [Ty.AllPtr] at h; exact h.1.mem hx

mutual
theorem retagVal_sim (e : Bool) : ∀ (v : Value (AllocId × PE)) (w) (ty : Ty), ty.AllPtr (Plain.quiet QE) → ValueBelow v w →
    MSim M N ValueBelow (retagVal e v ty) (retagVal e w ty)
  | .int i, w, ty, hq, h => by
    cases w <;> simp only [ValueBelow] at h
    subst h
    simp only [retagVal]
    exact .pure (by simp [ValueBelow])
  | .bool i, w, ty, hq, h => by
    cases w <;> simp only [ValueBelow] at h
    subst h
    simp only [retagVal]
    exact .pure (by simp [ValueBelow])
  | .union i, w, ty, hq, h => by
    cases w <;> simp only [ValueBelow] at h
    simp only [retagVal]
    exact .pure (by simpa only [ValueBelow] using h)
  | .ptr p, w, ty, hq, h => by
    cases w <;> simp only [ValueBelow] at h
    cases ty <;> first | (simp only [retagVal]; exact .panic) | skip
    simp only [retagVal]
    exact .bind (retagPtrM_sim h _ (by simpa only [Ty.AllPtr] using hq) e) fun _ _ h => .pure (by simpa only [ValueBelow] using h)
  | .tuple vs, w, ty, hq, h => by
    cases w <;> simp only [ValueBelow] at h
    cases ty <;> first | (simp only [retagVal]; exact .panic) | skip
    · simp only [retagVal]
      exact .bind (retagVals_sim e vs _ _ (allPtr_tuple hq) h) fun _ _ h => .pure (by simpa only [ValueBelow] using h)
    · simp only [retagVal]
      rw [ValuesBelow.length_eq h]
      exact .bind (retagVals_sim e vs _ _ (fun _ ht => by
        rw [List.eq_of_mem_replicate ht]; simpa only [Ty.AllPtr] using hq) h) fun _ _ h => .pure (by simpa only [ValueBelow] using h)
  | .variant d v, w, ty, hq, h => by
    cases w <;> simp only [ValueBelow] at h
    obtain ⟨rfl, h⟩ := h
    cases ty <;> first | (simp only [retagVal]; exact .panic) | skip
    simp only [retagVal]
    refine .bind (.lift .eq_ok) fun x _ hx => ?_
    obtain ⟨rfl, hx⟩ := hx
    simp only [Ty.AllPtr] at hq
    exact .bind (retagVal_sim e v _ _ (hq.mem (mapGet_mem hx)) h) fun _ _ h => .pure (by simpa [ValueBelow] using h)
theorem retagVals_sim (e : Bool) : ∀ (vs : List (Value (AllocId × PE))) (ws) (tys : List Ty), (∀ ty ∈ tys, ty.AllPtr (Plain.quiet QE)) → ValuesBelow vs ws →
    MSim M N ValuesBelow (retagVals e vs tys) (retagVals e ws tys)
  | [], ws, tys, hq, h => by
    cases ws with
    | cons => exact h.elim
    | nil => simp only [retagVals]; exact .pure (by simp [ValuesBelow])
  | v :: vs, ws, tys, hq, h => by
    cases ws with
    | nil => exact h.elim
    | cons w ws =>
      simp only [ValuesBelow] at h
      cases tys with
      | nil => simp only [retagVals]; exact .pure (by simp [ValuesBelow])
      | cons ty tys =>
        simp only [retagVals]
        exact .bind (retagVal_sim e v _ _ (hq _ List.mem_cons_self) h.1) fun _ _ h1 =>
          .bind (retagVals_sim e vs _ _ (fun _ ht => hq _ (List.mem_cons_of_mem _ ht)) h.2) fun _ _ h2 =>
          .pure (by simp only [ValuesBelow]; exact ⟨h1, h2⟩)
end

theorem storageDead_sim {f : StackFrame (AllocId × PE) F} {g} (h : FrameBelow f g) (l : LocalName) :
    MSim M N FrameBelow (storageDead f l) (storageDead g l) := by
  unfold storageDead StackFrame.localLayout
  rw [h.func]
  refine .bind (.lift .eq) fun x _ hx => ?_
  subst hx
  rcases mapGet_rel h.locals l with ⟨h1, h2⟩ | ⟨a, b, h1, h2, hab⟩
  · simp only [h1, h2]; exact .pure h
  · simp only [h1, h2]
    exact .bind (memDeallocate_sim hab _ _ _) fun _ _ _ => .pure { h with func := rfl, locals := mapErase_rel h.locals l }

theorem storageLive_sim {f : StackFrame (AllocId × PE) F} {g} (h : FrameBelow f g) (l : LocalName) :
    MSim M N FrameBelow (storageLive f l) (storageLive g l) := by
  unfold storageLive
  refine .bind (storageDead_sim h l) fun f g h => ?_
  unfold StackFrame.localLayout
  rw [h.func]
  refine .bind (.lift .eq) fun x _ hx => ?_
  subst hx
  exact .bind (memAllocate_sim _ _ _) fun _ _ hp => .pure { h with func := rfl, locals := mapInsert_rel h.locals l hp.1 }

theorem evalStatement_sim (st : Statement) (hq : st.AllPtr (Plain.quiet QE)) : MSim M N (fun _ _ => True) (evalStatement st) (evalStatement st) := by
  cases st with
  | assign d e =>
    simp only [evalStatement]
    refine .bind (evalPlace_sim d hq.1) fun _ _ h => .bind (evalValue_sim e hq.2) fun _ _ h' => ?_
    obtain ⟨h, h2⟩ := h
    rw [h2]
    exact placeStore_sim h h'.1 _
  | placeMention p =>
    simp only [evalStatement]
    exact .bind (evalPlace_sim p hq) fun _ _ _ => .pure trivial
  | setDiscriminant p d =>
    simp only [evalStatement]
    refine .bind (evalPlace_sim p hq) fun _ _ h => ?_
    obtain ⟨h, h2⟩ := h
    rw [h2]
    exact setDiscriminant_sim h _ d
  | validate p e =>
    simp only [evalStatement]
    refine .bind (evalPlace_simQ p hq) fun _ _ h => ?_
    obtain ⟨⟨h, h2⟩, h3⟩ := h
    rw [h2]
    exact .bind (placeLoad_sim h _) fun _ _ h1 => .bind (retagVal_sim e _ _ _ h3 h1) fun _ _ h2 => placeStore_sim h h2 _
  | deinit p =>
    simp only [evalStatement]
    refine .bind (evalPlace_sim p hq) fun _ _ h => ?_
    obtain ⟨h, h2⟩ := h
    rw [h2, h.2]
    split
    · exact .ub
    · refine .bind (.lift .eq) fun x _ hx => ?_
      subst hx
      exact memDeinit_sim h.1.1 _ _
  | storageLive l =>
    exact mutateCurFrame_sim fun _ _ h => .bind (storageLive_sim h l) fun _ _ h => .pure ⟨trivial, h⟩
  | storageDead l =>
    exact mutateCurFrame_sim fun _ _ h => .bind (storageDead_sim h l) fun _ _ h => .pure ⟨trivial, h⟩

/-! ### Calls -/

theorem prepareForInplace_sim {p q} (hp : PlaceBelow p q) (ty : Ty) :
    MSim M N (fun _ _ => True) (prepareForInplacePassing p ty) (prepareForInplacePassing q ty) := by
  unfold prepareForInplacePassing
  refine .bind (.lift .eq) fun x _ hx => ?_
  subst hx
  exact memDeinit_sim hp.1.1 _ _

theorem evalArgument_sim (a : ArgumentExpr) (hq : a.AllPtr (Plain.quiet QE)) : MSim M N VTBelow (evalArgument a) (evalArgument a) := by
  cases a with
  | byValue v => exact evalValue_sim v hq
  | inPlace p =>
    simp only [evalArgument]
    refine .bind (evalPlace_sim p hq) fun _ _ h => ?_
    obtain ⟨h, h2⟩ := h
    rw [h2]
    exact .bind (placeLoad_sim h _) fun _ _ h1 => .bind (prepareForInplace_sim h _) fun _ _ _ => .pure ⟨h1, rfl⟩

theorem evalArguments_sim : ∀ (as : List ArgumentExpr), (∀ a ∈ as, a.AllPtr (Plain.quiet QE)) → MSim M N VTsBelow (evalArguments as) (evalArguments as)
  | [], _ => .pure .nil
  | a :: as, hq => .bind (evalArgument_sim a (hq _ List.mem_cons_self)) fun _ _ h =>
    .bind (evalArguments_sim as fun _ ha => hq _ (List.mem_cons_of_mem _ ha)) fun _ _ h' => .pure (.cons h h')

theorem storageLives_sim : ∀ (ls : List LocalName) {f : StackFrame (AllocId × PE) F} {g}, FrameBelow f g →
    MSim M N FrameBelow (storageLives f ls) (storageLives g ls)
  | [], _, _, h => .pure h
  | l :: ls, _, _, h => .bind (storageLive_sim h l) fun _ _ h => storageLives_sim ls h

theorem passArguments_sim {f : StackFrame (AllocId × PE) F} {g} (h : FrameBelow f g) :
    ∀ (ls : List LocalName) {as bs}, VTsBelow as bs → MSim M N (fun _ _ => True) (passArguments f ls as) (passArguments g ls bs)
  | [], _, _, _ => by simp only [passArguments]; exact .pure trivial
  | l :: ls, [], _, .nil => by simp only [passArguments]; exact .pure trivial
  | l :: ls, _, _, .cons (a := a) (b := b) hab hr => by
    obtain ⟨v, ty⟩ := a
    obtain ⟨w, ty'⟩ := b
    obtain ⟨h1, h2⟩ := hab
    simp only at h1 h2
    subst h2
    simp only [passArguments]
    rw [h.func]
    refine .bind (.lift .eq) fun x _ hx => ?_
    subst hx
    refine .bind (.lift .eq) fun x _ hx => ?_
    subst hx
    split
    · exact .ub
    · refine .bind (.lift .eq) fun x _ hx => ?_
      subst hx
      exact .bind (.lift (.mapGet h.locals l)) fun _ _ hp => .bind (.unwrapRes (typedStore_sim hp h1 _ _ _)) fun _ _ _ =>
        passArguments_sim h ls hr

theorem createFrame_sim (func : Function) (hq : func.AllPtr (Plain.quiet QE)) {a b} (ha : ActionBelow a b) (conv : CallingConvention) (ty : Ty) {as bs}
    (h : VTsBelow as bs) : MSim M N FrameBelow (createFrame func a conv ty as) (createFrame func b conv ty bs) := by
  unfold createFrame
  refine .bind (storageLive_sim (f := StackFrame.init func a (Memory.newCall M)) (g := StackFrame.init func b (Memory.newCall N))
    ⟨rfl, .nil, ha, rfl, rfl, C.newCall, hq⟩ _) fun _ _ h1 => .bind (storageLives_sim _ h1) fun _ _ h2 => ?_
  split
  · exact .ub
  · refine .bind (.lift .eq) fun x _ hx => ?_
    subst hx
    refine .bind (.lift .eq) fun x _ hx => ?_
    subst hx
    rw [List.Forall₂.length_eq h]
    split
    · exact .ub
    · split
      · exact .ub
      · exact .bind (passArguments_sim h2 _ h) fun _ _ _ => .pure h2

theorem pushFrame_sim {f : StackFrame (AllocId × PE) F} {g} (h : FrameBelow f g) :
    MSim M N (fun _ _ => True) (pushFrame f) (pushFrame g) :=
  .bind (.read fun _ _ hs => getActive_below hs) fun _ _ ht => .modify fun _ _ hs =>
    setActive_below hs { ht with stack := .cons h ht.stack }

theorem popFrame_sim : MSim M N (FrameBelow (PE := PE) (F := F)) popFrame popFrame := by
  unfold popFrame
  refine .bind (.read fun _ _ hs => getActive_below hs) fun a b ht => ?_
  have h1 := ht.stack
  cases ha : a.stack with
  | nil => exact .panic
  | cons f fs =>
    rw [ha] at h1
    cases hb : b.stack with
    | nil => rw [hb] at h1; cases h1
    | cons g gs =>
      rw [hb] at h1
      cases h1 with
      | cons h h' => exact .bind (.modify fun _ _ hs => setActive_below hs { ht with stack := h' }) fun _ _ _ => .pure h

theorem jumpToBlock_sim (b : BbName) : MSim M N (PE := PE) (F := F) (fun _ _ => True) (jumpToBlock b) (jumpToBlock b) :=
  mutateCurFrame_sim fun _ _ h => .pure ⟨trivial, { h with nextBlock := rfl, nextStmt := rfl }⟩

theorem jumpOrUb_sim (b : Option BbName) : MSim M N (PE := PE) (F := F) (fun _ _ => True) (jumpOrUb b) (jumpOrUb b) := by
  cases b with
  | none => exact .ub
  | some b => exact jumpToBlock_sim b

theorem evalCall_sim (callee : Function) (hq : callee.AllPtr (Plain.quiet QE)) (conv : CallingConvention) {as bs} (h : VTsBelow as bs) {p q} (hp : PlaceBelow p q)
    (ty : Ty) (nb ub : Option BbName) : MSim M N (fun _ _ => True) (evalCall callee conv as p ty nb ub) (evalCall callee conv bs q ty nb ub) :=
  .bind (createFrame_sim callee hq (.back _ _ _ _ hp.1.1) conv ty h) fun _ _ h => pushFrame_sim h

theorem newThread_sim (func : Function) (hq : func.AllPtr (Plain.quiet QE)) {as bs} (h : VTsBelow as bs) :
    MSim M N Eq (newThread func as) (newThread func bs) := by
  unfold newThread
  refine .bind (createFrame_sim func hq .bottom .c unitTy h) fun _ _ h s t hs => ?_
  exact .ok ⟨List.Forall₂.length_eq hs.threads, { hs with
    threads := forall₂_append hs.threads (.cons ⟨.cons h .nil, rfl, .nil⟩ .nil) }⟩

/-! ### Returning -/

theorem ThreadBelow.withState {a : Thread (AllocId × PE) F} {b : Thread (AllocId × QE) G} (h : ThreadBelow a b) (st : ThreadState) :
    ThreadBelow { a with state := st } { b with state := st } := ⟨h.stack, rfl, h.payloads⟩

theorem wakeJoin_below {i : ThreadId} {a : Thread (AllocId × PE) F} {b : Thread (AllocId × QE) G} (h : ThreadBelow a b) :
    ThreadBelow (a.wakeJoin i) (b.wakeJoin i) := by
  unfold Thread.wakeJoin
  rw [h.state]
  split
  · exact { h with state := rfl }
  · exact h

theorem syncJoined_below {i : ThreadId} {as : List (Thread (AllocId × PE) F)} {bs : List (Thread (AllocId × QE) G)} (h : List.Forall₂ ThreadBelow as bs) :
    ∀ n l, syncJoined i as n l = syncJoined i bs n l := by
  induction h with
  | nil => intro n l; rfl
  | cons h _ ih => intro n l; simp only [syncJoined, h.state]; exact ih _ _

theorem terminateActiveThread_sim : MSim M N (PE := PE) (F := F) (fun _ _ => True) terminateActiveThread terminateActiveThread := by
  intro s t hs
  unfold terminateActiveThread
  rw [hs.active]
  split
  · exact .ub
  · refine .bind (getActive_below hs) fun a b h => ?_
    have he : a.stack.isEmpty = b.stack.isEmpty := by
      have := h.stack
      cases ha : a.stack <;> cases hb : b.stack <;> rw [ha, hb] at this <;> first | rfl | cases this
    rw [he]
    refine .bind .eq fun _ _ _ => ?_
    have h1 : List.Forall₂ ThreadBelow (s.threads.set t.activeThread { a with state := .terminated })
        (t.threads.set t.activeThread { b with state := .terminated }) := forall₂_set hs.threads (h.withState _) _
    refine .ok ⟨trivial, { hs with active := rfl, threads := ?_, sync := ?_ }⟩
    · show List.Forall₂ _ (List.map _ _) (List.map _ _)
      rw [List.forall₂_map_left_iff, List.forall₂_map_right_iff]
      exact h1.imp fun _ _ h => wakeJoin_below h
    · show syncJoined _ _ _ _ = syncJoined _ _ _ _
      rw [hs.sync]
      exact syncJoined_below h1 _ _

theorem storageDeadAll_sim : ∀ (n : Nat) {f : StackFrame (AllocId × PE) F} {g}, FrameBelow f g →
    MSim M N FrameBelow (storageDeadAll n f) (storageDeadAll n g)
  | 0, _, _, h => .pure h
  | n + 1, f, g, h => by
    simp only [storageDeadAll]
    have h1 := h.locals
    cases hf : f.locals with
    | nil =>
      cases hg : g.locals with
      | nil => exact .pure h
      | cons => rw [hf, hg] at h1; cases h1
    | cons x xs =>
      cases hg : g.locals with
      | nil => rw [hf, hg] at h1; cases h1
      | cons y ys =>
        rw [hf, hg] at h1
        cases h1 with
        | cons h1 _ =>
          obtain ⟨l, _⟩ := x
          obtain ⟨l', _⟩ := y
          obtain ⟨h1, _⟩ := h1
          simp only at h1
          subst h1
          exact .bind (storageDead_sim h l) fun _ _ h => storageDeadAll_sim n h

theorem returnAction_sim {f : StackFrame (AllocId × PE) F} {g} (h : FrameBelow f g) (ty : Ty) (align : Align) {v w}
    (hv : ValueBelow v w) : MSim M N (fun _ _ => True) (returnAction f ty align v) (returnAction g ty align w) := by
  unfold returnAction
  have ha := h.action
  generalize f.stackPopAction = a at ha
  generalize g.stackPopAction = b at ha
  cases ha with
  | bottom => exact terminateActiveThread_sim
  | back nb ub p q hp =>
    refine .bind (.read fun _ _ hs => getActive_below hs) fun a b ht => ?_
    have he : a.stack.isEmpty = b.stack.isEmpty := by
      have := ht.stack
      cases ha : a.stack <;> cases hb : b.stack <;> rw [ha, hb] at this <;> first | rfl | cases this
    rw [he]
    exact .bind (.lift .eq) fun _ _ _ => .bind (typedStore_sim hp hv _ _ _) fun _ _ _ => jumpOrUb_sim nb

theorem evalReturn_sim : MSim M N (PE := PE) (F := F) (fun _ _ => True) evalReturn evalReturn := by
  unfold evalReturn
  refine .bind popFrame_sim fun f g h => ?_
  rw [h.func]
  refine .bind (.lift .eq) fun x _ hx => ?_
  subst hx
  refine .bind (.lift .eq) fun x _ hx => ?_
  subst hx
  refine .bind (.lift (.mapGet h.locals _)) fun _ _ hp => .bind (typedLoad_sim hp _ _ _) fun _ _ hv => ?_
  rw [List.Forall₂.length_eq h.locals]
  exact .bind (storageDeadAll_sim _ h) fun _ _ h => .bind (by rw [h.extra]; exact memEndCall_sim _) fun _ _ _ => returnAction_sim h _ _ hv

theorem evalResumeUnwind_sim : MSim M N (PE := PE) (F := F) (fun _ _ => True) evalResumeUnwind evalResumeUnwind := by
  unfold evalResumeUnwind
  refine .bind popFrame_sim fun f g h => ?_
  rw [List.Forall₂.length_eq h.locals]
  refine .bind (storageDeadAll_sim _ h) fun f g h => .bind (by rw [h.extra]; exact memEndCall_sim _) fun _ _ _ => ?_
  have ha := h.action
  generalize f.stackPopAction = a at ha
  generalize g.stackPopAction = b at ha
  cases ha with
  | bottom => exact .ub
  | back nb ub p q hp => exact jumpOrUb_sim ub

/-! ### Locks -/

theorem lockCreate_sim : MSim M N (PE := PE) (F := F) Eq lockCreate lockCreate :=
  fun _ _ hs => .ok ⟨by simp only [hs.locks], { hs with locks := by simp only [hs.locks] }⟩

theorem setThreadState_sim (i : ThreadId) (st : ThreadState) :
    MSim M N (PE := PE) (F := F) (fun _ _ => True) (setThreadState i st) (setThreadState i st) := by
  intro s t hs
  exact .bind (.index hs.threads i) fun _ _ h => .ok ⟨trivial, { hs with threads := forall₂_set hs.threads (h.withState _) _ }⟩

theorem lockAcquire_sim (i : Int) : MSim M N (PE := PE) (F := F) (fun _ _ => True) (lockAcquire i) (lockAcquire i) := by
  intro s t hs
  unfold lockAcquire
  rw [hs.locks, hs.active]
  split
  · exact .ub
  · exact .ok ⟨trivial, { hs with active := rfl, locks := rfl }⟩
  · exact setThreadState_sim _ _ s t hs

theorem getInt_rel {R : α → β → Prop} {l : List α} {l' : List β} (h : List.Forall₂ R l l') (i : Int) :
    (getInt? l i = none ∧ getInt? l' i = none) ∨ ∃ a b, getInt? l i = some a ∧ getInt? l' i = some b ∧ R a b := by
  unfold getInt?
  split
  · exact .inl ⟨rfl, rfl⟩
  · cases hl : l[i.toNat]? with
    | none => exact .inl ⟨rfl, forall₂_get' h hl⟩
    | some a => obtain ⟨b, h1, h2⟩ := forall₂_get h hl; exact .inr ⟨a, b, rfl, h1, h2⟩

theorem lockRelease_sim (i : Int) : MSim M N (PE := PE) (F := F) (fun _ _ => True) (lockRelease i) (lockRelease i) := by
  unfold lockRelease
  refine .bind (R := StateBelow) (fun s t hs => .ok ⟨hs, hs⟩) fun s t hs => ?_
  rw [hs.locks, hs.active]
  split
  · split
    · exact .ub
    · have he : s.threads.any (fun t => t.state = .blockedOnLock i.toNat) = t.threads.any (fun t => t.state = .blockedOnLock i.toNat) := by
        have := hs.threads
        generalize s.threads = a at this
        generalize t.threads = b at this
        induction this with
        | nil => rfl
        | cons h _ ih => simp only [List.any_cons, h.state, ih]
      rw [he]
      split
      · refine .bind .popInt fun j _ hj => ?_
        subst hj
        rcases getInt_rel hs.threads j with ⟨h1, _⟩ | ⟨a, b, h1, h2, h⟩
        · simp only [h1]; exact .noBehavior
        · simp only [h1, h2, h.state]
          split
          · exact .noBehavior
          · exact .bind (setThreadState_sim _ _) fun _ _ _ => .modify fun _ _ hs =>
              { hs with sync := by simp only [hs.sync], locks := by simp only [hs.locks] }
      · exact .modify fun _ _ hs => { hs with locks := by simp only [hs.locks] }
  · exact .ub

/-! ### Intrinsics -/

theorem requireUb_sim (b : Bool) : MSim M N (PE := PE) (F := F) (fun _ _ => True) (requireUb b) (requireUb b) :=
  .lift (Refines.eq.mono fun _ _ _ => trivial)

theorem intArg_below {x : Value (AllocId × PE) × Ty} {y : Value (AllocId × QE) × Ty} (h : VTBelow x y) : Refines Eq (intArg x) (intArg y) := by
  obtain ⟨v, ty⟩ := x
  obtain ⟨w, ty'⟩ := y
  have h1 : ValueBelow v w := h.1
  cases v <;> first | exact .ub | skip
  cases w <;> simp only [ValueBelow] at h1
  subst h1; exact .ok rfl

theorem boolArg_below {x : Value (AllocId × PE) × Ty} {y : Value (AllocId × QE) × Ty} (h : VTBelow x y) : Refines Eq (boolArg x) (boolArg y) := by
  obtain ⟨v, ty⟩ := x
  obtain ⟨w, ty'⟩ := y
  have h1 : ValueBelow v w := h.1
  cases v <;> first | exact .ub | skip
  cases w <;> simp only [ValueBelow] at h1
  subst h1; exact .ok rfl

theorem thinPtrArg_below {x : Value (AllocId × PE) × Ty} {y : Value (AllocId × QE) × Ty} (h : VTBelow x y) :
    Refines ThinBelow (thinPtrArg x) (thinPtrArg y) := by
  obtain ⟨v, ty⟩ := x
  obtain ⟨w, ty'⟩ := y
  have h1 : ValueBelow v w := h.1
  cases v <;> first | exact .ub | skip
  cases w <;> simp only [ValueBelow] at h1
  rename_i p q
  obtain ⟨p, pm⟩ := p
  obtain ⟨q, qm⟩ := q
  cases pm with
  | some => exact .ub
  | none =>
    have hm := h1.2
    rcases qm with _ | (_ | _) <;> first | exact hm.elim | skip
    exact .ok h1.1

theorem expose_below {s : Machine M (AllocId × PE) F} {t : Machine N (AllocId × QE) G} (hs : StateBelow s t) {p q} (h : ThinBelow p q) :
    StateBelow { s with intptrcast := s.intptrcast.expose p } { t with intptrcast := t.intptrcast.expose q } := by
  have hmem : ∀ {x} {l : List (AllocId × QE)} {y}, x ∈ l → x ∈ setInsert l y := by
    intro x l y hx
    unfold setInsert
    split
    · exact hx
    · exact List.mem_append_left _ hx
  refine { hs with exposed := ?_ }
  intro x hx
  have hold : ∀ x ∈ s.intptrcast.exposed, dropExtra x ∈ (t.intptrcast.expose q).exposed := by
    intro x hx
    unfold IntPtrCast.expose
    split
    · exact hmem (hs.exposed x hx)
    · exact hs.exposed x hx
  simp only [IntPtrCast.expose] at hx
  cases hp : p.prov with
  | none => rw [hp] at hx; exact hold x hx
  | some a =>
    rw [hp] at hx
    simp only [setInsert] at hx
    have hq : q.prov = some (dropExtra a) := by
      rcases h.2 with h | h
      · rw [hp] at h; cases h
      · rw [← h, hp]; rfl
    by_cases hmem' : a ∈ s.intptrcast.exposed
    · rw [if_pos hmem'] at hx; exact hold x hx
    · rw [if_neg hmem'] at hx
      rcases List.mem_append.1 hx with hx | hx
      · exact hold x hx
      · simp only [List.mem_singleton] at hx
        subst hx
        simp only [IntPtrCast.expose, hq]
        unfold setInsert
        split
        · assumption
        · exact List.mem_append_right _ (List.mem_singleton.2 rfl)

theorem intrinsicExpose_sim {as bs} (h : VTsBelow as bs) (ty : Ty) :
    MSim M N (ValueBelow (PE := PE)) (intrinsicExpose (F := F) as ty) (intrinsicExpose bs ty) := by
  unfold intrinsicExpose
  rcases h with _ | ⟨h1, _ | ⟨h2, _⟩⟩ <;> first | exact .ub | skip
  refine .bind (.lift (thinPtrArg_below h1)) fun p q hp => .bind (requireUb_sim _) fun _ _ _ =>
    .bind (.modify fun _ _ hs => expose_below hs hp) fun _ _ _ => .pure ?_
  simpa only [ValueBelow] using hp.1

theorem intrinsicWithExposed_sim {as bs} (h : VTsBelow as bs) (ty : Ty) :
    MSim M N (ValueBelow (PE := PE)) (intrinsicWithExposed (F := F) as ty) (intrinsicWithExposed bs ty) := by
  unfold intrinsicWithExposed
  rcases h with _ | ⟨h1, _ | ⟨h2, _⟩⟩ <;> first | exact .ub | skip
  refine .bind (.lift (intArg_below h1)) fun i _ hi => ?_
  subst hi
  refine .bind (requireUb_sim _) fun _ _ _ => .bind .popProv fun p q hq => ?_
  subst hq
  refine .bind (R := ThinBelow) (.read fun s t hs => ?_) fun _ _ h => .pure h.widenNone
  unfold IntPtrCast.int2ptr
  cases p with
  | none => exact .ok ⟨rfl, .inl rfl⟩
  | some p =>
    by_cases hp : p ∈ s.intptrcast.exposed
    · have := hs.exposed p hp
      simp only [Option.map_some, hp, this, decide_true, if_true]
      exact .ok ⟨rfl, .inr rfl⟩
    · simp only [hp, decide_false]
      exact .noBehavior

theorem intrinsicExit_sim : MSim M N (ValueBelow (PE := PE)) (intrinsicExit (F := F)) intrinsicExit :=
  .bind (R := Eq) (.read fun _ _ hs => mem_leak_below hs.mem) fun _ _ _ => .throw

omit [DecidableEq PE] in
theorem unitValue_below : ValueBelow (unitValue : Value (AllocId × PE)) (unitValue : Value (AllocId × QE)) := by
  simp [unitValue, ValueBelow, ValuesBelow]

theorem intrinsicAssume_sim {as bs} (h : VTsBelow as bs) (ty : Ty) :
    MSim M N (ValueBelow (PE := PE)) (intrinsicAssume (F := F) as ty) (intrinsicAssume bs ty) := by
  unfold intrinsicAssume
  rcases h with _ | ⟨h1, _ | ⟨h2, _⟩⟩ <;> first | exact .ub | skip
  refine .bind (.lift (boolArg_below h1)) fun i _ hi => ?_
  subst hi
  exact .bind (requireUb_sim _) fun _ _ _ => .bind (requireUb_sim _) fun _ _ _ => .pure unitValue_below

omit [DecidableEq PE] in
theorem evalPrint_below {as : List (Value (AllocId × PE) × Ty)} {bs : List (Value (AllocId × QE) × Ty)} (h : VTsBelow as bs) :
    Refines Eq (evalPrint as) (evalPrint bs) := by
  induction h with
  | nil => exact .ok rfl
  | @cons x y _ _ hxy _ ih =>
    obtain ⟨v, ty⟩ := x
    obtain ⟨w, ty'⟩ := y
    have h1 : ValueBelow v w := hxy.1
    cases v <;> first | exact .ub | skip
    all_goals
      cases w <;> simp only [ValueBelow] at h1
      subst h1
      simp only [evalPrint]
      exact .bind ih fun _ _ h => .ok (by rw [h])

theorem intrinsicPrintStdout_sim {as bs} (h : VTsBelow as bs) (ty : Ty) :
    MSim M N (ValueBelow (PE := PE)) (intrinsicPrintStdout (F := F) as ty) (intrinsicPrintStdout bs ty) := by
  unfold intrinsicPrintStdout
  refine .bind (requireUb_sim _) fun _ _ _ => .bind (.lift (evalPrint_below h)) fun o _ ho => ?_
  subst ho
  exact .bind (.modify fun _ _ hs => { hs with stdout := by simp only [hs.stdout] }) fun _ _ _ => .pure unitValue_below

theorem intrinsicPrintStderr_sim {as bs} (h : VTsBelow as bs) (ty : Ty) :
    MSim M N (ValueBelow (PE := PE)) (intrinsicPrintStderr (F := F) as ty) (intrinsicPrintStderr bs ty) := by
  unfold intrinsicPrintStderr
  refine .bind (requireUb_sim _) fun _ _ _ => .bind (.lift (evalPrint_below h)) fun o _ ho => ?_
  subst ho
  exact .bind (.modify fun _ _ hs => { hs with stderr := by simp only [hs.stderr] }) fun _ _ _ => .pure unitValue_below

theorem intrinsicAllocate_sim {as bs} (h : VTsBelow as bs) (ty : Ty) :
    MSim M N (ValueBelow (PE := PE)) (intrinsicAllocate (F := F) as ty) (intrinsicAllocate bs ty) := by
  unfold intrinsicAllocate
  rcases h with _ | ⟨h1, _ | ⟨h2, _ | ⟨h3, _⟩⟩⟩ <;> first | exact .ub | skip
  refine .bind (.lift (intArg_below h1)) fun i _ hi => ?_
  subst hi
  refine .bind (.lift .eq) fun i _ hi => ?_
  subst hi
  refine .bind (.lift (intArg_below h2)) fun i _ hi => ?_
  subst hi
  refine .bind (.lift .eq) fun i _ hi => ?_
  subst hi
  exact .bind (requireUb_sim _) fun _ _ _ => .bind (memAllocate_sim _ _ _) fun _ _ h => .pure h.1.widenNone

theorem intrinsicDeallocate_sim {as bs} (h : VTsBelow as bs) (ty : Ty) :
    MSim M N (ValueBelow (PE := PE)) (intrinsicDeallocate (F := F) as ty) (intrinsicDeallocate bs ty) := by
  unfold intrinsicDeallocate
  rcases h with _ | ⟨h1, _ | ⟨h2, _ | ⟨h3, _ | ⟨h4, _⟩⟩⟩⟩ <;> first | exact .ub | skip
  refine .bind (.lift (thinPtrArg_below h1)) fun _ _ hp => .bind (.lift (intArg_below h2)) fun i _ hi => ?_
  subst hi
  refine .bind (.lift .eq) fun i _ hi => ?_
  subst hi
  refine .bind (.lift (intArg_below h3)) fun i _ hi => ?_
  subst hi
  refine .bind (.lift .eq) fun i _ hi => ?_
  subst hi
  exact .bind (requireUb_sim _) fun _ _ _ => .bind (memDeallocate_sim hp _ _ _) fun _ _ _ => .pure unitValue_below

theorem fnFromPtr_quiet {s : Machine M (AllocId × PE) F} {t : Machine N (AllocId × QE) G} (hs : StateBelow s t) {v f}
    (h : t.fnFromPtr v = .ok f) : f.AllPtr (Plain.quiet QE) := by
  unfold Machine.fnFromPtr at h
  split at h
  · split at h
    · cases h
    · split at h
      · cases h
      · exact hs.quiet _ (mapGet_mem h)
  · cases h

theorem intrinsicSpawn_sim {as bs} (h : VTsBelow as bs) (ty : Ty) :
    MSim M N (ValueBelow (PE := PE)) (intrinsicSpawn (F := F) as ty) (intrinsicSpawn bs ty) := by
  unfold intrinsicSpawn
  rcases h with _ | ⟨h1, _ | ⟨h2, _ | ⟨h3, _⟩⟩⟩ <;> first | exact .ub | skip
  refine .bind (.read fun _ _ hs => (fnFromPtr_below hs h1.1).and_right fun _ h => fnFromPtr_quiet hs h) fun f _ hf => ?_
  obtain ⟨rfl, hq⟩ := hf
  rw [h2.2]
  refine .bind (requireUb_sim _) fun _ _ _ => .bind (requireUb_sim _) fun _ _ _ => .bind (R := Eq) ?_ fun i _ hi =>
    .pure (by subst hi; simp [ValueBelow])
  unfold spawn
  refine .bind (newThread_sim _ hq (.cons h2 .nil)) fun i _ hi => ?_
  subst hi
  exact .bind (.modify fun _ _ hs => { hs with sync := by simp only [hs.sync] }) fun _ _ _ => .pure rfl

theorem join_sim (i : Int) : MSim M N (PE := PE) (F := F) (fun _ _ => True) (join i) (join i) := by
  intro s t hs
  unfold join
  rcases getInt_rel hs.threads i with ⟨h1, _⟩ | ⟨a, b, h1, h2, h⟩
  · simp only [h1]; exact .ub
  · simp only [h1, h2, h.state, hs.active]
    split
    · exact .ok ⟨trivial, hs⟩
    · exact setThreadState_sim _ _ s t hs

theorem intrinsicJoin_sim {as bs} (h : VTsBelow as bs) (ty : Ty) :
    MSim M N (ValueBelow (PE := PE)) (intrinsicJoin (F := F) as ty) (intrinsicJoin bs ty) := by
  unfold intrinsicJoin
  rcases h with _ | ⟨h1, _ | ⟨h2, _⟩⟩ <;> first | exact .ub | skip
  refine .bind (.lift (intArg_below h1)) fun i _ hi => ?_
  subst hi
  exact .bind (requireUb_sim _) fun _ _ _ => .bind (join_sim _) fun _ _ _ => .pure unitValue_below

theorem loadRawData_sim {p q} (h : PtrBelow p q) (pt : PtrType) :
    MSim M N (PE := PE) (F := F) Eq (loadRawData p pt) (loadRawData q pt) := by
  unfold loadRawData
  split
  · split
    · refine .bind (memLoad_sim h.1 _ _ _) fun _ _ hb => .lift ?_
      have h1 := bytesData_below hb
      unfold bytesDataUb
      revert h1
      generalize bytesData _ = r
      generalize bytesData _ = r'
      intro h1
      cases r with
      | ok v => obtain ⟨w, rfl, h⟩ := h1; exact .ok h
      | error e =>
        rcases h1 with h1 | rfl
        · rcases h1 with rfl | rfl | rfl | rfl <;> first | exact .ub | exact .panic | exact .noBehavior
        · cases e <;> exact .err
    · exact .ub
  · exact .ub

theorem intrinsicRawEq_sim {as bs} (h : VTsBelow as bs) (ty : Ty) :
    MSim M N (ValueBelow (PE := PE)) (intrinsicRawEq (F := F) as ty) (intrinsicRawEq bs ty) := by
  unfold intrinsicRawEq
  rcases h with _ | ⟨h1, _ | ⟨h2, _ | ⟨h3, _⟩⟩⟩ <;> first | exact .ub | skip
  rename_i x y x' y'
  obtain ⟨v, ty1⟩ := x
  obtain ⟨w, ty1'⟩ := y
  obtain ⟨v', ty2⟩ := x'
  obtain ⟨w', ty2'⟩ := y'
  obtain ⟨h1, he⟩ := h1
  obtain ⟨h2, he'⟩ := h2
  simp only at h1 h2 he he'
  subst he
  subst he'
  refine .bind (requireUb_sim _) fun _ _ _ => .bind (requireUb_sim _) fun _ _ _ => ?_
  cases v <;> first | exact .ub | skip
  cases v' <;> first | exact .ub | skip
  cases ty1 <;> first | exact .ub | skip
  cases w <;> simp only [ValueBelow] at h1
  cases w' <;> simp only [ValueBelow] at h2
  exact .bind (loadRawData_sim h1 _) fun _ _ e1 => .bind (loadRawData_sim h2 _) fun _ _ e2 =>
    .pure (by subst e1; subst e2; simp [ValueBelow])

theorem intrinsicAtomicStore_sim {as bs} (h : VTsBelow as bs) (ty : Ty) :
    MSim M N (ValueBelow (PE := PE)) (intrinsicAtomicStore (F := F) as ty) (intrinsicAtomicStore bs ty) := by
  unfold intrinsicAtomicStore
  rcases h with _ | ⟨h1, _ | ⟨h2, _ | ⟨h3, _⟩⟩⟩ <;> first | exact .ub | skip
  rename_i x' y'
  obtain ⟨v', ty2⟩ := x'
  obtain ⟨w', ty2'⟩ := y'
  obtain ⟨h2, he'⟩ := h2
  simp only at h2 he'
  subst he'
  refine .bind (.lift (thinPtrArg_below h1)) fun _ _ hp => .bind (.lift .eq) fun l _ hl => ?_
  subst hl
  split
  · refine .bind (.lift .eq) fun l _ hl => ?_
    subst hl
    exact .bind (requireUb_sim _) fun _ _ _ => .bind (requireUb_sim _) fun _ _ _ =>
      .bind (typedStore_sim hp h2 _ _ _) fun _ _ _ => .pure unitValue_below
  · exact .ub

theorem intrinsicAtomicLoad_sim {as bs} (h : VTsBelow as bs) (ty : Ty) :
    MSim M N (ValueBelow (PE := PE)) (intrinsicAtomicLoad (F := F) as ty) (intrinsicAtomicLoad bs ty) := by
  unfold intrinsicAtomicLoad
  rcases h with _ | ⟨h1, _ | ⟨h2, _⟩⟩ <;> first | exact .ub | skip
  refine .bind (.lift (thinPtrArg_below h1)) fun _ _ hp => .bind (.lift .eq) fun l _ hl => ?_
  subst hl
  refine .bind (.lift .eq) fun l _ hl => ?_
  subst hl
  exact .bind (requireUb_sim _) fun _ _ _ => typedLoad_sim hp _ _ _

/-- A load at integer type gives the same integer. -/
theorem typedLoad_int_sim {p q} (hp : ThinBelow p q) (ity : IntType) (align : Align) (a : Atomicity) :
    MSim M N (fun (v : Value (AllocId × PE)) w => ∃ i, v = .int i ∧ w = .int i) (typedLoad p (.int ity) align a)
      (typedLoad q (.int ity) align a) := by
  unfold typedLoad
  refine .bind (.lift .eq) fun n _ hn => ?_
  subst hn
  refine .bind (memLoad_sim hp n align a) fun b c hb => .read fun s t hs => ?_
  have h1 := decodeChecked_below hs (.int ity) hb
  have h2 : ∀ v, s.decodeChecked (.int ity) b = .ok v → ∃ i, v = .int i := by
    intro v hv
    simp only [Machine.decodeChecked, decode] at hv
    cases hd : decodeInt ity b with
    | error e => rw [hd] at hv; cases e <;> cases hv
    | ok x =>
      rw [hd] at hv
      replace hv : (do checkValue s.valEnv (.int ity) (.int x); Except.ok (Value.int x)) = Except.ok v := hv
      cases hc : checkValue s.valEnv (.int ity) (.int x) with
      | error e => rw [hc] at hv; cases hv
      | ok _ => rw [hc] at hv; cases hv; exact ⟨_, rfl⟩
  cases hx : s.decodeChecked (.int ity) b with
  | error e =>
    rw [hx] at h1
    rcases h1 with h1 | h1
    · exact .inl h1
    · rw [h1]; exact .err
  | ok v =>
    obtain ⟨i, rfl⟩ := h2 v hx
    rw [hx] at h1
    obtain ⟨w, h3, h4⟩ := h1
    rw [h3]
    cases w <;> simp only [ValueBelow] at h4
    subst h4
    exact .ok ⟨_, rfl, rfl⟩

theorem intrinsicCompareExchange_sim {as bs} (h : VTsBelow as bs) (ty : Ty) :
    MSim M N (ValueBelow (PE := PE)) (intrinsicCompareExchange (F := F) as ty) (intrinsicCompareExchange bs ty) := by
  unfold intrinsicCompareExchange
  rcases h with _ | ⟨h1, _ | ⟨h2, _ | ⟨h3, _ | ⟨h4, _⟩⟩⟩⟩ <;> first | exact .ub | skip
  rename_i x y x' y'
  obtain ⟨v, ty1⟩ := x
  obtain ⟨w, ty1'⟩ := y
  obtain ⟨v', ty2⟩ := x'
  obtain ⟨w', ty2'⟩ := y'
  obtain ⟨h2, he⟩ := h2
  obtain ⟨h3, he'⟩ := h3
  simp only at h3 h2 he he'
  subst he
  subst he'
  refine .bind (.lift (thinPtrArg_below h1)) fun _ _ hp => .bind (requireUb_sim _) fun _ _ _ =>
    .bind (requireUb_sim _) fun _ _ _ => ?_
  cases ty with
  | int ity =>
    refine .bind (requireUb_sim _) fun _ _ _ => .bind (.lift .eq) fun l _ hl => ?_
    subst hl
    refine .bind (.lift .eq) fun l _ hl => ?_
    subst hl
    refine .bind (requireUb_sim _) fun _ _ _ => .bind (typedLoad_int_sim hp ity _ _) fun _ _ hb => ?_
    obtain ⟨i, rfl, rfl⟩ := hb
    have he : decide (v = .int i) = decide (w = .int i) := by
      cases v <;> cases w <;> simp_all [ValueBelow]
    rw [he]
    refine .bind (R := fun _ _ => True) ?_ fun _ _ _ => .pure (by simp [ValueBelow])
    unfold storeIf
    split
    · exact typedStore_sim hp h3 _ _ _
    · exact .pure trivial
  | _ => exact .bind (R := fun _ _ => False) (fun _ _ _ => .ub) fun _ _ h => h.elim

theorem fetchOp_below (op : IntBinOp) (ity : IntType) {v v' : Value (AllocId × PE)} {w w' : Value (AllocId × QE)} (h : ValueBelow v w)
    (h' : ValueBelow v' w') : Refines ValueBelow (fetchOpResult op ity v v') (fetchOpResult op ity w w') := by
  unfold fetchOpResult
  cases v' <;> first | exact .panic | skip
  cases v <;> first | exact .panic | skip
  cases w <;> simp only [ValueBelow] at h
  cases w' <;> simp only [ValueBelow] at h'
  subst h
  subst h'
  exact .bind .eq fun _ _ h => .ok (by simpa only [ValueBelow] using h)

theorem intrinsicFetchAndOp_sim (op : IntBinOp) {as bs} (h : VTsBelow as bs) (ty : Ty) :
    MSim M N (ValueBelow (PE := PE)) (intrinsicFetchAndOp (F := F) op as ty) (intrinsicFetchAndOp op bs ty) := by
  unfold intrinsicFetchAndOp
  rcases h with _ | ⟨h1, _ | ⟨h2, _ | ⟨h3, _⟩⟩⟩ <;> first | exact .ub | skip
  rename_i x' y'
  obtain ⟨v', ty2⟩ := x'
  obtain ⟨w', ty2'⟩ := y'
  obtain ⟨h2, he'⟩ := h2
  simp only at h2 he'
  subst he'
  refine .bind (.lift (thinPtrArg_below h1)) fun _ _ hp => .bind (requireUb_sim _) fun _ _ _ => ?_
  cases ty <;> first | exact .ub | skip
  refine .bind (.lift .eq) fun l _ hl => ?_
  subst hl
  refine .bind (.lift .eq) fun l _ hl => ?_
  subst hl
  exact .bind (requireUb_sim _) fun _ _ _ => .bind (typedLoad_sim hp _ _ _) fun _ _ hv =>
    .bind (.lift (fetchOp_below op _ hv h2)) fun _ _ hn => .bind (typedStore_sim hp hn _ _ _) fun _ _ _ => .pure hv

theorem intrinsicGetUnwindPayload_sim {as bs} (h : VTsBelow as bs) (ty : Ty) :
    MSim M N (ValueBelow (PE := PE)) (intrinsicGetUnwindPayload (F := F) as ty) (intrinsicGetUnwindPayload bs ty) := by
  unfold intrinsicGetUnwindPayload
  have he : as.isEmpty = bs.isEmpty := by rcases h with _ | _ <;> rfl
  rw [he]
  refine .bind (requireUb_sim _) fun _ _ _ => .bind (requireUb_sim _) fun _ _ _ =>
    .bind (.read fun _ _ hs => getActive_below hs) fun a b ht => ?_
  have hp := ht.payloads
  generalize a.unwindPayloads = l at hp
  generalize b.unwindPayloads = l' at hp
  cases hp with
  | nil => exact .ub
  | cons h _ => exact .pure h.widenNone

theorem intrinsicLock_sim (op : IntrinsicLockOp) {as bs} (h : VTsBelow as bs) (ty : Ty) :
    MSim M N (ValueBelow (PE := PE)) (intrinsicLock (F := F) op as ty) (intrinsicLock op bs ty) := by
  unfold intrinsicLock
  have he : as.isEmpty = bs.isEmpty := by rcases h with _ | _ <;> rfl
  cases op with
  | create =>
    simp only [he]
    refine .bind (requireUb_sim _) fun _ _ _ => .bind (requireUb_sim _) fun _ _ _ => .bind lockCreate_sim fun i _ hi => ?_
    subst hi
    exact .pure (by simp [ValueBelow])
  | acquire =>
    rcases h with _ | ⟨h1, _ | ⟨h2, _⟩⟩ <;> first | exact .ub | skip
    refine .bind (.lift (intArg_below h1)) fun i _ hi => ?_
    subst hi
    exact .bind (requireUb_sim _) fun _ _ _ => .bind (lockAcquire_sim _) fun _ _ _ => .pure unitValue_below
  | release =>
    rcases h with _ | ⟨h1, _ | ⟨h2, _⟩⟩ <;> first | exact .ub | skip
    refine .bind (.lift (intArg_below h1)) fun i _ hi => ?_
    subst hi
    exact .bind (requireUb_sim _) fun _ _ _ => .bind (lockRelease_sim _) fun _ _ _ => .pure unitValue_below

theorem evalIntrinsic_sim (op : IntrinsicOp) {as bs} (h : VTsBelow as bs) (ty : Ty) :
    MSim M N (ValueBelow (PE := PE)) (evalIntrinsic (F := F) op as ty) (evalIntrinsic op bs ty) := by
  cases op with
  | abort => exact .throw
  | assume => exact intrinsicAssume_sim h ty
  | exit => exact intrinsicExit_sim
  | printStdout => exact intrinsicPrintStdout_sim h ty
  | printStderr => exact intrinsicPrintStderr_sim h ty
  | allocate => exact intrinsicAllocate_sim h ty
  | deallocate => exact intrinsicDeallocate_sim h ty
  | spawn => exact intrinsicSpawn_sim h ty
  | join => exact intrinsicJoin_sim h ty
  | rawEq => exact intrinsicRawEq_sim h ty
  | atomicStore => exact intrinsicAtomicStore_sim h ty
  | atomicLoad => exact intrinsicAtomicLoad_sim h ty
  | atomicCompareExchange => exact intrinsicCompareExchange_sim h ty
  | atomicFetchAndOp op => exact intrinsicFetchAndOp_sim op h ty
  | lock op => exact intrinsicLock_sim op h ty
  | pointerExposeProvenance => exact intrinsicExpose_sim h ty
  | pointerWithExposedProvenance => exact intrinsicWithExposed_sim h ty
  | getUnwindPayload => exact intrinsicGetUnwindPayload_sim h ty

/-! ### Terminators -/

omit [DecidableEq PE] in
theorem switchTarget_below (cases' : Map Int BbName) (fb : BbName) {v : Value (AllocId × PE)} {w : Value (AllocId × QE)} (h : ValueBelow v w) :
    Refines Eq (switchTarget cases' fb v) (switchTarget cases' fb w) := by
  cases v <;> first | exact .panic | skip
  cases w <;> simp only [ValueBelow] at h
  subst h
  exact .ok rfl

omit [DecidableEq PE] in
theorem unwindPayload_below {x : Value (AllocId × PE) × Ty} {y : Value (AllocId × QE) × Ty} (h : VTBelow x y) :
    Refines ThinBelow (unwindPayload x) (unwindPayload y) := by
  obtain ⟨v, ty⟩ := x
  obtain ⟨w, ty'⟩ := y
  obtain ⟨h1, h2⟩ := h
  simp only at h1 h2
  subst h2
  unfold unwindPayload
  cases v <;> first | exact .panic | skip
  cases w <;> simp only [ValueBelow] at h1
  cases ty <;> first | exact .panic | skip
  rename_i pt
  cases pt <;> first | exact .panic | skip
  rename_i k
  cases k <;> first | exact .panic | skip
  exact .ok h1.1

theorem pushPayload_sim {p q} (h : ThinBelow p q) :
    MSim M N (PE := PE) (F := F) (fun _ _ => True) (pushPayload p) (pushPayload q) :=
  .bind (.read fun _ _ hs => getActive_below hs) fun _ _ ht => .modify fun _ _ hs =>
    setActive_below hs { ht with payloads := .cons h ht.payloads }

theorem popPayload_sim : MSim M N (PE := PE) (F := F) (fun _ _ => True) popPayload popPayload := by
  unfold popPayload
  refine .bind (.read fun _ _ hs => getActive_below hs) fun a b ht => ?_
  have hp := ht.payloads
  cases ha : a.unwindPayloads with
  | nil => exact .ub
  | cons x xs =>
    cases hb : b.unwindPayloads with
    | nil => rw [ha, hb] at hp; cases hp
    | cons y ys =>
      rw [ha, hb] at hp
      cases hp with
      | cons h h' => exact .modify fun _ _ hs => setActive_below hs { ht with payloads := h' }

theorem allPtrList {q : PtrType → Prop} : ∀ {es : List ValueExpr}, (∀ e ∈ es, e.AllPtr q) → ValueExpr.AllPtrList q es
  | [], _ => by simp only [ValueExpr.AllPtrList]
  | e :: es, h => by
    simp only [ValueExpr.AllPtrList]
    exact ⟨h _ List.mem_cons_self, allPtrList fun _ he => h _ (List.mem_cons_of_mem _ he)⟩

theorem evalTerminator_sim (t : Terminator) (hq : t.AllPtr (Plain.quiet QE)) :
    MSim M N (PE := PE) (F := F) (fun _ _ => True) (evalTerminator t) (evalTerminator t) := by
  cases t with
  | goto b => exact jumpToBlock_sim b
  | switch v cs fb =>
    simp only [evalTerminator]
    refine .bind (evalValue_sim v hq) fun _ _ h => .bind (.lift (switchTarget_below cs fb h.1)) fun x _ hx => ?_
    subst hx
    exact jumpToBlock_sim _
  | unreachable => exact .ub
  | call callee conv args ret nb ub =>
    simp only [evalTerminator]
    refine .bind (evalPlace_sim ret hq.2.2) fun _ _ hp => ?_
    obtain ⟨hp, hty⟩ := hp
    rw [hty]
    refine .bind (prepareForInplace_sim hp _) fun _ _ _ => .bind (evalValue_sim callee hq.1) fun _ _ hc =>
      .bind (.read fun _ _ hs => (fnFromPtr_below hs hc.1).and_right fun _ h => fnFromPtr_quiet hs h) fun f _ hf => ?_
    obtain ⟨rfl, hf⟩ := hf
    exact .bind (evalArguments_sim args hq.2.1) fun _ _ ha => evalCall_sim _ hf _ ha hp _ _ _
  | «return» => exact evalReturn_sim
  | startUnwind p b =>
    simp only [evalTerminator]
    exact .bind (evalValue_sim p hq) fun _ _ h => .bind (.lift (unwindPayload_below h)) fun _ _ h =>
      .bind (pushPayload_sim h) fun _ _ _ => jumpToBlock_sim _
  | stopUnwind b =>
    simp only [evalTerminator]
    exact .bind popPayload_sim fun _ _ _ => jumpToBlock_sim _
  | resumeUnwind => exact evalResumeUnwind_sim
  | intrinsic op args ret nb =>
    simp only [evalTerminator]
    refine .bind (evalPlace_sim ret hq.2) fun _ _ hp => ?_
    obtain ⟨hp, hty⟩ := hp
    rw [hty]
    exact .bind (evalValues_sim args (allPtrList hq.1)) fun _ _ ha => .bind (evalIntrinsic_sim op ha _) fun _ _ hv =>
      .bind (placeStore_sim hp hv _) fun _ _ _ => jumpOrUb_sim nb

/-! ### Steps -/

theorem execStep_sim : MSim M N (PE := PE) (F := F) (fun _ _ => True) execStep execStep := by
  unfold execStep
  refine .bind (.read fun _ _ hs => curFrame_below hs) fun f g h => ?_
  rw [h.func, h.nextBlock, h.nextStmt]
  refine .bind (.lift .eq_ok) fun x _ hx => ?_
  obtain ⟨rfl, hb⟩ := hx
  split
  · exact evalTerminator_sim _ (h.quiet.terminators _ (mapGet_mem hb))
  · refine .bind (.lift .eq_ok) fun st _ hx => ?_
    obtain ⟨rfl, hst⟩ := hx
    exact .bind (evalStatement_sim _ (h.quiet.statements _ (mapGet_mem hb) _ (List.mem_of_getElem? (index_eq_ok.1 hst)))) fun _ _ _ => mutateCurFrame_sim fun _ _ h =>
      .pure ⟨trivial, { h with nextStmt := by simp only [h.nextStmt] }⟩

theorem step_sim : MSim M N (PE := PE) (F := F) (fun _ _ => True) step step := by
  unfold step
  refine .bind (R := Eq) (.read fun s t hs => .ok ?_) fun x _ hx => ?_
  · unfold Machine.anyEnabled
    have := hs.threads
    generalize s.threads = a at this
    generalize t.threads = b at this
    induction this with
    | nil => rfl
    | cons h _ ih => simp only [List.any_cons, h.state, ih]
  subst hx
  split
  · exact .throw
  · refine .bind (R := Eq) ?_ fun x _ hx => ?_
    · intro s t hs
      unfold resetDataRaceTracking ConcMem.resetAccesses
      simp only [hs.sync, hs.active, hs.accesses]
      exact .ok ⟨rfl, { hs with active := rfl, sync := rfl, accesses := rfl }⟩
    subst hx
    refine .bind (R := fun _ _ => True) ?_ fun _ _ _ => .bind execStep_sim fun _ _ _ => .read fun s t hs => ?_
    · unfold pickThread
      refine .bind .popInt fun i _ hi => ?_
      subst hi
      intro s t hs
      rcases getInt_rel hs.threads i with ⟨h1, _⟩ | ⟨a, b, h1, h2, h⟩
      · simp only [h1]; exact .noBehavior
      · simp only [h1, h2, h.state]
        split
        · exact .ok ⟨trivial, { hs with active := rfl }⟩
        · exact .noBehavior
    · unfold ConcMem.checkDataRaces
      rw [hs.active, hs.accesses]
      exact Refines.eq.mono fun _ _ _ => trivial

/-! ### The initial machine -/

omit S in
theorem Rooted.insert {K : Type} [DecidableEq K] {m : Map K (ThinPtr (AllocId × PE))} (h : Rooted M m) (k : K) {p}
    (hp : ∃ id, p.prov = some (id, RP.root)) : Rooted M (m.insert k p) := by
  induction m with
  | nil =>
    intro x hx
    simp only [Map.insert, List.mem_singleton] at hx
    subst hx; exact hp
  | cons y m ih =>
    have h1 := ih fun x hx => h x (List.mem_cons_of_mem _ hx)
    intro x hx
    obtain ⟨a, b⟩ := y
    simp only [Map.insert] at hx
    split at hx
    · rcases List.mem_cons.1 hx with rfl | hx
      · exact hp
      · exact h x (List.mem_cons_of_mem _ hx)
    · rcases List.mem_cons.1 hx with rfl | hx
      · exact h _ List.mem_cons_self
      · exact h1 x hx

theorem allocGlobals_sim : ∀ {gs hs : List (GlobalName × Global)},
    List.Forall₂ (fun x y => x.1 = y.1 ∧ GlobalBelow x.2 y.2) gs hs →
    MSim M N (PE := PE) (F := F) (fun _ _ => True) (allocGlobals gs) (allocGlobals hs)
  | [], _, .nil => .pure trivial
  | (n, g) :: gs, _, .cons (b := (n', g')) hg hr => by
    obtain ⟨h1, h2⟩ := hg
    simp only at h1 h2
    subst h1
    simp only [allocGlobals]
    rw [List.Forall₂.length_eq h2.bytes, h2.align]
    exact .bind (memAllocate_sim _ _ _) fun _ _ h =>
      .bind (.modify fun _ _ hs => { hs with globals := mapInsert_rel hs.globals n h.1 }) fun _ _ _ => allocGlobals_sim hr

theorem relocate_below {s : Machine M (AllocId × PE) F} {t : Machine N (AllocId × QE) G} (hs : StateBelow s t) :
    ∀ (rs : List (Nat × Relocation)) {b c}, BytesBelow b c → Refines BytesBelow (s.relocate rs b) (t.relocate rs c)
  | [], _, _, h => .ok h
  | (i, r) :: rs, _, _, h => by
    simp only [Machine.relocate]
    exact .bind (.mapGet hs.globals _) fun _ _ hp => .bind (encodePtr_below (hp.offset _)) fun _ _ hb =>
      .bind (.writeSubslice h hb _) fun _ _ h => relocate_below hs rs h

omit [DecidableEq PE] in
theorem abstractBytes_below {g h : Global} (hg : GlobalBelow g h) :
    BytesBelow (g.abstractBytes : List (AByte (AllocId × PE))) (h.abstractBytes : List (AByte (AllocId × QE))) := by
  unfold Global.abstractBytes
  show List.Forall₂ _ _ _
  rw [List.forall₂_map_left_iff, List.forall₂_map_right_iff]
  refine hg.bytes.imp fun a b hab => ?_
  rcases hab with rfl | rfl
  · trivial
  · cases a with
    | none => trivial
    | some x => exact ⟨rfl, .inl rfl⟩

theorem fillGlobals_sim : ∀ {gs hs : List (GlobalName × Global)},
    List.Forall₂ (fun x y => x.1 = y.1 ∧ GlobalBelow x.2 y.2) gs hs →
    MSim M N (PE := PE) (F := F) (fun _ _ => True) (fillGlobals gs) (fillGlobals hs)
  | [], _, .nil => .pure trivial
  | (n, g) :: gs, _, .cons (b := (n', g')) hg hr => by
    obtain ⟨h1, h2⟩ := hg
    simp only at h1 h2
    subst h1
    simp only [fillGlobals]
    rw [h2.relocations, h2.align]
    exact .bind (.read fun _ _ hs => relocate_below hs _ (abstractBytes_below h2)) fun _ _ hb =>
      .bind (.read fun _ _ hs => .mapGet hs.globals n) fun _ _ hp =>
      .bind (.unwrapRes (memStore_sim hp hb _ _)) fun _ _ _ => fillGlobals_sim hr

theorem allocFunctions_sim : ∀ (gs : List FnName),
    MSim M N (PE := PE) (F := F) (fun _ _ => True) (allocFunctions gs) (allocFunctions gs)
  | [] => .pure trivial
  | n :: gs => .bind (memAllocate_sim _ _ _) fun _ _ h =>
    .bind (.modify fun _ _ hs => { hs with fns := mapInsert_rel hs.fns n h.1, fnsRooted := hs.fnsRooted.insert n h.2 }) fun _ _ _ =>
      allocFunctions_sim gs

theorem allocVTables_sim : ∀ (gs : List VTableName),
    MSim M N (PE := PE) (F := F) (fun _ _ => True) (allocVTables gs) (allocVTables gs)
  | [] => .pure trivial
  | n :: gs => .bind (memAllocate_sim _ _ _) fun _ _ h =>
    .bind (.modify fun _ _ hs => { hs with vtables := mapInsert_rel hs.vtables n h.1, vtablesRooted := hs.vtablesRooted.insert n h.2 })
      fun _ _ _ => allocVTables_sim gs

theorem initMachine_sim {prog prog' : Program} (h : ProgBelow prog prog')
    (hq : prog'.AllPtr (Plain.quiet QE)) :
    MSim M N (PE := PE) (F := F) (fun _ _ => True) (initMachine prog) (initMachine prog') := by
  unfold initMachine
  rw [h.functions, h.vtables, h.start]
  refine .bind (allocGlobals_sim h.globals) fun _ _ _ => .bind (fillGlobals_sim h.globals) fun _ _ _ =>
    .bind (allocFunctions_sim _) fun _ _ _ => .bind (allocVTables_sim _) fun _ _ _ => .bind (.lift .eq_ok) fun f _ hf => ?_
  obtain ⟨rfl, hf⟩ := hf
  exact .bind (newThread_sim f (hq _ (mapGet_mem hf)) .nil) fun _ _ _ => .pure trivial
end
end MiniRust
