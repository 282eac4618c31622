import Verif.Lemmas.NoPanicStmt
/-
Calls and returns of well-formed tame programs do not panic.
-/
set_option linter.unusedSectionVars false
namespace MiniRust
variable {M PE AE F : Type} [T : Target] [DecidableEq PE] [Memory M (AllocId × PE) F] [LawfulTarget T]
  [SoftMem M (AllocId × PE) F] [RawRetag M (AllocId × PE) F] [B : BasicBacked M PE AE F]
variable {s s' : Machine M (AllocId × PE) F} {prog : Program} {fn : Function}

include B

/-- An argument: a valid value of a sized type. -/
def ArgOk (prog : Program) (s : Machine M (AllocId × PE) F) (a : Value (AllocId × PE) × Ty) : Prop :=
  ValueOk prog s a.2 a ∧ a.2.Good

theorem ArgOk.keep {a : Value (AllocId × PE) × Ty} (h : ArgOk prog s a) (k : Keep s s') (hb : Base prog s) (hb' : Base prog s') :
    ArgOk prog s' a := ⟨h.1.keep k hb hb', h.2⟩

omit B [RawRetag M (AllocId × PE) F] [LawfulTarget T] [SoftMem M (AllocId × PE) F] [Memory M (AllocId × PE) F] in
theorem Ty.Good.alignOf {ty : Ty} (hg : ty.Good) : ∃ al, ty.layout = .ok (.sized ty.sz al) ∧ ty.alignOf = .ok al ∧ ty.sizeAlign = .ok (ty.sz, al) := by
  obtain ⟨al, h⟩ := hg.layout
  refine ⟨al, h, ?_, ?_⟩
  · unfold Ty.alignOf; rw [h]; rfl
  · unfold Ty.sizeAlign; rw [h]; rfl

/-! ### Storage of the callee -/

theorem storageLive_keep {fr fr' : StackFrame (AllocId × PE) F} {l} (hl : l ∉ fr.locals.keys)
    (h : storageLive fr l s = .ok (fr', s')) : Keep s s' := by
  unfold MiniRust.storageLive at h
  simp only [EM.bind_eq_ok, EM.lift_eq_ok, Prod.exists, EM.pure_eq_ok] at h
  obtain ⟨fr1, s1, h4, n, a, _, ⟨hlay, rfl⟩, ptr, s3, h5, _, rfl⟩ := h
  unfold MiniRust.storageDead at h4
  simp only [EM.bind_eq_ok, EM.lift_eq_ok, Prod.exists] at h4
  obtain ⟨_, _, _, ⟨_, rfl⟩, h4⟩ := h4
  rw [Map.get?_eq_none_iff.2 hl] at h4
  obtain ⟨_, rfl⟩ := EM.pure_eq_ok.1 h4
  exact .allocate h5

theorem storageLive_frame {fr fr' : StackFrame (AllocId × PE) F} {l} (hn : fr.locals.keys.Nodup)
    (h : storageLive fr l s = .ok (fr', s')) : fr'.func = fr.func ∧ fr'.locals.keys.Nodup ∧
      ∀ q, q ∈ fr'.locals.keys ↔ q ∈ fr.locals.keys ∨ q = l := by
  have h' : storageLives fr [l] s = .ok (fr', s') := by
    unfold MiniRust.storageLives
    refine EM.bind_eq_ok.2 ⟨fr', s', h, ?_⟩
    unfold MiniRust.storageLives
    rfl
  obtain ⟨m, o, L, rfl, rfl, h1, h2, _⟩ := storageLives_trans (B := B) hn h'
  exact ⟨rfl, h1, fun q => by rw [h2]; simp⟩

theorem Np.storageLives : ∀ (ls : List LocalName) (fr : StackFrame (AllocId × PE) F) (s : Machine M (AllocId × PE) F),
    Known made 0 s → fr.locals.keys.Nodup → (∀ l ∈ ls, ∃ na, fr.localLayout l = .ok na) → FK made (cnt s) fr → ls.Nodup → (∀ l ∈ ls, l ∉ fr.locals.keys) →
    Np (PlainMem M) s (storageLives fr ls) (fun _ s' => Keep s s')
  | [], fr, s, _, _, _, _, _, _ => .pure .refl
  | l :: ls, fr, s, hs, hn, hl, hk, hd, hf => by
    unfold MiniRust.storageLives
    obtain ⟨na, h1⟩ := hl l (by simp)
    refine .bind (.storageLive h1 hk) fun fr1 s1 k1 e => ?_
    obtain ⟨g, hk1⟩ := Kt.storageLive made_caps hk hs _ _ k1
    obtain ⟨_, e2, e3⟩ := storageLive_frame (B := B) hn k1
    have kp := storageLive_keep (hf l (by simp)) k1
    rw [List.nodup_cons] at hd
    refine (Np.storageLives ls fr1 s1 g.known e2 (fun q hq => ?_) hk1 hd.2 (fun q hq => ?_)).mono fun _ _ _ h => kp.trans h
    · obtain ⟨na, h⟩ := hl q (by simp [hq])
      exact ⟨na, by unfold StackFrame.localLayout at h ⊢; rw [e]; exact h⟩
    · rw [e3]
      rintro (h | rfl)
      · exact hf q (by simp [hq]) h
      · exact hd.1 hq

/-! ### Passing arguments -/

theorem slot_store {h : MemHistory PE} (hm : MemReach (F := F) h s.mem.memory) (hpl : PlainMem M) {sl : Slot PE}
    (hs : SlotOk (allocs (B := B) s.mem) sl) {ty ty' : Ty} (hty : sl.func.locals.get? sl.l = some ty') (hg : ty.Good) {al}
    (hl : ty.layout = .ok (.sized ty.sz al)) (he : ty.layout = ty'.layout) {v : Value (AllocId × PE)} (hv : checkValue s.valEnv ty v = .ok ()) :
    ∃ r, typedStore sl.ptr v ty al .none s = .ok r := by
  obtain ⟨bs, hb, hlen⟩ := encodeChecked_ok hg hv
  obtain ⟨ty2, n, a, id, x, e1, e2, e3, e4, _, e5, e6, e7, e8⟩ := hs
  rw [hty] at e1; cases e1
  rw [← he, hl] at e2; cases e2
  obtain ⟨q, hp⟩ : ∃ pe, sl.ptr.prov = some (id, pe) := by
    unfold Slot.id at e3
    cases hq : sl.ptr.prov with
    | none => rw [hq] at e3; cases e3
    | some q => rw [hq] at e3; simp only [Option.map_some, Option.some.injEq] at e3; exact ⟨q.2, by rw [← e3]⟩
  have hal : Aligned al sl.ptr.addr := by
    have := (hm.rep.place id x e4).2.1
    rw [e7, e5] at this; exact this
  obtain ⟨m', hst⟩ := hpl.storeOk s.mem.memory sl.ptr bs al hal (.inr ⟨id, q, x, 0, hp, e4, e8, by rw [e5]; simp, by
    unfold Alloc.size; rw [hlen, e6]; omega⟩)
  refine ⟨((), { s with mem := ⟨m', s.mem.accesses ++ [⟨.store, .none, sl.ptr.addr, bs.length⟩]⟩ }), ?_⟩
  unfold MiniRust.typedStore
  refine EM.bind_eq_ok.2 ⟨bs, s, EM.read_eq_ok.2 ⟨hb, rfl⟩, ?_⟩
  unfold memStore ConcMem.store
  rw [hst]; rfl

theorem Np.passArguments {fr : StackFrame (AllocId × PE) F} (hfw : FunctionWf prog fr.func) : ∀ (ls : List LocalName) (as : List (Value (AllocId × PE) × Ty))
    (s : Machine M (AllocId × PE) F), Base prog s → (∀ a ∈ as, ArgOk prog s a) → (∀ l ∈ ls, l ∈ fr.locals.keys) → (∀ l ∈ ls, ∃ ty, fr.func.locals.get? l = some ty) →
    SlotsOk (allocs (B := B) s.mem) (slotsOf fr) → FK made (cnt s) fr →
    Np (PlainMem M) s (passArguments fr ls as) (fun _ s' => Keep s s')
  | [], as, s, _, _, _, _, _, _ => by unfold MiniRust.passArguments; exact .pure .refl
  | l :: ls, [], s, _, _, _, _, _, _ => by unfold MiniRust.passArguments; exact .pure .refl
  | l :: ls, (v, ty) :: as, s, hb, ha, hl, hlt, hsl, hk => by
    unfold MiniRust.passArguments
    obtain ⟨cty, hc⟩ := hlt l (by simp)
    have e1 : fr.func.locals.get l = .ok cty := Map.get_eq_ok.2 hc
    refine .bindLift (fun _ h => by rw [e1] at h; cases h) fun x hx => ?_
    rw [e1] at hx; cases hx
    obtain ⟨hva, hga⟩ := ha (v, ty) (by simp)
    dsimp only at hva hga
    obtain ⟨hcw, n, a, hcl⟩ := hfw.locals l cty hc
    obtain ⟨b, hab⟩ := abiCompat_total hga (Ty.good_of_isSized hcw hcl rfl)
    refine .bindLift (fun _ h => by rw [hab] at h; cases h) fun x hx => ?_
    rw [hab] at hx; cases hx
    refine .ite (fun _ => .throw (fun _ h => by cases h)) fun hbt => ?_
    have hbt : b = true := by simpa using hbt
    subst hbt
    obtain ⟨al, h1, h2, _⟩ := hga.alignOf
    refine .bindLift (fun _ h => by rw [h2] at h; cases h) fun x hx => ?_
    rw [h2] at hx; cases hx
    obtain ⟨p, hp⟩ := Map.get?_isSome_of_key (hl l (by simp))
    have e2 : fr.locals.get l = .ok p := Map.get_eq_ok.2 hp
    refine .bindLift (fun _ h => by rw [e2] at h; cases h) fun x hx => ?_
    rw [e2] at hx; cases hx
    have hso := hsl.ok ⟨fr.func, l, p⟩ (List.mem_map.2 ⟨_, Map.get?_mem hp, rfl⟩)
    have hpk := hk.locals _ (Map.get?_mem hp)
    refine .bind (Q := fun _ s1 => Base prog s1 ∧ Keep s s1 ∧ StackKept (B := B) s.mem s1.mem) (.unwrapRes (fun hpl => ?_) ?_) ?_
    · obtain ⟨h, hm⟩ := hb.mem
      obtain ⟨r, hr⟩ := slot_store hm hpl hso hc hga h1 (abiCompat_layout hab) hva.valid
      exact ⟨r, .inl hr⟩
    · intro _ s1 hst
      obtain ⟨hb1, _, _⟩ := Base.ofQuiet tri_typedStore (Kt.typedStore made_caps hpk hva.known) hb hst
      obtain ⟨m, rfl, k⟩ := typedStore_mem (B := B) hst
      exact ⟨hb1, .typedStore hst, k⟩
    · rintro _ s1 _ ⟨hb1, k1, k2⟩
      refine (Np.passArguments hfw ls as s1 hb1 (fun a h => (ha a (by simp [h])).keep k1 hb hb1) (fun q hq => hl q (by simp [hq]))
        (fun q hq => hlt q (by simp [hq])) (hsl.kept k2) (hk.mono made_caps k1.cnt)).mono fun _ _ _ h => k1.trans h

omit B in
theorem FunctionWf.layout (h : FunctionWf prog fn) {fr : StackFrame (AllocId × PE) F} (hf : fr.func = fn) {l ty} (hl : fn.locals.get? l = some ty) :
    ∃ na, fr.localLayout l = .ok na := by
  subst hf
  obtain ⟨_, n, a, h2⟩ := h.locals l ty hl
  exact ⟨_, localLayout_eq_ok.2 ⟨ty, hl, h2⟩⟩

theorem Np.createFrame {f : Function} (hf : FunctionWf prog f) (hb : Base prog s) {act conv rt} {as : List (Value (AllocId × PE) × Ty)}
    (hact : AK made (cnt s) act) (ha : ∀ a ∈ as, ArgOk prog s a) (hrt : rt.Good) :
    Np (PlainMem M) s (createFrame f act conv rt as) (fun _ s' => Keep s s') := by
  unfold MiniRust.createFrame
  obtain ⟨rty, hrty⟩ := hf.ret
  have hfk0 : FK made (cnt s) (StackFrame.init f act (Memory.newCall M : F)) := ⟨(fun _ h => by cases h), hact⟩
  have hnd0 : (StackFrame.init f act (Memory.newCall M : F)).locals.keys.Nodup := by simp [StackFrame.init, Map.keys]
  obtain ⟨na, hla⟩ := hf.layout (fr := StackFrame.init f act (Memory.newCall M : F)) rfl hrty
  refine .bind (.storageLive hla hfk0) fun fr1 s1 k1 e1 => ?_
  obtain ⟨hb1, hk1, _⟩ := Base.ofQuiet tri_storageLive (Kt.storageLive made_caps hfk0) hb k1
  obtain ⟨_, hnd1, hkeys1⟩ := storageLive_frame (B := B) hnd0 k1
  have kp1 := storageLive_keep (B := B) (by simp [StackFrame.init, Map.keys]) k1
  have e1 : fr1.func = f := e1
  refine .bind (Np.storageLives f.args fr1 s1 hb1.known hnd1 (fun l hl => ?_) hk1 hf.argsNodup (fun l hl => ?_)) fun fr2 s2 k2 kp2 => ?_
  · obtain ⟨ty, hty⟩ := hf.args l hl
    exact hf.layout e1 hty
  · rw [hkeys1]
    rintro (h | rfl)
    · simp [StackFrame.init, Map.keys] at h
    · exact hf.retNotArg hl
  obtain ⟨hb2, hk2, _⟩ := Base.ofQuiet tri_storageLives (Kt.storageLives made_caps _ _ _ hk1) hb1 k2
  have hkeep := kp1.trans kp2
  have e2 : fr2.func = f ∧ (∀ l ∈ f.args, l ∈ fr2.locals.keys) ∧ SlotsOk (allocs (B := B) s2.mem) (slotsOf fr2) := by
    obtain ⟨m1, o1, ptr, rfl, rfl, t1⟩ := storageLive_trans (B := B) hnd0 k1
    obtain ⟨m2, o2, L, rfl, rfl, hL, hk, t2⟩ := storageLives_trans (B := B) hnd1 k2
    refine ⟨rfl, fun l hl => (hk l).2 (.inr hl), ?_⟩
    have := (t1.trans t2).ok [] ⟨(fun _ h => by simp [slotsOf, StackFrame.init] at h), by simp [slotsOf, StackFrame.init]⟩
    simpa using this
  obtain ⟨e2, hkeys2, hsl⟩ := e2
  refine .ite (fun _ => .throw (fun _ h => by cases h)) fun _ => ?_
  have e3 : f.locals.get f.ret = .ok rty := Map.get_eq_ok.2 hrty
  refine .bindLift (fun _ h => by rw [e3] at h; cases h) fun x hx => ?_
  rw [e3] at hx; cases hx
  obtain ⟨hrw, n, a, hrl⟩ := hf.locals _ _ hrty
  obtain ⟨b, hab⟩ := abiCompat_total hrt (Ty.good_of_isSized hrw hrl rfl)
  refine .bindLift (fun _ h => by rw [hab] at h; cases h) fun x hx => ?_
  refine .ite (fun _ => .throw (fun _ h => by cases h)) fun _ => ?_
  refine .ite (fun _ => .throw (fun _ h => by cases h)) fun _ => ?_
  refine .bind (Np.passArguments (by rw [e2]; exact hf) f.args as s2 hb2 (fun x hx => (ha x hx).keep hkeep hb hb2) hkeys2
    (fun l hl => by rw [e2]; exact hf.args l hl) hsl hk2) fun _ s3 _ k3 => .pure (hkeep.trans k3)

/-! ### Evaluating arguments -/

theorem Np.prepare {p : Place (AllocId × PE)} {ty} (hp : PlK made (cnt s) p) (hg : ty.Good) :
    Np (PlainMem M) s (prepareForInplacePassing p ty) (fun _ _ => True) := by
  unfold prepareForInplacePassing
  obtain ⟨al, _, _, h⟩ := hg.alignOf
  exact .bindLift (fun _ h' => by rw [h] at h'; cases h') fun _ _ => .memDeinit (VK.thin hp)

theorem Keep.prepare {p : Place (AllocId × PE)} {ty u} (h : prepareForInplacePassing p ty s = .ok (u, s')) : Keep s s' := by
  unfold prepareForInplacePassing at h
  simp only [EM.bind_eq_ok, EM.lift_eq_ok, Prod.exists] at h
  obtain ⟨_, _, _, ⟨_, rfl⟩, h⟩ := h
  exact .store h

theorem Np.evalArgument (hf : WfTame prog fn) {a : ArgumentExpr} (hr : Ready prog fn s) {ty} (hc : a.checkWf prog fn.locals = .ok ty)
    (ht : a.Tame prog fn.locals) {l} (hl : ty.layout = .ok l) (hs : l.isSized = true) :
    Np (PlainMem M) s (evalArgument a) (fun r s' => ArgOk prog s' r ∧ Ready prog fn s' ∧ Keep s s') := by
  cases a with
  | byValue e =>
    refine (Np.value hf e s ty hr hc ht).mono fun r s1 h1 hv => ?_
    have := hv.isTy
    refine ⟨⟨by rw [this]; exact hv, by rw [this]; exact Ty.good_of_isSized hv.wf hl hs⟩, (hr.value h1).1, ?_⟩
    exact .ofExpr (tri_evalValue _) h1
  | inPlace p =>
    unfold MiniRust.evalArgument
    refine .bind (Np.place hf p s ty hr hc ht) fun p s1 h1 hp => ?_
    obtain ⟨hr1, _, _⟩ := hr.place h1
    have hg := Ty.good_of_isSized hp.wf hl hs
    refine .bind (.placeLoad hr1 hp hg) fun v s2 h2 hv => ?_
    obtain ⟨hr2, he2, hk2⟩ := Ready.ofExpr tri_placeLoad tri_placeLoad (Kt.placeLoad made_caps hp.known) hr1 h2
    have hp2 := hp.ev he2
    obtain ⟨p, pty⟩ := p
    have := hp2.isTy
    dsimp only at this
    subst this
    refine .bind (.prepare hp2.known hg) fun _ s3 h3 _ => .pure ?_
    obtain ⟨hr3, _, hc3⟩ := Ready.ofSteady tri_prepare st_prepare (Kt.prepare made_caps hp2.known) hr2 h3
    have k3 := Keep.prepare h3
    refine ⟨⟨⟨rfl, hp.wf, k3.valid hr2.toBase hr3.toBase hv, hk2.mono made_caps hc3⟩, hg⟩, hr3, ?_⟩
    exact ((Keep.ofExpr (tri_evalPlace _) h1).trans (Keep.ofExpr tri_placeLoad h2)).trans k3

theorem Np.evalArguments (hf : WfTame prog fn) : ∀ (as : List ArgumentExpr) (s : Machine M (AllocId × PE) F), Ready prog fn s →
    checkCallArgs prog fn.locals as = .ok () → (∀ a ∈ as, a.Tame prog fn.locals) →
    Np (PlainMem M) s (evalArguments as) (fun r s' => (∀ a ∈ r, ArgOk prog s' a) ∧ Ready prog fn s' ∧ Keep s s')
  | [], s, hr, _, _ => by
    unfold MiniRust.evalArguments
    exact .pure ⟨by simp, hr, .refl⟩
  | a :: as, s, hr, hc, ht => by
    unfold MiniRust.evalArguments
    simp only [checkCallArgs, Res.bind_eq_ok, ensureWf_eq_ok] at hc
    obtain ⟨ty, h1, l, h2, _, h3, h4⟩ := hc
    refine .bind (Np.evalArgument hf hr h1 (ht a (by simp)) h2 h3) fun r s1 _ ⟨hr1, hrd1, k1⟩ => ?_
    refine .bind (Np.evalArguments hf as s1 hrd1 h4 (fun x hx => ht x (by simp [hx]))) fun rs s2 _ ⟨hr2, hrd2, k2⟩ => .pure ?_
    refine ⟨fun x hx => ?_, hrd2, k1.trans k2⟩
    rcases List.mem_cons.1 hx with rfl | hx
    · exact hr1.keep k2 hrd1.toBase hrd2.toBase
    · exact hr2 x hx

/-! ### Calls -/

theorem HasFrame.active (hr : HasFrame fn s) : ∃ t fr rest, s.threads[s.activeThread]? = some t ∧ t.stack = fr :: rest ∧ fr.func = fn := by
  obtain ⟨fr, h1, h2, _⟩ := hr
  obtain ⟨t, rest, k1, k2⟩ := curFrame_eq_ok.1 h1
  exact ⟨t, fr, rest, k1, k2, h2⟩

omit B [RawRetag M (AllocId × PE) F] in
theorem Np.jumpToBlock {pl : Prop} {b} {fr} (h : s.curFrame = .ok fr) : Np pl s (jumpToBlock b : EM M (AllocId × PE) F _) (fun _ _ => True) := by
  unfold MiniRust.jumpToBlock
  exact .mutateCurFrame h (.pure (Q := fun _ _ => True) trivial) fun r s1 h => by cases h; exact ⟨rfl, rfl⟩

omit B [RawRetag M (AllocId × PE) F] in
theorem Np.jumpOrUb {pl : Prop} {b} {fr} (h : s.curFrame = .ok fr) : Np pl s (jumpOrUb b : EM M (AllocId × PE) F _) (fun _ _ => True) := by
  cases b with
  | none => exact .throw (fun _ h => by cases h)
  | some b => exact .jumpToBlock h

theorem NpR.fnFromPtr (hb : Base prog s) {v : Value (AllocId × PE)} (pl : Prop) :
    NpR pl (s.fnFromPtr v) (fun f => ∃ name, prog.functions.get? name = some f) := by
  cases v with
  | ptr p =>
    obtain ⟨thin, m⟩ := p
    unfold Machine.fnFromPtr
    dsimp only
    split
    · exact .ub
    · cases hf : findPtr s.fnPtrs thin with
      | none => exact .ub
      | some name =>
        obtain ⟨f, h⟩ := hb.fnsOnly (name, thin) (findPtr_eq_some hf)
        refine .ofOk (a := f) (Map.get_eq_ok.2 (by rw [hb.isProg]; exact h)) ⟨name, h⟩
  | _ => exact .ub

theorem Np.evalCall {f : Function} (hf : FunctionWf prog f) (hr : Ready prog fn s) {conv rt n u} {p : Place (AllocId × PE)}
    {as : List (Value (AllocId × PE) × Ty)} (hp : PlK made (cnt s) p) (ha : ∀ a ∈ as, ArgOk prog s a) (hrt : rt.Good) :
    Np (PlainMem M) s (evalCall f conv as p rt n u) (fun _ _ => True) := by
  unfold MiniRust.evalCall
  refine .bind (.createFrame hf hr.toBase (VK.thin hp) ha hrt) fun fr s1 h1 _ => ?_
  obtain ⟨m, o, rfl, _⟩ := createFrame_trans (B := B) h1
  obtain ⟨t, _, _, k1, _⟩ := HasFrame.active (B := B) hr.frame
  unfold pushFrame
  have e : ({ s with mem := m, oracle := o } : Machine M (AllocId × PE) F).getActive = .ok t := getActive_eq_ok.2 k1
  refine .bindRead (fun _ h => by rw [e] at h; cases h) fun _ _ => .modify trivial

/-! ### Returns -/

theorem Np.storageDeadAll : ∀ (n : Nat) (fr : StackFrame (AllocId × PE) F) (s : Machine M (AllocId × PE) F), Known made 0 s →
    (∀ l ∈ fr.locals.keys, ∃ na, fr.localLayout l = .ok na) → fr.locals.keys.Nodup → FK made (cnt s) fr →
    Np (PlainMem M) s (storageDeadAll n fr) (fun _ _ => True)
  | 0, fr, s, _, _, _, _ => by unfold MiniRust.storageDeadAll; exact .pure trivial
  | n + 1, fr, s, hs, hl, hn, hk => by
    unfold MiniRust.storageDeadAll
    split
    · exact .pure trivial
    · rename_i l p rest he
      obtain ⟨na, h1⟩ := hl l (by rw [he]; simp [Map.keys])
      refine .bind (.storageDead h1 hk) fun fr1 s1 k1 e => ?_
      obtain ⟨g, hk1⟩ := Kt.storageDead made_caps hk hs _ _ k1
      obtain ⟨m, rfl, rfl, _⟩ := storageDead_trans (B := B) k1
      refine Np.storageDeadAll n _ _ g.known (fun q hq => ?_) (Map.keys_erase_nodup hn) hk1
      refine hl q ?_
      by_cases hql : q = l
      · subst hql; exact absurd hq (Map.not_mem_erase hn)
      · exact (Map.mem_keys_erase hql).1 hq

/-- The frame on top, with what returning relies on. -/
structure TopFrame (prog : Program) (s : Machine M (AllocId × PE) F) (t : Thread (AllocId × PE) F)
    (fr : StackFrame (AllocId × PE) F) (rest : List (StackFrame (AllocId × PE) F)) : Prop where
  thread : s.threads[s.activeThread]? = some t
  stack : t.stack = fr :: rest
  nodup : fr.locals.keys.Nodup
  locals : ∀ l ∈ fr.locals.keys, ∃ ty, fr.func.locals.get? l = some ty
  ret : fr.func.ret ∈ fr.locals.keys
  bottom : fr.stackPopAction = .bottomOfStack → rest = []
  back : ∀ n u p, fr.stackPopAction = .backToCaller n u p → rest ≠ []

theorem popFrame_of (h : s.threads[s.activeThread]? = some t) {fr : StackFrame (AllocId × PE) F} {rest} (hs : t.stack = fr :: rest) :
    popFrame s = .ok (fr, { s with threads := s.threads.set s.activeThread { t with stack := rest } }) :=
  popFrame_eq_ok.2 ⟨t, rest, h, hs, rfl⟩

omit [RawRetag M (AllocId × PE) F] in
theorem Np.terminate {pl : Prop} {t} (ht : s.threads[s.activeThread]? = some t) (hs : t.stack = []) :
    Np pl s (terminateActiveThread : EM M (AllocId × PE) F _) (fun _ _ => True) := by
  refine ⟨fun _ h => ?_, fun _ _ _ => trivial⟩
  unfold terminateActiveThread at h
  split at h
  · cases h
  · have e : s.getActive = .ok t := getActive_eq_ok.2 ht
    rw [e] at h
    simp [hs, rassert] at h

theorem Np.evalReturn (hb : Base prog s) {t fr rest} (hfw : FunctionWf prog fr.func) (htop : TopFrame prog s t fr rest)
    (hd : ∀ ty, fr.func.locals.get? fr.func.ret = some ty → (∃ n u p, fr.stackPopAction = .backToCaller n u p) → Detached ty) :
    Np (PlainMem M) s evalReturn (fun _ _ => True) := by
  unfold MiniRust.evalReturn
  have e0 := popFrame_of (B := B) htop.thread htop.stack
  refine .bind (Q := fun r s1 => r = fr ∧ s1 = { s with threads := s.threads.set s.activeThread { t with stack := rest } })
    ⟨(fun _ h => by rw [e0] at h; cases h), fun a s1 h => by rw [e0] at h; cases h; exact ⟨rfl, rfl⟩⟩ ?_
  rintro _ s1 hp ⟨rfl, hs1⟩
  obtain ⟨hb1, hfk, _⟩ := Base.ofQuiet tri_popFrame Kt.popFrame hb hp
  have hth1 : s1.threads[s1.activeThread]? = some { t with stack := rest } := by
    rw [hs1]; exact List.getElem?_set_self (List.getElem?_eq_some_iff.1 htop.thread).1
  obtain ⟨ty, hty⟩ := hfw.ret
  obtain ⟨hw, n, a, hl⟩ := hfw.locals _ _ hty
  have hg := Ty.good_of_isSized hw hl rfl
  have e1 := (Map.get_eq_ok (m := _)).2 hty
  refine .bindLift (fun _ h => by rw [e1] at h; cases h) fun x hx => ?_
  rw [e1] at hx; cases hx
  obtain ⟨al, h1, h2, _⟩ := hg.alignOf
  refine .bindLift (fun _ h => by rw [h2] at h; cases h) fun x hx => ?_
  obtain ⟨p, hp⟩ := Map.get?_isSome_of_key htop.ret
  have e2 := (Map.get_eq_ok (m := _)).2 hp
  refine .bindLift (fun _ h => by rw [e2] at h; cases h) fun q hq => ?_
  rw [e2] at hq; cases hq
  have hpk := hfk.locals _ (Map.get?_mem hp)
  refine .bind (.typedLoad hb1 hpk hw hg) fun v s2 k2 hv => ?_
  obtain ⟨hb2, hev2, hvk⟩ := Base.ofExpr tri_typedLoad tri_typedLoad (Kt.typedLoad made_caps hpk) hb1 k2
  have hfk2 := hfk.mono made_caps (le_of_eq hev2.cnt.symm)
  refine .bind (Np.storageDeadAll _ _ s2 hb2.known (fun l hl => ?_) htop.nodup hfk2) fun fr3 s3 k3 _ => ?_
  · obtain ⟨ty, h⟩ := htop.locals l hl
    exact hfw.layout rfl h
  obtain ⟨hb3, hfk3, hc3⟩ := Base.ofQuiet tri_storageDeadAll (Kt.storageDeadAll made_caps _ _ _ hfk2) hb2 k3
  refine .bind .memEndCall fun _ s4 k4 _ => ?_
  obtain ⟨hb4, _, hc4⟩ := Base.ofQuiet tri_memEndCall (Kt.memEndCall made_caps) hb3 k4
  obtain ⟨m2, rfl, _⟩ := typedLoad_mem (B := B) k2
  obtain ⟨m3, rfl, rfl, _⟩ := storageDeadAll_trans (B := B) (le_refl _) k3
  obtain ⟨m4, rfl, _⟩ := memEndCall_mem (B := B) k4
  unfold returnAction
  dsimp only
  split
  · rename_i hact
    exact .terminate hth1 (htop.bottom hact)
  · rename_i n u q hact
    have e4 : ({ s1 with mem := m4 } : Machine M (AllocId × PE) F).getActive = .ok { t with stack := rest } := getActive_eq_ok.2 hth1
    refine .bindRead (fun _ h => by rw [e4] at h; cases h) fun t' ht' => ?_
    rw [e4] at ht'; cases ht'
    have hne := htop.back _ _ _ hact
    obtain ⟨g, rest', hrest⟩ := List.exists_cons_of_ne_nil hne
    have e5 : rassert (!rest.isEmpty) = .ok () := by rw [hrest]; rfl
    refine .bindLift (fun _ h => by rw [e5] at h; cases h) fun _ _ => ?_
    have hv4 := valid_detached hb2 hb4 (s' := { s1 with mem := m4 }) rfl rfl (hd ty hty ⟨_, _, _, hact⟩) hv
    have hqk : PK made (cnt ({ s1 with mem := m4 } : Machine M (AllocId × PE) F)) q := by
      have := hfk3.action
      rw [hact] at this
      exact PK.mono made_caps hc4 this
    refine .bind (.typedStore hqk hg hv4) fun _ s5 k5 _ => ?_
    obtain ⟨m5, rfl, _⟩ := typedStore_mem (B := B) k5
    exact .jumpOrUb (fr := g) (curFrame_eq_ok.2 ⟨_, rest', hth1, hrest⟩)

theorem Np.evalResumeUnwind (hb : Base prog s) {t fr rest} (hfw : FunctionWf prog fr.func) (htop : TopFrame prog s t fr rest) :
    Np (PlainMem M) s evalResumeUnwind (fun _ _ => True) := by
  unfold MiniRust.evalResumeUnwind
  have e0 := popFrame_of (B := B) htop.thread htop.stack
  refine .bind (Q := fun r s1 => r = fr ∧ s1 = { s with threads := s.threads.set s.activeThread { t with stack := rest } })
    ⟨(fun _ h => by rw [e0] at h; cases h), fun a s1 h => by rw [e0] at h; cases h; exact ⟨rfl, rfl⟩⟩ ?_
  rintro _ s1 hp ⟨rfl, hs1⟩
  obtain ⟨hb1, hfk, _⟩ := Base.ofQuiet tri_popFrame Kt.popFrame hb hp
  have hth1 : s1.threads[s1.activeThread]? = some { t with stack := rest } := by
    rw [hs1]; exact List.getElem?_set_self (List.getElem?_eq_some_iff.1 htop.thread).1
  refine .bind (Np.storageDeadAll _ _ s1 hb1.known (fun l hl => ?_) htop.nodup hfk) fun fr3 s3 k3 _ => ?_
  · obtain ⟨ty, h⟩ := htop.locals l hl
    exact hfw.layout rfl h
  refine .bind .memEndCall fun _ s4 k4 _ => ?_
  obtain ⟨m3, rfl, rfl, _⟩ := storageDeadAll_trans (B := B) (le_refl _) k3
  obtain ⟨m4, rfl, _⟩ := memEndCall_mem (B := B) k4
  dsimp only
  split
  · exact .throw (fun _ h => by cases h)
  · rename_i n u q hact
    obtain ⟨g, rest', hrest⟩ := List.exists_cons_of_ne_nil (htop.back _ _ _ hact)
    exact .jumpOrUb (fr := g) (curFrame_eq_ok.2 ⟨_, rest', hth1, hrest⟩)

end MiniRust
