import Verif.Lemmas.NoPanicIntr
/-
Steps of well-formed tame programs do not panic.
-/
set_option linter.unusedSectionVars false
namespace MiniRust
variable {M PE AE F : Type} [T : Target] [DecidableEq PE] [Memory M (AllocId × PE) F] [LawfulTarget T]
  [SoftMem M (AllocId × PE) F] [RawRetag M (AllocId × PE) F] [B : BasicBacked M PE AE F]
variable {s s' : Machine M (AllocId × PE) F} {prog : Program} {fn : Function}

omit [LawfulTarget T] in
theorem checkIntrinsicArgs_tys {locals : Map LocalName Ty} : ∀ {es : List ValueExpr}, checkIntrinsicArgs prog locals es = .ok () →
    ∃ tys, List.Forall₂ (fun (e : ValueExpr) ty => e.checkWf prog locals = .ok ty) es tys ∧
      ValueExpr.checkFields prog locals es tys = .ok () ∧ ∀ ty ∈ tys, ∃ l, ty.layout = .ok l ∧ l.isSized = true
  | [], _ => ⟨[], .nil, by simp [ValueExpr.checkFields], by simp⟩
  | e :: es, h => by
    simp only [checkIntrinsicArgs, Res.bind_eq_ok, ensureWf_eq_ok] at h
    obtain ⟨ty, h1, l, h2, _, h3, h4⟩ := h
    obtain ⟨tys, k1, k2, k3⟩ := checkIntrinsicArgs_tys h4
    refine ⟨ty :: tys, .cons h1 k1, ?_, ?_⟩
    · simp only [ValueExpr.checkFields, Res.bind_eq_ok, ensureWf_eq_ok, decide_eq_true_eq]
      exact ⟨ty, h1, (), rfl, k2⟩
    · intro x hx
      rcases List.mem_cons.1 hx with rfl | hx
      · exact ⟨l, h2, h3⟩
      · exact k3 x hx

omit [LawfulTarget T] in
theorem ValueExpr.allTame_of {locals : Map LocalName Ty} : ∀ {es : List ValueExpr}, (∀ e ∈ es, e.Tame prog locals) → ValueExpr.AllTame prog locals es
  | [], _ => trivial
  | e :: es, h => ⟨h e (by simp), ValueExpr.allTame_of fun x hx => h x (by simp [hx])⟩

include B

theorem PaysOk.steady (hp : PaysOk s) (h : Steady (B := B) s s') : PaysOk s' := by
  intro t' ht' p hpp
  obtain ⟨i, hi⟩ := List.mem_iff_getElem?.1 ht'
  have hlt : i < s.threads.length := by rw [← h.length]; exact (List.getElem?_eq_some_iff.1 hi).1
  have e := List.getElem?_eq_getElem hlt
  rw [(h.threads i _ t' e hi).payloads] at hpp
  exact hp _ (List.getElem_mem hlt) p hpp

theorem PaysOk.expr (hp : PaysOk s) {α : Type} {x : EM M (AllocId × PE) F α} (hx : Tri Soft (Steady (B := B)) x) {a} (h : x s = .ok (a, s')) : PaysOk s' :=
  hp.steady (hx.ok _ _ _ h)

theorem Base.wf {x : FnName} {f : Function} (hp : prog.checkWf = .ok ()) (h : prog.functions.get? x = some f) : FunctionWf prog f :=
  Function.wf (Program.checkWf_function hp h)

theorem intrinsicSpawn_threads {as rt v} (h : intrinsicSpawn as rt s = .ok (v, s')) :
    ∃ new, s'.threads = s.threads ++ [new] ∧ s'.activeThread = s.activeThread := by
  unfold intrinsicSpawn at h
  split at h
  · obtain ⟨f, s1, h1, h⟩ := EM.bind_eq_ok.1 h
    obtain ⟨_, hs1⟩ := EM.read_eq_ok.1 h1
    obtain ⟨_, s2, h2, h⟩ := EM.bind_eq_ok.1 h
    obtain ⟨_, hs2⟩ := EM.lift_eq_ok.1 h2
    obtain ⟨_, s3, h3, h⟩ := EM.bind_eq_ok.1 h
    obtain ⟨_, hs3⟩ := EM.lift_eq_ok.1 h3
    obtain ⟨i, s4, h4, h⟩ := EM.bind_eq_ok.1 h
    obtain ⟨_, hs5⟩ := EM.pure_eq_ok.1 h
    unfold spawn newThread at h4
    obtain ⟨j, s6, h6, h4⟩ := EM.bind_eq_ok.1 h4
    obtain ⟨_, s7, h7, h4⟩ := EM.bind_eq_ok.1 h4
    obtain ⟨_, hs8⟩ := EM.pure_eq_ok.1 h4
    obtain ⟨fr, s8, h8, h9⟩ := EM.bind_eq_ok.1 h6
    obtain ⟨m, o, hs9, _⟩ := createFrame_trans (B := B) h8
    have h7 := EM.modify_eq_ok.1 h7
    cases h9
    subst hs5 hs8 h7 hs9 hs3 hs2 hs1
    exact ⟨_, rfl, rfl⟩
  · cases h

theorem Np.intrinsic (hf : WfTame prog fn) (hr : Ready prog fn s) (hp : PaysOk s) {kind op as r n} (hc : (Terminator.intrinsic op as r n).checkWf prog fn kind = .ok ())
    (ht : (Terminator.intrinsic op as r n).Tame prog fn.locals) {fr : StackFrame (AllocId × PE) F} (hs : (Terminator.intrinsic op as r n).Safe s fr) :
    Np (PlainMem M) s (evalTerminator (.intrinsic op as r n)) (fun _ _ => True) := by
  simp only [Terminator.checkWf, Res.bind_eq_ok, ensureWf_eq_ok] at hc
  obtain ⟨rt, h1, l, h2, _, h3, _, h4, _⟩ := hc
  obtain ⟨t1, t2, t3⟩ := ht
  obtain ⟨tys, k1, k2, k3⟩ := checkIntrinsicArgs_tys h4
  unfold evalTerminator
  refine .bind (Np.place hf r s rt hr h1 t2) fun p s1 e1 hpl => ?_
  obtain ⟨hr1, he1, _⟩ := hr.place e1
  have hp1 := hp.expr ((tri_evalPlace (Rm := StackKept (B := B)) r).steady) e1
  have q1 := (tri_evalPlace (Rm := AnyMem) r).ok _ _ _ e1
  have hg := Ty.good_of_isSized hpl.wf h2 h3
  refine .bind (Np.values hf as s1 tys hr1 k2 k1.length_eq (ValueExpr.allTame_of t1)) fun vs s2 e2 hvs => ?_
  obtain ⟨hr2, he2, hkv⟩ := hr1.values e2
  have hp2 := hp1.expr ((tri_evalValues (Rm := StackKept (B := B)) as).steady) e2
  have q2 := (tri_evalValues (Rm := AnyMem) as).ok _ _ _ e2
  have hlen : s2.threads.length = s.threads.length := by rw [q2.threads.length, q1.threads.length]
  have hlocks : s2.locks = s.locks := by rw [q2.rest, q1.rest]
  have ha : (∀ a ∈ vs, ArgOk prog s2 a) ∧ vs.map (·.2) = tys := by
    clear hp2 q2 hlen hlocks he2 hr2 e2 k1 k2 t3 t1 h4 hkv
    induction hvs with
    | nil => exact ⟨by simp, rfl⟩
    | @cons ty0 r0 tys0 rs0 h _ ih =>
      obtain ⟨i1, i2⟩ := ih fun ty hty => k3 ty (by simp [hty])
      obtain ⟨l, hl1, hl2⟩ := k3 ty0 (by simp)
      refine ⟨fun a ha => ?_, by simp [h.isTy, i2]⟩
      rcases List.mem_cons.1 ha with rfl | ha
      · have := h.isTy
        subst this
        exact ⟨h, Ty.good_of_isSized h.wf hl1 hl2⟩
      · exact i1 a ha
  have hpl2 := hpl.ev he2
  obtain ⟨p, pty⟩ := p
  have : pty = rt := hpl2.isTy
  subst this
  have hex : op ≠ .abort → op ≠ .exit → ∀ v s3, MiniRust.evalIntrinsic op vs pty s2 = .ok (v, s3) → ∃ fr, s3.curFrame = .ok fr := by
    intro n1 n2 v s3 e3
    by_cases n3 : op = .spawn
    · subst n3
      obtain ⟨t, f, rest, j1, j2, _⟩ := HasFrame.active (B := B) hr2.frame
      obtain ⟨new, e, e'⟩ := intrinsicSpawn_threads (B := B) e3
      exact ⟨f, curFrame_eq_ok.2 ⟨t, rest, by
        rw [e, e', List.getElem?_append_left (List.getElem?_eq_some_iff.1 j1).1]; exact j1, j2⟩⟩
    · obtain ⟨fr, h, _⟩ := HasFrame.ofSteady hr2.frame ((st_evalIntrinsic n1 n2 n3).ok _ _ _ e3)
      exact ⟨fr, h⟩
  refine .bind (Np.evalIntrinsic hr2 hf.isWf ha.1 hpl.wf hg (by rw [ha.2]; exact t3 tys pty k1 h1) ?_ ?_ ?_ hp2) fun v s3 e3 hv => ?_
  · rintro rfl; rw [hlen]; exact hs
  · rintro rfl; rw [hlocks]; exact hs
  · rintro o rfl; exact hs
  · obtain ⟨g3, _⟩ := Kt.evalIntrinsic made_caps (fun a h => (ha.1 a h).1.known) hr2.known _ _ e3
    obtain ⟨fr3, hfr3⟩ := hex (by rintro rfl; cases e3) (by
      rintro rfl
      unfold MiniRust.evalIntrinsic intrinsicExit at e3
      simp only [EM.bind_eq_ok] at e3
      obtain ⟨_, _, _, h⟩ := e3
      cases h) v s3 e3
    refine .bind (.placeStore (VK.mono made_caps g3.le hpl2.known) hg hv) fun _ s4 e4 _ => ?_
    obtain ⟨t, rest, j1, j2⟩ := curFrame_eq_ok.1 hfr3
    obtain ⟨t', e', j3, j4, _⟩ := (st_placeStore.ok _ _ _ e4).top j1 j2
    exact .jumpOrUb (curFrame_eq_ok.2 ⟨t', rest, j3, j4⟩)

/-- A terminator of a tame function does not panic. -/
theorem Np.terminator (hf : WfTame prog fn) (hr : Ready prog fn s) (hp : PaysOk s) (hfw : FunctionWf prog fn) {kind} {term : Terminator}
    (hc : term.checkWf prog fn kind = .ok ()) (ht : term.Tame prog fn.locals) {t} {fr : StackFrame (AllocId × PE) F} {rest}
    (hfr : fr.func = fn) (hs : term.Safe s fr) (htop : TopFrame prog s t fr rest) :
    Np (PlainMem M) s (evalTerminator term) (fun _ _ => True) := by
  have hcur : s.curFrame = .ok fr := curFrame_eq_ok.2 ⟨t, rest, htop.thread, htop.stack⟩
  cases term with
  | goto b => exact .jumpToBlock hcur
  | switch v cs fb =>
    simp only [Terminator.checkWf, Res.bind_eq_ok] at hc
    obtain ⟨ty, h1, h2⟩ := hc
    unfold evalTerminator
    cases ty with
    | int ity =>
      refine .bind (Np.value hf v s _ hr h1 ht) fun r s1 e1 hv => ?_
      obtain ⟨i, rfl, _⟩ := hv.int
      obtain ⟨fr1, hfr1, _⟩ := (hr.value e1).1.frame
      exact .bindLift (fun _ h => by cases h) fun _ _ => .jumpToBlock hfr1
    | _ => cases h2
  | unreachable => exact .throw (fun _ h => by cases h)
  | call c conv as r n u =>
    simp only [Terminator.checkWf, Res.bind_eq_ok, ensureWf_eq_ok, decide_eq_true_eq] at hc
    obtain ⟨_, h1, _, rfl, rt, h2, l, h3, _, h4, _, h5, _⟩ := hc
    obtain ⟨t1, t2, t3⟩ := ht
    unfold evalTerminator
    refine .bind (Np.place hf r s rt hr h2 t3) fun p s1 e1 hpl => ?_
    obtain ⟨hr1, he1, _⟩ := hr.place e1
    have hg := Ty.good_of_isSized hpl.wf h3 h4
    have hpl1 := hpl
    obtain ⟨p, pty⟩ := p
    have : pty = rt := hpl1.isTy
    subst this
    refine .bind (.prepare hpl1.known hg) fun _ s2 e2 _ => ?_
    obtain ⟨hr2, _, hc2⟩ := Ready.ofSteady tri_prepare st_prepare (Kt.prepare made_caps hpl1.known) hr1 e2
    refine .bind (Np.value hf c s2 _ hr2 h1 t1) fun v s3 e3 hv => ?_
    obtain ⟨hr3, he3, _⟩ := hr2.value e3
    have hfp := NpR.fnFromPtr hr3.toBase (v := v.1) (PlainMem M)
    refine .bindRead hfp.1 fun f hfn => ?_
    obtain ⟨name, hn⟩ := hfp.2 _ hfn
    refine .bind (Np.evalArguments hf as s3 hr3 h5 t2) fun vs s4 e4 ⟨hvs, hr4, k4⟩ => ?_
    refine .evalCall (Base.wf (B := B) hf.isWf hn) hr4 (VK.mono made_caps k4.cnt ?_) hvs hg
    rw [he3.cnt]
    exact VK.mono made_caps hc2 hpl1.known
  | «return» =>
    subst hfr
    refine .evalReturn hr.toBase hfw htop fun ty hty ⟨n, u, p, hact⟩ => ?_
    exact hs (by rw [hact]; simp) ty hty
  | startUnwind v b =>
    simp only [Terminator.checkWf, Res.bind_eq_ok, ensureWf_eq_ok, decide_eq_true_eq] at hc
    obtain ⟨_, h1, _, rfl, _⟩ := hc
    unfold evalTerminator
    refine .bind (Np.value hf v s _ hr h1 ht) fun r s1 e1 hv => ?_
    obtain ⟨hr1, _, _⟩ := hr.value e1
    obtain ⟨ptr, rfl, _⟩ := hv.ptr hr1
    refine .bindLift (fun _ h => by cases h) fun q _ => ?_
    obtain ⟨t1, f1, rest1, j1, j2, _⟩ := HasFrame.active (B := B) hr1.frame
    have e : s1.getActive = .ok t1 := getActive_eq_ok.2 j1
    unfold pushPayload
    refine .bind (Q := fun _ s2 => ∃ fr, s2.curFrame = .ok fr) (.bindRead (fun _ h => by rw [e] at h; cases h) fun t2 h2 => .modify ?_) fun _ s2 _ ⟨fr2, h⟩ => .jumpToBlock h
    rw [e] at h2; cases h2
    exact ⟨f1, curFrame_eq_ok.2 ⟨_, rest1, List.getElem?_set_self (List.getElem?_eq_some_iff.1 j1).1, j2⟩⟩
  | stopUnwind b =>
    unfold evalTerminator
    have e : s.getActive = .ok t := getActive_eq_ok.2 htop.thread
    unfold popPayload
    refine .bind (Q := fun _ s2 => ∃ fr, s2.curFrame = .ok fr) (.bindRead (fun _ h => by rw [e] at h; cases h) fun t2 h2 => ?_) fun _ s2 _ ⟨fr2, h⟩ => .jumpToBlock h
    rw [e] at h2; cases h2
    split
    · exact .throw (fun _ h => by cases h)
    · exact .modify ⟨fr, curFrame_eq_ok.2 ⟨_, rest, List.getElem?_set_self (List.getElem?_eq_some_iff.1 htop.thread).1, htop.stack⟩⟩
  | resumeUnwind =>
    subst hfr
    exact .evalResumeUnwind hr.toBase hfw htop
  | intrinsic op as r n => exact .intrinsic hf hr hp hc ht hs

/-! ### Unwind payloads are addresses -/

theorem startUnwind_pays (hf : WfTame prog fn) (hr : Ready prog fn s) (hp : PaysOk s) {kind v b} (hc : (Terminator.startUnwind v b).checkWf prog fn kind = .ok ())
    (ht : (Terminator.startUnwind v b).Tame prog fn.locals) {u} (h : evalTerminator (.startUnwind v b) s = .ok (u, s')) : PaysOk s' := by
  simp only [Terminator.checkWf, Res.bind_eq_ok, ensureWf_eq_ok, decide_eq_true_eq] at hc
  obtain ⟨_, h1, _, rfl, _⟩ := hc
  unfold evalTerminator at h
  obtain ⟨r, s1, e1, h⟩ := EM.bind_eq_ok.1 h
  obtain ⟨ptr, s1', e2, h⟩ := EM.bind_eq_ok.1 h
  obtain ⟨e2, hs1⟩ := EM.lift_eq_ok.1 e2
  rw [hs1] at h
  obtain ⟨u2, s2, e3, h6⟩ := EM.bind_eq_ok.1 h
  clear h
  obtain ⟨hr1, _, _⟩ := hr.value e1
  obtain ⟨q, rfl, _, hq, _⟩ := ((Np.value hf v s _ hr h1 ht).2 _ _ e1).ptr hr1
  cases e2
  have hp1 := hp.expr ((tri_evalValue (Rm := StackKept (B := B)) v).steady) e1
  unfold pushPayload at e3
  obtain ⟨t, s1'', e4, e3⟩ := EM.bind_eq_ok.1 e3
  obtain ⟨e4, hs2⟩ := EM.read_eq_ok.1 e4
  rw [hs2] at e3
  have e3 := EM.modify_eq_ok.1 e3
  have ht1 := getActive_eq_ok.1 e4
  have hp2 : PaysOk s2 := by
    intro t' ht' p hpp
    rw [e3] at ht'
    rcases List.mem_or_eq_of_mem_set ht' with ht' | rfl
    · exact hp1 t' ht' p hpp
    · rcases List.mem_cons.1 hpp with rfl | hpp
      · exact hq
      · exact hp1 t (List.mem_of_getElem? ht1) p hpp
  obtain ⟨t2, f, rest, j1, j2, rfl⟩ := jumpToBlock_eq_ok.1 h6
  intro t' ht' p hpp
  rcases List.mem_or_eq_of_mem_set ht' with ht' | rfl
  · exact hp2 t' ht' p hpp
  · exact hp2 t2 (List.mem_of_getElem? j1) p hpp

/-- What follows from the state being reachable in a tame program. -/
theorem Program.Tame.wfTame (hT : prog.Tame) (hw : prog.checkWf = .ok ()) {name f} (h : prog.functions.get? name = some f) : WfTame prog f :=
  ⟨hw, fun x v m g hx hm => Map.contains_eq.2 (hT.methods x v m g hx hm), (Base.wf (B := B) hw h).locals⟩

theorem Reachable.pays (hT : prog.Tame) (h : Reachable prog s) : PaysOk s := by
  have : Reachable prog s ∧ PaysOk s := by
    refine h.induct (I := fun s => Reachable prog s ∧ PaysOk s) ?_ ?_
    · intro oracle s0 h0
      obtain ⟨h1, h2, h3, h4, f, g, h5, h6, h7⟩ := new_frames (B := B) h0
      refine ⟨⟨oracle, s0, h0, .refl _⟩, ?_⟩
      intro t ht p hp
      rw [h7] at ht
      cases List.mem_singleton.1 ht
      cases hp
    · rintro s s' ⟨hre, hp⟩ h
      refine ⟨hre.step h, ?_⟩
      have hi := Reachable.frames (B := B) hre
      obtain ⟨a, t, r, h1, h2, hen, h4, h5⟩ := step_eq_ok.1 h
      obtain ⟨t2, f, rest, blk, k1, k2, k3, hcase⟩ := execStep_split h4
      have k1' : s.threads[a]? = some t2 := k1
      rw [h2] at k1'; cases k1'
      have hready := hre.ready (B := B) hT.keys h2 k2 (r := r)
      have hpays : PaysOk (s.schedule a r) := hp
      have hfok := ((hi.threads t (List.mem_of_getElem? h2)).stack)
      rw [k2] at hfok
      obtain ⟨name, hname⟩ := hfok.1.func
      rw [hi.eq] at hname
      have hwt := hT.wfTame (B := B) hi.wf hname
      have hfw := Base.wf (B := B) hi.wf hname
      by_cases hsu : f.nextStmt = blk.statements.length ∧ ∃ v b, blk.terminator = .startUnwind v b
      · obtain ⟨hsu, v, b, hterm⟩ := hsu
        rcases hcase with ⟨_, h6⟩ | ⟨hne, _⟩
        · rw [hterm] at h6
          have hck := hfw.terms _ _ k3
          have htt := ((hT.functions _ _ hname) _ _ k3).2
          rw [hterm] at hck htt
          exact startUnwind_pays hwt hready hpays hck htt h6
        · exact absurd hsu hne
      · obtain ⟨a', r', t', f', rest', blk', g1, g2, g3, g4, g5, _, sm, t'', new, ha, j1, j2, j3, j4, j5, hmv⟩ := hi.step h
        rw [h1] at g1; cases g1
        rw [h2] at g2; cases g2
        rw [k2] at g3; cases g3
        rw [k3] at g4; cases g4
        have hpl : (∀ p ∈ t''.unwindPayloads, p ∈ t.unwindPayloads) ∧ ∀ u ∈ new, u.unwindPayloads = [] := by
          cases hmv with
          | stmt st f' _ _ e => exact ⟨fun p hp => by rw [e] at hp; exact hp, by simp⟩
          | jump b e new hn hst hj hnew =>
            refine ⟨fun p hp => ?_, fun u hu => ?_⟩
            · revert hj
              cases hbt : blk.terminator with
              | goto => rintro ⟨_, e⟩; rw [e] at hp; exact hp
              | switch => rintro ⟨_, e⟩; rw [e] at hp; exact hp
              | startUnwind v b => exact absurd ⟨hn, v, b, hbt⟩ hsu
              | stopUnwind => rintro ⟨_, x, e⟩; rw [e]; exact List.mem_cons_of_mem _ hp
              | intrinsic => rintro ⟨_, e⟩; rw [e] at hp; exact hp
              | _ => exact False.elim
            · rcases hnew with rfl | ⟨_, _, g, _, _, rfl⟩
              · cases hu
              · cases List.mem_singleton.1 hu; rfl
          | call _ _ _ _ _ _ _ _ _ _ _ _ _ _ _ _ e => exact ⟨fun p hp => by rw [e] at hp; exact hp, by simp⟩
          | ret _ _ _ _ _ _ _ _ _ _ _ e => exact ⟨fun p hp => by rw [e] at hp; exact hp, by simp⟩
          | bottom _ _ _ _ _ _ e => exact ⟨fun p hp => by rw [e] at hp; exact hp, by simp⟩
        intro u hu p hpp
        rw [j2] at hu
        rcases List.mem_append.1 hu with hu | hu
        · obtain ⟨i, hi'⟩ := List.mem_iff_getElem?.1 hu
          by_cases hia : i = (s.schedule a r).activeThread
          · rw [hia, j1] at hi'; cases hi'
            exact hp t (List.mem_of_getElem? h2) p (hpl.1 p hpp)
          · have hlt : i < (s.schedule a r).threads.length := by rw [← ha.length]; exact (List.getElem?_eq_some_iff.1 hi').1
            obtain ⟨_, q2, _⟩ := ha.others i _ u hia (List.getElem?_eq_getElem hlt) hi'
            rw [q2] at hpp
            exact hp _ (List.getElem_mem hlt) p hpp
        · rw [hpl.2 u hu] at hpp; cases hpp
  exact this.2

/-! ### Steps -/

theorem evalStatement_curFrame (hr : Ready prog fn s) {st u} (h : evalStatement st s = .ok (u, s')) : ∃ fr, s'.curFrame = .ok fr := by
  cases hst : st.isStorage with
  | false =>
    obtain ⟨fr, h, _⟩ := HasFrame.ofSteady hr.frame ((st_evalStatement hst).ok _ _ _ h)
    exact ⟨fr, h⟩
  | true =>
    cases st with
    | storageLive l =>
      unfold evalStatement at h
      obtain ⟨t, fr, rest, fr', s1, t1, fr1, rest1, _, _, _, h4, h5, rfl⟩ := mutateCurFrame_eq_ok.1 h
      exact ⟨fr', curFrame_eq_ok.2 ⟨_, rest1, List.getElem?_set_self (List.getElem?_eq_some_iff.1 h4).1, rfl⟩⟩
    | storageDead l =>
      unfold evalStatement at h
      obtain ⟨t, fr, rest, fr', s1, t1, fr1, rest1, _, _, _, h4, h5, rfl⟩ := mutateCurFrame_eq_ok.1 h
      exact ⟨fr', curFrame_eq_ok.2 ⟨_, rest1, List.getElem?_set_self (List.getElem?_eq_some_iff.1 h4).1, rfl⟩⟩
    | _ => cases hst

theorem Reachable.topFrame (h : Reachable prog s) {a r t f rest} (ht : s.threads[a]? = some t) (hs : t.stack = f :: rest) :
    TopFrame prog (s.schedule a r) t f rest := by
  have hi := Reachable.frames (B := B) h
  have hso := (hi.threads t (List.mem_of_getElem? ht)).stack
  rw [hs] at hso
  obtain ⟨hfo, _, hact⟩ := hso
  refine ⟨ht, hs, hfo.nodup, fun l hl => ?_, hfo.ret, fun e => ?_, fun n u p e => ?_⟩
  · obtain ⟨p, hp⟩ := Map.get?_isSome_of_key hl
    have := hi.storage.ok.ok ⟨f.func, l, p⟩ (List.mem_flatMap.2 ⟨t, List.mem_of_getElem? ht, by
      rw [hs]
      exact List.mem_flatMap.2 ⟨f, by simp, List.mem_map.2 ⟨_, Map.get?_mem hp, rfl⟩⟩⟩)
    obtain ⟨ty, _, _, _, _, h, _⟩ := this
    exact ⟨ty, h⟩
  · cases rest with
    | nil => rfl
    | cons g rest =>
      obtain ⟨_, _, _, _, _, _, _, e', _⟩ := hact
      rw [e] at e'; cases e'
  · rintro rfl
    have : f.stackPopAction = .bottomOfStack := hact
    rw [e] at this; cases this

theorem Np.execStep (hT : prog.Tame) (h : Reachable prog s) {a : Nat} {r t} (ht : s.threads[a]? = some t) (hen : t.state = .enabled) (hsafe : s.SafeNext a) :
    Np (PlainMem M) (s.schedule a r) execStep (fun _ _ => True) := by
  have hi := Reachable.frames (B := B) h
  have hto := hi.threads t (List.mem_of_getElem? ht)
  cases hst : t.stack with
  | nil => rw [hto.term.2 hst] at hen; cases hen
  | cons f rest =>
    have hready := h.ready (B := B) hT.keys ht hst (r := r)
    have hpays0 : PaysOk s := Reachable.pays (B := B) hT h
    have hpays : PaysOk (s.schedule a r) := hpays0
    have hso := hto.stack
    rw [hst] at hso
    obtain ⟨name, hname⟩ := hso.1.func
    rw [hi.eq] at hname
    have hwt := hT.wfTame (B := B) hi.wf hname
    have hfw := Base.wf (B := B) hi.wf hname
    obtain ⟨blk, hblk, hle⟩ := (Reachable.pends (B := B) hT.starts h t (List.mem_of_getElem? ht)).block f (by rw [hst]; simp)
    unfold MiniRust.execStep
    have e1 : (s.schedule a r).curFrame = .ok f := curFrame_eq_ok.2 ⟨t, rest, ht, hst⟩
    refine .bindRead (fun _ h => by rw [e1] at h; cases h) fun f' hf' => ?_
    rw [e1] at hf'; cases hf'
    have e2 : f.func.blocks.get f.nextBlock = .ok blk := Map.get_eq_ok.2 hblk
    refine .bindLift (fun _ h => by rw [e2] at h; cases h) fun b' hb' => ?_
    rw [e2] at hb'; cases hb'
    refine .ite (fun hn => ?_) fun hn => ?_
    · exact .terminator hwt hready hpays hfw (hfw.terms _ _ hblk) ((hT.functions _ _ hname) _ _ hblk).2 rfl
        (hsafe t f rest blk ht hst hblk hn) (h.topFrame (B := B) ht hst)
    · have hlt : f.nextStmt < blk.statements.length := by omega
      have e3 : index blk.statements f.nextStmt = .ok blk.statements[f.nextStmt] := index_eq_ok.2 (List.getElem?_eq_getElem hlt)
      refine .bindLift (fun _ h => by rw [e3] at h; cases h) fun st hst' => ?_
      rw [e3] at hst'; cases hst'
      have hmem := List.getElem_mem hlt
      refine .bind (.statement hwt hready (hfw.stmts _ _ _ hblk hmem) (((hT.functions _ _ hname) _ _ hblk).1 _ hmem)) fun _ s1 k1 _ => ?_
      obtain ⟨fr1, hfr1⟩ := evalStatement_curFrame hready k1
      unfold bumpStmt
      exact .mutateCurFrame hfr1 (.pure (Q := fun _ _ => True) trivial) fun r s1 h => by cases h; exact ⟨rfl, rfl⟩

omit B [LawfulTarget T] [SoftMem M (AllocId × PE) F] [RawRetag M (AllocId × PE) F] in
theorem ConcMem.checkDataRaces_np {m : ConcMem M} {a sy acc} : m.checkDataRaces a sy acc ≠ .error .panic := by
  unfold ConcMem.checkDataRaces
  split
  · exact (fun h => by cases h)
  · induction m.accesses with
    | nil => exact (fun h => by cases h)
    | cons x xs ih =>
      unfold raceLoop
      split
      · exact (fun h => by cases h)
      · exact ih

/-- Steps of tame programs do not panic. -/
theorem step_no_panic (hpl : PlainMem M) (hT : prog.Tame) (h : Reachable prog s) (hsafe : ∀ a r, s.oracle = .int (a : Nat) :: r → s.SafeNext a) : step s ≠ .error .panic := by
  have : Np (PlainMem M) s step (fun _ _ => True) := by
    unfold MiniRust.step
    refine .bindRead (fun _ h => by cases h) fun en _ => .ite (fun _ => .throw (fun _ h => by cases h)) fun _ => ?_
    refine .bind (Q := fun _ s1 => s1 = { s with mem := s.mem.resetAccesses.2 }) ⟨(fun _ h => by cases h), (fun _ _ h => by cases h; rfl)⟩ ?_
    rintro x s1 _ rfl
    refine .bind (Q := fun _ s2 => ∃ (a : Nat) (r : List (Choice (AllocId × PE))) (t : _), s.oracle = .int (a : Nat) :: r ∧ s.threads[a]? = some t ∧ t.state = .enabled ∧ s2 = s.schedule a r) ?_ ?_
    · unfold pickThread
      refine .bind .popInt fun i s2 h2 _ => ?_
      obtain ⟨rest, ho, rfl⟩ := EM.popInt_eq_ok.1 h2
      refine ⟨fun _ h' => ?_, fun _ s3 h3 => ?_⟩
      · simp only at h'
        split at h'
        · cases h'
        · split at h' <;> cases h'
      · simp only at h3
        split at h3
        · cases h3
        · rename_i t ht
          split at h3
          · rename_i hen
            obtain ⟨hj, ht⟩ := getInt?_eq_some.1 ht
            cases h3
            refine ⟨i.toNat, rest, t, ?_, ht, hen, rfl⟩
            have ho' : s.oracle = .int i :: rest := ho
            rw [ho', Int.toNat_of_nonneg hj]
          · cases h3
    · rintro _ s2 _ ⟨a, r, t, ho, ht, hen, rfl⟩
      refine .bind (Np.execStep hT h ht hen (hsafe a r ho)) fun _ s3 _ _ => .read ⟨fun _ => ConcMem.checkDataRaces_np, fun _ _ => trivial⟩
  exact this.1 hpl

end MiniRust
