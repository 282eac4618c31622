import Verif.Lemmas.NoPanicState
/-
Well-formed tame statements do not panic.
-/
set_option linter.unusedSectionVars false
namespace MiniRust
variable {M PE AE F : Type} [T : Target] [DecidableEq PE] [Memory M (AllocId × PE) F] [LawfulTarget T]
  [SoftMem M (AllocId × PE) F] [RawRetag M (AllocId × PE) F] [B : BasicBacked M PE AE F]
variable {s s' : Machine M (AllocId × PE) F} {prog : Program} {fn : Function}

include B

/-! ### Memory operations -/

theorem Np.memStore {p : ThinPtr (AllocId × PE)} {bs al at'} (hp : PK made (cnt s) p) :
    Np (PlainMem M) s (memStore p bs al at') (fun _ _ => True) := by
  refine ⟨fun hpl h => ?_, fun _ _ _ => trivial⟩
  have : Memory.store (F := F) s.mem.memory p bs al ≠ .error .panic := hpl.store _ _ _ _ (PK.knownId hp)
  simp only [MiniRust.memStore, ConcMem.store, Res.bind_eq_error, Res.bind_eq_ok] at h
  rcases h with h | ⟨_, _, h⟩
  · rcases h with h | ⟨_, _, h⟩
    · exact this h
    · cases h
  · cases h

theorem Np.memDeinit {p : ThinPtr (AllocId × PE)} {n al} (hp : PK made (cnt s) p) :
    Np (PlainMem M) s (memDeinit p n al) (fun _ _ => True) := .memStore hp

theorem Np.memDeallocate {p : ThinPtr (AllocId × PE)} {k n al} (hp : PK made (cnt s) p) :
    Np (PlainMem M) s (memDeallocate p k n al) (fun _ _ => True) := by
  refine ⟨fun hpl h => ?_, fun _ _ _ => trivial⟩
  have : Memory.deallocate (F := F) s.mem.memory p k n al ≠ .error .panic := hpl.deallocate _ _ _ _ _ (PK.knownId hp)
  simp only [MiniRust.memDeallocate, ConcMem.deallocate, Res.bind_eq_error, Res.bind_eq_ok] at h
  rcases h with h | ⟨_, _, h⟩
  · rcases h with h | ⟨_, _, h⟩
    · exact this h
    · cases h
  · cases h

theorem Np.memEndCall {f : F} : Np (PlainMem M) s (memEndCall f) (fun _ _ => True) := by
  refine ⟨fun hpl h => ?_, fun _ _ _ => trivial⟩
  simp only [MiniRust.memEndCall, ConcMem.endCall, Res.bind_eq_error, Res.bind_eq_ok] at h
  rcases h with h | ⟨_, _, h⟩
  · rcases h with h | ⟨_, _, h⟩
    · exact hpl.endCall _ _ h
    · cases h
  · cases h

omit B [RawRetag M (AllocId × PE) F] in
theorem Np.popInt {pl : Prop} : Np pl s (EM.popInt : EM M (AllocId × PE) F Int) (fun _ _ => True) := by
  refine ⟨fun _ h => ?_, fun _ _ _ => trivial⟩
  unfold EM.popInt at h
  split at h <;> cases h

theorem Np.memAllocate {k n al} : Np (PlainMem M) s (memAllocate k n al) (fun _ _ => True) := by
  unfold MiniRust.memAllocate
  refine .bind .popInt fun pick s1 _ _ => ⟨fun hpl h => ?_, fun _ _ _ => trivial⟩
  simp only [ConcMem.allocate, Res.bind_eq_error, Res.bind_eq_ok, Prod.exists] at h
  rcases h with h | ⟨_, _, _, h⟩
  · rcases h with h | ⟨_, _, _, h⟩
    · exact hpl.allocate _ _ _ _ _ h
    · cases h
  · cases h

omit [RawRetag M (AllocId × PE) F] B in
theorem encodeChecked_ok {ty : Ty} (hg : ty.Good) {v : Value (AllocId × PE)} (hv : checkValue s.valEnv ty v = .ok ()) :
    ∃ bs, s.encodeChecked ty v = .ok bs ∧ bs.length = ty.sz := by
  obtain ⟨bs, h⟩ := encode_total_good s.valEnv hg hv
  refine ⟨bs, ?_, encode_length_good hg h⟩
  unfold Machine.encodeChecked
  rw [hv]
  exact h

theorem Np.typedStore {p : ThinPtr (AllocId × PE)} {v ty al at'} (hp : PK made (cnt s) p) (hg : ty.Good)
    (hv : checkValue s.valEnv ty v = .ok ()) : Np (PlainMem M) s (typedStore p v ty al at') (fun _ _ => True) := by
  unfold MiniRust.typedStore
  obtain ⟨bs, h, _⟩ := encodeChecked_ok hg hv
  refine .bindRead (fun _ h' => by rw [h] at h'; cases h') fun _ _ => .memStore hp

theorem Np.placeStore {p : Place (AllocId × PE)} {v ty} (hp : PlK made (cnt s) p) (hg : ty.Good)
    (hv : checkValue s.valEnv ty v = .ok ()) : Np (PlainMem M) s (placeStore p v ty) (fun _ _ => True) := by
  unfold MiniRust.placeStore
  exact .ite (fun _ => .throw (fun _ h => by cases h)) fun _ => .typedStore (VK.thin hp) hg hv

omit B [RawRetag M (AllocId × PE) F] in
/-- Updating the top frame. -/
theorem Np.mutateCurFrame {α : Type} {pl : Prop} {f : StackFrame (AllocId × PE) F → EM M (AllocId × PE) F (α × StackFrame (AllocId × PE) F)}
    {fr : StackFrame (AllocId × PE) F} {Q : α × StackFrame (AllocId × PE) F → Machine M (AllocId × PE) F → Prop} (hfr : s.curFrame = .ok fr) (hf : Np pl s (f fr) Q)
    (hk : ∀ r s1, f fr s = .ok (r, s1) → s1.threads = s.threads ∧ s1.activeThread = s.activeThread) :
    Np pl s (mutateCurFrame f) (fun _ _ => True) := by
  obtain ⟨t, rest, k1, k2⟩ := curFrame_eq_ok.1 hfr
  unfold MiniRust.mutateCurFrame
  refine .bindRead (fun _ h => by rw [hfr] at h; cases h) fun fr' h => ?_
  rw [hfr] at h; cases h
  refine .bind hf fun ⟨a, fr'⟩ s1 h1 _ => ?_
  obtain ⟨e1, e2⟩ := hk _ _ h1
  have e1 : s1.getActive = .ok t := getActive_eq_ok.2 (by rw [e1, e2]; exact k1)
  refine .bindRead (fun _ h => by rw [e1] at h; cases h) fun t' h => ?_
  rw [e1] at h; cases h
  have e2 : t.setCurFrame fr' = .ok { t with stack := fr' :: rest } := setCurFrame_eq_ok.2 ⟨_, _, k2, rfl⟩
  refine .bindLift (fun _ h => by rw [e2] at h; cases h) fun _ _ => ?_
  exact .bind (Q := fun _ _ => True) (.modify trivial) fun _ _ _ _ => .pure trivial

/-! ### Discriminants -/

theorem Np.setDisc {p : ThinPtr (AllocId × PE)} (hs : InSpace p) {size : Nat} : ∀ (tg : Tagger) (s : Machine M (AllocId × PE) F),
    Base prog s → PK made (cnt s) p → TaggerGood size tg → PlainMem M →
    encodeDiscriminant (fun (s : Machine M (AllocId × PE) F) offset bytes => do
          let ptr ← s.ptrOffsetInbounds p offset
          let (_, s) ← MiniRust.memStore ptr bytes Align.one .none s
          .ok s) tg s ≠ .error .panic
  | [], s, _, _, _, _ => by simp [encodeDiscriminant]
  | (off, (vt, v)) :: tg, s, hr, hp, hg, hpl => by
    intro h
    obtain ⟨_, h2, _⟩ := hg (off, (vt, v)) (by simp)
    obtain ⟨_, _, hb⟩ := encodeInt_ok (P := AllocId × PE) h2
    simp only [encodeDiscriminant, Res.bind_eq_error, Res.bind_eq_ok, Prod.exists] at h
    rcases h with h | ⟨bs, hbs, h | ⟨s1, ⟨q, hq, u, s2, hst, e⟩, h⟩⟩
    · rw [hb] at h; cases h
    · have hn := NpR.ptrOffset hr hp hs off (PlainMem M)
      rcases h with h | ⟨q, hq, h | ⟨u, s2, h2, h⟩⟩
      · exact hn.1 hpl h
      · exact (Np.memStore (hn.2 q hq).2).1 hpl h
      · cases h
    · simp only [Except.ok.injEq] at e
      subst e
      have hn := (NpR.ptrOffset hr hp hs off (PlainMem M)).2 q hq
      obtain ⟨hr2, _, hc⟩ := Base.ofQuiet tri_memStore (Kt.memStore made_caps hn.2 (BK.encodeInt hbs)) hr hst
      exact Np.setDisc hs tg s2 hr2 (hp.mono made_caps hc) (fun e he => hg e (by simp [he])) hpl h

theorem Np.setDiscriminant (hr : Base prog s) {r : Place (AllocId × PE) × Ty} {vs dt disc size al v}
    (hp : PlaceOk prog s (.enum vs dt disc size al) r) (hv : (Map.get? vs v).isSome) :
    Np (PlainMem M) s (setDiscriminant r.1 r.2 v) (fun _ _ => True) := by
  unfold MiniRust.setDiscriminant
  rw [hp.isTy]
  refine .ite (fun _ => .throw (fun _ h => by cases h)) fun _ => ?_
  obtain ⟨⟨vty, tagger⟩, hx⟩ := Option.isSome_iff_exists.1 hv
  rw [hx]
  have hg : (Ty.enum vs dt disc size al).Good := Ty.good_of_sized hp.wf rfl
  refine ⟨fun hpl h => ?_, fun _ _ _ => trivial⟩
  simp only [Res.bind_eq_error] at h
  rcases h with h | ⟨_, _, h⟩
  · cases hg with
    | enum _ _ h3 _ _ =>
      exact Np.setDisc hp.space tagger s hr (VK.thin hp.known) (h3 _ (Map.get?_mem hx)) hpl h
  · cases h

/-! ### Retagging -/

/-- The result of retagging a value. -/
structure Retagged (prog : Program) (fn : Function) (s s' : Machine M (AllocId × PE) F) (ty : Ty) (v : Value (AllocId × PE)) : Prop where
  ready : Ready prog fn s'
  ev : Ev s s'
  valid : checkValue s'.valEnv ty v = .ok ()
  known : VK made (cnt s') v

omit [RawRetag M (AllocId × PE) F] B [LawfulTarget T] [SoftMem M (AllocId × PE) F] [Memory M (AllocId × PE) F] in
theorem checkElems_fields {env : ValEnv (AllocId × PE)} {e : Ty} : ∀ {vs : List (Value (AllocId × PE))},
    checkElems (fun v => checkValue env e v) vs = .ok () ↔
      checkFields env ((List.replicate vs.length e).map fun t => (0, t)) vs = .ok ()
  | [] => by simp [checkElems, checkFields]
  | v :: vs => by
    simp only [checkElems, List.length_cons, List.replicate_succ, List.map_cons, checkFields, Res.bind_eq_ok]
    rw [checkElems_fields]

mutual
theorem Np.retagVal (hprog : prog.checkWf = .ok ()) (fe : Bool) : ∀ (v : Value (AllocId × PE)) (ty : Ty) (s : Machine M (AllocId × PE) F), Ready prog fn s →
    ty.checkWf prog = .ok () →
    checkValue s.valEnv ty v = .ok () → VK made (cnt s) v →
    Np (PlainMem M) s (retagVal fe v ty) (fun w s' => Retagged prog fn s s' ty w)
  | .int i, ty, s, hr, hw, hv, hk => by simp only [MiniRust.retagVal]; exact .pure ⟨hr, .refl, hv, hk⟩
  | .bool i, ty, s, hr, hw, hv, hk => by simp only [MiniRust.retagVal]; exact .pure ⟨hr, .refl, hv, hk⟩
  | .union i, ty, s, hr, hw, hv, hk => by simp only [MiniRust.retagVal]; exact .pure ⟨hr, .refl, hv, hk⟩
  | .ptr p, ty, s, hr, hw, hv, hk => by
    cases ty <;> first | (simp only [checkValue] at hv; cases hv; done) | skip
    rename_i pty
    simp only [MiniRust.retagVal]
    refine .bind (.retag hr hprog hk (ptr_type_wf hw) hv) fun q s1 h1 hq => .pure ?_
    obtain ⟨hr1, he, hk1⟩ := hr.retag hk h1
    exact ⟨hr1, he, hq, hk1⟩
  | .tuple vs, ty, s, hr, hw, hv, hk => by
    cases ty <;> first | (simp only [checkValue] at hv; cases hv; done) | skip
    · rename_i fs hd u
      simp only [checkValue, Res.bind_eq_ok, rassert_eq_ok, ensureUb_eq_ok, beq_iff_eq, exists_const] at hv
      obtain ⟨hu, hl, hv⟩ := hv
      simp only [MiniRust.retagVal]
      refine .bind (Np.retagVals hprog fe vs fs s hr (tuple_fields_wf hw) hl hv hk.elem) fun ws s1 h1 ⟨hr1, he, hl1, hv1, hk1⟩ => .pure ?_
      refine ⟨hr1, he, ?_, VK.tuple hk1⟩
      simp only [checkValue, Res.bind_eq_ok, rassert_eq_ok, ensureUb_eq_ok, beq_iff_eq, exists_const]
      exact ⟨hu, hl1, hv1⟩
    · rename_i e n
      simp only [checkValue, Res.bind_eq_ok, ensureUb_eq_ok, beq_iff_eq, exists_const] at hv
      obtain ⟨hl, hv⟩ := hv
      simp only [MiniRust.retagVal]
      have := Np.retagVals hprog fe vs ((List.replicate vs.length e).map fun t => (0, t)) s hr
        (fun f hf => by obtain ⟨t, ht, rfl⟩ := List.mem_map.1 hf; obtain ⟨_, rfl⟩ := List.mem_replicate.1 ht; exact array_elem_wf hw) (by simp) (checkElems_fields.1 hv) hk.elem
      rw [List.map_map, show ((fun x : Nat × Ty => x.2) ∘ fun t : Ty => (0, t)) = id from rfl, List.map_id] at this
      refine .bind this fun ws s1 h1 ⟨hr1, he, hl1, hv1, hk1⟩ => .pure ?_
      have hl2 : ws.length = vs.length := by simpa using hl1
      refine ⟨hr1, he, ?_, VK.tuple hk1⟩
      simp only [checkValue, Res.bind_eq_ok, ensureUb_eq_ok, beq_iff_eq, exists_const]
      refine ⟨by rw [hl2]; exact hl, ?_⟩
      rw [checkElems_fields, hl2]; exact hv1
  | .variant d v, ty, s, hr, hw, hv, hk => by
    cases ty <;> first | (simp only [checkValue] at hv; cases hv; done) | skip
    rename_i vs dt disc size al
    simp only [checkValue] at hv
    simp only [MiniRust.retagVal]
    cases hx : Map.get? vs d with
    | none =>
      exfalso
      revert hv hx
      generalize vs = l
      intro hv hx
      induction l with
      | nil => simp [checkVariant] at hv
      | cons y l ih =>
        obtain ⟨d', ty', tg'⟩ := y
        simp only [checkVariant] at hv
        by_cases hd : d' = d
        · subst hd; simp [Map.get?] at hx
        · rw [if_neg hd] at hv
          exact ih hv (by simpa [Map.get?, hd] using hx)
    | some x =>
      obtain ⟨vty, tg⟩ := x
      rw [checkVariant_iff_get hx] at hv
      have e1 : Map.get vs d = .ok (vty, tg) := Map.get_eq_ok.2 hx
      refine .bindLift (fun _ h => by rw [e1] at h; cases h) fun y hy => ?_
      rw [e1] at hy; cases hy
      refine .bind (Np.retagVal hprog fe v vty s hr (enum_variant_wf hw hx) hv hk.ofVariant) fun w s1 h1 hw => .pure ⟨hw.ready, hw.ev, ?_, hw.known.variant⟩
      simp only [checkValue]
      rw [checkVariant_iff_get hx]; exact hw.valid
theorem Np.retagVals (hprog : prog.checkWf = .ok ()) (fe : Bool) : ∀ (vs : List (Value (AllocId × PE))) (fs : List (Nat × Ty)) (s : Machine M (AllocId × PE) F), Ready prog fn s →
    (∀ f ∈ fs, f.2.checkWf prog = .ok ()) →
    vs.length = fs.length → checkFields s.valEnv fs vs = .ok () → (∀ v ∈ vs, VK made (cnt s) v) →
    Np (PlainMem M) s (retagVals fe vs (fs.map (·.2))) (fun ws s' => Ready prog fn s' ∧ Ev s s' ∧ ws.length = fs.length ∧
      checkFields s'.valEnv fs ws = .ok () ∧ ∀ v ∈ ws, VK made (cnt s') v)
  | [], fs, s, hr, hw, hl, hv, hk => by
    unfold MiniRust.retagVals
    exact .pure ⟨hr, .refl, hl, by cases fs <;> simp [checkFields], by simp⟩
  | v :: vs, [], s, hr, hw, hl, hv, hk => by simp at hl
  | v :: vs, (o, ty) :: fs, s, hr, hw, hl, hv, hk => by
    simp only [checkFields, Res.bind_eq_ok] at hv
    obtain ⟨_, hv1, hv2⟩ := hv
    simp only [MiniRust.retagVals, List.map_cons]
    refine .bind (Np.retagVal hprog fe v ty s hr (hw _ List.mem_cons_self) hv1 (hk v (by simp))) fun w s1 h1 hw1 => ?_
    refine .bind (Np.retagVals hprog fe vs fs s1 hw1.ready (fun f hf => hw f (List.mem_cons_of_mem _ hf)) (by simpa using hl) (by rw [hw1.ev.env]; exact hv2)
      (fun x hx => by rw [hw1.ev.cnt]; exact hk x (by simp [hx]))) fun ws s2 h2 ⟨hr2, he2, hl2, hv3, hk2⟩ => .pure ?_
    refine ⟨hr2, hw1.ev.trans he2, by simp [hl2], ?_, ?_⟩
    · simp only [checkFields, Res.bind_eq_ok]
      exact ⟨(), by rw [he2.env]; exact hw1.valid, hv3⟩
    · intro x hx
      rcases List.mem_cons.1 hx with rfl | hx
      · rw [he2.cnt]; exact hw1.known
      · exact hk2 x hx
end

/-! ### Local storage -/

theorem Np.storageDead {fr : StackFrame (AllocId × PE) F} {l} {na} (hl : fr.localLayout l = .ok na) (hk : FK made (cnt s) fr) :
    Np (PlainMem M) s (storageDead fr l) (fun fr' _ => fr'.func = fr.func) := by
  unfold MiniRust.storageDead
  refine .bindLift (fun _ h => by rw [hl] at h; cases h) fun ⟨n, a⟩ _ => ?_
  dsimp only
  split
  · rename_i p hp
    exact .bind (.memDeallocate (hk.locals _ (Map.get?_mem hp))) fun _ _ _ _ => .pure rfl
  · exact .pure rfl

theorem Np.storageLive {fr : StackFrame (AllocId × PE) F} {l} {na} (hl : fr.localLayout l = .ok na) (hk : FK made (cnt s) fr) :
    Np (PlainMem M) s (storageLive fr l) (fun fr' _ => fr'.func = fr.func) := by
  unfold MiniRust.storageLive
  refine .bind (.storageDead hl hk) fun fr1 s1 h1 e => ?_
  have hl1 : fr1.localLayout l = .ok na := by
    unfold StackFrame.localLayout at hl ⊢; rw [e]; exact hl
  refine .bindLift (fun _ h => by rw [hl1] at h; cases h) fun ⟨n, a⟩ _ => ?_
  exact .bind .memAllocate fun p s2 _ _ => .pure e

/-! ### Statements -/

theorem Ready.topKnown (hr : Ready prog fn s) : ∃ fr, s.curFrame = .ok fr ∧ fr.func = fn ∧ FK made (cnt s) fr := by
  obtain ⟨fr, h1, h2, _⟩ := hr.frame
  obtain ⟨t, rest, k1, k2⟩ := curFrame_eq_ok.1 h1
  exact ⟨fr, h1, h2, (hr.known.threads t (List.mem_of_getElem? k1)).stack fr (by rw [k2]; simp)⟩

theorem Np.statement (hf : WfTame prog fn) {st : Statement} (hr : Ready prog fn s) (hc : st.checkWf prog fn = .ok ())
    (ht : st.Tame prog fn.locals) : Np (PlainMem M) s (evalStatement st) (fun _ _ => True) := by
  cases st with
  | assign d e =>
    simp only [Statement.checkWf, Res.bind_eq_ok, ensureWf_eq_ok, decide_eq_true_eq, rassert_eq_ok] at hc
    obtain ⟨l, h1, r, h2, _, rfl, lay, h3, h4⟩ := hc
    unfold evalStatement
    refine .bind (Np.place hf d s _ hr h1 ht.1) fun p s1 k1 hp => ?_
    obtain ⟨hr1, _, _⟩ := hr.place k1
    refine .bind (Np.value hf e s1 _ hr1 h2 ht.2) fun v s2 k2 hv => ?_
    obtain ⟨hr2, hev, _⟩ := hr1.value k2
    have hp2 := hp.ev hev
    obtain ⟨p, pty⟩ := p
    obtain ⟨v, vty⟩ := v
    have := hp2.isTy
    dsimp only at this
    subst this
    exact .placeStore hp2.known (Ty.good_of_isSized hp2.wf h3 h4) hv.valid
  | placeMention p =>
    simp only [Statement.checkWf, Res.bind_eq_ok] at hc
    obtain ⟨l, h1, _⟩ := hc
    unfold evalStatement
    exact .bind (Np.place hf p s _ hr h1 ht) fun _ _ _ _ => .pure trivial
  | setDiscriminant p d =>
    simp only [Statement.checkWf, Res.bind_eq_ok] at hc
    obtain ⟨l, h1, h2⟩ := hc
    cases l <;> simp only [reduceCtorEq] at h2
    rename_i vs dt disc size al
    unfold evalStatement
    refine .bind (Np.place hf p s _ hr h1 ht) fun p s1 k1 hp => ?_
    refine .setDiscriminant (hr.place k1).1.toBase hp ?_
    cases hx : Map.get? vs d with
    | none => rw [hx] at h2; cases h2
    | some x => rfl
  | validate p fe =>
    simp only [Statement.checkWf, Res.bind_eq_ok, ensureWf_eq_ok] at hc
    obtain ⟨ty, h1, lay, h3, h4⟩ := hc
    unfold evalStatement
    refine .bind (Np.place hf p s _ hr h1 ht) fun p s1 k1 hp => ?_
    obtain ⟨hr1, _, _⟩ := hr.place k1
    have hg := Ty.good_of_isSized hp.wf h3 h4
    refine .bind (.placeLoad hr1 hp hg) fun v s2 k2 hv => ?_
    obtain ⟨hr2, he2, hk2⟩ := Ready.ofExpr tri_placeLoad tri_placeLoad (Kt.placeLoad made_caps hp.known) hr1 k2
    have hp2 := hp.ev he2
    obtain ⟨p, pty⟩ := p
    have := hp2.isTy
    dsimp only at this
    subst this
    refine .bind (Np.retagVal hf.isWf fe v _ s2 hr2 hp2.wf hv hk2) fun w s3 k3 hw => ?_
    exact .placeStore (hp2.ev hw.ev).known hg hw.valid
  | deinit p =>
    simp only [Statement.checkWf, Res.bind_eq_ok, ensureWf_eq_ok] at hc
    obtain ⟨ty, h1, lay, h3, h4⟩ := hc
    unfold evalStatement
    refine .bind (Np.place hf p s _ hr h1 ht) fun p s1 k1 hp => ?_
    have hg := Ty.good_of_isSized hp.wf h3 h4
    obtain ⟨p, pty⟩ := p
    have := hp.isTy
    dsimp only at this
    subst this
    refine .ite (fun _ => .throw (fun _ h => by cases h)) fun _ => ?_
    refine .bindLift (fun _ h => by rw [hg.size] at h; cases h) fun n _ => .memDeinit (VK.thin hp.known)
  | storageLive l =>
    simp only [Statement.checkWf, ensureWf_eq_ok] at hc
    obtain ⟨ty, hx⟩ := Map.contains_eq.1 hc
    obtain ⟨fr, h1, rfl, hk⟩ := hr.topKnown
    obtain ⟨_, n, a, hl⟩ := hf.locals l ty hx
    have hl := localLayout_eq_ok.2 ⟨ty, hx, hl⟩
    unfold evalStatement
    refine .mutateCurFrame h1 (.bind (.storageLive hl hk) fun fr' s1 _ _ => .pure (Q := fun _ _ => True) trivial) ?_
    intro r s1 h
    obtain ⟨fr', s2, h2, h3⟩ := EM.bind_eq_ok.1 h
    cases h3
    unfold MiniRust.storageLive at h2
    simp only [EM.bind_eq_ok, EM.lift_eq_ok, Prod.exists, EM.pure_eq_ok] at h2
    obtain ⟨fr1, s1, h4, n, a, _, ⟨hlay, rfl⟩, ptr, s3, h5, _, rfl⟩ := h2
    obtain ⟨m, rfl, _⟩ := storageDead_trans (B := B) h4
    obtain ⟨m', o, ae, rfl, _⟩ := memAllocate_allocs (B := B) h5
    exact ⟨rfl, rfl⟩
  | storageDead l =>
    simp only [Statement.checkWf, Res.bind_eq_ok, ensureWf_eq_ok] at hc
    obtain ⟨_, hc, _⟩ := hc
    obtain ⟨ty, hx⟩ := Map.contains_eq.1 hc
    obtain ⟨fr, h1, rfl, hk⟩ := hr.topKnown
    obtain ⟨_, n, a, hl⟩ := hf.locals l ty hx
    have hl := localLayout_eq_ok.2 ⟨ty, hx, hl⟩
    unfold evalStatement
    refine .mutateCurFrame h1 (.bind (.storageDead hl hk) fun fr' s1 _ _ => .pure (Q := fun _ _ => True) trivial) ?_
    intro r s1 h
    obtain ⟨fr', s2, h2, h3⟩ := EM.bind_eq_ok.1 h
    cases h3
    obtain ⟨m, rfl, _⟩ := storageDead_trans (B := B) h2
    exact ⟨rfl, rfl⟩

end MiniRust
