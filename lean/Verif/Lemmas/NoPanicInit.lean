import Verif.Lemmas.NoPanicCall
/-
The initialisation of the machine does not panic for programs that pass the check of well-formedness.
-/
set_option linter.unusedSectionVars false
namespace MiniRust

section
variable {M PE AE F : Type} [T : Target] [DecidableEq PE] [Memory M (AllocId × PE) F] [LawfulTarget T]
  [SoftMem M (AllocId × PE) F] [RawRetag M (AllocId × PE) F] [B : BasicBacked M PE AE F]
variable {s s' : Machine M (AllocId × PE) F} {prog : Program}
include B

theorem Np.allocGlobals : ∀ (gs : List (GlobalName × Global)) (s : Machine M (AllocId × PE) F),
    Np (PlainMem M) s (allocGlobals gs) (fun _ _ => True)
  | [], s => by unfold MiniRust.allocGlobals; exact .pure trivial
  | (n, g) :: gs, s => by
    unfold MiniRust.allocGlobals
    exact .bind .memAllocate fun _ _ _ _ => .bind (Q := fun _ _ => True) (.modify trivial) fun _ _ _ _ => Np.allocGlobals gs _

theorem Np.allocFunctions : ∀ (gs : List FnName) (s : Machine M (AllocId × PE) F),
    Np (PlainMem M) s (allocFunctions gs) (fun _ _ => True)
  | [], s => by unfold MiniRust.allocFunctions; exact .pure trivial
  | n :: gs, s => by
    unfold MiniRust.allocFunctions
    exact .bind .memAllocate fun _ _ _ _ => .bind (Q := fun _ _ => True) (.modify trivial) fun _ _ _ _ => Np.allocFunctions gs _

theorem Np.allocVTables : ∀ (gs : List VTableName) (s : Machine M (AllocId × PE) F),
    Np (PlainMem M) s (allocVTables gs) (fun _ _ => True)
  | [], s => by unfold MiniRust.allocVTables; exact .pure trivial
  | n :: gs, s => by
    unfold MiniRust.allocVTables
    exact .bind .memAllocate fun _ _ _ _ => .bind (Q := fun _ _ => True) (.modify trivial) fun _ _ _ _ => Np.allocVTables gs _

omit B in
theorem checkRelocations_mem {size : Nat} : ∀ {rs : List (Nat × Relocation)} {x}, checkRelocations prog size rs = .ok () → x ∈ rs →
    x.1 + T.ptrSize ≤ size ∧ ∃ g, prog.globals.get? x.2.name = some g
  | (o, r) :: rs, x, h, hx => by
    simp only [checkRelocations, Res.bind_eq_ok, ensureWf_eq_ok, decide_eq_true_eq] at h
    obtain ⟨_, h1, ⟨⟩, h2, h3⟩ := h
    rcases List.mem_cons.1 hx with rfl | hx
    · refine ⟨h1, ?_⟩
      unfold Relocation.checkWf at h2
      cases hg : prog.globals.get? r.name with
      | none => rw [hg] at h2; cases h2
      | some g => exact ⟨g, rfl⟩
    · exact checkRelocations_mem h3 hx

omit B in
theorem checkGlobals_mem : ∀ {gs : List Global} {g}, checkGlobals prog gs = .ok () → g ∈ gs →
    checkRelocations prog g.bytes.length g.relocations = .ok ()
  | x :: gs, g, h, hg => by
    simp only [checkGlobals, Res.bind_eq_ok] at h
    obtain ⟨⟨⟩, h1, h2⟩ := h
    rcases List.mem_cons.1 hg with rfl | hg
    · exact h1
    · exact checkGlobals_mem h2 hg

omit B in
theorem relocate_ok : ∀ (rs : List (Nat × Relocation)) (bytes : List (AByte (AllocId × PE))),
    (∀ x ∈ rs, x.1 + T.ptrSize ≤ bytes.length ∧ ∃ p, s.globalPtrs.get? x.2.name = some p) →
    ∃ r, s.relocate rs bytes = .ok r
  | [], bytes, _ => ⟨bytes, rfl⟩
  | (i, r) :: rs, bytes, h => by
    obtain ⟨h1, p, hp⟩ := h (i, r) List.mem_cons_self
    obtain ⟨bs, hb⟩ := encodePtr_ok (ptr := p.wrappingOffset r.offset) (bringInBounds_inBounds _ _ _)
    have hl := encodePtr_length hb
    have hw : ∃ b', writeSubslice bytes i bs = .ok b' ∧ b'.length = bytes.length := by
      have h1' : i + bs.length ≤ bytes.length := by rw [hl]; exact h1
      refine ⟨_, by unfold writeSubslice; rw [if_pos h1'], ?_⟩
      simp only [List.length_append, List.length_take, List.length_drop]; omega
    obtain ⟨b', hw1, hw2⟩ := hw
    obtain ⟨r', hr⟩ := relocate_ok rs b' fun x hx => by rw [hw2]; exact h x (List.mem_cons_of_mem _ hx)
    refine ⟨r', ?_⟩
    unfold Machine.relocate
    have : s.globalPtrs.get r.name = .ok p := Map.get_eq_ok.2 hp
    simp only [this, Res.bind_eq_ok]
    exact ⟨p, rfl, bs, hb, b', hw1, hr⟩

theorem store_static (hpl : PlainMem M) {h : MemHistory PE} (hm : MemReach (F := F) h s.mem.memory) {p : ThinPtr (AllocId × PE)}
    {kind n al} (hs : StartsLive h p kind n al) {bs : List (AByte (AllocId × PE))} (hl : bs.length = n) {at'} :
    ∃ r, memStore p bs al at' s = .ok r := by
  obtain ⟨id, ⟨pe, hp⟩, hlive⟩ := hs
  obtain ⟨a, ha, h1, h2⟩ := (live_iff hm).1 hlive
  simp only [Alloc.info, AllocInfo.mk.injEq] at h2
  obtain ⟨_, h3, h4, h5⟩ := h2
  have hal : Aligned al p.addr := by
    have := (hm.rep.place id a ha).2.1
    rw [h4, h5]; exact this
  obtain ⟨m', hst⟩ := hpl.storeOk s.mem.memory p bs al hal (.inr ⟨id, pe, a, 0, hp, ha, h1, by rw [h5]; simp, by omega⟩)
  refine ⟨((), { s with mem := ⟨m', s.mem.accesses ++ [⟨.store, at', p.addr, bs.length⟩]⟩ }), ?_⟩
  unfold memStore ConcMem.store
  rw [hst]; rfl

theorem fillGlobals_np (hpl : PlainMem M) (hw : checkGlobals prog prog.globals.values = .ok ()) :
    ∀ (gs : List (GlobalName × Global)) (s : Machine M (AllocId × PE) F) (h : MemHistory PE), MemReach (F := F) h s.mem.memory →
    Placed h s.globalPtrs .global prog.IsGlobal → (∀ x ∈ gs, prog.globals.get? x.1 = some x.2) →
    fillGlobals gs s ≠ .error .panic
  | [], s, h, _, _, _ => by unfold fillGlobals; exact fun h => by cases h
  | (n, g) :: gs, s, h, hm, hp, hg => by
    unfold fillGlobals
    have hgn := hg (n, g) List.mem_cons_self
    have hrel : ∃ r, s.relocate g.relocations g.abstractBytes = .ok r := by
      refine relocate_ok _ _ fun x hx => ?_
      obtain ⟨h1, g', h2⟩ := checkRelocations_mem (checkGlobals_mem hw (Map.mem_values hgn)) hx
      obtain ⟨q, hq, _⟩ := hp.has _ _ _ ⟨g', h2, rfl, rfl⟩
      exact ⟨by simpa [Global.abstractBytes] using h1, q, hq⟩
    obtain ⟨bs, hbs⟩ := hrel
    obtain ⟨hlen, _⟩ := relocate_initByte hbs
    obtain ⟨p, hpn, hst⟩ := hp.has _ _ _ ⟨g, hgn, rfl, rfl⟩
    obtain ⟨⟨u, s1⟩, hs1⟩ := store_static hpl hm hst hlen (at' := .none)
    intro herr
    rcases EM.bind_eq_error.1 herr with h1 | ⟨bs', s2, h1, h2⟩
    · simp only [EM.read, hbs] at h1; cases h1
    obtain ⟨h1, rfl⟩ := EM.read_eq_ok.1 h1
    rw [hbs] at h1; cases h1
    have hpg : s2.globalPtrs.get n = .ok p := Map.get_eq_ok.2 hpn
    rcases EM.bind_eq_error.1 h2 with h3 | ⟨p', s3, h3, h4⟩
    · simp only [EM.read, hpg] at h3; cases h3
    obtain ⟨h3, rfl⟩ := EM.read_eq_ok.1 h3
    rw [hpg] at h3; cases h3
    rcases EM.bind_eq_error.1 h4 with h5 | ⟨u', s4, h5, h6⟩
    · simp only [EM.unwrapRes, hs1] at h5; cases h5
    rw [EM.unwrapRes_eq_ok, hs1] at h5
    cases h5
    obtain ⟨st, e⟩ := memStore_step hs1
    refine fillGlobals_np hpl hw gs s1 (.store p bs g.align :: h) (.cons hm st) ?_ (fun x hx => hg x (List.mem_cons_of_mem _ hx)) h6
    have : s1.globalPtrs = s3.globalPtrs := by rw [e]
    rw [this]
    refine hp.run hm (h' := [.store p bs g.align]) (.cons .nil st) ?_ (by simp) (by simp)
    intro e he; cases List.mem_singleton.1 he; trivial

theorem createFrame_start_np (hpl : PlainMem M) {f : Function} (hf : FunctionWf prog f) (ha : f.args = []) :
    createFrame f .bottomOfStack .c unitTy [] s ≠ .error .panic := by
  suffices Np (PlainMem M) s (createFrame f .bottomOfStack .c unitTy []) (fun _ _ => True) from this.1 hpl
  unfold MiniRust.createFrame
  obtain ⟨rty, hrty⟩ := hf.ret
  have hact : AK made (cnt s) (.bottomOfStack : StackPopAction (AllocId × PE)) := trivial
  have hfk0 : FK made (cnt s) (StackFrame.init f .bottomOfStack (Memory.newCall M : F)) := ⟨(fun _ h => by cases h), hact⟩
  obtain ⟨na, hla⟩ := hf.layout (fr := StackFrame.init f (.bottomOfStack : StackPopAction (AllocId × PE)) (Memory.newCall M : F)) rfl hrty
  refine .bind (.storageLive hla hfk0) fun fr1 s1 k1 e1 => ?_
  rw [ha]
  refine .bind (Q := fun _ _ => True) (by unfold storageLives; exact .pure trivial) fun fr2 s2 _ _ => ?_
  refine .ite (fun _ => .throw (fun _ h => by cases h)) fun _ => ?_
  have e3 : f.locals.get f.ret = .ok rty := Map.get_eq_ok.2 hrty
  refine .bindLift (fun _ h => by rw [e3] at h; cases h) fun x hx => ?_
  rw [e3] at hx; cases hx
  obtain ⟨hrw, n, a, hrl⟩ := hf.locals _ _ hrty
  obtain ⟨b, hab⟩ := MiniRust.abiCompat_total (a := unitTy) (.tuple (by simp) .nil (by simp)) (Ty.good_of_isSized hrw hrl rfl)
  refine .bindLift (fun _ h => by rw [hab] at h; cases h) fun x hx => ?_
  refine .ite (fun _ => .throw (fun _ h => by cases h)) fun _ => ?_
  refine .ite (fun _ => .throw (fun _ h => by cases h)) fun _ => ?_
  exact .bind (Q := fun _ _ => True) (by unfold passArguments; exact .pure trivial) fun _ _ _ _ => .pure trivial

theorem new_no_panic (hpl : PlainMem M) (hu : prog.KeysUnique) (hw : prog.checkWf = .ok ()) (oracle : List (Choice (AllocId × PE))) :
    (Machine.new prog oracle : Res (Machine M (AllocId × PE) F)) ≠ .error .panic := by
  unfold Machine.new
  rw [hw]
  intro h
  rcases Res.bind_eq_error.1 h with h | ⟨_, _, h⟩
  · cases h
  rcases Res.bind_eq_error.1 h with h | ⟨_, _, h⟩
  swap
  · cases h
  unfold initMachine at h
  have hw' := hw
  simp only [Program.checkWf, Res.bind_eq_ok] at hw'
  obtain ⟨_, _, _, _, hw'⟩ := hw'
  cases hst : prog.functions.get? prog.start with
  | none => rw [hst] at hw'; cases hw'
  | some start =>
    rw [hst] at hw'
    simp only [Res.bind_eq_ok, ensureWf_eq_ok] at hw'
    obtain ⟨_, _, _, _, _, _, _, _, _, hargs, hgl⟩ := hw'
    rcases EM.bind_eq_error.1 h with h1 | ⟨_, s1, h1, g1⟩
    · exact (Np.allocGlobals _ _).1 hpl h1
    obtain ⟨⟨e1, r1, a1, p1⟩, q1, _⟩ := allocGlobals_loop (B := B) hu.globals h1
    have pl1 := p1 [] .nil _ (Placed.empty (B := B)) (by intro k n a _ hk; cases hk)
    have gl := (pl1.mono (B := B) (i2 := prog.IsGlobal) fun k n a => by rw [isGlobal_iff hu, false_or])
    have m1 : MemReach (F := F) (e1 ++ []) s1.mem.memory := MemRun.append .nil r1
    rcases EM.bind_eq_error.1 g1 with h2 | ⟨_, s2, h2, g2⟩
    · exact fillGlobals_np hpl hgl _ _ _ m1 gl (fun x hx => Map.get?_of_mem hu.globals hx) h2
    rcases EM.bind_eq_error.1 g2 with h3 | ⟨_, s3, h3, g3⟩
    · exact (Np.allocFunctions _ _).1 hpl h3
    rcases EM.bind_eq_error.1 g3 with h4 | ⟨_, s4, h4, g4⟩
    · exact (Np.allocVTables _ _).1 hpl h4
    have hget : prog.functions.get prog.start = .ok start := Map.get_eq_ok.2 hst
    rcases EM.bind_eq_error.1 g4 with h5 | ⟨_, s5, h5, g5⟩
    · simp only [EM.lift, hget] at h5; cases h5
    obtain ⟨h5, rfl⟩ := EM.lift_eq_ok.1 h5
    rw [hget] at h5; cases h5
    rcases EM.bind_eq_error.1 g5 with h6 | ⟨_, s6, h6, g6⟩
    · unfold newThread at h6
      rcases EM.bind_eq_error.1 h6 with h7 | ⟨_, s7, _, h7⟩
      · exact createFrame_start_np hpl (Function.wf (Program.checkWf_function hw hst)) (by simpa using hargs) h7
      · cases h7
    · cases g6
end
end MiniRust
