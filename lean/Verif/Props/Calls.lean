import Verif.Lemmas.CallData
import Verif.Props.Memory
import Verif.Examples.Calls
import Verif.Examples.Run
/-
C35 calls and returns, C36 unwinding, C46 control flow inside a function, C49 storage of locals.

The theorems hold for every memory model built on the basic one, in particular for both memory models of the
specification, and for every run of every program that the well-formedness check accepts.
-/
set_option linter.unusedSectionVars false
namespace MiniRust

section
variable {M PE AE F : Type} [T : Target] [DecidableEq PE] [Memory M (AllocId × PE) F] [hm : SoftMem M (AllocId × PE) F]
  [B : BasicBacked M PE AE F]
variable {s s' : Machine M (AllocId × PE) F} {prog : Program} {h h' : MemHistory PE}
variable {a : Nat} {r : List (Choice (AllocId × PE))} {t : Thread (AllocId × PE) F} {f : StackFrame (AllocId × PE) F}
  {rest : List (StackFrame (AllocId × PE) F)}

/-! ### Helpers that connect the statements with the invariants -/

/-- The step of a running thread. -/
theorem Machine.Runs.exec (hrun : s.Runs a r t f rest) (h : step s = .ok ((), s')) :
    s'.activeThread = a ∧ ∃ blk, f.InBlock blk ∧
      ((f.nextStmt = blk.statements.length ∧ evalTerminator blk.terminator (s.schedule a r) = .ok ((), s')) ∨
      (f.nextStmt ≠ blk.statements.length ∧ ∃ st s1 v, blk.statements[f.nextStmt]? = some st ∧
        evalStatement st (s.schedule a r) = .ok (v, s1) ∧ bumpStmt s1 = .ok ((), s'))) := by
  obtain ⟨a2, t2, r2, h1, h2, h3, h4, h5⟩ := step_eq_ok.1 h
  have e := hrun.oracle.symm.trans h1
  simp only [List.cons.injEq, Choice.int.injEq, Int.natCast_inj] at e
  obtain ⟨rfl, rfl⟩ := e
  have hact : s'.activeThread = a := by
    obtain ⟨_, e, _⟩ := step_skel h
    exact (by
      have := hrun.oracle.symm.trans e
      simp only [List.cons.injEq, Choice.int.injEq, Int.natCast_inj] at this
      exact this.1.symm)
  refine ⟨hact, ?_⟩
  obtain ⟨t3, f3, rest3, blk, k1, k2, k3, k4⟩ := execStep_split h4
  have k1' : s.threads[a]? = some t3 := k1
  rw [hrun.thread] at k1'; cases k1'
  rw [hrun.stack] at k2; cases k2
  exact ⟨blk, k3, k4⟩

theorem Machine.Runs.term (hrun : s.Runs a r t f rest) (h : step s = .ok ((), s')) {term} (hat : f.AtTerm term) :
    s'.activeThread = a ∧ evalTerminator term (s.schedule a r) = .ok ((), s') := by
  obtain ⟨h1, blk, h2, h3⟩ := hrun.exec h
  obtain ⟨blk', k1, k2, rfl⟩ := hat
  have : blk' = blk := Option.some.inj (k1.symm.trans h2)
  subst this
  rcases h3 with ⟨_, h3⟩ | ⟨h3, _⟩
  · exact ⟨h1, h3⟩
  · exact absurd k2 h3

theorem Machine.Runs.ofStep (hi : FramesInv (B := B) prog s) (h : step s = .ok ((), s')) :
    ∃ a r t f rest blk, s.Runs a r t f rest ∧ f.InBlock blk ∧ s'.activeThread = a ∧
      Effect (B := B) (s.schedule a r) s' t f rest blk := by
  obtain ⟨a, r, t, f, rest, blk, h1, h2, h3, h4, h5, h6, h7⟩ := hi.step h
  exact ⟨a, r, t, f, rest, blk, ⟨h1, h2, h6, h3⟩, h4, h5, h7⟩

theorem Machine.Runs.effect (hrun : s.Runs a r t f rest) (hi : FramesInv (B := B) prog s) (h : step s = .ok ((), s')) :
    ∃ blk, f.InBlock blk ∧ s'.activeThread = a ∧ Effect (B := B) (s.schedule a r) s' t f rest blk := by
  obtain ⟨a2, r2, t2, f2, rest2, blk, h1, h2, h3, h4⟩ := Machine.Runs.ofStep hi h
  have e := hrun.oracle.symm.trans h1.oracle
  simp only [List.cons.injEq, Choice.int.injEq, Int.natCast_inj] at e
  obtain ⟨rfl, rfl⟩ := e
  have := hrun.thread.symm.trans h1.thread
  cases this
  have := hrun.stack.symm.trans h1.stack
  cases this
  exact ⟨blk, h2, h3, h4⟩

/-! ### C35: calls and returns -/

include B in
/-- C35: a step changes only the stack of the thread that executes it, and changes it as the instruction at the top
frame says (`StackStep`). At most one thread is added; it has a single frame, at the start of a function of the
program. -/
theorem C35_stack_discipline (hr : Reachable prog s) (h : step s = .ok ((), s')) :
    ∃ (a : Nat) (t t' : Thread (AllocId × PE) F), s'.activeThread = a ∧ s.threads[a]? = some t ∧ s'.threads[a]? = some t' ∧
      StackStep prog t.stack t.unwindPayloads t'.stack t'.unwindPayloads ∧
      (∀ (i : Nat) u, i ≠ a → s.threads[i]? = some u → ∃ u', s'.threads[i]? = some u' ∧ u'.stack = u.stack ∧ u'.unwindPayloads = u.unwindPayloads) ∧
      (s'.threads.length = s.threads.length ∨ (s'.threads.length = s.threads.length + 1 ∧
        ∃ u g fn name, s'.threads[s.threads.length]? = some u ∧ u.stack = [g] ∧ u.unwindPayloads = [] ∧
          prog.functions.get? name = some fn ∧ g.Fresh fn)) := by
  have hi := hr.frames (B := B)
  obtain ⟨a, r, t, f, rest, blk, hrun, hb, hact, sm, t', new, ha, k1, k2, k3, k4, k5, hmv⟩ := Machine.Runs.ofStep hi h
  have hlen : sm.threads.length = s.threads.length := ha.length
  have k1' : sm.threads[a]? = some t' := k1
  refine ⟨a, t, t', hact, hrun.thread, ?_, ?_, ?_, ?_⟩
  · rw [k2, List.getElem?_append_left (List.getElem?_eq_some_iff.1 k1').1, k1']
  · have := Move.stackStep (s := s.schedule a r) hrun.stack hb (hi.threads t (List.mem_of_getElem? hrun.thread)) hmv
    have e : (s.schedule a r).prog = prog := hi.eq
    rwa [e] at this
  · intro i u hne hu
    have hlt : i < sm.threads.length := by rw [hlen]; exact (List.getElem?_eq_some_iff.1 hu).1
    have := ha.others i u _ hne hu (List.getElem?_eq_getElem hlt)
    exact ⟨_, by rw [k2, List.getElem?_append_left hlt]; exact List.getElem?_eq_getElem hlt, this.1, this.2.1⟩
  · have hnew : new = [] ∨ ∃ fn name g, prog.functions.get? name = some fn ∧ FreshFrame fn .bottomOfStack g ∧ new = [⟨[g], .enabled, []⟩] := by
      cases hmv with
      | jump b e _ h1 h2 h3 h4 h5 h6 =>
        have e : (s.schedule a r).prog = prog := hi.eq
        rw [e] at h4; exact h4
      | _ => exact .inl rfl
    rcases hnew with rfl | ⟨fn, name, g, j1, j2, rfl⟩
    · left; rw [k2]; simpa using hlen
    · right
      refine ⟨by rw [k2]; simp [hlen], _, g, fn, name, by rw [k2, ← hlen]; exact List.getElem?_concat_length, rfl, rfl, j1, ⟨j2.func, j2.block, j2.stmt, j2.keys⟩⟩

include B in
/-- C35: a thread has terminated iff it has no frames left. -/
theorem C35_terminated_iff (hr : Reachable prog s) (ht : t ∈ s.threads) : t.state = .terminated ↔ t.stack = [] :=
  ((hr.frames (B := B)).threads t ht).term

include B in
/-- C35: every frame below another one is suspended at a call terminator; the frame above it was entered by that
call, and returns to the blocks named there. The lowest frame has no caller. -/
theorem C35_suspended_at_call (hr : Reachable prog s) (ht : t ∈ s.threads) (k : Nat) {g : StackFrame (AllocId × PE) F}
    (hg : t.stack[k]? = some g) :
    (∀ g', t.stack[k + 1]? = some g' → ∃ c conv as rp n u p, g'.AtTerm (.call c conv as rp n u) ∧ g.stackPopAction = .backToCaller n u p) ∧
    (t.stack[k + 1]? = none → g.stackPopAction = .bottomOfStack) := by
  have := ((hr.frames (B := B)).threads t ht).stack
  revert this
  generalize t.stack = st at hg
  clear ht
  induction st generalizing k with
  | nil => simp at hg
  | cons f st ih =>
    intro hs
    cases k with
    | zero =>
      simp only [List.getElem?_cons_zero, Option.some.injEq] at hg
      subst hg
      have h2 := hs.2.2
      cases st with
      | nil => exact ⟨by simp, fun _ => h2⟩
      | cons g' st =>
        obtain ⟨c, conv, as, rp, n, u, p, e, hg⟩ := h2
        refine ⟨?_, by simp⟩
        intro g'' hg''
        simp only [Nat.zero_add, List.getElem?_cons_succ, List.getElem?_cons_zero, Option.some.injEq] at hg''
        subst hg''
        exact ⟨c, conv, as, rp, n, u, p, hg, e⟩
    | succ k =>
      simp only [List.getElem?_cons_succ] at hg ⊢
      exact ih k hg hs.2.1

include B in
/-- C35: a call that succeeds evaluates the return place, the callee and the arguments in this order; the callee is a
function with the calling convention of the call, as many arguments as the call, and with ABI-compatible types. Its
frame is fresh, will return to the blocks and the place named in the call, and the storage of each of its arguments
contains the encoding of the value passed. The caller stays at the call. -/
theorem C35_call (hr : Reachable prog s) (h : step s = .ok ((), s')) (hrun : s.Runs a r t f rest)
    {c conv as rp n u} (hat : f.AtTerm (.call c conv as rp n u)) :
    ∃ place retTy s1 s2 cv cty s3 fn args s4 t' g f',
      evalPlace rp (s.schedule a r) = .ok ((place, retTy), s1) ∧ prepareForInplacePassing place retTy s1 = .ok ((), s2) ∧
      evalValue c s2 = .ok ((cv, cty), s3) ∧ s3.fnFromPtr cv = .ok fn ∧ evalArguments as s3 = .ok (args, s4) ∧
      fn.callingConvention = conv ∧ (∃ ty, fn.locals.get? fn.ret = some ty ∧ abiCompat retTy ty = .ok true) ∧
      args.length = fn.args.length ∧
      s'.threads[a]? = some t' ∧ t'.stack = g :: f' :: rest ∧ f.Stays f' ∧ g.Fresh fn ∧
      g.stackPopAction = .backToCaller n u place.ptr.thin ∧
      ∀ (i : Nat) l v ty, fn.args[i]? = some l → args[i]? = some (v, ty) →
        ∃ ty' p bytes, fn.locals.get? l = some ty' ∧ abiCompat ty ty' = .ok true ∧ g.locals.get? l = some p ∧
          encode ty v = .ok bytes ∧ ∀ h : MemHistory PE, MemReach h s'.mem.memory → Contains h p bytes := by
  have hi := hr.frames (B := B)
  obtain ⟨hact, ht⟩ := hrun.term h hat
  unfold evalTerminator at ht
  simp only [EM.bind_eq_ok, EM.read_eq_ok, Prod.exists] at ht
  obtain ⟨place, rty, s1, h1, ⟨⟩, s2, h2, cv, cty, s3a, h3, fn, s3, ⟨h4, rfl⟩, args, s4, h5, h6⟩ := ht
  have hst1 : Steady (B := B) (s.schedule a r) s3 :=
    PreRel.trans _ _ _ ((Tri.steady (B := B) (tri_evalPlace _)).ok _ _ _ h1) (PreRel.trans _ _ _ (st_prepare.ok _ _ _ h2)
      ((Tri.steady (B := B) (tri_evalValue _)).ok _ _ _ h3))
  have hst : Steady (B := B) (s.schedule a r) s4 := PreRel.trans _ _ _ hst1 (st_evalArguments.ok _ _ _ h5)
  obtain ⟨t1, e, g1, g2, g3, g4⟩ := hst.top (t := t) hrun.thread hrun.stack
  unfold evalCall at h6
  simp only [EM.bind_eq_ok] at h6
  obtain ⟨g, s5, h7, h8⟩ := h6
  obtain ⟨name, hname⟩ := fnFromPtr_prog h4
  rw [hst1.prog] at hname
  have hwf := Function.wf (Program.checkWf_function hi.wf (by rw [← hi.eq]; exact hname))
  have hso : SlotsOk (allocs (B := B) s4.mem) (threadSlots s.threads) := SlotsOk.kept (m := (s.schedule a r).mem) hi.storage.ok hst.mem
  obtain ⟨b1, b2, b3, b4⟩ := createFrame_bytes (B := B) hwf.argsNodup hso h7
  obtain ⟨m, o, rfl, hfresh, tr⟩ := createFrame_trans (B := B) h7
  unfold pushFrame at h8
  simp only [EM.bind_eq_ok, EM.read_eq_ok, getActive_eq_ok, EM.modify_eq_ok] at h8
  obtain ⟨t2, _, ⟨k1, rfl⟩, rfl⟩ := h8
  have k1' : s4.threads[s4.activeThread]? = some t2 := k1
  rw [g1] at k1'; cases k1'
  have hact4 : s4.activeThread = a := hst.active
  refine ⟨place, rty, s1, s2, cv, cty, s3, fn, args, s4, { t1 with stack := g :: t1.stack }, g, { f with extra := e }, h1, h2, h3, h4, h5, b1, b2, b3, ?_, ?_,
    ⟨⟨rfl, rfl, rfl⟩, rfl, rfl⟩, ⟨hfresh.func, hfresh.block, hfresh.stmt, hfresh.keys⟩, hfresh.action, ?_⟩
  · show (s4.threads.set s4.activeThread _)[a]? = _
    rw [← hact4]
    exact List.getElem?_set_self (List.getElem?_eq_some_iff.1 g1).1
  · show g :: t1.stack = _
    rw [g2]
  · intro i l v ty e1 e2
    obtain ⟨ty', p, bytes, q1, q2, q3, q4, q5⟩ := b4 i l v ty e1 e2
    exact ⟨ty', p, bytes, q1, q2, q3, q4, fun h hh => AllocBytes.contains (B := B) hh q5⟩

include B in
/-- C35: when a call returns, the value its return local held, at the callee's return type, is what the
caller's return place contains afterwards, and the caller continues at the next block of its call. -/
theorem C35_return {g : StackFrame (AllocId × PE) F} (hr : Reachable prog s) (h : step s = .ok ((), s'))
    (hrun : s.Runs a r t f (g :: rest)) (hat : f.AtTerm .return) :
    ∃ b u rp ty n p bytes v bytes' t' g',
      f.stackPopAction = .backToCaller (some b) u rp ∧ f.func.locals.get? f.func.ret = some ty ∧ ty.size = .ok n ∧
      f.locals.get? f.func.ret = some p ∧ bytes.length = n ∧
      (∀ h : MemHistory PE, MemReach h s.mem.memory → Contains h p bytes) ∧
      decode ty bytes = .ok v ∧ encode ty v = .ok bytes' ∧
      (∀ h : MemHistory PE, MemReach h s'.mem.memory → Contains h rp bytes') ∧
      s'.threads[a]? = some t' ∧ t'.stack = g' :: rest ∧ g.MovedTo b g' := by
  have hi := hr.frames (B := B)
  obtain ⟨hact, ht⟩ := hrun.term h hat
  have hthr : (s.schedule a r).threads[(s.schedule a r).activeThread]? = some t := hrun.thread
  have hlt := (List.getElem?_eq_some_iff.1 hrun.thread).1
  unfold evalTerminator at ht; unfold evalReturn at ht
  simp only [EM.bind_eq_ok, EM.lift_eq_ok] at ht
  obtain ⟨fr, s1, h1, cty, _, ⟨hty, rfl⟩, al, _, ⟨_, rfl⟩, p, _, ⟨hp, rfl⟩, v, s2, h2, fr', s3, h3, _, s4, h4, h5⟩ := ht
  have h1c := h1
  obtain ⟨t1, r1, k1, k2, e1⟩ := popFrame_eq_ok.1 h1c
  rw [hthr] at k1; cases k1
  rw [hrun.stack] at k2; cases k2
  obtain ⟨n, bytes, m, hn, hl, e2, hdec, hchk⟩ := typedLoad_eq_ok.1 h2
  obtain ⟨_, rfl, tr, e4⟩ := pop_trans hthr hrun.stack h1 (typedLoad_mem (B := B) h2) h3 h4
  generalize s4.mem = m4 at e4 tr
  subst e4
  unfold returnAction at h5
  cases hact' : f.stackPopAction with
  | bottomOfStack =>
    simp only [hact'] at h5
    obtain ⟨_, t5, q1, q2, _⟩ := terminateActiveThread_eq_ok.1 h5
    simp only [List.getElem?_set_self (l := s.threads) hlt, Machine.schedule, Option.some.injEq] at q1
    subst q1
    simp at q2
  | backToCaller nb ub rp =>
    simp only [hact', EM.bind_eq_ok, EM.read_eq_ok, EM.lift_eq_ok, getActive_eq_ok] at h5
    obtain ⟨t5, _, ⟨k1, rfl⟩, _, _, ⟨_, rfl⟩, _, s6, k2, k3⟩ := h5
    obtain ⟨bytes', m', hv, henc, hsto, rfl⟩ := typedStore_eq_ok.1 k2
    obtain ⟨b, rfl, k3⟩ := jumpOrUb_eq_ok.1 k3
    obtain ⟨t6, f6, r6, j1, j2, rfl⟩ := jumpToBlock_eq_ok.1 k3
    simp only [List.getElem?_set_self (l := s.threads) hlt, Machine.schedule, Option.some.injEq] at j1
    subst j1
    simp only [List.cons.injEq] at j2
    obtain ⟨rfl, rfl⟩ := j2
    obtain ⟨hlen, hbytes⟩ := load_bytes (B := B) hl
    have hbytes' : AllocBytes (B.mem s.mem.memory).allocations p bytes := by
      rw [e1] at hbytes; exact hbytes
    refine ⟨b, ub, rp, cty, n, p, bytes, v, bytes', { t with stack := g.jumpToBlock b :: rest }, g.jumpToBlock b, rfl, Map.get_eq_ok.1 hty, hn, Map.get_eq_ok.1 hp, hlen,
      fun h hh => AllocBytes.contains (B := B) hh hbytes', hdec, henc, fun h hh => AllocBytes.contains (B := B) hh (store_bytes hsto), ?_, rfl,
      ⟨⟨rfl, rfl, rfl⟩, rfl, rfl⟩⟩
    · simp only [Machine.schedule, List.set_set]
      exact List.getElem?_set_self hlt

/-! ### C36: unwinding -/

include B in
/-- C36: as long as no frame executes a `Terminate` block, a thread has exactly one pending payload for each of its
frames that executes a `Cleanup` or `Catch` block; a frame in a `Terminate` block accounts for at least two. -/
theorem C36_pending_payloads (hst : prog.StartsOk) (hr : Reachable prog s) (ht : t ∈ s.threads) :
    framesIn .cleanup t.stack + framesIn .catch t.stack + 2 * framesIn .terminate t.stack ≤ t.unwindPayloads.length ∧
    (framesIn .terminate t.stack = 0 → t.unwindPayloads.length = framesIn .cleanup t.stack + framesIn .catch t.stack) :=
  (Reachable.pends (B := B) hst hr t ht).count

theorem framesIn_pos {k : BbKind} {blk : BasicBlock} : ∀ {st : List (StackFrame (AllocId × PE) F)}, f ∈ st → f.InBlock blk → blk.kind = k → 0 < framesIn k st := by
  intro st hf hb hk
  unfold framesIn
  rw [List.countP_pos_iff]
  refine ⟨f, hf, ?_⟩
  have hb' : f.func.blocks.get? f.nextBlock = some blk := hb
  rw [hb']
  simp [hk]

include B in
/-- C36: while some frame of a thread executes a block that is not a regular one, a payload is pending. -/
theorem C36_payload_available (hst : prog.StartsOk) (hr : Reachable prog s) (ht : t ∈ s.threads) (hf : f ∈ t.stack) {blk : BasicBlock}
    (hb : f.InBlock blk) (hk : blk.kind ≠ .regular) : t.unwindPayloads ≠ [] := by
  have h1 := (C36_pending_payloads (B := B) hst hr ht).1
  have h2 := framesIn_pos hf hb rfl
  intro h0
  rw [h0] at h1
  cases hkk : blk.kind <;> rw [hkk] at h2 hk <;> simp at h1 hk <;> omega

include B in
/-- C36: outside of unwinding, that is while all frames execute regular blocks, there are no payloads; in particular
a terminated thread has none. -/
theorem C36_no_payload_left (hst : prog.StartsOk) (hr : Reachable prog s) (ht : t ∈ s.threads)
    (hreg : ∀ f ∈ t.stack, ∃ blk, f.InBlock blk ∧ blk.kind = .regular) : t.unwindPayloads = [] := by
  have h1 := (C36_pending_payloads (B := B) hst hr ht).2
  have h0 : ∀ k, k ≠ BbKind.regular → framesIn k t.stack = 0 := by
    intro k hk
    unfold framesIn
    rw [List.countP_eq_zero]
    intro f hf
    obtain ⟨blk, hb, hr⟩ := hreg f hf
    have hb' : f.func.blocks.get? f.nextBlock = some blk := hb
    rw [hb']
    simp [hr, Ne.symm hk]
  have := h1 (h0 _ (by simp))
  rw [h0 _ (by simp), h0 _ (by simp)] at this
  exact List.length_eq_zero_iff.1 this

include B in
/-- C36: `StartUnwind` makes its operand, a thin pointer, the innermost payload and continues at the unwind block. -/
theorem C36_startUnwind (h : step s = .ok ((), s')) (hrun : s.Runs a r t f rest) {v b} (hat : f.AtTerm (.startUnwind v b)) :
    ∃ p s1 t' f', evalValue v (s.schedule a r) = .ok ((.ptr p, .ptr (.raw .none)), s1) ∧ s'.threads[a]? = some t' ∧
      t'.stack = f' :: rest ∧ f.MovedTo b f' ∧ t'.unwindPayloads = p.thin :: t.unwindPayloads := by
  obtain ⟨hact, ht⟩ := hrun.term h hat
  unfold evalTerminator at ht
  simp only [EM.bind_eq_ok, EM.lift_eq_ok] at ht
  obtain ⟨⟨v', ty⟩, _, h1, ptr, s1, ⟨h2, rfl⟩, _, s2, h3, h4⟩ := ht
  have hst := (Tri.steady (B := B) (tri_evalValue _)).ok _ _ _ h1
  obtain ⟨t1, e, g1, g2, g3, g4⟩ := hst.top (t := t) hrun.thread hrun.stack
  have hact1 : s1.activeThread = a := hst.active
  unfold pushPayload at h3
  simp only [EM.bind_eq_ok, EM.read_eq_ok, getActive_eq_ok, EM.modify_eq_ok] at h3
  obtain ⟨t2, _, ⟨k1, rfl⟩, rfl⟩ := h3
  rw [g1] at k1; cases k1
  have hlt1 := (List.getElem?_eq_some_iff.1 g1).1
  obtain ⟨t3, f3, r3, k1, k2, rfl⟩ := jumpToBlock_eq_ok.1 h4
  simp only [Machine.setActive, List.getElem?_set_self hlt1, Option.some.injEq] at k1
  subst k1
  simp only [g2] at k2
  cases k2
  unfold unwindPayload at h2
  split at h2
  · rename_i pp heq
    cases heq
    cases h2
    refine ⟨pp, _, { t1 with stack := StackFrame.jumpToBlock { f with extra := e } b :: rest, unwindPayloads := pp.thin :: t1.unwindPayloads },
      StackFrame.jumpToBlock { f with extra := e } b, h1, ?_, rfl, ⟨⟨rfl, rfl, rfl⟩, rfl, rfl⟩, by rw [← g3]⟩
    simp only [Machine.setActive, List.set_set]
    rw [← hact1]
    exact List.getElem?_set_self hlt1
  · cases h2

include B in
/-- C36: `ResumeUnwind` pops the frame and continues in its caller at the unwind block of the call; the pending
payloads stay. It cannot succeed if the call has no unwind block, or in the lowest frame of a thread. -/
theorem C36_resumeUnwind (h : step s = .ok ((), s')) (hrun : s.Runs a r t f rest) (hat : f.AtTerm .resumeUnwind) :
    ∃ n b rp g rest' t' g', f.stackPopAction = .backToCaller n (some b) rp ∧ rest = g :: rest' ∧
      s'.threads[a]? = some t' ∧ t'.stack = g' :: rest' ∧ g.MovedTo b g' ∧ t'.unwindPayloads = t.unwindPayloads := by
  obtain ⟨hact, ht⟩ := hrun.term h hat
  have hthr : (s.schedule a r).threads[(s.schedule a r).activeThread]? = some t := hrun.thread
  have hlt := (List.getElem?_eq_some_iff.1 hrun.thread).1
  unfold evalTerminator at ht; unfold evalResumeUnwind at ht
  simp only [EM.bind_eq_ok] at ht
  obtain ⟨fr, s1, h1, fr', s3, h3, _, s4, h4, h5⟩ := ht
  obtain ⟨rfl, rfl, tr, e4⟩ := pop_trans (B := B) hthr hrun.stack h1 ⟨_, rfl, .refl⟩ h3 h4
  generalize s4.mem = m4 at e4 tr
  subst e4
  cases hact' : fr.stackPopAction with
  | bottomOfStack => simp only [hact', EM.throw] at h5; cases h5
  | backToCaller nb ub rp =>
    simp only [hact'] at h5
    obtain ⟨b, rfl, k3⟩ := jumpOrUb_eq_ok.1 h5
    obtain ⟨t6, f6, r6, j1, j2, rfl⟩ := jumpToBlock_eq_ok.1 k3
    simp only [List.getElem?_set_self (l := s.threads) hlt, Machine.schedule, Option.some.injEq] at j1
    subst j1
    simp only at j2
    subst j2
    refine ⟨nb, b, rp, f6, r6, { t with stack := f6.jumpToBlock b :: r6 }, f6.jumpToBlock b, rfl, rfl, ?_, rfl, ⟨⟨rfl, rfl, rfl⟩, rfl, rfl⟩, rfl⟩
    simp only [Machine.schedule, List.set_set]
    exact List.getElem?_set_self hlt

/-- The next instruction of a running thread at a terminator. -/
theorem Machine.Runs.execStep_term (hrun : s.Runs a r t f rest) {term} (hat : f.AtTerm term) :
    execStep (s.schedule a r) = evalTerminator term (s.schedule a r) := by
  obtain ⟨blk, k1, k2, rfl⟩ := hat
  unfold execStep
  have e1 : (EM.read fun s => s.curFrame : EM M (AllocId × PE) F _) (s.schedule a r) = .ok (f, s.schedule a r) := by
    rw [EM.read_eq_ok]; exact ⟨curFrame_eq_ok.2 ⟨t, rest, hrun.thread, hrun.stack⟩, rfl⟩
  rw [EM.bind_of_ok e1]
  have e2 : (EM.lift (f.func.blocks.get f.nextBlock) : EM M (AllocId × PE) F _) (s.schedule a r) = .ok (blk, s.schedule a r) := by
    rw [EM.lift_eq_ok]; exact ⟨Map.get_eq_ok.2 k1, rfl⟩
  rw [EM.bind_of_ok e2, if_pos k2]

include B in
/-- C36: `StopUnwind` always finds a payload to drop and continues at its target. -/
theorem C36_stopUnwind_proceeds (hst : prog.StartsOk) (hr : Reachable prog s) (hrun : s.Runs a r t f rest) {b}
    (hat : f.AtTerm (.stopUnwind b)) : ∃ s1 p t' f', execStep (s.schedule a r) = .ok ((), s1) ∧ s1.threads[a]? = some t' ∧
      t'.stack = f' :: rest ∧ f.MovedTo b f' ∧ t.unwindPayloads = p :: t'.unwindPayloads := by
  have hi := hr.frames (B := B)
  have htm := List.mem_of_getElem? hrun.thread
  have hfm : f ∈ t.stack := by rw [hrun.stack]; exact List.mem_cons_self ..
  obtain ⟨blk, hb, hpos, hterm⟩ := hat
  have hso := (hi.threads t htm).stack
  rw [hrun.stack, hi.eq] at hso
  obtain ⟨name, hname⟩ := hso.1.func
  have hw := (Function.wf (Program.checkWf_function hi.wf hname)).terms _ _ hb
  rw [← hterm] at hw
  simp only [Terminator.checkWf, Res.bind_eq_ok, ensureWf_eq_ok, beq_iff_eq] at hw
  obtain ⟨_, hk, _⟩ := hw
  have hne := C36_payload_available (B := B) hst hr htm hfm hb (by rw [hk]; simp)
  rw [hrun.execStep_term ⟨blk, hb, hpos, hterm⟩]
  cases hpl : t.unwindPayloads with
  | nil => exact absurd hpl hne
  | cons p pl =>
    have hterm' : evalTerminator (.stopUnwind b) (s.schedule a r) = (do popPayload; jumpToBlock b : EM M (AllocId × PE) F Unit) (s.schedule a r) := rfl
    rw [hterm']
    have hthr : (s.schedule a r).threads[(s.schedule a r).activeThread]? = some t := hrun.thread
    have hlt := (List.getElem?_eq_some_iff.1 hrun.thread).1
    have e1 : popPayload (s.schedule a r) = .ok ((), (s.schedule a r).setActive { t with unwindPayloads := pl }) :=
      popPayload_eq_ok.2 ⟨t, p, pl, hthr, hpl, rfl⟩
    rw [EM.bind_of_ok e1]
    refine ⟨_, p, { t with stack := f.jumpToBlock b :: rest, unwindPayloads := pl }, f.jumpToBlock b,
      jumpToBlock_eq_ok.2 ⟨{ t with unwindPayloads := pl }, f, rest, ?_, hrun.stack, rfl⟩, ?_, rfl, ⟨⟨rfl, rfl, rfl⟩, rfl, rfl⟩, rfl⟩
    · exact List.getElem?_set_self hlt
    · simp only [Machine.setActive, List.set_set]
      exact List.getElem?_set_self hlt

include B in
/-- C36: `GetUnwindPayload` in a block that is not a regular one gives the innermost payload, the one that the most
recent pending `StartUnwind` provided. -/
theorem C36_getUnwindPayload (hst : prog.StartsOk) (hr : Reachable prog s) (hrun : s.Runs a r t f rest)
    {blk : BasicBlock} (hb : f.InBlock blk) (hk : blk.kind ≠ .regular) :
    ∃ p pl, t.unwindPayloads = p :: pl ∧ evalIntrinsic .getUnwindPayload [] (.ptr (.raw .none)) (s.schedule a r) = .ok (.ptr ⟨p, none⟩, s.schedule a r) := by
  have ht := hrun.thread
  have hs := hrun.stack
  have hne := C36_payload_available (B := B) hst hr (List.mem_of_getElem? ht) (by rw [hs]; exact List.mem_cons_self ..) hb hk
  cases hpl : t.unwindPayloads with
  | nil => exact absurd hpl hne
  | cons p pl =>
    refine ⟨p, pl, rfl, ?_⟩
    unfold evalIntrinsic intrinsicGetUnwindPayload requireUb
    simp only [EM.bind_eq_ok, EM.lift_eq_ok, EM.read_eq_ok, getActive_eq_ok]
    refine ⟨(), s.schedule a r, ⟨rfl, rfl⟩, (), s.schedule a r, ⟨rfl, rfl⟩, t, s.schedule a r, ⟨ht, rfl⟩, ?_⟩
    rw [hpl]; rfl

/-! ### C46: control flow inside a function -/

include B in
/-- C46: every frame of a reachable state is inside a block of its function, at one of its statements or at its
terminator. -/
theorem C46_in_block (hst : prog.StartsOk) (hr : Reachable prog s) (ht : t ∈ s.threads) (hf : f ∈ t.stack) :
    (∃ name, prog.functions.get? name = some f.func) ∧ ((∃ st, f.AtStmt st) ∨ ∃ term, f.AtTerm term) := by
  have hi := hr.frames (B := B)
  refine ⟨?_, ?_⟩
  · have := (hi.threads t ht).stack
    rw [hi.eq] at this
    clear ht
    revert this hf
    generalize t.stack = st
    intro hf hs
    induction st with
    | nil => simp at hf
    | cons g st ih =>
      rcases List.mem_cons.1 hf with rfl | hf
      · exact hs.1.func
      · exact ih hf hs.2.1
  · obtain ⟨blk, hb, hle⟩ := (Reachable.pends (B := B) hst hr t ht).block f hf
    rcases Nat.lt_or_eq_of_le hle with hlt | heq
    · exact .inl ⟨_, blk, hb, List.getElem?_eq_getElem hlt⟩
    · exact .inr ⟨_, blk, hb, heq, rfl⟩

include B in
/-- C46: `Switch` continues at the case for the value of its operand, and at the fallback if there is none. -/
theorem C46_switch (h : step s = .ok ((), s')) (hrun : s.Runs a r t f rest) {v cases fb}
    (hat : f.AtTerm (.switch v cases fb)) : ∃ i ty s1 b t' f', evalValue v (s.schedule a r) = .ok ((.int i, ty), s1) ∧
      (cases.get? i = some b ∨ (cases.get? i = none ∧ b = fb)) ∧ s'.threads[a]? = some t' ∧ t'.stack = f' :: rest ∧ f.MovedTo b f' := by
  obtain ⟨hact, ht⟩ := hrun.term h hat
  unfold evalTerminator at ht
  simp only [EM.bind_eq_ok, EM.lift_eq_ok, Prod.exists] at ht
  obtain ⟨v, ty, s1, h1, b, _, ⟨h2, rfl⟩, h3⟩ := ht
  obtain ⟨t', e, ha, g1, g2, g3, g4, g5⟩ := jump_after ((Tri.steady (B := B) (tri_evalValue _)).ok _ _ _ h1) h3 (t := t) hrun.thread hrun.stack
  rw [hact] at g1
  cases v with
  | int i =>
    refine ⟨i, ty, _, b, t', _, h1, ?_, g1, g2, ⟨⟨rfl, rfl, rfl⟩, rfl, rfl⟩⟩
    simp only [switchTarget, Except.ok.injEq] at h2
    cases hg : cases.get? i with
    | none => right; rw [hg] at h2; exact ⟨rfl, h2.symm⟩
    | some b' => left; rw [hg] at h2; exact congrArg some h2
  | _ => cases h2

/-- C46: `Unreachable` is undefined behaviour. -/
theorem C46_unreachable (hrun : s.Runs a r t f rest) (hat : f.AtTerm .unreachable) : step s = .error .ub := by
  refine step_of_execStep_error hrun.oracle ?_ (by rw [hrun.execStep_term hat]; rfl)
  unfold Machine.threadState
  rw [hrun.thread]; simp [hrun.enabled]

/-- C46: `Goto` always proceeds. -/
theorem C46_goto_proceeds (hrun : s.Runs a r t f rest) {b} (hat : f.AtTerm (.goto b)) : ∃ s1 t' f', execStep (s.schedule a r) = .ok ((), s1) ∧
    s1.threads[a]? = some t' ∧ t'.stack = f' :: rest ∧ f.MovedTo b f' ∧ s1.mem = (s.schedule a r).mem := by
  rw [hrun.execStep_term hat]
  unfold evalTerminator
  refine ⟨_, { t with stack := f.jumpToBlock b :: rest }, f.jumpToBlock b, jumpToBlock_eq_ok.2 ⟨t, f, rest, hrun.thread, hrun.stack, rfl⟩, ?_, rfl,
    ⟨⟨rfl, rfl, rfl⟩, rfl, rfl⟩, rfl⟩
  exact List.getElem?_set_self (List.getElem?_eq_some_iff.1 hrun.thread).1

/-! ### C49: storage of locals -/

theorem mem_threadSlots {sl : Slot PE} : sl ∈ threadSlots s.threads ↔
    ∃ (i k : Nat) (t : Thread (AllocId × PE) F) (f : StackFrame (AllocId × PE) F), s.threads[i]? = some t ∧ t.stack[k]? = some f ∧ f.func = sl.func ∧ (sl.l, sl.ptr) ∈ f.locals := by
  unfold threadSlots stackSlots slotsOf
  simp only [List.mem_flatMap, List.mem_map, Prod.exists]
  constructor
  · rintro ⟨t, ht, f, hf, l, p, hl, rfl⟩
    obtain ⟨i, hi⟩ := List.mem_iff_getElem?.1 ht
    obtain ⟨k, hk⟩ := List.mem_iff_getElem?.1 hf
    exact ⟨i, k, t, f, hi, hk, rfl, hl⟩
  · rintro ⟨i, k, t, f, hi, hk, hf, hl⟩
    exact ⟨t, List.mem_of_getElem? hi, f, List.mem_of_getElem? hk, sl.l, sl.ptr, hl, by rw [hf]⟩

theorem StackOk.mem : ∀ {st : List (StackFrame (AllocId × PE) F)}, StackOk prog st → f ∈ st → FrameOk prog f
  | g :: st, hs, hf => by
    rcases List.mem_cons.1 hf with rfl | hf
    · exact hs.1
    · exact StackOk.mem hs.2.1 hf

theorem Map.get?_of_mem_nodup {K V : Type} [DecidableEq K] : ∀ {m : Map K V} {k : K} {v : V}, m.keys.Nodup → (k, v) ∈ m → m.get? k = some v
  | (k', v') :: m, k, v, hn, hm => by
    simp only [Map.keys, List.map_cons, List.nodup_cons] at hn
    rcases List.mem_cons.1 hm with e | hm
    · cases e; simp [Map.get?]
    · have : k' ≠ k := by
        rintro rfl
        exact hn.1 (List.mem_map.2 ⟨_, hm, rfl⟩)
      simp only [Map.get?, if_neg this]
      exact Map.get?_of_mem_nodup hn.2 hm

/-- A live local is a slot. -/
theorem Machine.LocalAt.slot {i k l} {p : ThinPtr (AllocId × PE)} (hl : s.LocalAt i k l p) :
    ∃ t f, s.threads[i]? = some t ∧ t.stack[k]? = some f ∧ f.locals.get? l = some p ∧ (⟨f.func, l, p⟩ : Slot PE) ∈ threadSlots s.threads := by
  obtain ⟨t, f, h1, h2, h3⟩ := hl
  exact ⟨t, f, h1, h2, h3, mem_threadSlots.2 ⟨i, k, t, f, h1, h2, rfl, Map.get?_mem h3⟩⟩

theorem Slot.id_eq {sl : Slot PE} {id} : sl.id = some id ↔ sl.ptr.HasId id := by
  unfold Slot.id ThinPtr.HasId
  cases h : sl.ptr.prov with
  | none => simp
  | some q =>
    obtain ⟨i, pe⟩ := q
    simp

include B in
/-- C49: every live local, of any frame of any thread, has a live stack allocation of its own, which has the size and
the alignment of the local's type and starts where the local's pointer points. -/
theorem C49_local_storage (hr : Reachable prog s) (hm : MemReach (F := F) h s.mem.memory) {i k l p} (hl : s.LocalAt i k l p) :
    ∃ t f ty n al id, s.threads[i]? = some t ∧ t.stack[k]? = some f ∧ f.func.locals.get? l = some ty ∧ ty.layout = .ok (.sized n al) ∧
      p.HasId id ∧ LiveIn h id ⟨.stack, n, al, p.addr⟩ := by
  obtain ⟨t, f, h1, h2, h3, h4⟩ := hl.slot
  obtain ⟨ty, n, al, id, x, k1, k2, k3, k4, k5, k6, k7, k8, k9⟩ := (hr.frames (B := B)).storage.ok.ok _ h4
  refine ⟨t, f, ty, n, al, id, h1, h2, k1, k2, Slot.id_eq.1 k3, (live_iff (B := B) hm).2 ⟨x, k4, k9, ?_⟩⟩
  unfold Alloc.info Alloc.size
  rw [k5, k6, k7, k8]

theorem flatMap_index {α β : Type} {g : α → List β} : ∀ {l : List α}, (l.flatMap g).Nodup → ∀ {i j : Nat} {x y b}, l[i]? = some x → l[j]? = some y →
    b ∈ g x → b ∈ g y → i = j
  | [], _, i, j, x, y, b, hi, _, _, _ => by simp at hi
  | z :: l, hn, i, j, x, y, b, hi, hj, hx, hy => by
    rw [List.flatMap_cons, List.nodup_append] at hn
    cases i with
    | zero =>
      cases j with
      | zero => rfl
      | succ j =>
        simp only [List.getElem?_cons_zero, List.getElem?_cons_succ, Option.some.injEq] at hi hj
        subst hi
        exact absurd rfl (hn.2.2 b hx b (List.mem_flatMap.2 ⟨y, List.mem_of_getElem? hj, hy⟩))
    | succ i =>
      cases j with
      | zero =>
        simp only [List.getElem?_cons_zero, List.getElem?_cons_succ, Option.some.injEq] at hi hj
        subst hj
        exact absurd rfl (hn.2.2 b hy b (List.mem_flatMap.2 ⟨x, List.mem_of_getElem? hi, hx⟩))
      | succ j =>
        simp only [List.getElem?_cons_succ] at hi hj
        rw [flatMap_index hn.2.1 hi hj hx hy]

theorem flatMap_nodup_mem {α β : Type} {g : α → List β} : ∀ {l : List α}, (l.flatMap g).Nodup → ∀ {x}, x ∈ l → (g x).Nodup
  | z :: l, hn, x, hx => by
    rw [List.flatMap_cons, List.nodup_append] at hn
    rcases List.mem_cons.1 hx with rfl | hx
    · exact hn.1
    · exact flatMap_nodup_mem hn.2.1 hx

include B in
/-- C49: different locals, frames or threads never share storage. -/
theorem C49_distinct (hr : Reachable prog s) {i k l p i' k' l' p' id} (hl : s.LocalAt i k l p) (hl' : s.LocalAt i' k' l' p')
    (hid : p.HasId id) (hid' : p'.HasId id) : i = i' ∧ k = k' ∧ l = l' := by
  obtain ⟨t, f, h1, h2, h3⟩ := hl
  obtain ⟨t', f', g1, g2, g3⟩ := hl'
  have hn := (hr.frames (B := B)).storage.ok.nodup
  have e : (threadSlots s.threads).map Slot.id = s.threads.flatMap fun t => t.stack.flatMap fun f => (slotsOf f).map Slot.id := by
    unfold threadSlots stackSlots
    simp only [List.map_flatMap]
  rw [e] at hn
  have m1 : some id ∈ (slotsOf f).map Slot.id :=
    List.mem_map.2 ⟨⟨f.func, l, p⟩, List.mem_map.2 ⟨(l, p), Map.get?_mem h3, rfl⟩, Slot.id_eq.2 hid⟩
  have m2 : some id ∈ (slotsOf f').map Slot.id :=
    List.mem_map.2 ⟨⟨f'.func, l', p'⟩, List.mem_map.2 ⟨(l', p'), Map.get?_mem g3, rfl⟩, Slot.id_eq.2 hid'⟩
  have hi := flatMap_index hn h1 g1 (List.mem_flatMap.2 ⟨f, List.mem_of_getElem? h2, m1⟩) (List.mem_flatMap.2 ⟨f', List.mem_of_getElem? g2, m2⟩)
  subst hi
  rw [h1] at g1; cases g1
  have hn2 := flatMap_nodup_mem hn (List.mem_of_getElem? h1)
  have hk := flatMap_index hn2 h2 g2 m1 m2
  subst hk
  rw [h2] at g2; cases g2
  have hn3 := flatMap_nodup_mem hn2 (List.mem_of_getElem? h2)
  unfold slotsOf at hn3
  rw [List.map_map] at hn3
  have := List.inj_on_of_nodup_map hn3 (Map.get?_mem h3) (Map.get?_mem g3)
    ((Slot.id_eq (sl := ⟨f.func, l, p⟩)).2 hid |>.trans ((Slot.id_eq (sl := ⟨f.func, l', p'⟩)).2 hid').symm)
  exact ⟨rfl, rfl, congrArg Prod.fst this⟩

include B in
/-- C49: every live stack allocation is the storage of a live local. -/
theorem C49_no_other_stack_memory (hr : Reachable prog s) (hm : MemReach (F := F) h s.mem.memory) {id i} (hl : LiveIn h id i) (hk : i.kind = .stack) :
    ∃ j k l p, s.LocalAt j k l p ∧ p.HasId id := by
  have hi := hr.frames (B := B)
  obtain ⟨x, h1, h2, h3⟩ := (live_iff (B := B) hm).1 hl
  obtain ⟨sl, hs, hid⟩ := hi.storage.all id x h1 (by rw [h3] at hk; exact hk) h2
  obtain ⟨j, k, t, f, g1, g2, g3, g4⟩ := mem_threadSlots.1 hs
  have hf := ((hi.threads t (List.mem_of_getElem? g1)).stack).mem (List.mem_of_getElem? g2)
  exact ⟨j, k, sl.l, sl.ptr, ⟨t, f, g1, g2, Map.get?_of_mem_nodup hf.nodup g4⟩, Slot.id_eq.1 hid⟩

include B in
/-- C49: the return local and the arguments of a function are live in all its frames. -/
theorem C49_ret_and_args_live (hr : Reachable prog s) (ht : t ∈ s.threads) (hf : f ∈ t.stack) {l}
    (hl : l = f.func.ret ∨ l ∈ f.func.args) : ∃ p, f.locals.get? l = some p := by
  have := (((hr.frames (B := B)).threads t ht).stack).mem hf
  have hk : l ∈ f.locals.keys := by
    rcases hl with rfl | hl
    · exact this.ret
    · exact this.args l hl
  rwa [← Map.get?_isSome_iff] at hk

include B in
/-- The allocation of a local that is gone after a step is dead. -/
theorem dead_of_gone (hr : Reachable prog s) (h0 : step s = .ok ((), s')) {sl : Slot PE} {id} (hs : sl ∈ threadSlots s.threads) (hid : sl.id = some id)
    (hgone : ∀ sl' ∈ threadSlots s'.threads, sl'.id ≠ some id) (hm : MemReach (F := F) h s'.mem.memory) (i : AllocInfo) : ¬ LiveIn h id i := by
  intro hl
  have hi := hr.frames (B := B)
  obtain ⟨ty, n, al, id', x, k1, k2, k3, k4, k5, k6, k7, k8, k9⟩ := hi.storage.ok.ok _ hs
  rw [hid] at k3; cases k3
  obtain ⟨hh, hreach⟩ := hr.memReach
  obtain ⟨h2, hrun, _⟩ := step_memRun h0
  have hreach' : MemReach (h2 ++ hh) s'.mem.memory := hreach.append hrun
  have hwas := (MemReach.rep (B := B) hreach).was id x k4
  obtain ⟨p, hp, hp2⟩ := hwas
  obtain ⟨x', e1, e2⟩ := (MemReach.rep (B := B) hreach').conv id x.info ⟨p, List.mem_append_right _ hp, hp2⟩
  obtain ⟨x2, f1, f2, f3⟩ := (live_iff (B := B) hm).1 hl
  have : x' = x2 := Option.some.inj (e1.symm.trans f1)
  subst this
  have hkind : x'.kind = .stack := by rw [← k5]; exact (congrArg AllocInfo.kind e2).symm
  obtain ⟨sl', hs', hid'⟩ := (hi.next h0).storage.all id x' f1 hkind f2
  exact hgone sl' hs' hid'

/-- The slots of all threads, around a step. -/
theorem slots_around (hi : FramesInv (B := B) prog s) (h0 : step s = .ok ((), s')) (hrun : s.Runs a r t f rest) :
    ∃ blk t' new R, f.InBlock blk ∧ s'.threads[a]? = some t' ∧ Move (B := B) (s.schedule a r) s' t t' f rest blk new ∧
      (threadSlots s.threads).Perm (slotsOf f ++ (stackSlots rest ++ R)) ∧
      (threadSlots s'.threads).Perm (threadSlots new ++ (stackSlots t'.stack ++ R)) := by
  obtain ⟨blk, hb, hact, sm, t', new, ha, h1, h2, h3, h4, h5, hmv⟩ := hrun.effect hi h0
  obtain ⟨R, p1, p2⟩ := ha.slots (t := t) hrun.thread h1
  rw [hrun.stack, stackSlots_cons, List.append_assoc] at p1
  have h1' : sm.threads[a]? = some t' := h1
  refine ⟨blk, t', new, R, hb, ?_, hmv, p1, ?_⟩
  · rw [h2, List.getElem?_append_left (List.getElem?_eq_some_iff.1 h1').1, h1']
  · rw [h2]
    unfold threadSlots
    rw [List.flatMap_append]
    exact List.perm_append_comm.trans (p2.append_left _)

include B in
/-- C49: when a frame is popped, by a return or by resuming to unwind, the storage of all its locals is dead. -/
theorem C49_popped_dead (hr : Reachable prog s) (h0 : step s = .ok ((), s')) (hrun : s.Runs a r t f rest)
    (hat : f.AtTerm .return ∨ f.AtTerm .resumeUnwind) {l p id} (hl : f.locals.get? l = some p) (hid : p.HasId id)
    (hm : MemReach (F := F) h s'.mem.memory) (i : AllocInfo) : ¬ LiveIn h id i := by
  have hi := hr.frames (B := B)
  obtain ⟨blk, t', new, R, hb, ht', hmv, p1, p2⟩ := slots_around hi h0 hrun
  have hms : (⟨f.func, l, p⟩ : Slot PE) ∈ slotsOf f := List.mem_map.2 ⟨(l, p), Map.get?_mem hl, rfl⟩
  have hsid := (Slot.id_eq (sl := ⟨f.func, l, p⟩)).2 hid
  refine dead_of_gone hr h0 (p1.mem_iff.2 (List.mem_append_left _ hms)) hsid ?_ hm i
  have hn := hi.storage.ok.nodup
  rw [(p1.map Slot.id).nodup_iff, List.map_append, List.nodup_append] at hn
  intro sl' hs' he
  have hterm : blk.terminator = .return ∨ blk.terminator = .resumeUnwind ∧ f.nextStmt = blk.statements.length := by
    rcases hat with ⟨b2, e1, e2, e3⟩ | ⟨b2, e1, e2, e3⟩
    · have : b2 = blk := Option.some.inj (e1.symm.trans hb)
      subst this; exact .inl e3.symm
    · have : b2 = blk := Option.some.inj (e1.symm.trans hb)
      subst this; exact .inr ⟨e3.symm, e2⟩
  have hpos : f.nextStmt = blk.statements.length := by
    rcases hat with ⟨b2, e1, e2, e3⟩ | ⟨b2, e1, e2, e3⟩ <;>
    · have : b2 = blk := Option.some.inj (e1.symm.trans hb)
      subst this; exact e2
  have hkey : sl' ∈ stackSlots rest ++ R := by
    have hs2 := p2.mem_iff.1 hs'
    cases hmv with
    | stmt st f' h1 => exact absurd (List.getElem?_eq_some_iff.1 h1).1 (by omega)
    | jump b e _ h1 h2 h3 =>
      rcases hterm with e | ⟨e, _⟩ <;> rw [e] at h3 <;> exact h3.elim
    | call c conv as r n u fn nm g e p h1 h2 =>
      rcases hterm with e | ⟨e, _⟩ <;> rw [e] at h2 <;> cases h2
    | ret n u p b g rest' h1 h2 h3 h4 h5 h6 h7 h8 =>
      rw [h5] at hs2
      rw [h3]
      exact hs2
    | bottom h1 h2 h3 h4 h5 h6 h7 h8 =>
      rw [h5] at hs2
      rw [h3]
      exact hs2
  exact hn.2.2 _ (List.mem_map.2 ⟨_, hms, rfl⟩) _ (List.mem_map.2 ⟨_, hkey, rfl⟩) (hsid.trans he.symm)

/-- New storage for a local. -/
theorem storageLive_new {fr fr' : StackFrame (AllocId × PE) F} {l} (h : storageLive fr l s = .ok (fr', s')) :
    ∃ ty n al ptr ae, (∃ m o, s' = { s with mem := m, oracle := o }) ∧ fr.func.locals.get? l = some ty ∧ ty.layout = .ok (.sized n al) ∧
      fr' = { fr with locals := (fr.locals.erase l).insert l ptr } ∧
      ptr.prov.map (·.1) = some (allocs (B := B) s.mem).length ∧
      (allocs (B := B) s'.mem)[(allocs (B := B) s.mem).length]? = some ⟨List.replicate n .uninit, ptr.addr, al, .stack, true, ae⟩ := by
  unfold MiniRust.storageLive at h
  simp only [EM.bind_eq_ok, EM.lift_eq_ok, Prod.exists, EM.pure_eq_ok] at h
  obtain ⟨fr1, _, h1, n, a, s1, ⟨hlay, rfl⟩, ptr, s2, h2, rfl, rfl⟩ := h
  obtain ⟨m2, o, ae, rfl, hid, e⟩ := memAllocate_allocs (B := B) h2
  obtain ⟨ty, hty, hl⟩ := localLayout_eq_ok.1 hlay
  have hlen : (allocs (B := B) s1.mem).length = (allocs (B := B) s.mem).length ∧ fr1 = { fr with locals := fr.locals.erase l } := by
    refine ⟨?_, (storageDead_trans (B := B) h1).choose_spec.2.1⟩
    unfold MiniRust.storageDead at h1
    simp only [EM.bind_eq_ok, EM.lift_eq_ok, Prod.exists] at h1
    obtain ⟨_, _, _, ⟨_, rfl⟩, h1⟩ := h1
    cases hg : fr.locals.get? l with
    | none => rw [hg] at h1; cases h1; rfl
    | some p =>
      rw [hg] at h1
      simp only [EM.bind_eq_ok, EM.pure_eq_ok] at h1
      obtain ⟨_, _, hd, rfl, rfl⟩ := h1
      obtain ⟨m, id, x, ae, rfl, _, _, _, e⟩ := memDeallocate_allocs (B := B) hd
      show (allocs (B := B) m).length = _
      rw [e]; simp
  obtain ⟨hlen, rfl⟩ := hlen
  rw [hlen] at hid
  refine ⟨ty, n, a, ptr, ae, ?_, hty, hl, rfl, hid, ?_⟩
  · obtain ⟨m, rfl, _⟩ := storageDead_trans (B := B) h1
    exact ⟨m2, o, rfl⟩
  show (allocs (B := B) m2)[_]? = _
  rw [e, ← hlen]
  exact List.getElem?_concat_length

/-- A `StorageLive` statement of a running thread. -/
theorem runs_storageLive (hrun : s.Runs a r t f rest) (h : step s = .ok ((), s')) {l} (hat : f.AtStmt (.storageLive l)) :
    ∃ t' f' ty n al ptr ae, s'.threads[a]? = some t' ∧ t'.stack = f' :: rest ∧ f.func.locals.get? l = some ty ∧
      ty.layout = .ok (.sized n al) ∧ f'.locals = (f.locals.erase l).insert l ptr ∧ f'.func = f.func ∧
      ptr.prov.map (·.1) = some (allocs (B := B) s.mem).length ∧
      (allocs (B := B) s'.mem)[(allocs (B := B) s.mem).length]? = some ⟨List.replicate n .uninit, ptr.addr, al, .stack, true, ae⟩ := by
  obtain ⟨hact, blk, hb, hex⟩ := hrun.exec h
  obtain ⟨blk', k1, k2⟩ := hat
  have : blk' = blk := Option.some.inj (k1.symm.trans hb)
  subst this
  have hlt' := (List.getElem?_eq_some_iff.1 k2).1
  rcases hex with ⟨e, _⟩ | ⟨_, st, s1, v, h1, h2, h3⟩
  · omega
  rw [k2] at h1; cases h1
  unfold evalStatement at h2
  rw [mutateCurFrame_ok (fun fr s r s1 h => by
    simp only [EM.bind_eq_ok, EM.pure_eq_ok] at h
    obtain ⟨x, y, hx, _, rfl⟩ := h
    unfold MiniRust.storageLive at hx
    simp only [EM.bind_eq_ok, EM.lift_eq_ok, Prod.exists, EM.pure_eq_ok] at hx
    obtain ⟨fr1, s1, h1, n, a, _, ⟨hlay, rfl⟩, ptr, s2, h2, rfl, rfl⟩ := hx
    obtain ⟨m, rfl, _⟩ := storageDead_trans (B := B) h1
    obtain ⟨m2, o, ae, rfl, _⟩ := memAllocate_allocs (B := B) h2
    exact ⟨rfl, rfl⟩)] at h2
  obtain ⟨t2, f2, r2, f2', s2, k1, k3, k4, rfl⟩ := h2
  have k1' : s.threads[a]? = some t2 := k1
  rw [hrun.thread] at k1'; cases k1'
  rw [hrun.stack] at k3; cases k3
  simp only [EM.bind_eq_ok, EM.pure_eq_ok] at k4
  obtain ⟨x, y, hx, e1, rfl⟩ := k4
  cases e1
  obtain ⟨ty, n, al, ptr, ae, ⟨my, oy, ey⟩, q1, q2, q3, q4, q5⟩ := storageLive_new (B := B) hx
  subst q3
  unfold bumpStmt at h3
  rw [mutateCurFrame_ok (fun fr s r s1 h => by cases h; exact ⟨rfl, rfl⟩)] at h3
  obtain ⟨t3, f3, r3, f3', s3, j1, j2, j3, rfl⟩ := h3
  cases j3
  have hlt := (List.getElem?_eq_some_iff.1 hrun.thread).1
  have hsched : (s.schedule a r).activeThread = a := rfl
  subst ey
  simp only [Machine.schedule, List.getElem?_set_self hlt, Option.some.injEq] at j1
  subst j1
  cases j2
  refine ⟨{ t with stack := { f with locals := (f.locals.erase l).insert l ptr, nextStmt := f.nextStmt + 1 } :: rest },
    { f with locals := (f.locals.erase l).insert l ptr, nextStmt := f.nextStmt + 1 }, ty, n, al, ptr, ae, ?_, rfl, q1, q2, rfl, rfl, q4, q5⟩
  simp only [Machine.schedule, List.set_set]
  exact List.getElem?_set_self hlt

include B in
/-- C49: `StorageDead` ends the storage of its local, and so does `StorageLive` for the storage the local had before. -/
theorem C49_storageDead (hr : Reachable prog s) (h0 : step s = .ok ((), s')) (hrun : s.Runs a r t f rest) {l}
    (hat : f.AtStmt (.storageDead l) ∨ f.AtStmt (.storageLive l)) {p id} (hl : f.locals.get? l = some p) (hid : p.HasId id)
    (hm : MemReach (F := F) h s'.mem.memory) (i : AllocInfo) : ¬ LiveIn h id i := by
  have hi := hr.frames (B := B)
  obtain ⟨blk, t', new, R, hb, ht', hmv, p1, p2⟩ := slots_around hi h0 hrun
  have hms : (⟨f.func, l, p⟩ : Slot PE) ∈ slotsOf f := List.mem_map.2 ⟨(l, p), Map.get?_mem hl, rfl⟩
  have hsid := (Slot.id_eq (sl := ⟨f.func, l, p⟩)).2 hid
  refine dead_of_gone hr h0 (p1.mem_iff.2 (List.mem_append_left _ hms)) hsid ?_ hm i
  have hper := slotsOf_perm (fr := f) (Map.perm_erase hl)
  have p1' := p1.trans (hper.append_right _)
  have hn := hi.storage.ok.nodup
  rw [(p1'.map Slot.id).nodup_iff, List.cons_append, List.map_cons, List.nodup_cons] at hn
  intro sl' hs' he
  have hs2 := p2.mem_iff.1 hs'
  have hnot : sl' ∈ slotsOf { f with locals := f.locals.erase l } ++ (stackSlots rest ++ R) → False := fun hmem =>
    hn.1 (by
      have : Slot.id (⟨f.func, l, p⟩ : Slot PE) = sl'.id := hsid.trans he.symm
      show Slot.id (⟨f.func, l, p⟩ : Slot PE) ∈ _
      rw [this]; exact List.mem_map.2 ⟨sl', hmem, rfl⟩)
  have hlt : ∃ st, (st = .storageDead l ∨ st = .storageLive l) ∧ blk.statements[f.nextStmt]? = some st := by
    rcases hat with ⟨b2, e1, e2⟩ | ⟨b2, e1, e2⟩ <;>
    · have : b2 = blk := Option.some.inj (e1.symm.trans hb)
      subst this
      exact ⟨_, by simp, e2⟩
  obtain ⟨st, hst, hget⟩ := hlt
  have hpos := (List.getElem?_eq_some_iff.1 hget).1
  cases hmv with
  | stmt st2 f' h1 h2 h3 h4 h5 h6 h7 h8 h9 h10 =>
    rw [hget] at h1; cases h1
    rw [h2, stackSlots_cons] at hs2
    simp only [threadSlots, List.flatMap_nil, List.nil_append, List.append_assoc] at hs2
    rcases hst with rfl | rfl
    · have h8' : f'.locals = f.locals.erase l := h8
      refine hnot ?_
      unfold slotsOf at hs2 ⊢
      rw [h8', h4] at hs2
      exact hs2
    · obtain ⟨t2, f2, ty, n, al, ptr, ae, q1, q2, q3, q4, q5, q6, q7, q8⟩ := runs_storageLive (B := B) hrun h0 ⟨blk, hb, hget⟩
      rw [ht'] at q1; cases q1
      rw [h2] at q2; cases q2
      have hnone := Map.get?_eq_none_iff.2 (Map.not_mem_erase (k := l) (hi.threads.nodup _ t f rest hrun.thread hrun.stack))
      unfold slotsOf at hs2
      rw [q5, q6, Map.insert_of_none hnone, List.map_append] at hs2
      rcases List.mem_append.1 hs2 with hs2 | hs2
      · rcases List.mem_append.1 hs2 with hs2 | hs2
        · exact hnot (List.mem_append_left _ hs2)
        · simp only [List.map_cons, List.map_nil, List.mem_singleton] at hs2
          subst hs2
          have he' : ptr.prov.map (·.1) = some id := he
          rw [q7] at he'
          cases he'
          obtain ⟨ty, n, al, id', x, k1, k2, k3, k4, _⟩ := hi.storage.ok.ok _ (p1.mem_iff.2 (List.mem_append_left _ hms))
          rw [hsid] at k3; cases k3
          exact absurd (List.getElem?_eq_some_iff.1 k4).1 (Nat.lt_irrefl _)
      · exact hnot (List.mem_append_right _ hs2)
  | jump b e _ h1 => omega
  | call c conv as r n u fn nm g e p h1 => omega
  | ret n u p b g rest' h1 => omega
  | bottom h1 => omega

include B in
/-- C49: `StorageLive` gives its local new storage: a stack allocation that did not exist before, with the size and
alignment of the local's type and with uninitialised contents. -/
theorem C49_storageLive (h0 : step s = .ok ((), s')) (hrun : s.Runs a r t f rest) {l}
    (hat : f.AtStmt (.storageLive l)) (hm : MemReach (F := F) h s.mem.memory) (hm' : MemReach (F := F) h' s'.mem.memory) :
    ∃ t' f' ty n al p id, s'.threads[a]? = some t' ∧ t'.stack = f' :: rest ∧ f.func.locals.get? l = some ty ∧
      ty.layout = .ok (.sized n al) ∧ f'.locals.get? l = some p ∧ p.HasId id ∧ (¬ ∃ i, WasAllocated h id i) ∧
      LiveIn h' id ⟨.stack, n, al, p.addr⟩ ∧ ∀ k : Nat, k < n → lastStored h' id (p.addr + k) = .uninit := by
  obtain ⟨t', f', ty, n, al, ptr, ae, q1, q2, q3, q4, q5, q6, q7, q8⟩ := runs_storageLive (B := B) hrun h0 hat
  have q8' : (B.mem s'.mem.memory).allocations[(allocs (B := B) s.mem).length]? = some ⟨List.replicate n .uninit, ptr.addr, al, .stack, true, ae⟩ := q8
  have rep := MemReach.rep (B := B) hm
  have rep' := MemReach.rep (B := B) hm'
  refine ⟨t', f', ty, n, al, ptr, (allocs (B := B) s.mem).length, q1, q2, q3, q4, ?_,
    (Slot.id_eq (sl := ⟨f.func, l, ptr⟩)).1 q7, ?_, (live_iff (B := B) hm').2 ⟨_, q8', rfl, ?_⟩, ?_⟩
  · rw [q5, Map.get?_insert, if_pos rfl]
  · rintro ⟨i, hw⟩
    obtain ⟨x, hx, _⟩ := rep.conv _ _ hw
    exact absurd (List.getElem?_eq_some_iff.1 hx).1 (Nat.lt_irrefl _)
  · simp [Alloc.info, Alloc.size]
  · intro k hk
    have := rep'.bytes _ _ k q8' (by simpa [Alloc.size] using hk)
    simp only [List.getElem?_replicate, if_pos hk, Option.some.injEq] at this
    exact this.symm

end
/-! ### Concrete cases -/

namespace Ex
attribute [local instance] x86_64

-- C35_call: the call of `idFn` with one argument, and the call of `throwFn`, which has an unwind block.
example : ∃ (s s' : BMach) (r : _) (t : _) (f : _) (rest : _), Reachable callProg s ∧ step s = .ok ((), s') ∧ s.Runs 0 r t f rest ∧
    ∃ c conv a as rp n, f.AtTerm (.call c conv (a :: as) rp (some n) none) := by
  obtain ⟨s, s', r, t, f, rest, h1, h2, h3, h4⟩ := call_step 2 (fun f _ => match f.nextTerm with
    | some (.call _ _ (_ :: _) _ (some _) none) => true
    | _ => false) (by decide +kernel)
  split at h4
  · rename_i h; exact ⟨s, s', r, t, f, rest, h1, h2, h3, _, _, _, _, _, _, StackFrame.nextTerm_eq h⟩
  · cases h4

-- C35_return, C49_popped_dead: `idFn` returns to its caller; its argument is a live local.
example : ∃ (s s' : BMach) (r : _) (t : _) (f g : _) (rest : _), Reachable callProg s ∧ step s = .ok ((), s') ∧ s.Runs 0 r t f (g :: rest) ∧
    f.AtTerm .return ∧ ∃ p id, f.locals.get? 1 = some p ∧ p.HasId id := by
  obtain ⟨s, s', r, t, f, rest, h1, h2, h3, h4⟩ := call_step 4 (fun f rest => match f.nextTerm, rest, f.locals.get? 1 with
    | some .return, _ :: _, some ⟨_, some _⟩ => true
    | _, _, _ => false) (by decide +kernel)
  split at h4
  · rename_i ho hl; exact ⟨s, s', r, t, f, _, _, h1, h2, h3, StackFrame.nextTerm_eq ho, _, _, hl, _, rfl⟩
  · cases h4

-- C46_switch: the branch on the result.
example : ∃ (s s' : BMach) (r : _) (t : _) (f : _) (rest : _), Reachable callProg s ∧ step s = .ok ((), s') ∧ s.Runs 0 r t f rest ∧
    ∃ v c cs fb, f.AtTerm (.switch v (c :: cs) fb) := by
  obtain ⟨s, s', r, t, f, rest, h1, h2, h3, h4⟩ := call_step 5 (fun f _ => match f.nextTerm with
    | some (.switch _ (_ :: _) _) => true
    | _ => false) (by decide +kernel)
  split at h4
  · rename_i h; exact ⟨s, s', r, t, f, rest, h1, h2, h3, _, _, _, _, StackFrame.nextTerm_eq h⟩
  · cases h4

-- C36_startUnwind: `throwFn` unwinds.
example : ∃ (s s' : BMach) (r : _) (t : _) (f : _) (rest : _), Reachable callProg s ∧ step s = .ok ((), s') ∧ s.Runs 0 r t f rest ∧
    ∃ v b, f.AtTerm (.startUnwind v b) := by
  obtain ⟨s, s', r, t, f, rest, h1, h2, h3, h4⟩ := call_step 7 (fun f _ => match f.nextTerm with
    | some (.startUnwind _ _) => true
    | _ => false) (by decide +kernel)
  split at h4
  · rename_i h; exact ⟨s, s', r, t, f, rest, h1, h2, h3, _, _, StackFrame.nextTerm_eq h⟩
  · cases h4

-- C36_pending_payloads, C36_stopUnwind_proceeds: the caller catches, with one payload pending for its frame.
example : callProg.StartsOk ∧ ∃ (s s' : BMach) (r : _) (t : _) (f : _) (rest : _), Reachable callProg s ∧ step s = .ok ((), s') ∧
    s.Runs 0 r t f rest ∧ framesIn .catch t.stack = 1 ∧ ∃ b, f.AtTerm (.stopUnwind b) := by
  refine ⟨callProg_startsOk, ?_⟩
  obtain ⟨s, s', r, t, f, rest, h1, h2, h3, h4⟩ := call_step 10 (fun f rest => (match f.nextTerm with
    | some (.stopUnwind _) => true
    | _ => false) && framesIn .catch (f :: rest) == 1) (by decide +kernel)
  simp only [Bool.and_eq_true, beq_iff_eq] at h4
  obtain ⟨h4, h5⟩ := h4
  split at h4
  · rename_i h; exact ⟨s, s', r, t, f, rest, h1, h2, h3, by rw [h3.stack]; exact h5, _, StackFrame.nextTerm_eq h⟩
  · cases h4

-- C36_payload_available, C36_getUnwindPayload, C36_resumeUnwind: a cleanup block, with the frame of the caller below.
example : ∃ (s s' : BMach) (r : _) (t : _) (f g : _) (rest : _), Reachable callProg s ∧ step s = .ok ((), s') ∧ s.Runs 0 r t f (g :: rest) ∧
    f.AtTerm .resumeUnwind := by
  obtain ⟨s, s', r, t, f, rest, h1, h2, h3, h4⟩ := call_step 8 (fun f rest => match f.nextTerm, rest with
    | some .resumeUnwind, _ :: _ => true
    | _, _ => false) (by decide +kernel)
  split at h4
  · rename_i ho
    exact ⟨s, s', r, t, f, _, _, h1, h2, h3, StackFrame.nextTerm_eq ho⟩
  · cases h4

-- C49_storageLive: the first statement of `callMain`.
example : ∃ (s s' : BMach) (r : _) (t : _) (f : _) (rest : _), Reachable callProg s ∧ step s = .ok ((), s') ∧ s.Runs 0 r t f rest ∧
    f.AtStmt (.storageLive 1) := by
  obtain ⟨s, s', r, t, f, rest, h1, h2, h3, h4⟩ := call_step 0 (fun f _ => match f.nextStatement with
    | some (.storageLive 1) => true
    | _ => false) (by decide +kernel)
  split at h4
  · rename_i h; exact ⟨s, s', r, t, f, rest, h1, h2, h3, StackFrame.nextStatement_eq h⟩
  · cases h4

-- C49_storageDead: the local has storage, which the statement ends.
example : ∃ (s s' : BMach) (r : _) (t : _) (f : _) (rest : _), Reachable callProg s ∧ step s = .ok ((), s') ∧ s.Runs 0 r t f rest ∧
    f.AtStmt (.storageDead 1) ∧ ∃ p id, f.locals.get? 1 = some p ∧ p.HasId id := by
  obtain ⟨s, s', r, t, f, rest, h1, h2, h3, h4⟩ := call_step 11 (fun f _ => match f.nextStatement, f.locals.get? 1 with
    | some (.storageDead 1), some ⟨_, some _⟩ => true
    | _, _ => false) (by decide +kernel)
  split at h4
  · rename_i h hl; exact ⟨s, s', r, t, f, rest, h1, h2, h3, StackFrame.nextStatement_eq h, _, _, hl, _, rfl⟩
  · cases h4

-- C46_goto_proceeds, then C46_unreachable.
example : ∃ (s s' : BMach) (r : _) (t : _) (f : _) (rest : _), Reachable callProg s ∧ step s = .ok ((), s') ∧ s.Runs 0 r t f rest ∧
    ∃ b, f.AtTerm (.goto b) := by
  obtain ⟨s, s', r, t, f, rest, h1, h2, h3, h4⟩ := call_step 12 (fun f _ => match f.nextTerm with
    | some (.goto _) => true
    | _ => false) (by decide +kernel)
  split at h4
  · rename_i h; exact ⟨s, s', r, t, f, rest, h1, h2, h3, _, StackFrame.nextTerm_eq h⟩
  · cases h4
example : ∃ s : BMach, Reachable callProg s ∧ ∃ r t f rest, s.Runs 0 r t f rest ∧ f.AtTerm .unreachable := by
  obtain ⟨s, h1, h2⟩ := exists_reachable (M := BasicMem Unit Unit) (prog := callProg) callRun 13 (fun s => s.runsNext 0 (fun f _ => match f.nextTerm with
    | some .unreachable => true
    | _ => false) = true) (by decide +kernel)
  obtain ⟨r, t, f, rest, h3, h4⟩ := Machine.runsNext_eq h2
  split at h4
  · rename_i h; exact ⟨s, h1, r, t, f, rest, h3, StackFrame.nextTerm_eq h⟩
  · cases h4
end Ex
end MiniRust
