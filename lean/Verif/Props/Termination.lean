import Verif.Lemmas.Termination
import Verif.Props.Init
import Verif.Props.Run
import Verif.Props.Choices
import Verif.Examples.Programs
/-
C91: programs without loops and recursion end.
-/
set_option linter.unusedSectionVars false
namespace MiniRust

section
variable {M PE AE F : Type} [T : Target] [DecidableEq PE] [Memory M (AllocId × PE) F] [hm : SoftMem M (AllocId × PE) F]
  [B : BasicBacked M PE AE F]
variable {s s' : Machine M (AllocId × PE) F} {prog : Program}
variable {a : Nat} {r : List (Choice (AllocId × PE))} {t : Thread (AllocId × PE) F} {f : StackFrame (AllocId × PE) F}
  {rest : List (StackFrame (AllocId × PE) F)}

/-! ### Which functions run -/

include B in
theorem frame_func (hr : Reachable prog s) (ht : t ∈ s.threads) (hf : f ∈ t.stack) : ∃ name, prog.functions.get? name = some f.func := by
  have hi := hr.frames (B := B)
  have := (hi.threads t ht).stack
  rw [hi.eq] at this
  clear ht
  revert this hf
  generalize t.stack = st
  intro hf hs
  induction st with
  | nil => simp at hf
  | cons g st ih =>
    rcases List.mem_cons.1 hf with rfl | hf
    · exact hs.1.func
    · exact ih hf hs.2.1

include B in
/-- A call by name calls the function with this name. -/
theorem fnPointer_eval (hu : prog.KeysUnique) (hr : Reachable prog s) {s1 s2 : Machine M (AllocId × PE) F} (h1 : s1.prog = s.prog) (h2 : s1.fnPtrs = s.fnPtrs)
    {g ty cv cty fn} (he : evalValue (.constant (.fnPointer g) ty) s1 = .ok ((cv, cty), s2)) (hf : s2.fnFromPtr cv = .ok fn) :
    prog.functions.get? g = some fn := by
  unfold evalValue at he
  obtain ⟨v, s3, k1, k2⟩ := EM.bind_eq_ok.1 he
  obtain ⟨k1, rfl⟩ := EM.read_eq_ok.1 k1
  cases k2
  obtain ⟨p, k3, k4⟩ := Res.bind_eq_ok.1 k1
  cases k4
  rw [h2] at k3
  have hp : s.fnPtrs.get? g = some p := by simpa [Map.get, unwrap_eq_ok] using k3
  have hf' : s.fnFromPtr (.ptr (p.widen none)) = .ok fn := by
    unfold Machine.fnFromPtr at hf ⊢
    rw [h1, h2] at hf
    exact hf
  obtain ⟨k3, _, k5⟩ := C55_function_lookup (B := B) hu hr (.ptr (p.widen none))
  obtain ⟨n, p', e1, e2, e3⟩ := (k3 fn).1 hf'
  cases e1
  obtain ⟨h, hmem⟩ := hr.memReach
  cases (C55_statics_placed (B := B) hu hr hmem).functions.apart _ _ _ _ hp e2 rfl
  rw [C42_program hr] at e3
  exact e3

theorem skelOp_grow {K : CtlKind → Prop} {a : Nat} {k k' : Skel} (h : SkelOp K a k k') (hl : k'.states.length ≠ k.states.length) : K .spawn := by
  cases h <;> first | assumption | (exfalso; revert hl; simp)

include B in
/-- The thread that a step adds runs the function that the intrinsic names. -/
theorem spawn_func (hu : prog.KeysUnique) (hr : Reachable prog s) (h : step s = .ok ((), s')) (hrun : s.Runs a r t f rest)
    (hlen : s'.threads.length = s.threads.length + 1) : ∃ as rp n, f.AtTerm (.intrinsic .spawn as rp n) ∧
      ∀ g ty as', as = .constant (.fnPointer g) ty :: as' → ∀ u fr, s'.threads[s.threads.length]? = some u → u.stack = [fr] →
        prog.functions.get? g = some fr.func := by
  obtain ⟨rest', h1, _, h2, _⟩ := step_skel h
  have hk : (s.schedule s'.activeThread rest').nextKinds .spawn := by
    refine skelOp_grow h2 ?_
    unfold Machine.skel
    rw [List.length_map, List.length_map, hlen]
    omega
  obtain ⟨op, ⟨as, rp, n, hat⟩, hop⟩ := nextKinds_intrinsic (by nofun) hk
  cases kinds_spawn hop
  have e := hrun.oracle.symm.trans h1
  simp only [List.cons.injEq, Choice.int.injEq, Int.natCast_inj] at e
  obtain ⟨e1, e2⟩ := e
  obtain ⟨t2, f2, fs2, b2, k1, k2, k3, k4, k5⟩ := hat
  rw [← e1, hrun.thread] at k1; cases k1
  rw [hrun.stack] at k2; cases k2
  have hat : f.AtTerm (.intrinsic .spawn as rp n) := ⟨b2, k3, k4, k5⟩
  refine ⟨as, rp, n, hat, ?_⟩
  intro g ty as' has u fr hu1 hu2
  subst has
  obtain ⟨_, ht⟩ := hrun.term h hat
  unfold evalTerminator at ht
  simp only [EM.bind_eq_ok, Prod.exists] at ht
  obtain ⟨rp, rty, s1, h1, vs, s2, h2, v, s3, h3, _, s4, h4, h5⟩ := ht
  have hst1 := (Tri.steady (B := B) (tri_evalPlace _)).ok _ _ _ h1
  have hst2 : Steady (B := B) (s.schedule a r) s2 := PreRel.trans _ _ _ hst1 ((Tri.steady (B := B) (tri_evalValues _)).ok _ _ _ h2)
  obtain ⟨b, rfl, h5⟩ := jumpOrUb_eq_ok.1 h5
  unfold evalValues at h2
  simp only [EM.bind_eq_ok] at h2
  obtain ⟨⟨cv, cty⟩, s1a, j1, vs', s1b, j2, j3⟩ := h2
  cases j3
  unfold evalIntrinsic intrinsicSpawn at h3
  rcases vs' with _ | ⟨dataA, _ | ⟨x, y⟩⟩
  · cases h3
  · simp only [EM.bind_eq_ok, EM.read_eq_ok, EM.pure_eq_ok] at h3
    obtain ⟨fn, s2a, ⟨hfn, rfl⟩, _, s2b, hq1, _, s2c, hq2, tid, s5, hsp, rfl, rfl⟩ := h3
    unfold requireUb at hq1 hq2
    simp only [EM.lift_eq_ok] at hq1 hq2
    obtain ⟨_, rfl⟩ := hq1
    obtain ⟨_, rfl⟩ := hq2
    unfold spawn at hsp
    simp only [EM.bind_eq_ok, EM.modify_eq_ok, EM.pure_eq_ok, newThread_eq_ok] at hsp
    obtain ⟨_, _, ⟨g', s6, hc, rfl, rfl⟩, _, _, rfl, rfl, rfl⟩ := hsp
    obtain ⟨m, o, rfl, hfresh, tr⟩ := createFrame_trans (B := B) hc
    have hlen2 : s2c.threads.length = s.threads.length := hst2.length
    have hfn' : s1a.fnFromPtr cv = .ok fn := by
      have hst3 := (Tri.steady (B := B) (tri_evalValues _)).ok _ _ _ j2
      unfold Machine.fnFromPtr at hfn ⊢
      rw [← hst3.prog, ← hst3.fns]
      exact hfn
    have hg := fnPointer_eval (B := B) hu hr (s1 := s1) hst1.prog hst1.fns j1 hfn'
    have hnew : s'.threads[s.threads.length]? = some ⟨[g'], .enabled, []⟩ := by
      unfold placeStore at h4
      split at h4
      · cases h4
      · obtain ⟨m4, rfl, k4⟩ := typedStore_mem (B := B) h4
        obtain ⟨t5, f5, r5, k1, k2, rfl⟩ := jumpToBlock_eq_ok.1 h5
        have hne : s2c.activeThread ≠ s.threads.length := by
          rw [hst2.active]
          have := (List.getElem?_eq_some_iff.1 hrun.thread).1
          show a ≠ _
          omega
        show (List.set _ _ _)[_]? = _
        rw [List.getElem?_set_ne hne, ← hlen2]
        simp
    rw [hnew] at hu1
    cases hu1
    cases hu2
    rw [hfresh.func]
    exact hg
  · cases h3

/-! ### Every step decreases the cost -/

noncomputable def Machine.cost (prog : Program) (K D : Nat) (s : Machine M (AllocId × PE) F) : Nat :=
  (s.threads.map fun t => stackCost prog K D t.stack).sum

include B in
theorem step_cost {K D : Nat} (hp : prog.Straight) (hb : Bounds prog K D) (hr : Reachable prog s) (h : step s = .ok ((), s')) :
    s'.cost prog K D < s.cost prog K D := by
  obtain ⟨a, r, t, f, rest, _, hrun, _, hact, _⟩ := Machine.Runs.ofStep (hr.frames (B := B)) h
  obtain ⟨a', t2, t', e1, e2, h2, h3, h4, h5⟩ := C35_stack_discipline (B := B) hr h
  rw [hact] at e1; cases e1
  rw [hrun.thread] at e2; cases e2
  have hmem := List.mem_of_getElem? hrun.thread
  have hin : f ∈ t.stack := by rw [hrun.stack]; simp
  have callee : ∀ {c bb}, f.InBlock bb → bb.terminator.callee = some c → ∃ g ty, c = .constant (.fnPointer g) ty ∧ f.func.CallsTo g := by
    intro c bb hbb hc
    obtain ⟨n, hn⟩ := frame_func (B := B) hr hmem hin
    obtain ⟨g, ty, rfl⟩ := hp.direct _ _ _ _ _ hn hbb hc
    exact ⟨g, ty, rfl, _, _, _, hbb, hc⟩
  obtain ⟨c1, c2⟩ := h3.cost hb (fun fr hfr => by
      obtain ⟨n, hn⟩ := frame_func (B := B) hr hmem hfr
      exact ⟨⟨n, hn⟩, (hr.inReach (B := B) t hmem fr hfr).reaches, hp.loops _ _ hn⟩) (by
    intro f2 rest2 c conv as rp n u g f' k1 k2 k3
    rw [hrun.stack] at k1; cases k1
    obtain ⟨_, _, s1, s2, cv, cty, s3, fn, _, _, t3, g2, f2, j1, j2, j3, j4, _, _, _, _, j5, j6, _, j7, _⟩ := C35_call (B := B) hr h hrun k2
    rw [h2] at j5; cases j5
    rw [k3] at j6; cases j6
    obtain ⟨bb, hbb, _, hterm⟩ := k2
    obtain ⟨g', ty, rfl, hc⟩ := callee hbb (by rw [← hterm]; rfl)
    have st1 := (Tri.steady (B := B) (tri_evalPlace _)).ok _ _ _ j1
    have st2 := (st_prepare (B := B)).ok _ _ _ j2
    have := fnPointer_eval (B := B) hp.keys hr (s1 := s2) (st2.prog.trans st1.prog) (st2.fns.trans st1.fns) j3 j4
    rw [j7.func]
    exact ⟨⟨_, this⟩, Program.rank_lt hp.recursion hc this⟩)
  unfold Machine.cost
  have hl1 : (s.threads.map fun t => stackCost prog K D t.stack)[a]? = some (stackCost prog K D t.stack) := by
    rw [List.getElem?_map, hrun.thread]; rfl
  rcases h5 with h5 | ⟨h5, u, g, fn, name, k1, k2, _, k4, k5⟩
  · have := sum_change (l' := s'.threads.map fun t => stackCost prog K D t.stack) hl1 (y := stackCost prog K D t'.stack)
      (by rw [List.getElem?_map, h2]; rfl) (by simp [h5]) (by
        intro i hi
        rw [List.getElem?_map, List.getElem?_map]
        cases hti : s.threads[i]? with
        | none =>
          rw [List.getElem?_eq_none_iff] at hti
          rw [List.getElem?_eq_none_iff.2 (by omega)]
        | some ti =>
          obtain ⟨u', j1, j2, _⟩ := h4 i ti hi hti
          rw [j1]
          show some (stackCost prog K D u'.stack) = some (stackCost prog K D ti.stack)
          rw [j2])
    omega
  · obtain ⟨as, rp, n, hat, hsp⟩ := spawn_func (B := B) hp.keys hr h hrun h5
    have c3 := c2 f rest _ _ _ _ hrun.stack hat
    have hat' := hat
    obtain ⟨bb, hbb, _, hterm⟩ := hat
    have hnew : g.top prog K D < callCost K D (prog.rank f.func) := by
      cases as with
      | nil =>
        obtain ⟨_, ht⟩ := hrun.term h hat'
        unfold evalTerminator at ht
        simp only [EM.bind_eq_ok, Prod.exists] at ht
        obtain ⟨rp, rty, s1, h1, vs, s2, h2, v, s3, h3, _⟩ := ht
        cases h2
        cases h3
      | cons c as =>
        obtain ⟨g', ty, rfl, hc⟩ := callee hbb (by rw [← hterm]; rfl)
        have := hsp g' ty as rfl u g k1 k2
        exact StackFrame.fresh_lt hb ⟨_, this⟩ (Program.rank_lt hp.recursion hc this)
    have hlt := (List.getElem?_eq_some_iff.1 hrun.thread).1
    have hsplit : s'.threads = s'.threads.take s.threads.length ++ [u] := by
      refine List.ext_getElem? fun i => ?_
      rcases Nat.lt_trichotomy i s.threads.length with hi | hi | hi
      · rw [List.getElem?_append_left (by simp; omega), List.getElem?_take_of_lt hi]
      · subst hi
        rw [k1, List.getElem?_append_right (by simp)]
        simp [h5]
      · rw [List.getElem?_eq_none_iff.2 (by omega), List.getElem?_eq_none_iff.2 (by simp; omega)]
    have := sum_change (l' := (s'.threads.take s.threads.length).map fun t => stackCost prog K D t.stack) hl1 (y := stackCost prog K D t'.stack)
      (by rw [List.getElem?_map, List.getElem?_take_of_lt hlt, h2]; rfl) (by simp [h5]) (by
        intro i hi
        rw [List.getElem?_map, List.getElem?_map]
        cases hti : s.threads[i]? with
        | none =>
          rw [List.getElem?_eq_none_iff] at hti
          rw [List.getElem?_eq_none_iff.2 (by simp; omega)]
        | some ti =>
          obtain ⟨u', j1, j2, _⟩ := h4 i ti hi hti
          rw [List.getElem?_take_of_lt (List.getElem?_eq_some_iff.1 hti).1, j1]
          show some (stackCost prog K D u'.stack) = some (stackCost prog K D ti.stack)
          rw [j2])
    rw [hsplit, List.map_append, List.sum_append, List.map_singleton, List.sum_singleton, k2, stackCost_cons]
    simp only [List.map_nil, List.sum_nil]
    omega

include B in
theorem runLoop_cost {K D : Nat} (hp : prog.Straight) (hb : Bounds prog K D) : ∀ n {s : Machine M (AllocId × PE) F}, Reachable prog s →
    s.cost prog K D < n → runLoop n s ≠ none
  | 0, _, _, h => by omega
  | n + 1, s, hr, h => by
    unfold runLoop
    split
    · rename_i s1 h1
      have := step_cost (B := B) hp hb hr h1
      refine runLoop_cost hp hb n ?_ (by omega)
      obtain ⟨o, s0, k1, k2⟩ := hr
      exact ⟨o, s0, k1, .tail k2 h1⟩
    · nofun

include B in
/-- C91: there is a bound on the number of steps of a program without loops and recursion. Whatever the schedule and the other choices are, all
its executions have ended by then. -/
theorem C91_ends (hp : prog.Straight) : ∃ N, ∀ oracle : List (Choice (AllocId × PE)), ∃ e out err, run M (F := F) N prog oracle = some (e, out, err) := by
  obtain ⟨K, D, hb⟩ := exists_bounds prog
  have key : ∃ N, ∀ (oracle : List (Choice (AllocId × PE))) (s : Machine M (AllocId × PE) F), Machine.new prog oracle = .ok s → s.cost prog K D < N := by
    cases hs : prog.functions.get? prog.start with
    | none =>
      refine ⟨0, fun o s hn => ?_⟩
      obtain ⟨_, _, _, _, _, _, _, _, f, p, fr, hf, _⟩ := C55_start (B := B) hp.keys hn
      rw [hs] at hf; cases hf
    | some f =>
      refine ⟨f.depth f.start * (K + callCost K D (prog.rank f)) + 1 + callCost K D (prog.rank f) + K, fun o s hn => ?_⟩
      obtain ⟨_, _, _, _, _, _, _, _, f', p, fr, hf, _, hth, k1, _, _, k2, k3⟩ := C55_start (B := B) hp.keys hn
      rw [hs] at hf; cases hf
      have := StackFrame.left_le hb (f := fr) ⟨_, by rw [k1]; exact hs⟩
      unfold Machine.cost
      rw [hth, List.map_singleton, List.sum_singleton, stackCost_cons]
      unfold StackFrame.top StackFrame.low
      rw [k1, k2]
      simp only [List.map_nil, List.sum_nil]
      omega
  obtain ⟨N, hN⟩ := key
  refine ⟨N, fun o => ?_⟩
  unfold run
  cases hn : (Machine.new prog o : Res (Machine M (AllocId × PE) F)) with
  | error e => exact ⟨_, _, _, rfl⟩
  | ok s =>
    have := runLoop_cost (B := B) hp hb N ⟨o, s, hn, .refl _⟩ (hN o s hn)
    dsimp only
    cases hl : runLoop N s with
    | none => exact absurd hl this
    | some x => exact ⟨_, _, _, rfl⟩

end

/-! ### The conditions are met, and needed -/

/-- It is enough to number the blocks such that terminators lead to blocks with greater numbers. -/
theorem Function.LoopFree.of_lt {f : Function} (h : ∀ x ∈ f.blocks, ∀ c, x.2.terminator.Target c → x.1 < c) : f.LoopFree := by
  have key : ∀ {b c}, Relation.TransGen f.Jump b c → b < c := by
    intro b c hbc
    induction hbc with
    | single hj => obtain ⟨bb, h1, h2⟩ := hj; exact h _ (Map.get?_mem h1) _ h2
    | tail _ hj ih => obtain ⟨bb, h1, h2⟩ := hj; exact Nat.lt_trans ih (h _ (Map.get?_mem h1) _ h2)
  exact fun b _ hb => Nat.lt_irrefl _ (key hb)

/-- The same for functions. -/
theorem Program.NoRecursion.of_lt {prog : Program} (h : ∀ x ∈ prog.functions, ∀ g, x.2.CallsTo g → x.1 < g) : prog.NoRecursion := by
  have key : ∀ {b c}, Relation.TransGen prog.Calls b c → b < c := by
    intro b c hbc
    induction hbc with
    | single hj => obtain ⟨bb, h1, h2⟩ := hj; exact h _ (Map.get?_mem h1) _ h2
    | tail _ hj ih => obtain ⟨bb, h1, h2⟩ := hj; exact Nat.lt_trans ih (h _ (Map.get?_mem h1) _ h2)
  exact fun b hb => Nat.lt_irrefl _ (key hb)

section
attribute [local instance] x86_64 x86_64_lawful

/-- The program in which two threads race, which starts a thread and joins it, meets the conditions. -/
theorem straight_example : Ex.mainRaceProg.Straight := by
  refine ⟨⟨by decide, by decide, by decide⟩, ?_, ?_, .of_lt ?_⟩
  · intro name f hf
    have := Map.get?_mem hf
    refine .of_lt ?_
    simp only [Ex.mainRaceProg, List.mem_cons, Prod.mk.injEq, List.not_mem_nil, or_false] at this
    rcases this with ⟨_, rfl⟩ | ⟨_, rfl⟩
    · intro x hx c hc
      simp only [Ex.spawnAndWrite, List.mem_cons, List.not_mem_nil, or_false] at hx
      rcases hx with rfl | rfl | rfl <;> cases hc <;> decide
    · intro x hx c hc
      simp only [Ex.writer, List.mem_cons, List.not_mem_nil, or_false] at hx
      subst hx; cases hc
  · intro name f b bb c hf hb hc
    have h1 := Map.get?_mem hf
    have h2 := Map.get?_mem hb
    simp only [Ex.mainRaceProg, List.mem_cons, Prod.mk.injEq, List.not_mem_nil, or_false] at h1
    rcases h1 with ⟨_, rfl⟩ | ⟨_, rfl⟩
    · simp only [Ex.spawnAndWrite, List.mem_cons, Prod.mk.injEq, List.not_mem_nil, or_false] at h2
      rcases h2 with ⟨_, rfl⟩ | ⟨_, rfl⟩ | ⟨_, rfl⟩ <;> cases hc
      exact ⟨_, _, rfl⟩
    · simp only [Ex.writer, List.mem_cons, Prod.mk.injEq, List.not_mem_nil, or_false] at h2
      obtain ⟨_, rfl⟩ := h2
      cases hc
  · intro x hx g ⟨b, bb, ty, hb, hc⟩
    have h2 := Map.get?_mem hb
    simp only [Ex.mainRaceProg, List.mem_cons, List.not_mem_nil, or_false] at hx
    rcases hx with rfl | rfl
    · simp only [Ex.spawnAndWrite, List.mem_cons, Prod.mk.injEq, List.not_mem_nil, or_false] at h2
      rcases h2 with ⟨_, rfl⟩ | ⟨_, rfl⟩ | ⟨_, rfl⟩ <;> cases hc
      decide
    · simp only [Ex.writer, List.mem_cons, Prod.mk.injEq, List.not_mem_nil, or_false] at h2
      obtain ⟨_, rfl⟩ := h2
      cases hc

/-- A program that jumps to the same block for ever. -/
def loopProg : Program := Ex.mainProg [] [(0, ⟨[], .goto 0, .regular⟩)]

/-- Only the main thread runs, at the jump. -/
def AtLoop (s : Machine (BasicMem Unit Unit) (AllocId × Unit) Unit) : Prop :=
  s.activeThread = 0 ∧ ∃ t fr, s.threads = [t] ∧ t.state = .enabled ∧ t.stack = [fr] ∧ fr.func.blocks = [(0, ⟨[], .goto 0, .regular⟩)] ∧
    fr.nextBlock = 0 ∧ fr.nextStmt = 0

theorem loop_step {n : Nat} : ∀ {s : Machine (BasicMem Unit Unit) (AllocId × Unit) Unit}, AtLoop s → s.oracle = List.replicate n (.int 0) → runLoop n s = none := by
  induction n with
  | zero => intro s _ _; rfl
  | succ n ih =>
    intro s ⟨h0, t, fr, h1, h2, h3, h4, h5, h6⟩ ho
    rw [List.replicate_succ] at ho
    have hth : s.threads[0]? = some t := by rw [h1]; rfl
    have hrun : s.Runs 0 (List.replicate n (.int 0)) t fr [] := ⟨ho, hth, h2, h3⟩
    have hat : fr.AtTerm (.goto 0) := ⟨⟨[], .goto 0, .regular⟩, by unfold StackFrame.InBlock; rw [h4, h5]; rfl, h6, rfl⟩
    have hex := (hrun.execStep_term hat).trans (jumpToBlock_eq_ok (u := ()).2 ⟨t, fr, [], hth, h3, rfl⟩)
    have hst := step_eq_ok (u := ()).2 ⟨0, t, _, ho, hth, h2, hex, (by
      unfold ConcMem.checkDataRaces
      rw [if_pos]
      show 0 ∈ setInsert _ s.activeThread
      rw [h0]
      exact mem_setInsert.2 (.inr rfl))⟩
    unfold runLoop
    rw [hst]
    refine ih ⟨rfl, { t with stack := [fr.jumpToBlock 0] }, fr.jumpToBlock 0, ?_, h2, rfl, h4, rfl, rfl⟩ rfl
    show s.threads.set 0 _ = _
    rw [h1]; rfl

/-- C91 is about all executions at once: there is no bound on the steps of a program with a loop. -/
theorem C91_loop (N : Nat) : loopProg.checkWf = .ok () ∧ ∃ oracle : List (Choice (AllocId × Unit)), run (BasicMem Unit Unit) (F := Unit) N loopProg oracle = none := by
  refine ⟨by decide +kernel, ?_⟩
  obtain ⟨s, hn⟩ : ∃ s : Machine (BasicMem Unit Unit) (AllocId × Unit) Unit, Machine.new loopProg [.int 16, .int 32, .int 48] = .ok s := by
    have : (Machine.new loopProg [.int 16, .int 32, .int 48] : Res (Machine (BasicMem Unit Unit) (AllocId × Unit) Unit)).isOk = true := by decide +kernel
    cases h : (Machine.new loopProg [.int 16, .int 32, .int 48] : Res (Machine (BasicMem Unit Unit) (AllocId × Unit) Unit)) with
    | error e => rw [h] at this; cases this
    | ok s => exact ⟨s, rfl⟩
  obtain ⟨used, _, hr⟩ := new_pop hn
  have hn := hr (List.replicate N (.int 0))
  refine ⟨used ++ List.replicate N (.int 0), ?_⟩
  unfold run
  rw [hn]
  dsimp only
  obtain ⟨_, _, k0, _, _, _, _, _, f, p, fr, hf, _, hth, k1, _, _, k2, k3⟩ := C55_start (B := inferInstance) ⟨by decide, by decide, by decide⟩ hn
  have hf : some _ = some f := hf
  cases hf
  rw [loop_step ⟨k0, _, fr, hth, rfl, rfl, by rw [k1], k2, k3⟩ rfl]

end
end MiniRust
