import Verif.Props.Recode
import Verif.Props.Choices
import Verif.Props.Threads
import Verif.Spec.Bypass
/-
Programs that jump past empty blocks: the machine that runs the original program goes through these blocks.
-/
set_option linter.unusedSectionVars false
namespace MiniRust

/-- The blocks that are not passed by. -/
abbrev Fixed (σ : BbName → BbName) : Function → BbName → Prop := fun _ b => σ b = b

section
variable {M P F : Type} [T : Target] [DecidableEq P] [Memory M P F] [hm : SoftMem M P F] {s : Machine M P F}

theorem step_deadlock (h : s.anyEnabled = false) : step s = .error .deadlock := by
  have e1 : (EM.read (fun s => .ok s.anyEnabled) : EM M P F Bool) s = .ok (false, s) := EM.read_eq_ok.2 ⟨by rw [h], rfl⟩
  unfold step
  rw [EM.bind_of_ok e1]
  rfl

/-- Steps that fail. -/
theorem step_fails {e : Err} (h : step s = .error e) (he : e ≠ .noBehavior) : (e = .deadlock ∧ s.anyEnabled = false) ∨
    ∃ i r, s.oracle = .int (i : Nat) :: r ∧ s.threadState i = some .enabled ∧
      (execStep (s.schedule i r) = .error e ∨ ∃ t, execStep (s.schedule i r) = .ok ((), t) ∧ e = .ub ∧
        i ≠ s.activeThread ∧ i ∉ s.synchronizedThreads ∧ ∃ a ∈ t.mem.accesses, ∃ p ∈ s.mem.accesses, a.races p = true) := by
  have h' := h
  unfold step at h
  rcases EM.bind_eq_error.1 h with h | ⟨en, s1, h1, h⟩
  · cases h
  obtain ⟨h1, rfl⟩ := EM.read_eq_ok.1 h1
  injection h1 with h1
  cases en with
  | false =>
    left
    simp only [Bool.not_false, if_true, EM.throw_apply, Except.error.injEq] at h
    exact ⟨h.symm, h1⟩
  | true =>
    right
    simp only [Bool.not_true, Bool.false_eq_true, if_false] at h
    rcases EM.bind_eq_error.1 h with h | ⟨⟨ps, pa⟩, s2, h2, h⟩
    · cases h
    cases h2
    rcases EM.bind_eq_error.1 h with h | ⟨u, s3, h3, h⟩
    · refine absurd ?_ he
      unfold pickThread at h
      rcases EM.bind_eq_error.1 h with h | ⟨i, s4, _, h⟩
      · unfold EM.popInt at h; split at h <;> cases h; rfl
      · cases ht : getInt? s4.threads i with
        | none => simp only [ht] at h; cases h; rfl
        | some t => simp only [ht] at h; split at h <;> cases h; rfl
    · obtain ⟨a, t, rest, k1, k2, k3, k4, rfl⟩ := pickThread_eq_ok.1 h3
      obtain ⟨n, rfl⟩ := Int.eq_ofNat_of_zero_le k2
      have k1 : s1.oracle = .int (n : Nat) :: rest := k1
      have hen : s1.threadState n = some .enabled := by
        simp only [Machine.threadState]
        erw [k3]; simp [k4]
      refine ⟨n, rest, k1, hen, ?_⟩
      cases hx : execStep (s1.schedule n rest) with
      | error e' => rw [step_of_execStep_error k1 hen hx] at h'; left; exact h'
      | ok x =>
        obtain ⟨_, t⟩ := x
        rw [step_race k1 hen hx] at h'
        split at h'
        · rename_i hc; cases h'; exact .inr ⟨_, rfl, rfl, hc⟩
        · cases h'

end

section
variable {M PE AE F : Type} [T : Target] [DecidableEq PE] [Memory M (AllocId × PE) F] [hm : SoftMem M (AllocId × PE) F]
  [B : BasicBacked M PE AE F]
variable {s s' t t' : Machine M (AllocId × PE) F} {p p' : Program} {σ : BbName → BbName} {i : Nat} {r : List (Choice (AllocId × PE))}

/-- `p'` passes by the blocks that `σ` changes. -/
structure Hops (σ : BbName → BbName) (p p' : Program) : Prop where
  wf : p'.checkWf = p.checkWf
  recoded : Program.Recoded (Fixed σ) σ p p'
  hop : ∀ n f, p.functions.get? n = some f → ∀ b, f.Reaches b → σ b ≠ b → σ (σ b) = σ b ∧ ∃ k, f.blocks.get? b = some ⟨[], .goto (σ b), k⟩

/-- The same state up to the choices and what is remembered of the last step. -/
def Near (σ : BbName → BbName) (s s' : Machine M (AllocId × PE) F) : Prop :=
  MRel (Fixed σ) σ { s with oracle := s'.oracle, activeThread := s'.activeThread, mem := { s.mem with accesses := s'.mem.accesses } } s'

/-- The thread is in a block that is passed by. -/
def AtHop (σ : BbName → BbName) (s : Machine M (AllocId × PE) F) (i : Nat) : Prop :=
  ∃ th fr rest, s.threads[i]? = some th ∧ th.stack = fr :: rest ∧ σ fr.nextBlock ≠ fr.nextBlock

theorem MRel.near (h : MRel (Fixed σ) σ s s') : Near σ s s' := by
  unfold Near
  have e1 : s'.oracle = s.oracle := by rw [h.eq]
  have e2 : s'.activeThread = s.activeThread := by rw [h.eq]
  have e3 : s'.mem = s.mem := by rw [h.eq]
  rw [e1, e2, e3]
  exact h

theorem Near.schedule (h : Near σ s s') : MRel (Fixed σ) σ (s.schedule i r) (s'.schedule i r) :=
  ⟨h.functions, h.threads, congrArg (fun x => x.schedule i r) h.eq⟩

theorem Near.oracle (h : Near σ s s') : Near σ { s with oracle := r } s' := h

theorem Near.oracle' (h : Near σ s s') : Near σ s { s' with oracle := r } :=
  ⟨h.functions, h.threads, congrArg (fun x => { x with oracle := r }) h.eq⟩

theorem Near.sync (h : Near σ s s') : s'.synchronizedThreads = s.synchronizedThreads := by rw [h.eq]
theorem Near.stdout (h : Near σ s s') : s'.stdout = s.stdout := by rw [h.eq]
theorem Near.stderr (h : Near σ s s') : s'.stderr = s.stderr := by rw [h.eq]

theorem Near.threadState (h : Near σ s s') : s'.threadState i = s.threadState i := by
  unfold Machine.threadState
  rcases rel_getElem? h.threads i with ⟨h1, h2⟩ | ⟨a, b, h1, h2, h3⟩
  · rw [h2, show s.threads[i]? = none from h1]
  · rw [h2, show s.threads[i]? = some a from h1]
    exact congrArg some (by rw [h3.eq])

theorem Near.anyEnabled (h : Near σ s s') : s'.anyEnabled = s.anyEnabled := by
  unfold Machine.anyEnabled; exact Same.any_state h.threads _

/-- Outside of these blocks, both machines execute the same. -/
theorem Near.execStep (h : Near σ s s') (hi : ¬ AtHop σ s i) :
    RR (Fixed σ) σ Eq (execStep (s.schedule i r)) (execStep (s'.schedule i r)) := by
  refine execStep_rel h.schedule fun fr hfr => ?_
  by_contra hn
  obtain ⟨th, rest, h1, h2⟩ := curFrame_eq_ok.1 hfr
  exact hi ⟨th, fr, rest, h1, h2, hn⟩

include B in
/-- In these blocks, only the machine that runs the original program makes a step. -/
theorem hop_step (H : Hops σ p p') (hr : Reachable p s) (hn : Near σ s s') (ha : AtHop σ s i) (hi : s.threadState i = some .enabled)
    (ho : s.oracle = .int i :: r) :
    ∃ t, step s = .ok ((), t) ∧ Near σ t s' ∧ ¬ AtHop σ t i ∧ t.mem.accesses = [] ∧ t.oracle = r ∧ ∀ j, j ≠ i → t.threads[j]? = s.threads[j]? := by
  obtain ⟨th, fr, rest, h1, h2, h3⟩ := ha
  have hen : th.state = .enabled := by
    unfold Machine.threadState at hi
    rw [h1] at hi
    exact Option.some.inj hi
  have hmem := List.mem_of_getElem? h1
  have hre := hr.inReach (B := B) th hmem fr (by rw [h2]; simp)
  have hfi := hr.frames (B := B)
  have hfn : ∃ name, p.functions.get? name = some fr.func := by
    have := (hfi.threads th hmem).stack
    rw [hfi.eq, h2] at this
    exact this.1.func
  obtain ⟨n, hfn⟩ := hfn
  obtain ⟨hid, k, hk⟩ := H.hop n _ hfn _ hre.reaches h3
  have hat : fr.AtTerm (.goto (σ fr.nextBlock)) := ⟨_, hk, by have := hre.stmt _ hk; simpa using this, rfl⟩
  have hrun : s.Runs i r th fr rest := ⟨ho, h1, hen, h2⟩
  have hx : MiniRust.execStep (s.schedule i r) = .ok ((), { s.schedule i r with
      threads := s.threads.set i { th with stack := fr.jumpToBlock (σ fr.nextBlock) :: rest } }) := by
    rw [hrun.execStep_term hat]
    unfold evalTerminator
    exact jumpToBlock_eq_ok.2 ⟨th, fr, rest, h1, h2, rfl⟩
  have hlt := (List.getElem?_eq_some_iff.1 h1).1
  refine ⟨{ s.schedule i r with
      threads := s.threads.set i { th with stack := fr.jumpToBlock (σ fr.nextBlock) :: rest } }, ?_, ⟨hn.functions, ?_, ?_⟩, ?_, rfl, rfl, fun j hj => List.getElem?_set_ne (Ne.symm hj)⟩
  · rw [step_race ho hi hx, if_neg]
    rintro ⟨_, _, a, ha, _⟩
    cases ha
  · show List.Forall₂ _ (s.threads.set i _) s'.threads
    rcases rel_getElem? hn.threads i with ⟨g1, g2⟩ | ⟨a, b, g1, g2, g3⟩
    · rw [show s.threads[i]? = none from g1] at h1; cases h1
    · rw [show s.threads[i]? = some a from g1] at h1
      cases h1
      have e : s'.threads = s'.threads.set i b := by
        obtain ⟨hl, e⟩ := List.getElem?_eq_some_iff.1 g2
        rw [← e, List.set_getElem_self]
      rw [e]
      refine rel_set hn.threads ?_ i
      have hst := g3.stack
      rw [h2] at hst
      cases hb : b.stack with
      | nil => rw [hb] at hst; cases hst
      | cons fr' rest' =>
        rw [hb] at hst
        cases hst with
        | cons q1 q2 =>
          refine ⟨?_, ?_⟩
          · rw [hb]
            refine .cons ⟨q1.func, ?_⟩ q2
            have e0 : fr.nextStmt = 0 := by have := hre.stmt _ hk; simpa using this
            conv_lhs => rw [q1.eq]
            unfold StackFrame.jumpToBlock
            rw [hid, e0]
          · conv_lhs => rw [g3.eq]
  · exact congrArg (fun x => x) hn.eq
  · rintro ⟨th', fr', rest', j1, j2, j3⟩
    rw [show (s.threads.set i _)[i]? = some _ from List.getElem?_set_self hlt] at j1
    cases j1
    cases j2
    exact j3 hid

include B in
/-- A thread can leave these blocks. -/
theorem unhop (H : Hops σ p p') (hr : Reachable p s) (hn : Near σ s s') (hi : s.threadState i = some .enabled) (r) :
    ∃ t, Reachable p t ∧ Near σ t s' ∧ ¬ AtHop σ t i ∧ t.oracle = r ∧ (∀ j, j ≠ i → t.threads[j]? = s.threads[j]?) ∧
      (t = { s with oracle := r } ∨ t.mem.accesses = []) := by
  by_cases ha : AtHop σ s i
  · obtain ⟨t, h1, h2, h3, h4, h5, h6⟩ := hop_step (B := B) (s := { s with oracle := .int i :: r }) H (C84_reachable hr _) hn ha hi rfl
    exact ⟨t, (C84_reachable hr _).step h1, h2, h3, h5, h6, .inr h4⟩
  · exact ⟨{ s with oracle := r }, C84_reachable hr _, hn, ha, rfl, fun _ _ => rfl, .inl rfl⟩

include B in
/-- Both machines make the same step. -/
theorem same_step (hn : Near σ s s') (ha : ¬ AtHop σ s i) (hi : s.threadState i = some .enabled)
    (ho : s.oracle = .int i :: r) (hx : execStep (s'.schedule i r) = .ok ((), t')) :
    ∃ t, execStep (s.schedule i r) = .ok ((), t) ∧ MRel (Fixed σ) σ t t' ∧
      step s = if i ≠ s.activeThread ∧ i ∉ s.synchronizedThreads ∧
        ∃ a ∈ t'.mem.accesses, ∃ p ∈ s.mem.accesses, a.races p = true then .error .ub else .ok ((), t) := by
  have h := hn.execStep ha (r := r)
  rw [hx] at h
  cases hy : execStep (s.schedule i r) with
  | error e => rw [hy] at h; cases h
  | ok y =>
    obtain ⟨⟨⟩, t⟩ := y
    rw [hy] at h
    cases h with
    | ok _ h =>
      refine ⟨t, rfl, h, ?_⟩
      rw [step_race ho hi hy, show t'.mem = t.mem by rw [h.eq]]

include B in
/-- Every state of the program that passes by the blocks is one of the original program. -/
theorem hops_reachable (H : Hops σ p p') (hr : Reachable p' s') : ∃ s, Reachable p s ∧ MRel (Fixed σ) σ s s' := by
  refine hr.induct (I := fun s' => ∃ s : Machine M (AllocId × PE) F, Reachable p s ∧ MRel (Fixed σ) σ s s') ?_ ?_
  · intro o s' h
    rcases H.recoded.new (M := M) (F := F) H.wf o with ⟨s0, s0', h1, h2, h3⟩ | ⟨e, h1, h2⟩
    · rw [h2] at h; cases h; exact ⟨s0, ⟨o, s0, h1, .refl _⟩, h3⟩
    · rw [h2] at h; cases h
  · rintro s' t' ⟨s, hr, hs⟩ h
    have h' := h
    obtain ⟨i, th, r, h1, h2, h3, h4, -⟩ := step_eq_ok.1 h
    have hi' : s'.threadState i = some .enabled := by unfold Machine.threadState; rw [h2]; exact congrArg some h3
    have hi : s.threadState i = some .enabled := hs.near.threadState.symm.trans hi'
    obtain ⟨u, k1, k2, k3, k4, _, k6⟩ := unhop (B := B) H hr hs.near hi (.int i :: r)
    obtain ⟨t, j1, j2, j3⟩ := same_step (B := B) k2 k3 (k2.threadState.symm.trans hi') k4 h4
    rw [if_neg] at j3
    · exact ⟨t, k1.step j3, j2⟩
    · rcases k6 with rfl | k6
      · rw [step_race h1 hi' h4] at h'
        intro hc
        rw [if_pos] at h'
        · cases h'
        · rw [show s'.activeThread = s.activeThread by rw [hs.eq], show s'.mem = s.mem by rw [hs.eq], hs.near.sync]
          exact hc
      · rintro ⟨_, _, _, _, q, hq, _⟩
        rw [k6] at hq; cases hq

include B in
/-- If it ends then the original program can end in the same way. -/
theorem hops_ends (H : Hops σ p p') (hr : Reachable p' s') {e : Err} (h : step s' = .error e) (he : e ≠ .noBehavior) :
    ∃ s : Machine M (AllocId × PE) F, Reachable p s ∧ step s = .error e ∧ s'.stdout = s.stdout ∧ s'.stderr = s.stderr := by
  obtain ⟨s, hs, hm⟩ := hops_reachable (B := B) H hr
  rcases step_fails h he with ⟨rfl, hd⟩ | ⟨i, r, ho, hi', hx | ⟨t', hx, rfl, h1, h2, h3⟩⟩
  · exact ⟨s, hs, step_deadlock (hm.near.anyEnabled.symm.trans hd), hm.near.stdout, hm.near.stderr⟩
  · have hi := hm.near.threadState.symm.trans hi'
    obtain ⟨u, k1, k2, k3, k4, _, k6⟩ := unhop (B := B) H hs hm.near hi (.int i :: r)
    refine ⟨u, k1, step_of_execStep_error k4 (k2.threadState.symm.trans hi') ?_, k2.stdout, k2.stderr⟩
    have := k2.execStep k3 (r := r)
    rw [hx] at this
    cases hy : execStep (u.schedule i r) with
    | error e' => rw [hy] at this; cases this; rfl
    | ok y => rw [hy] at this; cases this
  · -- a data race: thread `i` leaves the block before the step that it races with
    obtain ⟨o, s0, hn, hsteps⟩ := hr
    cases hsteps with
    | refl =>
      obtain ⟨_, _, q1, _⟩ := new_eq_ok hn
      obtain ⟨_, _, _, _, f, g, _, _, q2⟩ := new_frames (B := B) hn
      refine absurd ?_ h1
      unfold Machine.threadState at hi'
      rw [q2] at hi'
      rw [q1]
      cases i with
      | zero => rfl
      | succ n => cases hi'
    | @tail u' _ hu hz =>
      have hru' : Reachable p' u' := ⟨o, s0, hn, hu⟩
      obtain ⟨u, hru, hmu⟩ := hops_reachable (B := B) H hru'
      have hz' := hz
      obtain ⟨a, tha, ra, z1, z2, z3, z4, -⟩ := step_eq_ok.1 hz
      have hact : s'.activeThread = a := execStep_active z4
      have hai : a ≠ i := fun e => h1 (by rw [hact, e])
      have hiu' : u'.threadState i = some .enabled := by
        by_contra hne
        exact h2 ((C22_synchronized_by_step hz i).2 (.inr (.inr ⟨hne, hi'⟩)))
      have hau' : u'.threadState a = some .enabled := by unfold Machine.threadState; rw [z2]; exact congrArg some z3
      obtain ⟨u1, k1, k2, k3, k4, k5, k6⟩ := unhop (B := B) H hru hmu.near (hmu.near.threadState.symm.trans hiu') u.oracle
      obtain ⟨u2, l1, l2, l3, l4, l5, l6⟩ := unhop (B := B) H k1 k2 (k2.threadState.symm.trans hau') (.int a :: ra)
      obtain ⟨t, j1, j2, j3⟩ := same_step (B := B) l2 l3 (l2.threadState.symm.trans hau') l4 z4
      rw [if_neg] at j3
      · have hrt := l1.step j3
        obtain ⟨b, w, w', c1, c2, c3, c4, c5, c6⟩ := C35_stack_discipline (B := B) l1 j3
        have hb : b = a := by rw [← c1, execStep_active j1]
        subst hb
        have hnt : ¬ AtHop σ t i := by
          rintro ⟨th, fr, rest, g1, g2, g3⟩
          have e2 : ∃ thu, u2.threads[i]? = some thu := by
            have := l2.threadState (i := i)
            rw [hiu'] at this
            unfold Machine.threadState at this
            cases hq : u2.threads[i]? with
            | none => rw [hq] at this; cases this
            | some q => exact ⟨q, rfl⟩
          obtain ⟨thu, e2⟩ := e2
          obtain ⟨x, x1, x2, _⟩ := c5 i thu (Ne.symm hai) e2
          rw [g1] at x1
          cases x1
          rw [x2] at g2
          rw [l5 i (Ne.symm hai)] at e2
          exact k3 ⟨thu, fr, rest, e2, g2, g3⟩
        obtain ⟨w, d1, d2, d3⟩ := same_step (B := B) (s := t) j2.near hnt (j2.near.threadState.symm.trans hi')
          ((show t.oracle = s'.oracle by rw [j2.eq]).trans ho) hx
        refine ⟨t, hrt, ?_, j2.near.stdout, j2.near.stderr⟩
        rw [d3, if_pos]
        rw [show t.activeThread = s'.activeThread by rw [j2.eq], show t.mem = s'.mem by rw [j2.eq], ← j2.near.sync]
        exact ⟨h1, h2, h3⟩
      · intro hc
        have hacc : u2.mem.accesses = [] ∨ (u2.activeThread = u'.activeThread ∧ u2.synchronizedThreads = u'.synchronizedThreads ∧ u2.mem = u'.mem) := by
          rcases l6 with l6 | l6
          · rcases k6 with k6 | k6
            · right
              rw [l6, k6]
              exact ⟨by rw [hmu.eq], by rw [hmu.eq], by rw [hmu.eq]⟩
            · left; rw [l6]; exact k6
          · exact .inl l6
        rcases hacc with hacc | ⟨e1, e2, e3⟩
        · obtain ⟨_, _, _, _, q, hq, _⟩ := hc
          rw [hacc] at hq; cases hq
        · rw [e1, e2, e3] at hc
          rw [step_race z1 hau' z4, if_pos hc] at hz'
          cases hz'

include B in
/-- Every state of the original program is one of the other program, unless the latter has undefined behavior. -/
theorem hops_back (H : Hops σ p p') (hub : ∀ u : Machine M (AllocId × PE) F, Reachable p' u → step u ≠ .error .ub) (hr : Reachable p s) :
    ∃ s', Reachable p' s' ∧ Near σ s s' ∧ (s.mem.accesses = [] ∨ s'.mem.accesses = s.mem.accesses ∧ s'.activeThread = s.activeThread) := by
  obtain ⟨o, s0, hn, hs⟩ := hr
  induction hs with
  | refl =>
    rcases H.recoded.new (M := M) (F := F) H.wf o with ⟨q, q', h1, h2, h3⟩ | ⟨e, h1, h2⟩
    · rw [h1] at hn; cases hn; exact ⟨q', ⟨o, q', h2, .refl _⟩, h3.near, .inr ⟨by rw [h3.eq], by rw [h3.eq]⟩⟩
    · rw [h1] at hn; cases hn
  | @tail s t hs h ih =>
    obtain ⟨s', hr', hs', -⟩ := ih
    obtain ⟨i, th, r, h1, h2, h3, h4, -⟩ := step_eq_ok.1 h
    have hi : s.threadState i = some .enabled := by unfold Machine.threadState; rw [h2]; exact congrArg some h3
    by_cases ha : AtHop σ s i
    · obtain ⟨t2, k1, k2, _, k4, _⟩ := hop_step (B := B) H ⟨o, s0, hn, hs⟩ hs' ha hi h1
      rw [h] at k1; cases k1
      exact ⟨s', hr', k2, .inl k4⟩
    · have := hs'.execStep ha (r := r)
      rw [h4] at this
      cases hy : execStep (s'.schedule i r) with
      | error e => rw [hy] at this; cases this
      | ok y =>
        obtain ⟨⟨⟩, t'⟩ := y
        rw [hy] at this
        cases this with
        | ok _ hm =>
          have hr2 := C84_reachable hr' (.int i :: r)
          have hst := step_race (s := { s' with oracle := .int i :: r }) (i := i) (rest := r) rfl (hs'.threadState.trans hi) hy
          split at hst
          · exact absurd hst (hub _ hr2)
          · exact ⟨t', hr2.step hst, hm.near, .inr ⟨by rw [hm.eq], by rw [hm.eq]⟩⟩

include B in
/-- If the original program ends then the other one can end in the same way, unless it has undefined behavior. -/
theorem hops_back_ends (H : Hops σ p p') (hub : ∀ u : Machine M (AllocId × PE) F, Reachable p' u → step u ≠ .error .ub) (hr : Reachable p s)
    {e : Err} (h : step s = .error e) (he : e ≠ .noBehavior) :
    ∃ s' : Machine M (AllocId × PE) F, Reachable p' s' ∧ step s' = .error e ∧ s.stdout = s'.stdout ∧ s.stderr = s'.stderr := by
  obtain ⟨s', hr', hs', hacc⟩ := hops_back (B := B) H hub hr
  rcases step_fails h he with ⟨rfl, hd⟩ | ⟨i, r, ho, hi, hx | ⟨t', hx, rfl, h1, h2, h3⟩⟩
  · exact ⟨s', hr', step_deadlock (hs'.anyEnabled.trans hd), hs'.stdout.symm, hs'.stderr.symm⟩
  · by_cases ha : AtHop σ s i
    · obtain ⟨t2, k1, _⟩ := hop_step (B := B) H hr hs' ha hi ho
      rw [h] at k1; cases k1
    · refine ⟨{ s' with oracle := .int i :: r }, C84_reachable hr' _, step_of_execStep_error rfl (hs'.threadState.trans hi) ?_,
        hs'.stdout.symm, hs'.stderr.symm⟩
      have := hs'.execStep ha (r := r)
      rw [hx] at this
      cases hy : execStep (s'.schedule i r) with
      | error e' => rw [hy] at this; cases this; exact hy
      | ok y => rw [hy] at this; cases this
  · obtain ⟨a, ha', q, hq, haq⟩ := h3
    rcases hacc with hacc | ⟨e1, e2⟩
    · rw [hacc] at hq; cases hq
    by_cases ha : AtHop σ s i
    · obtain ⟨t2, k1, _⟩ := hop_step (B := B) H hr hs' ha hi ho
      rw [h] at k1; cases k1
    · have := hs'.execStep ha (r := r)
      rw [hx] at this
      cases hy : execStep (s'.schedule i r) with
      | error e => rw [hy] at this; cases this
      | ok y =>
        obtain ⟨⟨⟩, t2⟩ := y
        rw [hy] at this
        cases this with
        | ok _ hm =>
          refine ⟨{ s' with oracle := .int i :: r }, C84_reachable hr' _, ?_, hs'.stdout.symm, hs'.stderr.symm⟩
          rw [step_race (s := { s' with oracle := .int i :: r }) (i := i) (rest := r) rfl (hs'.threadState.trans hi) hy, if_pos]
          refine ⟨fun hc => h1 (hc.trans e2), fun hc => h2 (hs'.sync ▸ hc), a, ?_, q, ?_, haq⟩
          · rw [show t2.mem = t'.mem by rw [hm.eq]]; exact ha'
          · exact e1 ▸ hq

end
end MiniRust
