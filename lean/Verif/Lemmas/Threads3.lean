import Verif.Lemmas.Threads2
/-
Steps at intrinsics, data race checks, and errors of steps.
-/
set_option linter.unusedSectionVars false
namespace MiniRust
variable {M P F : Type} [Memory M P F] [DecidableEq P] [T : Target] {s s' : Machine M P F}

theorem AtTerminator_curFrame {i : Nat} {rest : List (Choice P)} {t : Terminator} (h : s.AtTerminator i t) :
    ∃ f b, (s.schedule i rest).curFrame = .ok f ∧ f.func.blocks.get f.nextBlock = .ok b ∧
      f.nextStmt = b.statements.length ∧ t = b.terminator := by
  obtain ⟨th, f, fs, b, h1, h2, h3, h4, h5⟩ := h
  exact ⟨f, b, curFrame_eq_ok.2 ⟨th, fs, h1, h2⟩, by rw [Map.get, unwrap_eq_ok]; exact h3, h4, h5⟩

theorem AtTerminator_unique {i : Nat} {t t' : Terminator} (h : s.AtTerminator i t) (h' : s.AtTerminator i t') :
    t = t' := by
  obtain ⟨th, f, fs, b, h1, h2, h3, h4, rfl⟩ := h
  obtain ⟨th', f', fs', b', k1, k2, k3, k4, rfl⟩ := h'
  rw [h1] at k1; cases k1
  rw [h2] at k2; cases k2
  rw [h3] at k3; cases k3
  rfl

/-- The step of a thread at a terminator executes that terminator. -/
theorem execStep_atTerminator {i : Nat} {rest : List (Choice P)} {t : Terminator} (h : s.AtTerminator i t) :
    execStep (s.schedule i rest) = evalTerminator t (s.schedule i rest) := by
  obtain ⟨f, b, h1, h2, h3, rfl⟩ := AtTerminator_curFrame (rest := rest) h
  unfold execStep
  cases hr : evalTerminator b.terminator (s.schedule i rest) with
  | ok r =>
    obtain ⟨u, s'⟩ := r
    refine EM.bind_eq_ok.2 ⟨_, _, EM.read_eq_ok.2 ⟨h1, rfl⟩, EM.bind_eq_ok.2 ⟨_, _, EM.lift_eq_ok.2 ⟨h2, rfl⟩, ?_⟩⟩
    rw [if_pos h3]; exact hr
  | error e =>
    refine EM.bind_eq_error.2 (.inr ⟨_, _, EM.read_eq_ok.2 ⟨h1, rfl⟩, EM.bind_eq_error.2 (.inr
      ⟨_, _, EM.lift_eq_ok.2 ⟨h2, rfl⟩, ?_⟩)⟩)
    rw [if_pos h3]; exact hr

section
variable [SoftMem M P F]

theorem step_atIntrinsic {op : IntrinsicOp} (h : step s = .ok ((), s')) (hop : s.AtIntrinsic s'.activeThread op) :
    ∃ (s1 s2 : Machine M P F) (args : List (Value P × Ty)) (retTy : Ty) (v : Value P), s1.skel = s.skel ∧ s1.activeThread = s'.activeThread ∧
      evalIntrinsic op args retTy s1 = .ok (v, s2) ∧ s'.skel = s2.skel ∧ s2.activeThread = s'.activeThread := by
  obtain ⟨a, t, rest, h1, h2, h3, h4, h5⟩ := step_eq_ok.1 h
  have hact : s'.activeThread = a := by
    obtain ⟨rest', h6, _⟩ := step_skel h
    rw [h1] at h6; injection h6 with h7 h8
    injection h7 with h7; exact (Int.ofNat.inj h7).symm
  rw [hact] at hop ⊢
  obtain ⟨as, r, n, hop⟩ := hop
  rw [execStep_atTerminator hop] at h4
  unfold evalTerminator at h4
  obtain ⟨⟨pl, ty⟩, b1, k1, g1⟩ := EM.bind_eq_ok.1 h4
  obtain ⟨vs, b2, k2, g2⟩ := EM.bind_eq_ok.1 g1
  obtain ⟨v, b3, k3, g3⟩ := EM.bind_eq_ok.1 g2
  have q1 : Quiet AnyMem _ _ := (tri_evalPlace (Rm := AnyMem) _).quiet.ok _ _ _ k1
  have q2 : Quiet AnyMem _ _ := (tri_evalValues (Rm := AnyMem) _).quiet.ok _ _ _ k2
  have q3 : Quiet AnyMem b3 s' := Tri.ok (E := Soft) (.bind tri_placeStore fun _ => tri_jumpOrUb) _ _ _ g3
  refine ⟨b2, b3, vs, ty, v, ?_, ?_, k3, q3.skel, ?_⟩
  · rw [q2.skel, q1.skel]; rfl
  · rw [q2.active, q1.active]; rfl
  · rw [← q3.active, hact]

/-- What a step does, given that executing the chosen thread succeeds. -/
theorem step_of_execStep {i : Nat} {rest : List (Choice P)} {s1 : Machine M P F}
    (ho : s.oracle = .int i :: rest) (hi : s.threadState i = some .enabled)
    (hx : execStep (s.schedule i rest) = .ok ((), s1)) :
    step s = (s1.mem.checkDataRaces s1.activeThread (setInsert s.synchronizedThreads s.activeThread)
      s.mem.accesses).map (fun _ => ((), s1)) := by
  obtain ⟨t, ht, hst⟩ : ∃ t, s.threads[i]? = some t ∧ t.state = .enabled := by
    simpa [Machine.threadState] using hi
  cases hc : s1.mem.checkDataRaces s1.activeThread (setInsert s.synchronizedThreads s.activeThread)
      s.mem.accesses with
  | ok u => exact step_eq_ok.2 ⟨i, t, rest, ho, ht, hst, hx, hc⟩
  | error e =>
    unfold step
    refine EM.bind_eq_error.2 (.inr ⟨true, s, EM.read_eq_ok.2 ⟨?_, rfl⟩, ?_⟩)
    · simp only [Machine.anyEnabled, Except.ok.injEq, List.any_eq_true, decide_eq_true_eq]
      exact ⟨t, List.mem_of_getElem? ht, hst⟩
    · simp only [Bool.not_true, Bool.false_eq_true, if_false]
      refine EM.bind_eq_error.2 (.inr ⟨_, _, rfl, ?_⟩)
      refine EM.bind_eq_error.2 (.inr ⟨(), _, pickThread_eq_ok.2 ⟨i, t, rest, ho, Int.natCast_nonneg _, ht, hst, rfl⟩, ?_⟩)
      refine EM.bind_eq_error.2 (.inr ⟨(), _, hx, ?_⟩)
      exact EM.read_eq_error.2 hc

theorem step_of_execStep_error {i : Nat} {rest : List (Choice P)} {e : Err}
    (ho : s.oracle = .int i :: rest) (hi : s.threadState i = some .enabled)
    (hx : execStep (s.schedule i rest) = .error e) : step s = .error e := by
  obtain ⟨t, ht, hst⟩ : ∃ t, s.threads[i]? = some t ∧ t.state = .enabled := by
    simpa [Machine.threadState] using hi
  unfold step
  refine EM.bind_eq_error.2 (.inr ⟨true, s, EM.read_eq_ok.2 ⟨?_, rfl⟩, ?_⟩)
  · simp only [Machine.anyEnabled, Except.ok.injEq, List.any_eq_true, decide_eq_true_eq]
    exact ⟨t, List.mem_of_getElem? ht, hst⟩
  · simp only [Bool.not_true, Bool.false_eq_true, if_false]
    refine EM.bind_eq_error.2 (.inr ⟨_, _, rfl, ?_⟩)
    refine EM.bind_eq_error.2 (.inr ⟨(), _, pickThread_eq_ok.2 ⟨i, t, rest, ho, Int.natCast_nonneg _, ht, hst, rfl⟩, ?_⟩)
    exact EM.bind_eq_error.2 (.inl hx)

theorem execStep_active {i : Nat} {rest : List (Choice P)} {s1 : Machine M P F}
    (hx : execStep (s.schedule i rest) = .ok ((), s1)) : s1.activeThread = i := by
  obtain ⟨b1, b2, q1, hc, q2⟩ := execStep_ok (Rm := AnyMem) hx
  rw [q2.active]
  have : b2.activeThread = b1.activeThread := by cases hc <;> rfl
  rw [this, q1.active]; rfl

theorem raceLoop_eq {prev as : List Access} :
    raceLoop prev as = if ∃ a ∈ as, ∃ p ∈ prev, a.races p = true then .error .ub else .ok () := by
  induction as with
  | nil => simp [raceLoop]
  | cons a as ih =>
    unfold raceLoop
    by_cases h : prev.any (fun p => a.races p) = true
    · rw [if_pos h, if_pos]
      obtain ⟨p, hp, hr⟩ := List.any_eq_true.1 h
      exact ⟨a, by simp, p, hp, hr⟩
    · rw [if_neg h, ih]
      congr 1
      simp only [List.any_eq_true, not_exists, not_and, Bool.not_eq_true] at h
      simp only [List.mem_cons, eq_iff_iff]
      constructor
      · rintro ⟨x, hx, hr⟩; exact ⟨x, .inr hx, hr⟩
      · rintro ⟨x, rfl | hx, p, hp, hr⟩
        · rw [h p hp] at hr; cases hr
        · exact ⟨x, hx, p, hp, hr⟩

/-- A step by thread `i` whose instruction succeeds. -/
theorem step_race {i : Nat} {rest : List (Choice P)} {s1 : Machine M P F}
    (ho : s.oracle = .int i :: rest) (hi : s.threadState i = some .enabled)
    (hx : execStep (s.schedule i rest) = .ok ((), s1)) :
    step s = if i ≠ s.activeThread ∧ i ∉ s.synchronizedThreads ∧
        ∃ a ∈ s1.mem.accesses, ∃ p ∈ s.mem.accesses, a.races p = true then .error .ub else .ok ((), s1) := by
  rw [step_of_execStep ho hi hx, execStep_active hx]
  unfold ConcMem.checkDataRaces
  by_cases h : i ∈ setInsert s.synchronizedThreads s.activeThread
  · rw [if_pos h, if_neg]
    · rfl
    · rintro ⟨h1, h2, _⟩
      rcases mem_setInsert.1 h with h | h
      · exact h2 h
      · exact h1 h
  · rw [if_neg h, raceLoop_eq]
    have h1 : i ≠ s.activeThread := fun e => h (mem_setInsert.2 (.inr e))
    have h2 : i ∉ s.synchronizedThreads := fun e => h (mem_setInsert.2 (.inl e))
    by_cases hr : ∃ a ∈ s1.mem.accesses, ∃ p ∈ s.mem.accesses, a.races p = true
    · rw [if_pos hr, if_pos ⟨h1, h2, hr⟩]; rfl
    · rw [if_neg hr, if_neg (fun h => hr h.2.2)]; rfl

/-- The errors of executing an instruction. -/
theorem execStep_error {e : Err} (h : execStep s = .error e) :
    Soft e ∨ ∃ t, s.nextTerminator = some t ∧ t.Stops ∧ evalTerminator t s = .error e := by
  by_cases hs : ∀ t, s.nextTerminator = some t → ¬ t.Stops
  · exact .inl ((execStep_of_not_stops (Rm := AnyMem) hs (fun _ _ _ => inferInstance) fun _ _ _ => inferInstance).2 _ h)
  · simp only [not_forall, not_not] at hs
    obtain ⟨t, ht, hst⟩ := hs
    refine .inr ⟨t, ht, hst, ?_⟩
    unfold execStep at h
    simp only [EM.bind_eq_error, EM.read_eq_error, EM.lift_eq_error, EM.read_eq_ok, EM.lift_eq_ok] at h
    unfold Machine.nextTerminator at ht
    rcases h with h | ⟨fr, _, ⟨h1, rfl⟩, h | ⟨b, _, ⟨h2, rfl⟩, h⟩⟩
    · rw [h] at ht; cases ht
    · rw [h1] at ht
      cases hg : fr.func.blocks.get? fr.nextBlock with
      | none => simp [hg] at ht
      | some b => rw [Map.get, hg] at h; cases h
    · rw [h1] at ht
      rw [Map.get, unwrap_eq_ok] at h2
      simp only [h2] at ht
      split at ht
      · rename_i h3
        cases ht
        rw [if_pos h3] at h
        exact h
      · cases ht

/-- `Abort` and `Exit` stop the machine, report a leak, or fail while evaluating their operands. -/
theorem stops_error {t : Terminator} (hst : t.Stops) {e : Err} (h : evalTerminator t s = .error e) :
    Soft e ∨ (∃ as r n, t = .intrinsic .abort as r n ∧ e = .abort) ∨
      ∃ as r n s1, t = .intrinsic .exit as r n ∧ Quiet AnyMem s s1 ∧
        (e = .machineStop ∧ s1.mem.leakCheck = .ok () ∨ s1.mem.leakCheck = .error e) := by
  cases t with
  | intrinsic op as r n =>
    unfold evalTerminator at h
    rcases EM.bind_eq_error.1 h with h | ⟨_, b1, k1, h⟩
    · exact .inl ((tri_evalPlace (Rm := AnyMem) _).quiet.err _ _ h)
    rcases EM.bind_eq_error.1 h with h | ⟨_, b2, k2, h⟩
    · exact .inl ((tri_evalValues (Rm := AnyMem) _).quiet.err _ _ h)
    have q1 : Quiet AnyMem _ _ := (tri_evalPlace (Rm := AnyMem) _).quiet.ok _ _ _ k1
    have q2 : Quiet AnyMem _ _ := (tri_evalValues (Rm := AnyMem) _).quiet.ok _ _ _ k2
    rcases EM.bind_eq_error.1 h with h | ⟨_, b3, k3, h⟩
    · cases op <;> first | exact hst.elim | skip
      · cases h; exact .inr (.inl ⟨as, r, n, rfl, rfl⟩)
      · refine .inr (.inr ⟨as, r, n, b2, rfl, PreRel.trans _ _ _ q1 q2, ?_⟩)
        unfold evalIntrinsic intrinsicExit at h
        rcases EM.bind_eq_error.1 h with h7 | ⟨_, b3, k3, h7⟩
        · exact .inr (EM.read_eq_error.1 h7)
        · obtain ⟨k4, rfl⟩ := EM.read_eq_ok.1 k3
          cases h7; exact .inl ⟨rfl, k4⟩
    · exfalso
      cases op <;> first | exact hst.elim | skip
      · cases k3
      · unfold evalIntrinsic intrinsicExit at k3
        obtain ⟨_, _, _, k3⟩ := EM.bind_eq_ok.1 k3
        cases k3
  | _ => exact hst.elim

theorem not_soft_deadlock : ¬ Soft .deadlock := by unfold Soft; simp

theorem execStep_ne_deadlock : execStep s ≠ .error .deadlock := by
  intro h
  rcases execStep_error h with h | ⟨t, _, hst, h⟩
  · exact not_soft_deadlock h
  · rcases stops_error hst h with h | ⟨_, _, _, _, h⟩ | ⟨_, _, _, s1, _, _, ⟨h, _⟩ | h⟩
    · exact not_soft_deadlock h
    · cases h
    · cases h
    · cases (SoftMem.leak (M := M) s1.mem.memory).err _ h

/-- Every error of a step. -/
theorem step_error_cases {e : Err} (h : step s = .error e) :
    (e = .deadlock ∧ ∀ t ∈ s.threads, t.state ≠ .enabled) ∨ e = .noBehavior ∨ e = .ub ∨
      ∃ i rest, s.oracle = .int (i : Nat) :: rest ∧ s.threadState i = some .enabled ∧
        execStep (s.schedule i rest) = .error e := by
  unfold step at h
  rcases EM.bind_eq_error.1 h with h | ⟨en, s1, h1, h⟩
  · cases h
  obtain ⟨h1, rfl⟩ := EM.read_eq_ok.1 h1
  injection h1 with h1
  cases en with
  | false =>
    left
    simp only [Bool.not_false, if_true, EM.throw_apply, Except.error.injEq] at h
    refine ⟨h.symm, ?_⟩
    simpa [Machine.anyEnabled] using h1
  | true =>
    right
    simp only [Bool.not_true, Bool.false_eq_true, if_false] at h
    rcases EM.bind_eq_error.1 h with h | ⟨⟨ps, pa⟩, s2, h2, h⟩
    · cases h
    cases h2
    rcases EM.bind_eq_error.1 h with h | ⟨u, s3, h3, h⟩
    · left
      unfold pickThread at h
      rcases EM.bind_eq_error.1 h with h | ⟨i, s4, _, h⟩
      · unfold EM.popInt at h; split at h <;> cases h; rfl
      · cases ht : getInt? s4.threads i with
        | none => simp only [ht] at h; cases h; rfl
        | some t => simp only [ht] at h; split at h <;> cases h; rfl
    · right
      obtain ⟨a, t, rest, k1, k2, k3, k4, rfl⟩ := pickThread_eq_ok.1 h3
      obtain ⟨n, rfl⟩ := Int.eq_ofNat_of_zero_le k2
      rcases EM.bind_eq_error.1 h with h | ⟨_, s5, _, h⟩
      · right
        refine ⟨n, rest, k1, ?_, h⟩
        simp only [Machine.threadState]
        erw [k3]; simp [k4]
      · left
        have h := EM.read_eq_error.1 h
        unfold ConcMem.checkDataRaces at h
        split at h
        · cases h
        · rw [raceLoop_eq] at h
          split at h <;> cases h; rfl
end
end MiniRust
