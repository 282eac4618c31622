import Verif.Spec.Minitest
import Verif.Props.Run
import Verif.Lemmas.Bypass
import Verif.Props.Start
import Verif.Examples.Programs
/-
C90: the helpers of tests tell the truth about programs.
-/
set_option linter.unusedSectionVars false
namespace MiniRust

section
variable {M P F : Type} [T : Target] [DecidableEq P] [Memory M P F] [hm : SoftMem M P F]
variable {s : Machine M P F} {prog : Program} {oracle : List (Choice P)}

theorem Machine.AtRace.step (h : s.AtRace) : step s = .error .ub := by
  obtain ⟨i, r, s1, h1, h2, h3, h4⟩ := h
  rw [step_race h1 h2 h3, if_pos h4]

theorem Machine.AtRace.fails (h : s.AtRace) : s.failsInRaceCheck = true := by
  obtain ⟨i, r, s1, h1, h2, h3, h4⟩ := h
  obtain ⟨t, ht, hst⟩ : ∃ t, s.threads[i]? = some t ∧ t.state = .enabled := by
    simpa [Machine.threadState] using h2
  unfold Machine.failsInRaceCheck
  have e1 : s.anyEnabled = true := by
    simp only [Machine.anyEnabled, List.any_eq_true, decide_eq_true_eq]
    exact ⟨t, List.mem_of_getElem? ht, hst⟩
  have e2 : (do let _ ← resetDataRaceTracking; pickThread; execStep : EM M P F Unit) s = .ok ((), s1) :=
    EM.bind_eq_ok.2 ⟨_, _, rfl, EM.bind_eq_ok.2 ⟨(), _, pickThread_eq_ok.2 ⟨i, t, r, h1, Int.natCast_nonneg _, ht, hst, rfl⟩, h3⟩⟩
  rw [e1, e2]
  rfl

theorem Machine.atRace_of_fails (h : step s = .error .ub) (hf : s.failsInRaceCheck = true) : s.AtRace := by
  rcases step_fails h (by decide) with ⟨h, _⟩ | ⟨i, r, h1, h2, h3 | ⟨t, h3, _, h4⟩⟩
  · cases h
  · exfalso
    obtain ⟨t, ht, hst⟩ : ∃ t, s.threads[i]? = some t ∧ t.state = .enabled := by
      simpa [Machine.threadState] using h2
    have e2 : (do let _ ← resetDataRaceTracking; pickThread; execStep : EM M P F Unit) s = .error .ub :=
      EM.bind_eq_error.2 (.inr ⟨_, _, rfl, EM.bind_eq_error.2 (.inr ⟨(), _, pickThread_eq_ok.2 ⟨i, t, r, h1, Int.natCast_nonneg _, ht, hst, rfl⟩, h3⟩)⟩)
    unfold Machine.failsInRaceCheck at hf
    rw [e2] at hf
    simp at hf
  · exact ⟨i, r, t, h1, h2, h3, h4⟩

theorem outcome_of_state {e : Err} (h : step s = .error e) :
    (if e = .ub ∧ s.failsInRaceCheck then TestOutcome.dataRace else .other e) = .dataRace ∧ s.AtRace ∨
    (if e = .ub ∧ s.failsInRaceCheck then TestOutcome.dataRace else .other e) = .other e ∧ ¬ s.AtRace := by
  by_cases hr : s.AtRace
  · rw [hr.step] at h
    cases h
    exact .inl ⟨by rw [if_pos ⟨rfl, hr.fails⟩], hr⟩
  · refine .inr ⟨if_neg ?_, hr⟩
    rintro ⟨rfl, h2⟩
    exact hr (Machine.atRace_of_fails h h2)

/-- C90: the outcome of a run is a data race iff the execution gets to one, and is anything else iff the execution ends for this reason. -/
theorem C90_outcome (o : TestOutcome) : (∃ fuel, runOutcome M (F := F) fuel prog oracle = some o) ↔ EndsAs M (F := F) prog oracle o := by
  unfold runOutcome
  cases hn : (Machine.new prog oracle : Res (Machine M P F)) with
  | error e' =>
    cases o with
    | dataRace =>
      refine ⟨fun ⟨_, h⟩ => by simp at h, fun ⟨s, ⟨s0, h, _⟩, _⟩ => ?_⟩
      rw [hn] at h; cases h
    | other e =>
      refine ⟨fun ⟨_, h⟩ => ?_, ?_⟩
      · simp only [Option.some.injEq, TestOutcome.other.injEq] at h
        exact .inl (h ▸ hn)
      · rintro (h | ⟨s, ⟨s0, h, _⟩, _⟩) <;> rw [hn] at h <;> cases h
        exact ⟨0, rfl⟩
  | ok s0 =>
    dsimp only
    constructor
    · rintro ⟨fuel, h⟩
      cases hl : runLoop fuel s0 with
      | none => rw [hl] at h; cases h
      | some x =>
        obtain ⟨e, s⟩ := x
        rw [hl] at h
        obtain ⟨h1, h2⟩ := runLoop_steps hl
        simp only [Option.some.injEq] at h
        rcases outcome_of_state h2 with ⟨h3, h4⟩ | ⟨h3, h4⟩
        · rw [h3] at h; subst h; exact ⟨s, ⟨s0, hn, h1⟩, h4⟩
        · rw [h3] at h; subst h; exact .inr ⟨s, ⟨s0, hn, h1⟩, h2, h4⟩
    · have key : ∀ {s : Machine M P F} {e}, Exec prog oracle s → step s = .error e → ∃ m, runLoop m s0 = some (e, s) := by
        rintro s e ⟨s0', h1, h2⟩ h3
        rw [hn] at h1; cases h1
        exact runLoop_of_steps h2 (n := 1) (by unfold runLoop; rw [h3])
      cases o with
      | dataRace =>
        rintro ⟨s, h1, h2⟩
        obtain ⟨m, h3⟩ := key h1 h2.step
        refine ⟨m, ?_⟩
        rw [h3]
        rcases outcome_of_state h2.step with ⟨h4, _⟩ | ⟨_, h4⟩
        · exact congrArg some h4
        · exact absurd h2 h4
      | other e =>
        rintro (h | ⟨s, h1, h2, h3⟩)
        · rw [hn] at h; cases h
        · obtain ⟨m, h4⟩ := key h1 h2
          refine ⟨m, ?_⟩
          rw [h4]
          rcases outcome_of_state h2 with ⟨_, h5⟩ | ⟨h5, _⟩
          · exact absurd h5 h3
          · exact congrArg some h5

theorem runOutcome_mono {n m : Nat} (h : n ≤ m) {r} (hr : runOutcome M (F := F) n prog oracle = some r) :
    runOutcome M (F := F) m prog oracle = some r := by
  unfold runOutcome at hr ⊢
  split at hr
  · exact hr
  · split at hr
    · cases hr
    · rename_i h1
      rw [runLoop_mono h h1]
      exact hr

/-- An execution ends in one way only. -/
theorem EndsAs.unique {o o' : TestOutcome} (h : EndsAs M (F := F) prog oracle o) (h' : EndsAs M (F := F) prog oracle o') : o = o' := by
  obtain ⟨n, h⟩ := (C90_outcome o).2 h
  obtain ⟨m, h'⟩ := (C90_outcome o').2 h'
  have h := runOutcome_mono (Nat.le_max_left n m) h
  rw [runOutcome_mono (Nat.le_max_right n m) h'] at h
  exact (Option.some.inj h).symm

/-! ### One run -/

/-- C90: an assertion about the end of a program passes iff the run ends as expected, and fails iff it ends in another way. -/
theorem C90_assert (o : TestOutcome) :
    ((∃ fuel, assertOutcome M (F := F) fuel prog o oracle = some (.ok ())) ↔ EndsAs M (F := F) prog oracle o) ∧
    ((∃ fuel, assertOutcome M (F := F) fuel prog o oracle = some panic) ↔ ∃ o', o' ≠ o ∧ EndsAs M (F := F) prog oracle o') := by
  have key : ∀ fuel r, assertOutcome M (F := F) fuel prog o oracle = some r ↔
      ∃ o', runOutcome M (F := F) fuel prog oracle = some o' ∧ r = rassert (decide (o' = o)) := by
    intro fuel r
    unfold assertOutcome
    cases runOutcome M (F := F) fuel prog oracle with
    | none => simp
    | some o' => simp only [Option.some.injEq, exists_eq_left']; exact eq_comm
  refine ⟨⟨?_, ?_⟩, ⟨?_, ?_⟩⟩
  · rintro ⟨fuel, h⟩
    obtain ⟨o', h1, h2⟩ := (key _ _).1 h
    by_cases e : o' = o
    · subst e; exact (C90_outcome _).1 ⟨_, h1⟩
    · rw [decide_eq_false e] at h2; cases h2
  · intro h
    obtain ⟨fuel, h⟩ := (C90_outcome _).2 h
    exact ⟨fuel, (key _ _).2 ⟨o, h, by rw [decide_eq_true rfl]; rfl⟩⟩
  · rintro ⟨fuel, h⟩
    obtain ⟨o', h1, h2⟩ := (key _ _).1 h
    by_cases e : o' = o
    · rw [decide_eq_true e] at h2; cases h2
    · exact ⟨o', e, (C90_outcome _).1 ⟨_, h1⟩⟩
  · rintro ⟨o', e, h⟩
    obtain ⟨fuel, h⟩ := (C90_outcome _).2 h
    exact ⟨fuel, (key _ _).2 ⟨o', h, by rw [decide_eq_false e]; rfl⟩⟩

/-! ### Several runs -/

/-- The program stops with these choices. -/
abbrev Stops (M : Type) {P F : Type} [DecidableEq P] [Memory M P F] (prog : Program) (oracle : List (Choice P)) : Prop :=
  EndsAs M (F := F) prog oracle (.other .machineStop)

/-- The first outcome that is not a regular end. -/
def firstOther (M : Type) {P F : Type} [Memory M P F] [DecidableEq P] (fuel : Nat) (prog : Program) : List (List (Choice P)) → Option (Option TestOutcome)
  | [] => some none
  | o :: os => match runOutcome M (F := F) fuel prog o with
    | none => none
    | some r => if r = .other .machineStop then firstOther M (F := F) fuel prog os else some (some r)

theorem firstOther_mono {n m : Nat} (h : n ≤ m) {r} : ∀ {os : List (List (Choice P))}, firstOther M (F := F) n prog os = some r →
    firstOther M (F := F) m prog os = some r
  | [], hr => hr
  | o :: os, hr => by
    unfold firstOther at hr ⊢
    cases h1 : runOutcome M (F := F) n prog o with
    | none => rw [h1] at hr; cases hr
    | some x =>
      rw [runOutcome_mono h h1]
      rw [h1] at hr
      dsimp only at hr ⊢
      split
      · rename_i hx; rw [if_pos hx] at hr; exact firstOther_mono h hr
      · rename_i hx; rw [if_neg hx] at hr; exact hr

theorem firstOther_cons {o : List (Choice P)} {os : List (List (Choice P))} {r : Option TestOutcome} :
    (∃ fuel, firstOther M (F := F) fuel prog (o :: os) = some r) ↔
      (Stops M (F := F) prog o ∧ ∃ fuel, firstOther M (F := F) fuel prog os = some r) ∨
      ∃ x, x ≠ .other .machineStop ∧ EndsAs M (F := F) prog o x ∧ r = some x := by
  constructor
  · rintro ⟨fuel, h⟩
    unfold firstOther at h
    cases h1 : runOutcome M (F := F) fuel prog o with
    | none => rw [h1] at h; cases h
    | some x =>
      rw [h1] at h
      dsimp only at h
      split at h
      · rename_i hx; subst hx; exact .inl ⟨(C90_outcome _).1 ⟨_, h1⟩, _, h⟩
      · rename_i hx; cases h; exact .inr ⟨x, hx, (C90_outcome _).1 ⟨_, h1⟩, rfl⟩
  · rintro (⟨h, m, h'⟩ | ⟨x, hx, h, rfl⟩)
    · obtain ⟨n, h⟩ := (C90_outcome _).2 h
      refine ⟨max n m, ?_⟩
      unfold firstOther
      rw [runOutcome_mono (Nat.le_max_left n m) h]
      exact firstOther_mono (Nat.le_max_right n m) h'
    · obtain ⟨n, h⟩ := (C90_outcome _).2 h
      refine ⟨n, ?_⟩
      unfold firstOther
      rw [h]
      exact if_neg hx

theorem firstOther_some {runs : Nat → List (Choice P)} {x : TestOutcome} : ∀ (n a : Nat),
    (∃ fuel, firstOther M (F := F) fuel prog ((List.range' a n).map runs) = some (some x)) ↔
      x ≠ .other .machineStop ∧ ∃ k, a ≤ k ∧ k < a + n ∧ EndsAs M (F := F) prog (runs k) x ∧
        ∀ j, a ≤ j → j < k → Stops M (F := F) prog (runs j)
  | 0, a => by
    refine ⟨fun ⟨_, h⟩ => (by cases h), fun ⟨_, k, h1, h2, _⟩ => by omega⟩
  | n + 1, a => by
    rw [List.range'_succ, List.map_cons, firstOther_cons, firstOther_some n (a + 1)]
    constructor
    · rintro (⟨h, hx, k, h1, h2, h3, h4⟩ | ⟨y, hy, h, e⟩)
      · refine ⟨hx, k, by omega, by omega, h3, fun j h5 h6 => ?_⟩
        rcases Nat.eq_or_lt_of_le h5 with rfl | h5
        · exact h
        · exact h4 j h5 h6
      · cases e; exact ⟨hy, a, le_rfl, by omega, h, fun j h5 h6 => by omega⟩
    · rintro ⟨hx, k, h1, h2, h3, h4⟩
      rcases Nat.eq_or_lt_of_le h1 with rfl | h1
      · exact .inr ⟨x, hx, h3, rfl⟩
      · exact .inl ⟨h4 a le_rfl h1, hx, k, h1, by omega, h3, fun j h5 h6 => h4 j (by omega) h6⟩

theorem firstOther_none {runs : Nat → List (Choice P)} : ∀ (n a : Nat),
    (∃ fuel, firstOther M (F := F) fuel prog ((List.range' a n).map runs) = some none) ↔
      ∀ j, a ≤ j → j < a + n → Stops M (F := F) prog (runs j)
  | 0, a => ⟨fun _ j h1 h2 => by omega, fun _ => ⟨0, rfl⟩⟩
  | n + 1, a => by
    rw [List.range'_succ, List.map_cons, firstOther_cons, firstOther_none n (a + 1)]
    constructor
    · rintro (⟨h, h1⟩ | ⟨y, hy, h, e⟩)
      · intro j h5 h6
        rcases Nat.eq_or_lt_of_le h5 with rfl | h5
        · exact h
        · exact h1 j h5 (by omega)
      · cases e
    · exact fun h => .inl ⟨h a le_rfl (by omega), fun j h1 h2 => h j (by omega) (by omega)⟩

theorem stopLoop_eq {fuel : Nat} : ∀ {os : List (List (Choice P))}, stopLoop M (F := F) fuel prog os =
    (firstOther M (F := F) fuel prog os).map fun x => match x with | none => .ok () | some _ => panic
  | [] => rfl
  | o :: os => by
    unfold stopLoop firstOther assertOutcome
    cases runOutcome M (F := F) fuel prog o with
    | none => rfl
    | some x =>
      dsimp only
      split
      · rename_i h; rw [Option.some.injEq] at h
        by_cases hx : x = .other .machineStop
        · rw [if_pos hx]; exact stopLoop_eq
        · rw [decide_eq_false hx] at h; cases h
      · rename_i h
        by_cases hx : x = .other .machineStop
        · exact absurd (by rw [decide_eq_true hx]; rfl) h
        · rw [if_neg hx, decide_eq_false hx]; rfl

theorem ubLoop_eq {fuel : Nat} {ub : TestOutcome} : ∀ {os : List (List (Choice P))}, ubLoop M (F := F) fuel prog ub os =
    (firstOther M (F := F) fuel prog os).map fun x => match x with | none => panic | some y => if y = ub then .ok () else panic
  | [] => rfl
  | o :: os => by
    unfold ubLoop firstOther
    cases runOutcome M (F := F) fuel prog o with
    | none => rfl
    | some x =>
      dsimp only
      by_cases hx : x = .other .machineStop
      · rw [if_pos hx, if_pos hx]; exact ubLoop_eq
      · rw [if_neg hx, if_neg hx]
        simp only [Option.map_some]
        split <;> rfl

theorem dataRaceLoop_eq {fuel : Nat} : ∀ {os : List (List (Choice P))}, dataRaceLoop M (F := F) fuel prog os =
    (firstOther M (F := F) fuel prog os).map fun x => match x with | none => .ok false | some .dataRace => .ok true | some (.other _) => panic
  | [] => rfl
  | o :: os => by
    unfold dataRaceLoop firstOther
    cases runOutcome M (F := F) fuel prog o with
    | none => rfl
    | some x =>
      cases x with
      | dataRace => rfl
      | other e =>
        by_cases he : e = .machineStop
        · subst he; exact dataRaceLoop_eq
        · dsimp only
          rw [if_neg (by simpa using he)]
          cases e <;> first | rfl | exact absurd rfl he

/-- C90: `assert_stop_always` passes iff every attempt ends regularly, and fails iff one ends in another way after regular ones. -/
theorem C90_stop_always (attempts : Nat) (runs : Nat → List (Choice P)) :
    ((∃ fuel, assertStopAlways M (F := F) fuel prog attempts runs = some (.ok ())) ↔ ∀ k < attempts, Stops M (F := F) prog (runs k)) ∧
    ((∃ fuel, assertStopAlways M (F := F) fuel prog attempts runs = some panic) ↔
      ∃ k < attempts, (∃ o, o ≠ .other .machineStop ∧ EndsAs M (F := F) prog (runs k) o) ∧ ∀ j < k, Stops M (F := F) prog (runs j)) := by
  unfold assertStopAlways
  simp only [stopLoop_eq, List.range_eq_range']
  constructor
  · rw [← (show _ ↔ ∀ k < attempts, Stops M (F := F) prog (runs k) from (firstOther_none attempts 0).trans
      ⟨fun h k hk => h k (Nat.zero_le _) (by omega), fun h k _ hk => h k (by omega)⟩)]
    refine exists_congr fun fuel => ?_
    cases firstOther M (F := F) fuel prog ((List.range' 0 attempts).map runs) with
    | none => simp
    | some x => cases x <;> simp [panic]
  · constructor
    · rintro ⟨fuel, h⟩
      cases h1 : firstOther M (F := F) fuel prog ((List.range' 0 attempts).map runs) with
      | none => rw [h1] at h; cases h
      | some x =>
        cases x with
        | none => rw [h1] at h; cases h
        | some x =>
          obtain ⟨hx, k, _, h2, h3, h4⟩ := (firstOther_some attempts 0).1 ⟨fuel, h1⟩
          exact ⟨k, by omega, ⟨x, hx, h3⟩, fun j hj => h4 j (Nat.zero_le _) hj⟩
    · rintro ⟨k, h2, ⟨x, hx, h3⟩, h4⟩
      obtain ⟨fuel, h⟩ := (firstOther_some attempts 0).2 ⟨hx, k, Nat.zero_le _, by omega, h3, fun j _ hj => h4 j hj⟩
      exact ⟨fuel, by rw [h]; rfl⟩

/-- C90: `assert_ub_eventually` passes iff some attempt ends in the expected undefined behavior after regular ones. -/
theorem C90_ub_eventually (attempts : Nat) (race : Bool) (runs : Nat → List (Choice P)) :
    (∃ fuel, assertUbEventually M (F := F) fuel prog attempts race runs = some (.ok ())) ↔
      ∃ k < attempts, (if race then EndsInRace M (F := F) prog (runs k) else EndsOtherwise M (F := F) prog (runs k) .ub) ∧
        ∀ j < k, Stops M (F := F) prog (runs j) := by
  unfold assertUbEventually
  simp only [ubLoop_eq, List.range_eq_range']
  have hub : (if race then TestOutcome.dataRace else .other .ub) ≠ .other .machineStop := by cases race <;> decide
  have hends : ∀ o, (if race then EndsInRace M (F := F) prog o else EndsOtherwise M (F := F) prog o .ub) ↔
      EndsAs M (F := F) prog o (if race then TestOutcome.dataRace else .other .ub) := by cases race <;> exact fun _ => Iff.rfl
  simp only [hends]
  generalize (if race then TestOutcome.dataRace else .other .ub) = ub at hub
  constructor
  · rintro ⟨fuel, h⟩
    cases h1 : firstOther M (F := F) fuel prog ((List.range' 0 attempts).map runs) with
    | none => rw [h1] at h; cases h
    | some x =>
      cases x with
      | none => rw [h1] at h; cases h
      | some x =>
        rw [h1] at h
        simp only [Option.map_some, Option.some.injEq] at h
        split at h
        · rename_i hx
          subst hx
          obtain ⟨_, k, _, h2, h3, h4⟩ := (firstOther_some attempts 0).1 ⟨fuel, h1⟩
          exact ⟨k, by omega, h3, fun j hj => h4 j (Nat.zero_le _) hj⟩
        · cases h
  · rintro ⟨k, h2, h3, h4⟩
    obtain ⟨fuel, h⟩ := (firstOther_some attempts 0).2 ⟨hub, k, Nat.zero_le _, by omega, h3, fun j _ hj => h4 j hj⟩
    exact ⟨fuel, by rw [h]; simp⟩

/-- C90: `has_data_race` gives `true` iff one of its 32 attempts gets to a data race, after ones that end regularly. It gives `false` iff all end
regularly. It fails iff an attempt ends in another way, after ones that end regularly. -/
theorem C90_has_data_race (runs : Nat → List (Choice P)) :
    ((∃ fuel, hasDataRace M (F := F) fuel prog runs = some (.ok true)) ↔
      ∃ k < 32, EndsInRace M (F := F) prog (runs k) ∧ ∀ j < k, Stops M (F := F) prog (runs j)) ∧
    ((∃ fuel, hasDataRace M (F := F) fuel prog runs = some (.ok false)) ↔ ∀ k < 32, Stops M (F := F) prog (runs k)) ∧
    ((∃ fuel, hasDataRace M (F := F) fuel prog runs = some panic) ↔
      ∃ k < 32, (∃ e, e ≠ .machineStop ∧ EndsOtherwise M (F := F) prog (runs k) e) ∧ ∀ j < k, Stops M (F := F) prog (runs j)) := by
  unfold hasDataRace
  simp only [dataRaceLoop_eq, List.range_eq_range']
  refine ⟨⟨?_, ?_⟩, ⟨?_, ?_⟩, ⟨?_, ?_⟩⟩
  · rintro ⟨fuel, h⟩
    cases h1 : firstOther M (F := F) fuel prog ((List.range' 0 32).map runs) with
    | none => rw [h1] at h; cases h
    | some x =>
      rw [h1] at h
      rcases x with _ | _ | e
      · cases h
      · obtain ⟨_, k, _, h2, h3, h4⟩ := (firstOther_some 32 0).1 ⟨fuel, h1⟩
        exact ⟨k, by omega, h3, fun j hj => h4 j (Nat.zero_le _) hj⟩
      · cases h
  · rintro ⟨k, h2, h3, h4⟩
    obtain ⟨fuel, h⟩ := (firstOther_some (x := .dataRace) 32 0).2 ⟨nofun, k, Nat.zero_le _, by omega, h3, fun j _ hj => h4 j hj⟩
    exact ⟨fuel, by rw [h]; rfl⟩
  · rintro ⟨fuel, h⟩ k hk
    cases h1 : firstOther M (F := F) fuel prog ((List.range' 0 32).map runs) with
    | none => rw [h1] at h; cases h
    | some x =>
      rw [h1] at h
      rcases x with _ | _ | e
      · exact (firstOther_none 32 0).1 ⟨fuel, h1⟩ k (Nat.zero_le _) (by omega)
      · cases h
      · cases h
  · intro h
    obtain ⟨fuel, h⟩ := (firstOther_none 32 0).2 fun k _ hk => h k (by omega)
    exact ⟨fuel, by rw [h]; rfl⟩
  · rintro ⟨fuel, h⟩
    cases h1 : firstOther M (F := F) fuel prog ((List.range' 0 32).map runs) with
    | none => rw [h1] at h; cases h
    | some x =>
      rw [h1] at h
      rcases x with _ | _ | e
      · cases h
      · cases h
      · obtain ⟨hx, k, _, h2, h3, h4⟩ := (firstOther_some 32 0).1 ⟨fuel, h1⟩
        exact ⟨k, by omega, ⟨e, fun he => hx (by rw [he]), h3⟩, fun j hj => h4 j (Nat.zero_le _) hj⟩
  · rintro ⟨k, h2, ⟨e, he, h3⟩, h4⟩
    obtain ⟨fuel, h⟩ := (firstOther_some (x := .other e) 32 0).2 ⟨by simpa using he, k, Nat.zero_le _, by omega, h3, fun j _ hj => h4 j hj⟩
    exact ⟨fuel, by rw [h]; rfl⟩

/-- C90: `has_data_race` can give `true` iff the program has an execution with a data race. -/
theorem C90_race_exists : (∃ fuel runs, hasDataRace M (F := F) (P := P) fuel prog runs = some (.ok true)) ↔
    ∃ o : List (Choice P), EndsInRace M (F := F) prog o := by
  constructor
  · rintro ⟨fuel, runs, h⟩
    obtain ⟨k, _, h, _⟩ := (C90_has_data_race runs).1.1 ⟨fuel, h⟩
    exact ⟨_, h⟩
  · rintro ⟨o, h⟩
    obtain ⟨fuel, h⟩ := (C90_has_data_race (M := M) (F := F) (prog := prog) fun _ => o).1.2 ⟨0, by decide, h, nofun⟩
    exact ⟨fuel, _, h⟩

end

section
variable {M PE AE F : Type} [T : Target] [DecidableEq PE] [Memory M (AllocId × PE) F] [hm : SoftMem M (AllocId × PE) F]
  [B : BasicBacked M PE AE F] {prog : Program}

include B in
/-- C90, finding (see C22): a data race is only found in a step of the main thread, so that races of two other threads are never found. -/
theorem C90_only_main {o : List (Choice (AllocId × PE))} {s : Machine M (AllocId × PE) F} (h : Exec prog o s) (hr : s.AtRace) :
    ∃ rest, s.oracle = .int (0 : Nat) :: rest := by
  obtain ⟨i, rest, s1, h1, h2, _, _, h4, _⟩ := hr
  obtain ⟨s0, hn, hs⟩ := h
  by_cases h0 : i = 0
  · subst h0; exact ⟨rest, h1⟩
  · exact absurd (C22_spawned_exempt (prog := prog) ⟨o, s0, hn, hs⟩ i (Nat.pos_of_ne_zero h0) (by rw [h2]; simp)) h4

/-! ### Expressions -/

/-- The function that makes a local of type `ty` live, assigns `expr` to it, and exits. -/
def exprFunction (ty : Ty) (expr : ValueExpr) : Function where
  locals := [(0, ty), (1, unitTy)]
  args := []
  ret := 1
  callingConvention := .c
  blocks := [(0, ⟨[.storageLive 0, .assign (.local 0) expr], .intrinsic .exit [] unitPlace none, .regular⟩)]
  start := 0

/-- The program with only this function. -/
def exprProgram (ty : Ty) (expr : ValueExpr) : Program where
  functions := [(0, exprFunction ty expr)]
  start := 0
  globals := []
  traits := []
  vtables := []

/-- C90: `assert_ub_expr` runs the program that assigns the expression to a local of the type. -/
theorem C90_ub_expr_program {t : ConvTy} {ty : Ty} {expr : ValueExpr} (h : t.getType = .ok ty) :
    ubExprProgram t expr = .ok (exprProgram ty expr) := by
  unfold ubExprProgram
  simp only [h]
  rfl

theorem expr_function {ty : Ty} {expr : ValueExpr} {n : FnName} {f : Function} (h : (exprProgram ty expr).functions.get? n = some f) :
    n = 0 ∧ f = exprFunction ty expr := by
  have := Map.get?_mem h
  unfold exprProgram at this
  rw [List.mem_singleton] at this
  cases this
  exact ⟨rfl, rfl⟩

theorem exit_error {s : Machine M (AllocId × PE) F} {e : Err} (h : evalTerminator (.intrinsic .exit [] unitPlace none) s = .error e) : e ≠ .ub := by
  rcases EM.bind_eq_error.1 h with h | ⟨p, s1, _, h⟩
  · have : ∃ x, evalPlace unitPlace s = .ok x := ⟨_, rfl⟩
    rw [h] at this
    obtain ⟨_, h⟩ := this
    cases h
  rcases EM.bind_eq_error.1 h with h | ⟨vs, s2, h1, h⟩
  · cases h
  rcases EM.bind_eq_error.1 h with h | ⟨v, s3, h2, h⟩
  · rcases EM.bind_eq_error.1 h with h | ⟨_, _, _, h⟩
    · have := (hm.leak s2.mem.memory).err _ (EM.read_eq_error.1 h); rw [this]; nofun
    · cases h; nofun
  · obtain ⟨_, _, _, h2⟩ := EM.bind_eq_ok.1 h2
    cases h2

theorem execStep_stmt {s : Machine M (AllocId × PE) F} {i : Nat} {r : List (Choice (AllocId × PE))} {th : Thread (AllocId × PE) F}
    {fr : StackFrame (AllocId × PE) F} {rest : List (StackFrame (AllocId × PE) F)} (hrun : s.Runs i r th fr rest) {st : Statement} (hat : fr.AtStmt st) :
    execStep (s.schedule i r) = (do evalStatement st; bumpStmt : EM M (AllocId × PE) F Unit) (s.schedule i r) := by
  obtain ⟨blk, k1, k2⟩ := hat
  unfold execStep
  rw [EM.bind_of_ok (EM.read_of_ok (curFrame_eq_ok.2 ⟨th, rest, hrun.thread, hrun.stack⟩))]
  have e2 : (EM.lift (fr.func.blocks.get fr.nextBlock) : EM M (AllocId × PE) F _) (s.schedule i r) = .ok (blk, s.schedule i r) := by
    rw [EM.lift_eq_ok]; exact ⟨Map.get_eq_ok.2 k1, rfl⟩
  have hlt := (List.getElem?_eq_some_iff.1 k2).1
  rw [EM.bind_of_ok e2, if_neg (by omega)]
  have e3 : (EM.lift (index blk.statements fr.nextStmt) : EM M (AllocId × PE) F _) (s.schedule i r) = .ok (st, s.schedule i r) := by
    rw [EM.lift_eq_ok]; exact ⟨by unfold index; rw [k2]; rfl, rfl⟩
  rw [EM.bind_of_ok e3]

theorem curFrame_error {s : Machine M (AllocId × PE) F} {e : Err} (h : s.curFrame = .error e) : e ≠ .ub := by
  unfold Machine.curFrame at h
  rcases Res.bind_eq_error.1 h with h | ⟨_, _, h⟩ <;> exact unwrap_fails h

theorem bumpStmt_error {s : Machine M (AllocId × PE) F} {e : Err} (h : bumpStmt s = .error e) : e ≠ .ub := by
  unfold bumpStmt mutateCurFrame at h
  rcases EM.bind_eq_error.1 h with h | ⟨_, _, _, h⟩
  · exact curFrame_error (EM.read_eq_error.1 h)
  rcases EM.bind_eq_error.1 h with h | ⟨_, _, _, h⟩
  · cases h
  rcases EM.bind_eq_error.1 h with h | ⟨_, _, _, h⟩
  · exact unwrap_fails (EM.read_eq_error.1 h)
  rcases EM.bind_eq_error.1 h with h | ⟨_, _, _, h⟩
  · have h := EM.lift_eq_error.1 h
    unfold Thread.setCurFrame at h
    split at h <;> cases h; nofun
  rcases EM.bind_eq_error.1 h with h | ⟨_, _, _, h⟩ <;> cases h

include B in
/-- C90: if it passes, it is assigning the expression that is undefined behavior (or the local cannot be allocated). -/
theorem C90_ub_expr [hl : LawfulTarget T] {ty : Ty} {expr : ValueExpr} {o : List (Choice (AllocId × PE))} (hw : (exprProgram ty expr).checkWf = .ok ()) :
    EndsOtherwise M (F := F) (exprProgram ty expr) o .ub ↔
      ∃ (s : Machine M (AllocId × PE) F) (i : Nat) (rest : List (Choice (AllocId × PE))) (th : _) (fr : _) (stack : _) (st : Statement),
        Exec (exprProgram ty expr) o s ∧ s.Runs i rest th fr stack ∧ fr.AtStmt st ∧
        (st = .assign (.local 0) expr ∨ st = .storageLive 0) ∧ evalStatement st (s.schedule i rest) = .error .ub := by
  have hstart : (exprProgram ty expr).StartsOk := by
    intro n f hf
    obtain ⟨rfl, rfl⟩ := expr_function hf
    exact ⟨_, rfl, rfl⟩
  have hok : (exprProgram ty expr).StartOk := by
    refine ⟨nofun, fun f t hf ht => ?_⟩
    cases hf
    cases ht
    rfl
  constructor
  · rintro (h | ⟨s, hx, h, hr⟩)
    · exact absurd h (C89_start_partial (B := B) hw hok o)
    · obtain ⟨s0, hn, hs⟩ := id hx
      have hre : Reachable (exprProgram ty expr) s := ⟨o, s0, hn, hs⟩
      rcases step_fails h (by decide) with ⟨h, _⟩ | ⟨i, r, h1, h2, h3 | ⟨t, h3, _, h4⟩⟩
      · cases h
      · obtain ⟨th, hth, hen⟩ : ∃ t, s.threads[i]? = some t ∧ t.state = .enabled := by
          simpa [Machine.threadState] using h2
        cases hst : th.stack with
        | nil =>
          unfold execStep at h3
          rcases EM.bind_eq_error.1 h3 with h3 | ⟨fr, _, h3, _⟩
          · exact absurd rfl (curFrame_error (EM.read_eq_error.1 h3))
          · obtain ⟨t, rest, k1, k2⟩ := curFrame_eq_ok.1 (EM.read_eq_ok.1 h3).1
            rw [show (s.schedule i r).threads[(s.schedule i r).activeThread]? = some th from hth] at k1
            cases k1
            rw [hst] at k2; cases k2
        | cons fr stack =>
          have hrun : s.Runs i r th fr stack := ⟨h1, hth, hen, hst⟩
          have hmem := List.mem_of_getElem? hth
          have hin : fr ∈ th.stack := by rw [hst]; simp
          obtain ⟨⟨n, hf⟩, h5⟩ := C46_in_block (B := B) hstart hre hmem hin
          have hreach := (hre.inReach (B := B) th hmem fr hin).reaches
          obtain ⟨rfl, hfr⟩ := expr_function hf
          rcases h5 with ⟨st, hat⟩ | ⟨tm, hat⟩
          · refine ⟨s, i, r, th, fr, stack, st, hx, hrun, hat, ?_, ?_⟩
            · obtain ⟨blk, k1, k2⟩ := hat
              have := Map.get?_mem k1
              rw [hfr] at this
              have := List.mem_singleton.1 (show _ ∈ [_] from this)
              obtain ⟨_, rfl⟩ := Prod.mk.inj this
              have := List.mem_of_getElem? k2
              simpa [or_comm] using this
            · rw [execStep_stmt hrun hat] at h3
              rcases EM.bind_eq_error.1 h3 with h3 | ⟨_, _, _, h3⟩
              · exact h3
              · exact absurd rfl (bumpStmt_error h3)
          · rw [hrun.execStep_term hat] at h3
            obtain ⟨blk, k1, k2, rfl⟩ := hat
            have := Map.get?_mem k1
            rw [hfr] at this
            have := List.mem_singleton.1 (show _ ∈ [_] from this)
            obtain ⟨_, rfl⟩ := Prod.mk.inj this
            exact absurd rfl (exit_error h3)
      · exact absurd ⟨i, r, t, h1, h2, h3, h4⟩ hr
  · rintro ⟨s, i, rest, th, fr, stack, st, hx, hrun, hat, _, he⟩
    have hx2 : execStep (s.schedule i rest) = .error .ub := by
      rw [execStep_stmt hrun hat]; exact EM.bind_eq_error.2 (.inl he)
    have hen : s.threadState i = some .enabled := by
      unfold Machine.threadState; rw [hrun.thread]; exact congrArg some hrun.enabled
    refine .inr ⟨s, hx, step_of_execStep_error hrun.oracle hen hx2, ?_⟩
    rintro ⟨j, r, s1, h1, _, h3, _⟩
    rw [hrun.oracle] at h1
    injection h1 with h1 h1'
    injection h1 with h1
    have := Int.ofNat.inj h1
    subst this
    subst h1'
    rw [hx2] at h3
    cases h3

end

/-! ### The conditions are met -/

section
attribute [local instance] x86_64 x86_64_lawful

/-- A program and choices with which it gets to a data race; `has_data_race` finds it. -/
example : EndsInRace (BasicMem Unit Unit) (F := Unit) Ex.mainRaceProg Ex.mainRaceRun := (C90_outcome .dataRace).1 ⟨40, by decide +kernel⟩
example : hasDataRace (BasicMem Unit Unit) (F := Unit) 40 Ex.mainRaceProg (fun _ => Ex.mainRaceRun) = some (.ok true) := by decide +kernel

/-- A program that stops in every attempt. -/
example : ∀ k < 20, Stops (BasicMem Unit Unit) (F := Unit) Ex.printProg ((fun _ => Ex.printRun) k) :=
  (C90_stop_always 20 _).1.1 ⟨20, by decide +kernel⟩
example : ∀ k < 32, Stops (BasicMem Unit Unit) (F := Unit) Ex.printProg ((fun _ => Ex.printRun) k) :=
  (C90_has_data_race _).2.1.1 ⟨20, by decide +kernel⟩

/-- Choices with which the main thread writes first: then the other thread is not checked (C22), and the program stops. -/
def calmRun : List (Choice (Nat × Unit)) :=
  [.int 16, .int 32, .int 48, .int 64, .int 0, .int 80, .int 0, .int 96, .int 112, .int 0, .int 1, .int 1, .int 0, .int 0]

/-- A program that gets to a data race in the third attempt only, and has stopped before: `assert_ub_eventually` passes. -/
def lateRuns (k : Nat) : List (Choice (Nat × Unit)) := if k < 2 then calmRun else Ex.mainRaceRun

example : assertUbEventually (BasicMem Unit Unit) (F := Unit) 40 Ex.mainRaceProg 5 true lateRuns = some (.ok ()) := by decide +kernel
/-- With another expected reason it fails, as it does if there are too few attempts. -/
example : assertUbEventually (BasicMem Unit Unit) (F := Unit) 40 Ex.mainRaceProg 5 false lateRuns = some panic := by decide +kernel
example : assertUbEventually (BasicMem Unit Unit) (F := Unit) 40 Ex.mainRaceProg 2 true lateRuns = some panic := by decide +kernel

/-- `1 / 0` -/
def divZero : ValueExpr := .binOp (.int .div) (.constant (.int 1) Ex.u32) (.constant (.int 0) Ex.u32)

example : (exprProgram Ex.u32 divZero).checkWf = .ok () := by decide +kernel
example : EndsOtherwise (BasicMem Unit Unit) (F := Unit) (exprProgram Ex.u32 divZero)
    [.int 16, .int 32, .int 0, .int 48, .int 0] .ub := (C90_outcome (.other .ub)).1 ⟨20, by decide +kernel⟩

end
end MiniRust
