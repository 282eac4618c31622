import Verif.Lemmas.Bypass
import Verif.Lemmas.RecodeWf
import Verif.Props.Start
/-
C88: jumps to empty blocks can be replaced by jumps to the blocks that come next.
-/
set_option linter.unusedSectionVars false
namespace MiniRust

section
variable [T : Target] {p : Program} {τ : FnName → BbName → BbName}

theorem get?_retarget (σ : BbName → BbName) (m : Map BbName BasicBlock) (b : BbName) :
    Map.get? (m.map fun x => (x.1, { x.2 with terminator := x.2.terminator.rename σ })) b =
      (Map.get? m b).map fun bb => { bb with terminator := bb.terminator.rename σ } := by
  induction m with
  | nil => rfl
  | cons x m ih =>
    obtain ⟨k, f⟩ := x
    rw [List.map_cons]
    unfold Map.get?
    dsimp only
    split
    · rfl
    · exact ih

theorem renamed_retarget (h : p.Bypasses τ) {n : FnName} {f : Function} (hf : (n, f) ∈ p.functions) : Renamed (τ n) f (f.retarget (τ n)) := by
  refine ⟨rfl, rfl, rfl, rfl, ?_, fun b => ?_⟩
  · unfold Function.retarget Map.values
    rw [List.map_map, List.map_map]; rfl
  · rw [show (f.retarget (τ n)).blocks.get? (τ n b) = _ from get?_retarget _ f.blocks _]
    by_cases hb : τ n b = b
    · rw [hb]; cases f.blocks.get? b <;> rfl
    · obtain ⟨_, k, bb, h1, h2, h3⟩ := h n f hf b hb
      rw [h1, h2]
      exact congrArg some h3

/-- C88: the program with the other jumps is well formed iff the program is. -/
theorem C88_wf (h : p.Bypasses τ) : (p.retarget τ).checkWf = p.checkWf :=
  checkWf_mapFns (g := fun n f => f.retarget (τ n)) fun _ _ hf => renamed_retarget h hf

/-- The new targets, if the names of blocks also tell the function. -/
def pairTargets (τ : FnName → BbName → BbName) (x : BbName) : BbName := Nat.pair x.unpair.1 (τ x.unpair.1 x.unpair.2)

theorem pairTargets_pair (n b : Nat) : pairTargets τ (Nat.pair n b) = Nat.pair n (τ n b) := by
  unfold pairTargets; rw [Nat.unpair_pair]

theorem get?_pair_none {n x : Nat} (hx : x.unpair.1 ≠ n) (m : Map BbName BasicBlock) :
    Map.get? (m.map fun y => (Nat.pair n y.1, { y.2 with terminator := y.2.terminator.rename (Nat.pair n) })) x = none := by
  induction m with
  | nil => rfl
  | cons y m ih =>
    rw [List.map_cons]
    unfold Map.get?
    dsimp only
    split
    · rename_i hk; exact absurd (by rw [← hk, Nat.unpair_pair]) hx
    · exact ih

theorem pair_injective (n : Nat) : Function.Injective (Nat.pair n) := fun _ _ h => (Nat.pair_eq_pair.1 h).2

theorem hops_pair (h : p.Bypasses τ) : Hops (pairTargets τ) (p.renameBlocks Nat.pair) ((p.retarget τ).renameBlocks Nat.pair) where
  wf := (checkWf_rename pair_injective).trans ((C88_wf h).trans (checkWf_rename pair_injective).symm)
  recoded := by
    refine ⟨?_, rfl, rfl, rfl, rfl⟩
    show List.Forall₂ _ (p.functions.map _) ((p.functions.map _).map _)
    generalize p.functions = m
    induction m with
    | nil => exact .nil
    | cons x m ih =>
      obtain ⟨n, f⟩ := x
      refine .cons ⟨rfl, rfl, rfl, rfl, rfl, (pairTargets_pair n f.start).symm, fun b hb => ?_⟩ ih
      rw [show pairTargets τ b = b from hb]
      show Map.get? ((f.retarget (τ n)).blocks.map _) b = Option.map _ (Map.get? (f.blocks.map _) b)
      by_cases hn : b.unpair.1 = n
      · obtain ⟨c, rfl⟩ : ∃ c, b = Nat.pair n c := ⟨b.unpair.2, by rw [← hn, Nat.pair_unpair]⟩
        rw [get?_renameBlocks (pair_injective n), get?_renameBlocks (pair_injective n),
          show Map.get? (f.retarget (τ n)).blocks c = _ from get?_retarget _ f.blocks _]
        cases f.blocks.get? c with
        | none => rfl
        | some bb => simp only [Option.map_some, Terminator.rename_rename, pairTargets_pair]
      · rw [get?_pair_none hn, get?_pair_none hn]; rfl
  hop := by
    intro n f hf b hr hb
    rw [show (p.renameBlocks Nat.pair).functions.get? n = _ from get?_mapFns (fun n f => f.renameBlocks (Nat.pair n)) p.functions n] at hf
    obtain ⟨g, hg, rfl⟩ := Option.map_eq_some_iff.1 hf
    obtain ⟨b, rfl⟩ := hr.renamed
    rw [pairTargets_pair] at hb ⊢
    obtain ⟨h1, k, bb, h2, _⟩ := h n g (Map.get?_mem hg) b fun hc => hb (by rw [hc])
    refine ⟨by rw [pairTargets_pair, h1], k, ?_⟩
    rw [show (g.renameBlocks (Nat.pair n)).blocks.get? (Nat.pair n b) = _ from get?_renameBlocks (pair_injective n) _ b, h2]
    rfl

end

section
variable {M PE AE F : Type} [T : Target] [DecidableEq PE] [Memory M (AllocId × PE) F] [hm : SoftMem M (AllocId × PE) F]
  [B : BasicBacked M PE AE F]
variable {p p' : Program} {τ : FnName → BbName → BbName} {σ : BbName → BbName} {e : Err} {out err : List Printed}

include B in
theorem canEnd_pair : CanEnd M (F := F) (P := AllocId × PE) (p.renameBlocks Nat.pair) e out err ↔ CanEnd M (F := F) (P := AllocId × PE) p e out err := by
  unfold CanEnd
  simp only [← C79_run, (C87_names_each (B := B) pair_injective _ _).2]

include B in
theorem Hops.canEnd (H : Hops σ p p') (h : CanEnd M (F := F) (P := AllocId × PE) p' e out err) : CanEnd M (F := F) (P := AllocId × PE) p e out err := by
  obtain ⟨he, o, ⟨h, h1⟩ | ⟨s', hs, h1, h2, h3⟩⟩ := h
  · refine ⟨he, o, .inl ⟨?_, h1⟩⟩
    rcases H.recoded.new (M := M) (F := F) H.wf o with ⟨q, q', k1, k2, k3⟩ | ⟨e', k1, k2⟩
    · rw [k2] at h; cases h
    · rw [k2] at h; cases h; exact k1
  · obtain ⟨s, ⟨o, k1⟩, k2, k3, k4⟩ := hops_ends (B := B) H ⟨o, hs⟩ h1 he
    exact ⟨he, o, .inr ⟨s, k1, k2, k3 ▸ h2, k4 ▸ h3⟩⟩

include B in
theorem Hops.canEnd_back (H : Hops σ p p') (h : CanEnd M (F := F) (P := AllocId × PE) p e out err) :
    CanEnd M (F := F) (P := AllocId × PE) p' e out err ∨ ∃ out err, CanEnd M (F := F) (P := AllocId × PE) p' .ub out err := by
  obtain ⟨he, o, ⟨h, h1⟩ | ⟨s, hs, h1, h2, h3⟩⟩ := h
  · refine .inl ⟨he, o, .inl ⟨?_, h1⟩⟩
    rcases H.recoded.new (M := M) (F := F) H.wf o with ⟨q, q', k1, k2, k3⟩ | ⟨e', k1, k2⟩
    · rw [k1] at h; cases h
    · rw [k1] at h; cases h; exact k2
  · by_cases hub : ∀ u : Machine M (AllocId × PE) F, Reachable p' u → step u ≠ .error .ub
    · obtain ⟨s', ⟨o, k1⟩, k2, k3, k4⟩ := hops_back_ends (B := B) H hub ⟨o, hs⟩ h1 he
      exact .inl ⟨he, o, .inr ⟨s', k1, k2, k3 ▸ h2, k4 ▸ h3⟩⟩
    · push Not at hub
      obtain ⟨u, ⟨o, k1⟩, k2⟩ := hub
      exact .inr ⟨_, _, by decide, o, .inr ⟨u, k1, k2, rfl, rfl⟩⟩

include B in
/-- C88: to jump past empty blocks is a correct optimization. Whatever the optimized program can do, under some schedule and other choices, the
program can do: it can end in the same way after printing the same. -/
theorem C88_refines (h : p.Bypasses τ) (hc : CanEnd M (F := F) (P := AllocId × PE) (p.retarget τ) e out err) :
    CanEnd M (F := F) (P := AllocId × PE) p e out err :=
  (canEnd_pair (B := B)).1 ((hops_pair h).canEnd (B := B) ((canEnd_pair (B := B)).2 hc))

include B in
/-- C88: it is complete: whatever the program can do, the optimized one can do, unless it has undefined behavior. -/
theorem C88_complete (h : p.Bypasses τ) (hc : CanEnd M (F := F) (P := AllocId × PE) p e out err) :
    CanEnd M (F := F) (P := AllocId × PE) (p.retarget τ) e out err ∨
      ∃ out err, CanEnd M (F := F) (P := AllocId × PE) (p.retarget τ) .ub out err := by
  rcases (hops_pair h).canEnd_back (B := B) ((canEnd_pair (B := B)).2 hc) with h | ⟨_, _, h⟩
  · exact .inl ((canEnd_pair (B := B)).1 h)
  · exact .inr ⟨_, _, (canEnd_pair (B := B)).1 h⟩

include B in
/-- C88: the program has undefined behavior under some schedule, data races included, iff the optimized one has. -/
theorem C88_ub (h : p.Bypasses τ) : (∃ out err, CanEnd M (F := F) (P := AllocId × PE) (p.retarget τ) .ub out err) ↔
    ∃ out err, CanEnd M (F := F) (P := AllocId × PE) p .ub out err :=
  ⟨fun ⟨_, _, hc⟩ => ⟨_, _, C88_refines (B := B) h hc⟩, fun ⟨_, _, hc⟩ => (C88_complete (B := B) h hc).elim (fun h => ⟨_, _, h⟩) id⟩

include B in
/-- C88: without undefined behavior, both programs can do the same. -/
theorem C88_equiv (h : p.Bypasses τ) (hub : ¬ ∃ out err, CanEnd M (F := F) (P := AllocId × PE) p .ub out err) :
    CanEnd M (F := F) (P := AllocId × PE) (p.retarget τ) e out err ↔ CanEnd M (F := F) (P := AllocId × PE) p e out err :=
  ⟨C88_refines (B := B) h, fun hc => (C88_complete (B := B) h hc).resolve_right fun hx => hub ((C88_ub (B := B) h).1 hx)⟩

end

/-! ### Concrete cases -/

section
attribute [local instance] x86_64 x86_64_lawful

/-- Two threads write the same global; both go through an empty block before. -/
def hopRaceProg : Program := { Ex.mainRaceProg with functions := [
  (0, { Ex.spawnAndWrite 0 Ex.u32 (.constant (.int 3) Ex.u32) with blocks := [
    (0, ⟨[.storageLive 1], .intrinsic .spawn [Ex.fnPtr 1, Ex.global 0] (.local 1) (some 3), .regular⟩),
    (1, ⟨[.assign (.deref (Ex.global 0) Ex.u32) (.constant (.int 3) Ex.u32)], .intrinsic .join [.load (.local 1)] (.local 0) (some 2), .regular⟩),
    (2, ⟨[], .intrinsic .exit [] (.local 0) none, .regular⟩),
    (3, ⟨[], .goto 1, .regular⟩)] }),
  (1, { Ex.writer with
    start := 1
    blocks := [(0, ⟨[.assign (.deref (.load (.local 1)) Ex.u32) (.constant (.int 7) Ex.u32)], .return, .regular⟩), (1, ⟨[], .goto 0, .regular⟩)] })] }

/-- The empty blocks are passed by. The other blocks, some of which have the same name, stay. -/
def hopRaceTargets (n : FnName) (b : BbName) : BbName := if n = 0 ∧ b = 3 then 1 else if n = 1 ∧ b = 1 then 0 else b

theorem hopRace_bypasses : hopRaceProg.Bypasses hopRaceTargets := by
  intro n f hf b hb
  unfold hopRaceTargets at hb
  simp only [hopRaceProg, List.mem_cons, Prod.mk.injEq, List.not_mem_nil, or_false] at hf
  split at hb
  · rename_i h
    obtain ⟨rfl, rfl⟩ := h
    rcases hf with ⟨_, rfl⟩ | ⟨h, _⟩
    · exact ⟨rfl, .regular, _, rfl, rfl, rfl⟩
    · cases h
  · split at hb
    · rename_i h
      obtain ⟨rfl, rfl⟩ := h
      rcases hf with ⟨h, _⟩ | ⟨_, rfl⟩
      · cases h
      · exact ⟨rfl, .regular, _, rfl, rfl, rfl⟩
    · exact absurd rfl hb

example : hopRaceProg.checkWf = .ok () := by decide +kernel

/-- The optimized program has a data race, which is a race of the original program, too. -/
example : CanEnd (BasicMem Unit Unit) (F := Unit) (P := AllocId × Unit) (hopRaceProg.retarget hopRaceTargets) .ub [] [] ∧
    CanEnd (BasicMem Unit Unit) (F := Unit) (P := AllocId × Unit) hopRaceProg .ub [] [] := by
  have h : CanEnd (BasicMem Unit Unit) (F := Unit) (P := AllocId × Unit) (hopRaceProg.retarget hopRaceTargets) .ub [] [] :=
    ⟨by decide, Ex.mainRaceRun, (C79_run ..).1 ⟨40, by decide +kernel⟩⟩
  exact ⟨h, C88_refines (B := inferInstance) hopRace_bypasses h⟩

/-- With other blocks in between, or blocks that do something, this does not hold: the first block prints. -/
example : ¬ Ex.printProg.Bypasses fun _ b => if b = 0 then 1 else b := by
  intro h
  obtain ⟨_, k, bb, h1, _⟩ := h 0 _ (List.mem_cons_self ..) 0 (by decide)
  cases h1

/-- Exits, after an empty block. -/
def quietProg : Program := Ex.mainProg [] [(0, ⟨[], .goto 1, .regular⟩), (1, ⟨[], .intrinsic .exit [] (.local 0) none, .regular⟩)]

/-- The empty block is passed by. -/
def quietTargets (_ : FnName) (b : BbName) : BbName := if b = 0 then 1 else b

theorem quiet_bypasses : quietProg.Bypasses quietTargets := by
  intro n f hf b hb
  unfold quietTargets at hb
  split at hb
  · rename_i h
    subst h
    simp only [quietProg, Ex.mainProg, List.mem_cons, Prod.mk.injEq, List.not_mem_nil, or_false] at hf
    obtain ⟨_, rfl⟩ := hf
    exact ⟨rfl, .regular, _, rfl, rfl, rfl⟩
  · exact absurd rfl hb

/-- The only thread is in one of the blocks. -/
def InQuiet (s : Machine (BasicMem Unit Unit) (AllocId × Unit) Unit) : Prop :=
  ∃ g, s.threads = [⟨[g], .enabled, []⟩] ∧ quietProg.functions.get? 0 = some g.func ∧ g.nextStmt = 0 ∧ (g.nextBlock = 0 ∨ g.nextBlock = 1) ∧
    ∃ a, g.locals.get? 0 = some a

theorem InQuiet.exec {s : Machine (BasicMem Unit Unit) (AllocId × Unit) Unit} {i r} (h : InQuiet s) (ho : s.oracle = .int (i : Nat) :: r)
    (hi : s.threadState i = some .enabled) :
    execStep (s.schedule i r) ≠ .error .ub ∧ ∀ t, execStep (s.schedule i r) = .ok ((), t) → InQuiet t ∧ t.mem.accesses = [] := by
  obtain ⟨g, h1, h2, h3, h4, a, ha⟩ := h
  have hi0 : i = 0 := by
    unfold Machine.threadState at hi
    rw [h1] at hi
    cases i with
    | zero => rfl
    | succ n => cases hi
  subst hi0
  have hrun : s.Runs 0 r ⟨[g], .enabled, []⟩ g [] := ⟨ho, by rw [h1]; rfl, rfl, rfl⟩
  have hf : (quietProg.functions.map (·.2))[0]? = some g.func := h2
  simp only [quietProg, Ex.mainProg, List.map_cons, List.getElem?_cons_zero, Option.some.injEq] at hf
  rcases h4 with h4 | h4
  · have hat : g.AtTerm (.goto 1) := ⟨⟨[], .goto 1, .regular⟩, by unfold StackFrame.InBlock; rw [← hf, h4]; rfl, h3, rfl⟩
    have hx : execStep (s.schedule 0 r) = .ok ((), { s.schedule 0 r with threads := s.threads.set 0 ⟨[g.jumpToBlock 1], .enabled, []⟩ }) := by
      rw [hrun.execStep_term hat]
      unfold evalTerminator
      exact jumpToBlock_eq_ok.2 ⟨_, g, [], hrun.thread, rfl, rfl⟩
    rw [hx]
    refine ⟨nofun, fun t ht => ?_⟩
    cases ht
    exact ⟨⟨g.jumpToBlock 1, by rw [h1]; rfl, h2, rfl, .inr rfl, a, ha⟩, rfl⟩
  · have hat : g.AtTerm (.intrinsic .exit [] (.local 0) none) :=
      ⟨⟨[], .intrinsic .exit [] (.local 0) none, .regular⟩, by unfold StackFrame.InBlock; rw [← hf, h4]; rfl, h3, rfl⟩
    have hp : ∃ pl, (evalPlace (.local 0) : EM (BasicMem Unit Unit) (AllocId × Unit) Unit _) (s.schedule 0 r) = .ok (pl, s.schedule 0 r) := by
      refine ⟨(⟨a.widen none, true⟩, unitTy), ?_⟩
      unfold evalPlace
      rw [EM.read_eq_ok]
      refine ⟨?_, rfl⟩
      unfold Machine.localPlace
      rw [curFrame_eq_ok.2 ⟨_, [], hrun.thread, rfl⟩]
      exact Res.bind_eq_ok.2 ⟨g, rfl, Res.bind_eq_ok.2 ⟨unitTy, by rw [← hf]; rfl, by rw [ha]⟩⟩
    obtain ⟨pl, hp⟩ := hp
    have hl : ∀ as : List (Alloc Unit Unit), BasicMem.leakLoop as ≠ .error .ub := by
      intro as
      induction as with
      | nil => nofun
      | cons x as ih =>
        unfold BasicMem.leakLoop
        split
        · split <;> first | exact ih | nofun
        · exact ih
    rw [hrun.execStep_term hat]
    refine ⟨fun h => ?_, fun t ht => (stops_ne_ok (t := .intrinsic .exit _ _ _) trivial ht).elim⟩
    unfold evalTerminator at h
    rcases EM.bind_eq_error.1 h with h | ⟨_, s1, h1, h⟩
    · rw [hp] at h; cases h
    rcases EM.bind_eq_error.1 h with h | ⟨_, s2, h2, h⟩
    · unfold evalValues at h; cases h
    rcases EM.bind_eq_error.1 h with h | ⟨_, s3, h3, h⟩
    · rcases EM.bind_eq_error.1 h with h | ⟨_, _, _, h⟩
      · exact hl _ (EM.read_eq_error.1 h)
      · cases h
    · obtain ⟨_, _, _, h⟩ := EM.bind_eq_ok.1 h3
      cases h

theorem quiet_reachable {s : Machine (BasicMem Unit Unit) (AllocId × Unit) Unit} (h : Reachable quietProg s) : InQuiet s := by
  refine h.induct (I := InQuiet) ?_ ?_
  · intro o s h
    obtain ⟨_, _, _, _, f, g, h1, h2, h3⟩ := new_frames (B := inferInstance) h
    have h1' : quietProg.functions.get? 0 = some g.func := by rw [h2.func]; exact h1
    cases h1
    refine ⟨g, h3, h1', h2.stmt, .inl h2.block, ?_⟩
    exact Map.get?_isSome_iff.2 ((h2.keys 0).2 (.inl rfl))
  · intro s t h hs
    obtain ⟨i, th, r, h1, h2, h3, h4, -⟩ := step_eq_ok.1 hs
    exact ((h.exec h1 (by unfold Machine.threadState; rw [h2]; exact congrArg some h3)).2 t h4).1

/-- The hypotheses of `C88_equiv` are met: this program has no undefined behavior, for all choices. -/
theorem quiet_noUb : ¬ ∃ out err, CanEnd (BasicMem Unit Unit) (F := Unit) (P := AllocId × Unit) quietProg .ub out err := by
  rintro ⟨_, _, _, o, ⟨h, _⟩ | ⟨s, hs, h1, _⟩⟩
  · refine C89_start_partial (B := inferInstance) (by decide +kernel) ⟨by decide +kernel, ?_⟩ o h
    intro f ty hf hty
    cases hf
    cases hty
    decide +kernel
  · have hq := quiet_reachable ⟨o, hs⟩
    rcases step_fails h1 (by decide) with ⟨h, _⟩ | ⟨i, r, k1, k2, k3 | ⟨t, k3, _, _, _, a, k4, _⟩⟩
    · cases h
    · exact (hq.exec k1 k2).1 k3
    · rw [((hq.exec k1 k2).2 t k3).2] at k4; cases k4

example : CanEnd (BasicMem Unit Unit) (F := Unit) (P := AllocId × Unit) quietProg .machineStop [] [] ∧
    CanEnd (BasicMem Unit Unit) (F := Unit) (P := AllocId × Unit) (quietProg.retarget quietTargets) .machineStop [] [] := by
  have h : CanEnd (BasicMem Unit Unit) (F := Unit) (P := AllocId × Unit) quietProg .machineStop [] [] :=
    ⟨by decide, Ex.printRun, (C79_run ..).1 ⟨5, by decide +kernel⟩⟩
  exact ⟨h, (C88_equiv (B := inferInstance) quiet_bypasses quiet_noUb).2 h⟩

end
end MiniRust
