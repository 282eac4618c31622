import Verif.Lemmas.MachineMem
import Verif.Examples.Programs
/-
C41, C42: how executions end, and what they can only extend.

The theorems about heap allocations hold for every memory model built on the basic one, in particular for
both memory models of the specification.
-/
set_option linter.unusedSectionVars false
namespace MiniRust

section
variable {M PE AE F : Type} [T : Target] [DecidableEq PE] [Memory M (AllocId × PE) F]
  [SoftMem M (AllocId × PE) F] [B : BasicBacked M PE AE F]
variable {s s' : Machine M (AllocId × PE) F} {prog : Program}
include B

/-- Some heap allocation was never deallocated. -/
def HeapLeft (h : MemHistory PE) : Prop := ∃ id i, LiveIn h id i ∧ i.kind = .heap

/-! ### C41: how executions end -/

theorem execStep_outcome {i : Nat} {rest : List (Choice (AllocId × PE))} {e : Err}
    (he : execStep (s.schedule i rest) = .error e) {h : MemHistory PE} (hm : MemReach (F := F) h s.mem.memory) :
    Soft e ∨ (e = .abort ∧ s.AtIntrinsic i .abort) ∨
      (s.AtIntrinsic i .exit ∧ ((e = .machineStop ∧ ¬ HeapLeft h) ∨ (e = .memoryLeak ∧ HeapLeft h))) := by
  rcases execStep_error he with h | ⟨t, ht, hst, h'⟩
  · exact .inl h
  · have hat := nextTerminator_atTerminator ht
    rcases stops_error_reads (Rm := ReadHist (PE := PE) F) hst h' with h | ⟨as, r, n, rfl, rfl⟩ | ⟨as, r, n, s1, rfl, ⟨h1, hr, hreads⟩, hc⟩
    · exact .inl h
    · exact .inr (.inl ⟨rfl, as, r, n, hat⟩)
    · refine .inr (.inr ⟨⟨as, r, n, hat⟩, ?_⟩)
      have hm' : MemReach (F := F) (h1 ++ h) s1.mem.memory := hm.append hr
      have hl : HeapLeft (h1 ++ h) ↔ HeapLeft h := by
        unfold HeapLeft; simp only [liveIn_reads hreads]
      obtain ⟨c1, c2⟩ := C20_leak_check_exact hm'
      rcases hc with ⟨rfl, hc⟩ | hc
      · exact .inl ⟨rfl, fun hh => c2.1 hc (hl.2 hh)⟩
      · have := (SoftMem.leak (M := M) (P := AllocId × PE) (F := F) s1.mem.memory).err _ hc
        subst this
        exact .inr ⟨rfl, hl.1 (c1.1 hc)⟩

/-- C41: a step that ends the program says why, and truthfully: the machine stops normally only for an
`Exit` of an enabled thread with no heap allocation left; a leak is reported only for an `Exit` with one
left; `Abort` only for an abort; a deadlock only if no thread can run. Programs are never called ill-formed
once they run. -/
theorem C41_reasons (hr : Reachable prog s) {e : Err} (he : step s = .error e) :
    (e = .machineStop → ∃ i, s.threadState i = some .enabled ∧ s.AtIntrinsic i .exit ∧
      ∀ h, MemReach (F := F) h s.mem.memory → ¬ HeapLeft h) ∧
    (e = .memoryLeak → ∃ i, s.threadState i = some .enabled ∧ s.AtIntrinsic i .exit ∧
      ∀ h, MemReach (F := F) h s.mem.memory → HeapLeft h) ∧
    (e = .abort → ∃ i, s.threadState i = some .enabled ∧ s.AtIntrinsic i .abort) ∧
    (e = .deadlock → ∀ i, s.threadState i ≠ some .enabled) ∧
    e ≠ .illFormed ∧ e ≠ .none := by
  have key : ∀ i rest, execStep (s.schedule i rest) = .error e → s.threadState i = some .enabled → _ :=
    fun i rest hx _ => fun (h : MemHistory PE) hm => execStep_outcome (B := B) hx (h := h) hm
  obtain ⟨h0, hm0⟩ := hr.memReach
  rcases step_error_cases he with ⟨rfl, hd⟩ | rfl | rfl | ⟨i, rest, ho, hi, hx⟩
  · refine ⟨(by simp), (by simp), (by simp), fun _ i hi => ?_, (by simp), (by simp)⟩
    unfold Machine.threadState at hi
    cases hg : s.threads[i]? with
    | none => rw [hg] at hi; cases hi
    | some t => rw [hg] at hi; injection hi with hi; exact hd t (List.mem_of_getElem? hg) hi
  · simp
  · simp
  · have k := key i rest hx hi
    refine ⟨?_, ?_, ?_, ?_, ?_, ?_⟩
    · rintro rfl
      refine ⟨i, hi, ?_, ?_⟩
      · rcases k h0 hm0 with h | ⟨h, _⟩ | ⟨h, _⟩
        · unfold Soft at h; simp at h
        · cases h
        · exact h
      · intro h hm
        rcases k h hm with h | ⟨h, _⟩ | ⟨h, ⟨_, h⟩ | ⟨h, _⟩⟩
        · unfold Soft at h; simp at h
        · cases h
        · exact h
        · cases h
    · rintro rfl
      refine ⟨i, hi, ?_, ?_⟩
      · rcases k h0 hm0 with h | ⟨h, _⟩ | ⟨h, _⟩
        · unfold Soft at h; simp at h
        · cases h
        · exact h
      · intro h hm
        rcases k h hm with h | ⟨h, _⟩ | ⟨h, ⟨h, _⟩ | ⟨_, h⟩⟩
        · unfold Soft at h; simp at h
        · cases h
        · cases h
        · exact h
    · rintro rfl
      rcases k h0 hm0 with h | ⟨_, h⟩ | ⟨_, ⟨h, _⟩ | ⟨h, _⟩⟩
      · unfold Soft at h; simp at h
      · exact ⟨i, hi, h⟩
      · cases h
      · cases h
    · rintro rfl; exact (execStep_ne_deadlock hx).elim
    · rintro rfl
      rcases k h0 hm0 with h | ⟨h, _⟩ | ⟨_, ⟨h, _⟩ | ⟨h, _⟩⟩
      · unfold Soft at h; simp at h
      all_goals cases h
    · rintro rfl
      rcases k h0 hm0 with h | ⟨h, _⟩ | ⟨_, ⟨h, _⟩ | ⟨h, _⟩⟩
      · unfold Soft at h; simp at h
      all_goals cases h

/-- C41: an enabled thread at `Exit` whose operands can be evaluated ends the program: with a leak report
exactly if a heap allocation is left, and normally otherwise. -/
theorem C41_exit {i : Nat} {rest : List (Choice (AllocId × PE))}
    (ho : s.oracle = .int i :: rest) (hi : s.threadState i = some .enabled) (hat : s.AtIntrinsic i .exit)
    {h : MemHistory PE} (hm : MemReach (F := F) h s.mem.memory) :
    (∃ e, step s = .error e ∧ Soft e) ∨ (step s = .error .machineStop ∧ ¬ HeapLeft h) ∨
      (step s = .error .memoryLeak ∧ HeapLeft h) := by
  obtain ⟨as, r, n, hat'⟩ := id hat
  cases hx : execStep (s.schedule i rest) with
  | ok r =>
    rw [execStep_atTerminator hat'] at hx
    exact (stops_ne_ok (t := .intrinsic .exit _ _ _) trivial hx).elim
  | error e =>
    have hs := step_of_execStep_error ho hi hx
    rcases execStep_outcome hx hm with h1 | ⟨rfl, as', r', n', h1⟩ | ⟨_, ⟨rfl, h1⟩ | ⟨rfl, h1⟩⟩
    · exact .inl ⟨e, hs, h1⟩
    · have := AtTerminator_unique hat' h1
      cases this
    · exact .inr (.inl ⟨hs, h1⟩)
    · exact .inr (.inr ⟨hs, h1⟩)

/-- C41: an enabled thread at `Abort` whose operands can be evaluated aborts the program. -/
theorem C41_abort (hr : Reachable prog s) {i : Nat} {rest : List (Choice (AllocId × PE))}
    (ho : s.oracle = .int i :: rest) (hi : s.threadState i = some .enabled) (hat : s.AtIntrinsic i .abort) :
    (∃ e, step s = .error e ∧ Soft e) ∨ step s = .error .abort := by
  obtain ⟨as, r, n, hat'⟩ := id hat
  obtain ⟨h, hm⟩ := hr.memReach
  cases hx : execStep (s.schedule i rest) with
  | ok r =>
    rw [execStep_atTerminator hat'] at hx
    exact (stops_ne_ok (t := .intrinsic .abort _ _ _) trivial hx).elim
  | error e =>
    have hs := step_of_execStep_error ho hi hx
    rcases execStep_outcome hx hm with h1 | ⟨rfl, _⟩ | ⟨⟨as', r', n', h1⟩, _⟩
    · exact .inl ⟨e, hs, h1⟩
    · exact .inr hs
    · have := AtTerminator_unique hat' h1
      cases this
end

section
variable {M P F : Type} [Memory M P F] [DecidableEq P] [T : Target] [SoftMem M P F]
variable {s s' : Machine M P F} {prog : Program}

/-- C41: creating a machine reports an ill-formed program exactly if the well-formedness check does; a
program that passes the check is never called ill-formed, and its creation can neither abort, stop, leak
nor deadlock. -/
theorem C41_ill_formed (prog : Program) (oracle : List (Choice P)) :
    ((Machine.new prog oracle : Res (Machine M P F)) = .error .illFormed ↔ prog.checkWf = .error .illFormed) ∧
    (prog.checkWf = .ok () → ∀ e, (Machine.new prog oracle : Res (Machine M P F)) = .error e → Soft e) := by
  have key : ∀ e, (Machine.new prog oracle : Res (Machine M P F)) = .error e →
      prog.checkWf = .error e ∨ (prog.checkWf = .ok () ∧ Soft e) := by
    intro e h
    unfold Machine.new at h
    rcases Res.bind_eq_error.1 h with h | ⟨_, hw, h⟩
    · exact .inl h
    · refine .inr ⟨hw, ?_⟩
      rcases Res.bind_eq_error.1 h with h | ⟨_, _, h⟩
      · refine (?_ : Tri Soft (InitMem AnyMem) (initMachine prog : EM M P F _)).err _ _ h
        unfold initMachine
        refine .bind initMem_allocGlobals fun _ => .bind initMem_fillGlobals fun _ => .bind initMem_allocFunctions
          fun _ => .bind initMem_allocVTables fun _ => .bind (.lift (.mapGet .panic)) fun _ => .bind ?_ fun _ => .pure
        exact ⟨fun _ _ _ _ => ⟨trivial⟩, fun _ _ h => soft_newThread h⟩
      · cases h
  refine ⟨⟨fun h => ?_, fun h => ?_⟩, fun hw e h => ?_⟩
  · rcases key _ h with h | ⟨_, h⟩
    · exact h
    · unfold Soft at h; simp at h
  · unfold Machine.new; rw [h]; rfl
  · rcases key _ h with h | ⟨_, h⟩
    · rw [hw] at h; cases h
    · exact h

/-! ### C42: what a run never takes back -/

omit [SoftMem M P F] [DecidableEq P] T in
theorem CtlOp.outward {K : CtlKind → Prop} (h : CtlOp K s s') : s'.prog = s.prog ∧ s'.globalPtrs = s.globalPtrs ∧
    s'.fnPtrs = s.fnPtrs ∧ s'.vtablePtrs = s.vtablePtrs ∧ s'.stdout = s.stdout ∧ s'.stderr = s.stderr ∧
    s'.intptrcast = s.intptrcast := by
  cases h <;> exact ⟨rfl, rfl, rfl, rfl, rfl, rfl, rfl⟩

theorem step_outward (h : step s = .ok ((), s')) : s'.prog = s.prog ∧ s'.globalPtrs = s.globalPtrs ∧
    s'.fnPtrs = s.fnPtrs ∧ s'.vtablePtrs = s.vtablePtrs ∧ s.stdout <+: s'.stdout ∧ s.stderr <+: s'.stderr ∧
    s.intptrcast.exposed ⊆ s'.intptrcast.exposed := by
  obtain ⟨a, t, rest, h1, h2, h3, h4, h5⟩ := step_eq_ok.1 h
  obtain ⟨s1, s2, q1, c, q2⟩ := execStep_ok (Rm := AnyMem) h4
  obtain ⟨c1, c2, c3, c4, c5, c6, c7⟩ := c.outward
  refine ⟨?_, ?_, ?_, ?_, ?_, ?_, ?_⟩
  · rw [q2.prog, c1, q1.prog]; rfl
  · rw [q2.globals, c2, q1.globals]; rfl
  · rw [q2.fns, c3, q1.fns]; rfl
  · rw [q2.vtables, c4, q1.vtables]; rfl
  · exact (q1.stdout : s.stdout <+: _).trans (c5 ▸ q2.stdout)
  · exact (q1.stderr : s.stderr <+: _).trans (c6 ▸ q2.stderr)
  · have h1 : s.intptrcast.exposed ⊆ s1.intptrcast.exposed := q1.exposed
    exact fun x hx => q2.exposed (c7 ▸ h1 hx)

/-- C42: during any run, output already written to either stream stays as it is, addresses of globals,
functions and vtables stay valid and the same, exposed provenance stays exposed, and the program does not
change. -/
theorem C42_run_only_extends (h : Steps s s') : s'.prog = s.prog ∧ s'.globalPtrs = s.globalPtrs ∧
    s'.fnPtrs = s.fnPtrs ∧ s'.vtablePtrs = s.vtablePtrs ∧ s.stdout <+: s'.stdout ∧ s.stderr <+: s'.stderr ∧
    s.intptrcast.exposed ⊆ s'.intptrcast.exposed := by
  induction h with
  | refl => exact ⟨rfl, rfl, rfl, rfl, List.prefix_refl _, List.prefix_refl _, fun _ h => h⟩
  | tail _ hst ih =>
    obtain ⟨a1, a2, a3, a4, a5, a6, a7⟩ := ih
    obtain ⟨b1, b2, b3, b4, b5, b6, b7⟩ := step_outward hst
    exact ⟨b1.trans a1, b2.trans a2, b3.trans a3, b4.trans a4, a5.trans b5, a6.trans b6, fun x hx => b7 (a7 hx)⟩

/-- C42: a run of `prog` runs `prog`. -/
theorem C42_program (h : Reachable prog s) : s.prog = prog := by
  obtain ⟨o, s0, hn, hs⟩ := h
  rw [(C42_run_only_extends hs).1, (new_eq_ok hn).2.1]
end

/-! ### Concrete cases -/

namespace Ex
attribute [local instance] x86_64

-- A program reaches an `Exit` with a heap allocation left, and reports a leak.
example : ∃ s : BMach, Reachable leakProg s ∧ s.atOp 0 = some .exit ∧ s.threadState 0 = some .enabled ∧
    errOf (step s) = some .memoryLeak :=
  exists_reachable leakRun 2 _ (by decide +kernel)
-- A program reaches an `Exit` with no heap allocation left, and stops normally.
example : ∃ s : BMach, Reachable freeProg s ∧ s.atOp 0 = some .exit ∧ s.threadState 0 = some .enabled ∧
    errOf (step s) = some .machineStop :=
  exists_reachable leakRun 3 _ (by decide +kernel)
-- A program reaches an `Abort`.
example : ∃ s : BMach, Reachable abortProg s ∧ s.atOp 0 = some .abort ∧ errOf (step s) = some .abort :=
  exists_reachable leakRun 2 _ (by decide +kernel)
-- A run writes to both output streams.
example : ∃ s s' : BMach, Reachable printProg s ∧ runSteps 3 s = .ok ((), s') ∧
    s.stdout = [] ∧ s'.stdout = [.int 1, .int 3] ∧ s'.stderr = [.int 2] :=
  exists_steps printRun 0 3 _ (by decide +kernel)
end Ex
end MiniRust
