import Verif.Props.Soundness
import Verif.Props.Outcomes
import Verif.Props.TBSoundness
import Verif.Examples.Programs
/-
C89: starting a program is not undefined behavior.
-/
set_option linter.unusedSectionVars false
namespace MiniRust

section
variable {M PE AE F : Type} [T : Target] [DecidableEq PE] [Memory M (AllocId × PE) F] [hm : SoftMem M (AllocId × PE) F]
  [B : BasicBacked M PE AE F]
variable {s : Machine M (AllocId × PE) F} {prog : Program} {e : Err}

include B in
theorem memAllocate_fails {k : AllocKind} {n : Nat} {al : Align} (hn : T.validSize n = true)
    (h : memAllocate k n al s = .error e) : e = .noBehavior := by
  unfold memAllocate at h
  rcases EM.bind_eq_error.1 h with h | ⟨i, s1, _, h⟩
  · unfold EM.popInt at h; split at h <;> cases h; rfl
  · rcases Res.bind_eq_error.1 h with h | ⟨_, _, h⟩
    · unfold ConcMem.allocate at h
      rcases Res.bind_eq_error.1 h with h | ⟨_, _, h⟩
      · obtain ⟨pe, ae, hb⟩ := B.allocate s1.mem.memory k n al i
        rw [h] at hb
        unfold BasicMem.allocate at hb
        rw [hn] at hb
        simp only [Bool.not_true, Bool.false_eq_true, if_false] at hb
        split at hb
        · cases hb; rfl
        · cases hb
      · cases h
    · cases h

include B in
theorem allocGlobals_fails : ∀ {gs : List (GlobalName × Global)} {s : Machine M (AllocId × PE) F},
    (∀ x ∈ gs, T.validSize x.2.bytes.length = true) → allocGlobals gs s = .error e → e = .noBehavior
  | [], _, _, h => by unfold allocGlobals at h; cases h
  | x :: gs, s, hv, h => by
    unfold allocGlobals at h
    rcases EM.bind_eq_error.1 h with h | ⟨_, _, _, h⟩
    · exact memAllocate_fails (B := B) (hv x (List.mem_cons_self ..)) h
    rcases EM.bind_eq_error.1 h with h | ⟨_, _, _, h⟩
    · cases h
    · exact allocGlobals_fails (fun y hy => hv y (List.mem_cons_of_mem _ hy)) h

include B in
theorem allocFunctions_fails (h0 : T.validSize 0 = true) : ∀ {fs : List FnName} {s : Machine M (AllocId × PE) F},
    allocFunctions fs s = .error e → e = .noBehavior
  | [], _, h => by unfold allocFunctions at h; cases h
  | x :: gs, s, h => by
    unfold allocFunctions at h
    rcases EM.bind_eq_error.1 h with h | ⟨_, _, _, h⟩
    · exact memAllocate_fails (B := B) h0 h
    rcases EM.bind_eq_error.1 h with h | ⟨_, _, _, h⟩
    · cases h
    · exact allocFunctions_fails h0 h

include B in
theorem allocVTables_fails (h0 : T.validSize 0 = true) : ∀ {fs : List VTableName} {s : Machine M (AllocId × PE) F},
    allocVTables fs s = .error e → e = .noBehavior
  | [], _, h => by unfold allocVTables at h; cases h
  | x :: gs, s, h => by
    unfold allocVTables at h
    rcases EM.bind_eq_error.1 h with h | ⟨_, _, _, h⟩
    · exact memAllocate_fails (B := B) h0 h
    rcases EM.bind_eq_error.1 h with h | ⟨_, _, _, h⟩
    · cases h
    · exact allocVTables_fails h0 h

theorem unwrap_fails {α : Type} {o : Option α} (h : unwrap o = .error e) : e ≠ .ub := by
  cases o <;> cases h; nofun

theorem relocate_fails : ∀ {rs : List (Nat × Relocation)} {bs : List (AByte (AllocId × PE))}, s.relocate rs bs = .error e → e ≠ .ub
  | [], _, h => by unfold Machine.relocate at h; cases h
  | r :: rs, bs, h => by
    unfold Machine.relocate at h
    rcases Res.bind_eq_error.1 h with h | ⟨p, _, h⟩
    · exact unwrap_fails h
    rcases Res.bind_eq_error.1 h with h | ⟨b, _, h⟩
    · unfold encodePtr at h
      rcases Res.bind_eq_error.1 h with h | ⟨_, _, h⟩
      · exact unwrap_fails h
      · cases h
    rcases Res.bind_eq_error.1 h with h | ⟨_, _, h⟩
    · unfold writeSubslice at h
      split at h <;> cases h
      nofun
    · exact relocate_fails h

theorem fillGlobals_fails : ∀ {gs : List (GlobalName × Global)} {s : Machine M (AllocId × PE) F}, fillGlobals gs s = .error e → e ≠ .ub
  | [], _, h => by unfold fillGlobals at h; cases h
  | x :: gs, s, h => by
    unfold fillGlobals at h
    rcases EM.bind_eq_error.1 h with h | ⟨_, _, _, h⟩
    · exact relocate_fails (EM.read_eq_error.1 h)
    rcases EM.bind_eq_error.1 h with h | ⟨_, _, _, h⟩
    · exact unwrap_fails (EM.read_eq_error.1 h)
    rcases EM.bind_eq_error.1 h with h | ⟨_, _, _, h⟩
    · unfold EM.unwrapRes at h; split at h <;> cases h <;> nofun
    · exact fillGlobals_fails h

include B in
theorem createFrame_start_fails (h0 : T.validSize 0 = true) {f : Function} {rty : Ty} (hc : f.callingConvention = .c) (ha : f.args = [])
    (hr : f.locals.get? f.ret = some rty) (hl : rty.layout = .ok (.sized 0 Align.one)) (hab : abiCompat unitTy rty = .ok true)
    (h : createFrame f .bottomOfStack .c unitTy [] s = .error e) : e = .noBehavior := by
  unfold createFrame at h
  have hr' := Map.get_eq_ok.2 hr
  rcases EM.bind_eq_error.1 h with h | ⟨fr, s1, h1, h⟩
  · unfold storageLive at h
    have hll : ∀ fr : StackFrame (AllocId × PE) F, fr.func = f → fr.localLayout f.ret = .ok (0, Align.one) := by
      intro fr hfr
      unfold StackFrame.localLayout
      rw [hfr, hr']
      show (do let layout ← rty.layout; _) = _
      rw [hl]; rfl
    unfold storageDead at h
    have hg : (StackFrame.init f .bottomOfStack (Memory.newCall M) : StackFrame (AllocId × PE) F).locals.get? f.ret = none := rfl
    rcases EM.bind_eq_error.1 h with h | ⟨fr, s1, h1, h⟩
    · rcases EM.bind_eq_error.1 h with h | ⟨x, s1, h1, h⟩
      · rw [hll _ rfl] at h; cases h
      · dsimp only at h
        rw [hg] at h
        cases h
    · have hfr : fr.func = f := by
        rw [hll _ rfl] at h1
        obtain ⟨x, s2, h2, h1⟩ := EM.bind_eq_ok.1 h1
        dsimp only at h1
        rw [hg] at h1
        cases h1; rfl
      rw [hll _ hfr] at h
      rcases EM.bind_eq_error.1 h with h | ⟨x, s2, h2, h⟩
      · cases h
      obtain ⟨h2, rfl⟩ := EM.lift_eq_ok.1 h2
      cases h2
      rcases EM.bind_eq_error.1 h with h | ⟨_, _, _, h⟩
      · exact memAllocate_fails (B := B) h0 h
      · cases h
  · rw [ha] at h
    rcases EM.bind_eq_error.1 h with h | ⟨fr, s1, h1, h⟩
    · unfold storageLives at h; cases h
    rw [if_neg (by rw [hc]; simp), hr'] at h
    rcases EM.bind_eq_error.1 h with h | ⟨x, s2, h2, h⟩
    · cases h
    obtain ⟨h2, rfl⟩ := EM.lift_eq_ok.1 h2
    cases h2
    rw [hab] at h
    rcases EM.bind_eq_error.1 h with h | ⟨x, s2, h2, h⟩
    · cases h
    obtain ⟨h2, rfl⟩ := EM.lift_eq_ok.1 h2
    cases h2
    simp only [Bool.not_true, Bool.false_eq_true, if_false, List.length_nil, ne_eq, not_true_eq_false] at h
    rcases EM.bind_eq_error.1 h with h | ⟨_, _, _, h⟩
    · unfold passArguments at h; cases h
    · cases h

/-- The sizes of globals are valid, and the start function returns a unit type, up to compatibility. -/
structure Program.StartOk (prog : Program) : Prop where
  size : ∀ x ∈ prog.globals, T.validSize x.2.bytes.length = true
  ret : ∀ f ty, prog.functions.get? prog.start = some f → f.locals.get? f.ret = some ty → abiCompat unitTy ty = .ok true

include B in
/-- C89 (partial): starting a program that passes the well-formedness check is not undefined behavior. This needs two things that are not checked: without
them the claim is false (`C89_start_ub`, `C89_huge_ub`). -/
theorem C89_start_partial [hl : LawfulTarget T] (hw : prog.checkWf = .ok ()) (hok : prog.StartOk)
    (oracle : List (Choice (AllocId × PE))) : (Machine.new prog oracle : Res (Machine M (AllocId × PE) F)) ≠ .error .ub := by
  intro h
  have h0 : T.validSize 0 = true := hl.valid_down 0 _ (Nat.zero_le _) hl.valid_wide
  unfold Machine.new at h
  rw [hw] at h
  rcases Res.bind_eq_error.1 h with h | ⟨_, _, h⟩
  · cases h
  rcases Res.bind_eq_error.1 h with h | ⟨_, _, h⟩
  swap
  · cases h
  unfold initMachine at h
  have hw' := hw
  simp only [Program.checkWf, Res.bind_eq_ok] at hw'
  obtain ⟨_, _, _, _, hw'⟩ := hw'
  cases hst : prog.functions.get? prog.start with
  | none => rw [hst] at hw'; cases hw'
  | some start =>
    rw [hst] at hw'
    simp only [Res.bind_eq_ok, ensureWf_eq_ok] at hw'
    obtain ⟨_, hcc, ty, hty, lay, hlay, _, hl0, _, hargs, _⟩ := hw'
    have hty' := Map.get_eq_ok.1 hty
    rcases EM.bind_eq_error.1 h with h | ⟨_, _, _, h⟩
    · cases allocGlobals_fails (B := B) hok.size h
    rcases EM.bind_eq_error.1 h with h | ⟨_, _, _, h⟩
    · exact fillGlobals_fails h rfl
    rcases EM.bind_eq_error.1 h with h | ⟨_, _, _, h⟩
    · cases allocFunctions_fails (B := B) h0 h
    rcases EM.bind_eq_error.1 h with h | ⟨_, _, _, h⟩
    · cases allocVTables_fails (B := B) h0 h
    rw [Map.get_eq_ok.2 hst] at h
    rcases EM.bind_eq_error.1 h with h | ⟨f, _, h1, h⟩
    · cases h
    obtain ⟨h1, rfl⟩ := EM.lift_eq_ok.1 h1
    cases h1
    rcases EM.bind_eq_error.1 h with h | ⟨_, _, _, h⟩
    · unfold newThread at h
      rcases EM.bind_eq_error.1 h with h | ⟨_, _, _, h⟩
      · cases createFrame_start_fails (B := B) h0 (by simpa using hcc) (by simpa using hargs) hty' (by rw [hlay]; simpa using hl0) (hok.ret _ _ hst hty') h
      · cases h
    · cases h

include B in
/-- C89: it does nothing else than to succeed, or to reject choices (of addresses). -/
theorem C89_only_choices_partial [LawfulTarget T] [RawRetag M (AllocId × PE) F] (hpl : PlainMem M) (hu : prog.KeysUnique) (hw : prog.checkWf = .ok ()) (hok : prog.StartOk)
    (oracle : List (Choice (AllocId × PE))) (h : (Machine.new prog oracle : Res (Machine M (AllocId × PE) F)) = .error e) : e = .noBehavior := by
  rcases (C41_ill_formed prog oracle).2 hw e h with rfl | rfl | rfl
  · exact absurd h (C89_start_partial (B := B) hw hok oracle)
  · exact absurd h (C37_new (B := B) hpl hu hw oracle)
  · rfl

end

/-- C89: the same under Tree Borrows. -/
theorem C89_tb_partial [T : Target] [LawfulTarget T] {prog : Program} (hu : prog.KeysUnique) (hw : prog.checkWf = .ok ()) (hok : prog.StartOk)
    {oracle : List (Choice TBProv)} {e : Err} (h : (Machine.new prog oracle : Res (Machine TBMem TBProv TBFrame)) = .error e) : e = .noBehavior := by
  rcases (C41_ill_formed prog oracle).2 hw e h with rfl | rfl | rfl
  · exact absurd h (C89_start_partial (B := inferInstance) hw hok oracle)
  · exact absurd h (C37_tb_new hu hw oracle)
  · rfl

theorem huge_start [T : Target] {prog : Program} {n g gs} (hw : prog.checkWf = .ok ()) (hg : prog.globals = (n, g) :: gs)
    (hv : T.validSize g.bytes.length = false) (a : Int) (oracle : List (Choice (AllocId × Unit))) :
    (Machine.new prog (.int a :: oracle) : Res (Machine (BasicMem Unit Unit) (AllocId × Unit) Unit)) = .error .ub := by
  have h1 : (memAllocate .global g.bytes.length g.align : EM (BasicMem Unit Unit) (AllocId × Unit) Unit _) (Machine.empty prog (.int a :: oracle)) = .error .ub := by
    unfold memAllocate
    refine EM.bind_eq_error.2 (.inr ⟨a, { Machine.empty prog (.int a :: oracle) with oracle := oracle }, EM.popInt_eq_ok.2 ⟨oracle, rfl, rfl⟩, ?_⟩)
    refine Res.bind_eq_error.2 (.inl (Res.bind_eq_error.2 (.inl ?_)))
    show BasicMem.allocate _ _ _ _ _ _ _ = _
    unfold BasicMem.allocate
    rw [if_pos]
    rw [hv]; rfl
  unfold Machine.new
  rw [hw]
  refine Res.bind_eq_error.2 (.inr ⟨_, rfl, Res.bind_eq_error.2 (.inl ?_)⟩)
  unfold initMachine
  refine EM.bind_eq_error.2 (.inl ?_)
  rw [hg]
  unfold allocGlobals
  exact EM.bind_eq_error.2 (.inl h1)

/-! ### Concrete cases -/

section
attribute [local instance] x86_64 x86_64_lawful

/-- A program with a global and a function, which meets the conditions. -/
example : Ex.printProg.checkWf = .ok () ∧ Ex.printProg.StartOk := by
  refine ⟨by decide +kernel, ?_, ?_⟩
  · decide +kernel
  · intro f ty hf hty
    cases hf
    cases hty
    decide +kernel

example (oracle : List (Choice (AllocId × Unit))) : (Machine.new Ex.printProg oracle : Res (Machine (BasicMem Unit Unit) (AllocId × Unit) Unit)) ≠ .error .ub := by
  refine C89_start_partial (B := inferInstance) (by decide +kernel) ⟨by decide +kernel, ?_⟩ oracle
  intro f ty hf hty
  cases hf
  cases hty
  decide +kernel

/-- C89 is false without the second condition: the return type of the start function of this program is an empty array, which passes the check
since it has size 0 and alignment 1. To start the program is undefined behavior. -/
def emptyArrayProg : Program := { Ex.printProg with
  functions := Ex.printProg.functions.map fun x => (x.1, { x.2 with locals := [(0, .array (.int ⟨.unsigned, 1⟩) 0)], blocks := [(0, ⟨[], .intrinsic .exit [] (.local 0) none, .regular⟩)] }) }

theorem C89_start_ub : emptyArrayProg.checkWf = .ok () ∧ ∃ oracle : List (Choice (AllocId × Unit)),
    errOf (Machine.new emptyArrayProg oracle : Res (Machine (BasicMem Unit Unit) (AllocId × Unit) Unit)) = some .ub :=
  ⟨by decide +kernel, Ex.printRun, by decide +kernel⟩

/-- C89 is false without the first condition: the global of this program has 2^63 bytes. -/
def hugeProg : Program := { Ex.printProg with globals := [(0, ⟨List.replicate (2 ^ 63) none, [], ⟨0⟩⟩)] }

theorem C89_huge_ub : hugeProg.checkWf = .ok () ∧ ∀ (a : Int) (oracle : List (Choice (AllocId × Unit))),
    (Machine.new hugeProg (.int a :: oracle) : Res (Machine (BasicMem Unit Unit) (AllocId × Unit) Unit)) = .error .ub := by
  have hw : hugeProg.checkWf = .ok () := by decide +kernel
  refine ⟨hw, huge_start (n := 0) (g := ⟨List.replicate (2 ^ 63) none, [], ⟨0⟩⟩) (gs := []) hw rfl ?_⟩
  show inBounds .signed 8 ((List.replicate (2 ^ 63) none).length : Nat) = false
  rw [List.length_replicate]
  decide

end
end MiniRust
