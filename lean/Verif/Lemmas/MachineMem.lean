import Verif.Lemmas.Threads3
import Verif.Props.Memory
/-
The memory of a machine results from a history of memory operations, and each step appends to that
history. This lifts the theorems about memory histories to machine runs.
-/
set_option linter.unusedSectionVars false
namespace MiniRust
variable {M PE F : Type} [Memory M (AllocId × PE) F] [DecidableEq PE] [T : Target]

/-- Only the stack and the heap are ever deallocated. -/
def MemEvent.KeepsStatics : MemEvent PE → Prop
  | .dealloc _ kind _ _ => kind = .stack ∨ kind = .heap
  | _ => True

/-- The second memory results from the first by some memory operations that do not deallocate globals,
functions or vtables. -/
def HistRel (F : Type) [Memory M (AllocId × PE) F] (m m' : ConcMem M) : Prop :=
  ∃ h : MemHistory PE, MemRun (F := F) m.memory h m'.memory ∧ ∀ e ∈ h, e.KeepsStatics

theorem HistRel.one {m m' : ConcMem M} {e : MemEvent PE} (h : MemStep (F := F) m.memory e m'.memory)
    (hk : e.KeepsStatics) : HistRel (PE := PE) F m m' :=
  ⟨[e], .cons .nil h, by intro e' he; cases List.mem_singleton.1 he; exact hk⟩

instance : FullRel (P := AllocId × PE) (F := F) (HistRel (M := M) (PE := PE) F) where
  refl m := ⟨[], .nil, by simp⟩
  trans m m' m'' := by
    rintro ⟨h1, r1, k1⟩ ⟨h2, r2, k2⟩
    exact ⟨h2 ++ h1, r1.append r2, by
      intro e he; rcases List.mem_append.1 he with h | h; exacts [k2 e h, k1 e h]⟩
  load m m' p n al at' bytes h := by
    obtain ⟨⟨_, _⟩, h1, h2⟩ := Res.bind_eq_ok.1 h
    cases h2; exact .one (.load h1) trivial
  retag m m' f f' p p' pty e vt h := by
    obtain ⟨⟨_, _, _⟩, h1, h2⟩ := Res.bind_eq_ok.1 h
    cases h2; exact .one (.retag h1) trivial
  store m m' p b al at' h := by
    obtain ⟨_, h1, h2⟩ := Res.bind_eq_ok.1 h
    cases h2; exact .one (.store h1) trivial
  allocate m m' k n al pick p _ h := by
    obtain ⟨⟨_, _⟩, h1, h2⟩ := Res.bind_eq_ok.1 h
    cases h2; exact .one (.alloc h1) trivial
  heap m m' n al pick p h := by
    obtain ⟨⟨_, _⟩, h1, h2⟩ := Res.bind_eq_ok.1 h
    cases h2; exact .one (.alloc h1) trivial
  deallocate m m' p n al h := by
    obtain ⟨_, h1, h2⟩ := Res.bind_eq_ok.1 h
    cases h2; exact .one (.dealloc h1) (.inl rfl)
  free m m' p n al h := by
    obtain ⟨_, h1, h2⟩ := Res.bind_eq_ok.1 h
    cases h2; exact .one (.dealloc h1) (.inr rfl)
  endCall m m' f h := by
    obtain ⟨_, h1, h2⟩ := Res.bind_eq_ok.1 h
    cases h2; exact .one (.endCall h1) trivial

section
variable {M P F : Type} [Memory M P F] [DecidableEq P] {s s' : Machine M P F}

omit [DecidableEq P] in
theorem CtlOp.mem {K : CtlKind → Prop} (h : CtlOp K s s') : s'.mem = s.mem := by cases h <;> rfl

variable [SoftMem M P F] {Rm : ConcMem M → ConcMem M → Prop}

theorem CtlRel.mem [hR : MemRel (P := P) (F := F) Rm] {K : CtlKind → Prop} (h : CtlRel Rm K s s') : Rm s.mem s'.mem := by
  obtain ⟨s1, s2, h1, h2, h3⟩ := h
  have := h2.mem
  exact hR.trans _ _ _ h1.mem (this ▸ h3.mem)

variable [hR : FullRel (P := P) (F := F) Rm]

/-- What a step does to the memory, after the accesses of the last step were forgotten. -/
theorem step_memRel (h : step s = .ok ((), s')) : Rm { s.mem with accesses := [] } s'.mem := by
  obtain ⟨a, t, rest, h1, h2, h3, h4, h5⟩ := step_eq_ok.1 h
  exact (execStep_ok (Rm := Rm) h4).mem

/-- The initialisation only performs memory operations and keeps the rest, apart from the pointers. -/
structure InitMem (Rm : ConcMem M → ConcMem M → Prop) (s s' : Machine M P F) : Prop where
  mem : Rm s.mem s'.mem

instance : PreRel (InitMem (P := P) (F := F) Rm) where
  refl _ := ⟨hR.refl _⟩
  trans _ _ _ h1 h2 := ⟨hR.trans _ _ _ h1.mem h2.mem⟩

theorem initMem_memAllocate {k n a} : Tri Soft (InitMem Rm) (memAllocate k n a : EM M P F _) :=
  tri_memHeap.mono (fun _ h => h) (fun _ _ h => ⟨h.mem⟩)
theorem initMem_memStore {p b al at'} : Tri Soft (InitMem Rm) (memStore p b al at' : EM M P F _) :=
  tri_memStore.mono (fun _ h => h) (fun _ _ h => ⟨h.mem⟩)

theorem initMem_allocGlobals : ∀ {gs}, Tri Soft (InitMem Rm) (allocGlobals gs : EM M P F _)
  | [] => by unfold allocGlobals; exact .pure
  | (n, g) :: gs => by
    unfold allocGlobals
    exact .bind initMem_memAllocate fun _ => .bind (.modify fun _ => ⟨hR.refl _⟩) fun _ => initMem_allocGlobals
theorem initMem_allocFunctions : ∀ {gs}, Tri Soft (InitMem Rm) (allocFunctions gs : EM M P F _)
  | [] => by unfold allocFunctions; exact .pure
  | n :: gs => by
    unfold allocFunctions
    exact .bind initMem_memAllocate fun _ => .bind (.modify fun _ => ⟨hR.refl _⟩) fun _ => initMem_allocFunctions
theorem initMem_allocVTables : ∀ {gs}, Tri Soft (InitMem Rm) (allocVTables gs : EM M P F _)
  | [] => by unfold allocVTables; exact .pure
  | n :: gs => by
    unfold allocVTables
    exact .bind initMem_memAllocate fun _ => .bind (.modify fun _ => ⟨hR.refl _⟩) fun _ => initMem_allocVTables
theorem initMem_fillGlobals : ∀ {gs}, Tri Soft (InitMem Rm) (fillGlobals gs : EM M P F _)
  | [] => by unfold fillGlobals; exact .pure
  | (n, g) :: gs => by
    unfold fillGlobals
    exact .bind (.read fun _ => soft_relocate) fun _ => .bind (.read fun _ => .mapGet .panic) fun _ =>
      .bind (.unwrapRes initMem_memStore .panic) fun _ => initMem_fillGlobals

/-- The stages of creating a machine. -/
theorem new_stages {prog : Program} {oracle : List (Choice P)} (h : Machine.new prog oracle = .ok s) :
    ∃ (s1 s2 s3 s4 s5 : Machine M P F) (f : Function) (fr : StackFrame P F),
      prog.checkWf = .ok () ∧
      allocGlobals prog.globals (Machine.empty prog oracle) = .ok ((), s1) ∧
      fillGlobals prog.globals s1 = .ok ((), s2) ∧
      allocFunctions prog.functions.keys s2 = .ok ((), s3) ∧
      allocVTables prog.vtables.keys s3 = .ok ((), s4) ∧
      prog.functions.get prog.start = .ok f ∧
      createFrame f .bottomOfStack .c unitTy [] s4 = .ok (fr, s5) ∧
      s = { s5 with threads := s5.threads ++ [{ state := .enabled, stack := [fr], unwindPayloads := [] }] } := by
  unfold Machine.new at h
  obtain ⟨_, h1, h⟩ := Res.bind_eq_ok.1 h
  obtain ⟨⟨_, s1⟩, h2, h⟩ := Res.bind_eq_ok.1 h
  cases h
  unfold initMachine at h2
  obtain ⟨_, a1, k1, g1⟩ := EM.bind_eq_ok.1 h2
  obtain ⟨_, a2, k2, g2⟩ := EM.bind_eq_ok.1 g1
  obtain ⟨_, a3, k3, g3⟩ := EM.bind_eq_ok.1 g2
  obtain ⟨_, a4, k4, g4⟩ := EM.bind_eq_ok.1 g3
  obtain ⟨fn, a5, k5, g5⟩ := EM.bind_eq_ok.1 g4
  obtain ⟨_, a6, k6, g6⟩ := EM.bind_eq_ok.1 g5
  cases g6
  obtain ⟨k5', rfl⟩ := EM.lift_eq_ok.1 k5
  obtain ⟨fr, a7, k7, _, rfl⟩ := newThread_eq_ok.1 k6
  exact ⟨a1, a2, a3, a5, a7, fn, fr, h1, k1, k2, k3, k4, k5', k7, rfl⟩

theorem new_memRel {prog : Program} {oracle : List (Choice P)} (h : Machine.new prog oracle = .ok s) :
    Rm ConcMem.new s.mem := by
  obtain ⟨s1, s2, s3, s4, s5, f, fr, _, h1, h2, h3, h4, _, h5, rfl⟩ := new_stages h
  have i4 := PreRel.trans _ _ _ (PreRel.trans _ _ _ (PreRel.trans _ _ _ ((initMem_allocGlobals (Rm := Rm)).ok _ _ _ h1)
    (initMem_fillGlobals.ok _ _ _ h2)) (initMem_allocFunctions.ok _ _ _ h3)) (initMem_allocVTables.ok _ _ _ h4)
  have q := (tri_createFrame (Rm := Rm)).ok _ _ _ h5
  exact hR.trans _ _ _ i4.mem q.mem
end

variable [SoftMem M (AllocId × PE) F] {s s' : Machine M (AllocId × PE) F}

/-- A step performs some memory operations. -/
theorem step_memRun (h : step s = .ok ((), s')) :
    ∃ h : MemHistory PE, MemRun (F := F) s.mem.memory h s'.mem.memory ∧ ∀ e ∈ h, e.KeepsStatics :=
  step_memRel (Rm := HistRel (PE := PE) F) h

/-- The memory of a reachable machine results from some history of memory operations. -/
theorem Reachable.memReach {prog : Program} (h : Reachable prog s) :
    ∃ h : MemHistory PE, MemReach (F := F) h s.mem.memory := by
  refine h.induct (I := fun s => ∃ h : MemHistory PE, MemReach (F := F) h s.mem.memory) ?_ ?_
  · intro o s hn
    obtain ⟨h, hr, _⟩ := new_memRel (Rm := HistRel (PE := PE) F) hn
    exact ⟨h, hr⟩
  · rintro s s' ⟨h, hr⟩ hst
    obtain ⟨h', hr', _⟩ := step_memRun hst
    exact ⟨h' ++ h, hr.append hr'⟩

/-! ### Reading operations -/

/-- Loads, retags and the ends of calls: the events that change neither contents nor liveness. -/
def MemEvent.Reads : MemEvent PE → Prop
  | .load .. | .bookkeeping => True
  | _ => False

/-- The second memory results from the first by operations that only read. -/
def ReadHist (F : Type) [Memory M (AllocId × PE) F] (m m' : ConcMem M) : Prop :=
  ∃ h : MemHistory PE, MemRun (F := F) m.memory h m'.memory ∧ ∀ e ∈ h, e.Reads

instance : ReadRel (P := AllocId × PE) (F := F) (ReadHist (M := M) (PE := PE) F) where
  refl m := ⟨[], .nil, by simp⟩
  trans m m' m'' := by
    rintro ⟨h1, r1, k1⟩ ⟨h2, r2, k2⟩
    exact ⟨h2 ++ h1, r1.append r2, by
      intro e he; rcases List.mem_append.1 he with h | h; exacts [k2 e h, k1 e h]⟩
  load m m' p n al at' bytes h := by
    obtain ⟨⟨_, _⟩, h1, h2⟩ := Res.bind_eq_ok.1 h
    cases h2
    exact ⟨[.load p n al _], .cons .nil (.load h1), by intro e he; cases List.mem_singleton.1 he; trivial⟩
  retag m m' f f' p p' pty e vt h := by
    obtain ⟨⟨_, _, _⟩, h1, h2⟩ := Res.bind_eq_ok.1 h
    cases h2
    exact ⟨[.bookkeeping], .cons .nil (.retag h1), by intro e he; cases List.mem_singleton.1 he; trivial⟩

omit [DecidableEq PE] in
/-- Reading does not change which allocations are live. -/
theorem liveIn_reads {h h' : MemHistory PE} (hr : ∀ e ∈ h', e.Reads) {id i} :
    LiveIn (h' ++ h) id i ↔ LiveIn h id i := by
  unfold LiveIn WasAllocated WasDeallocated
  have hw : ∀ k sz al p, MemEvent.alloc k sz al p ∉ h' := fun k sz al p hm => hr _ hm
  have hd : ∀ k sz al p, MemEvent.dealloc p k sz al ∉ h' := fun k sz al p hm => hr _ hm
  simp only [List.mem_append, hw, hd, false_or]

/-- `Abort` and `Exit` stop the machine, report a leak, or fail while evaluating their operands. -/
theorem stops_error_reads {M P F : Type} [Memory M P F] [DecidableEq P] [SoftMem M P F] {s : Machine M P F}
    {Rm : ConcMem M → ConcMem M → Prop} [hR : ReadRel (P := P) (F := F) Rm]
    {t : Terminator} (hst : t.Stops) {e : Err} (h : evalTerminator t s = .error e) :
    Soft e ∨ (∃ as r n, t = .intrinsic .abort as r n ∧ e = .abort) ∨
      ∃ as r n, ∃ s1 : Machine M P F, t = .intrinsic .exit as r n ∧ Rm s.mem s1.mem ∧
        (e = .machineStop ∧ s1.mem.leakCheck = .ok () ∨ s1.mem.leakCheck = .error e) := by
  cases t with
  | intrinsic op as r n =>
    unfold evalTerminator at h
    rcases EM.bind_eq_error.1 h with h | ⟨_, b1, k1, h⟩
    · exact .inl ((tri_evalPlace (Rm := Rm) _).err _ _ h)
    rcases EM.bind_eq_error.1 h with h | ⟨_, b2, k2, h⟩
    · exact .inl ((tri_evalValues (Rm := Rm) _).err _ _ h)
    have q1 := ((tri_evalPlace (Rm := Rm) _).ok _ _ _ k1).mem
    have q2 := ((tri_evalValues (Rm := Rm) _).ok _ _ _ k2).mem
    rcases EM.bind_eq_error.1 h with h | ⟨_, b3, k3, h⟩
    · cases op <;> first | exact hst.elim | skip
      · cases h; exact .inr (.inl ⟨as, r, n, rfl, rfl⟩)
      · refine .inr (.inr ⟨as, r, n, b2, rfl, hR.trans _ _ _ q1 q2, ?_⟩)
        unfold evalIntrinsic intrinsicExit at h
        rcases EM.bind_eq_error.1 h with h7 | ⟨_, b3, k3, h7⟩
        · exact .inr (EM.read_eq_error.1 h7)
        · obtain ⟨k4, rfl⟩ := EM.read_eq_ok.1 k3
          cases h7; exact .inl ⟨rfl, k4⟩
    · exfalso
      cases op <;> first | exact hst.elim | skip
      · cases k3
      · unfold evalIntrinsic intrinsicExit at k3
        obtain ⟨_, _, _, k3⟩ := EM.bind_eq_ok.1 k3
        cases k3
  | _ => exact hst.elim

end MiniRust
