import Verif.Lemmas.Swap
import Verif.Examples.Programs
/-
C77, C78: what a step reads and writes is what the data race detector is told, and steps of different threads
whose accesses are independent can be swapped.
-/
namespace MiniRust
section
variable [T : Target] {M PE AE F : Type} [Memory M (AllocId × PE) F] [K : BasicBacked M PE AE F] [DecidableEq PE]
variable [SoftMem M (AllocId × PE) F]

/-! ### C77: reads and writes are reported -/

theorem step_reads [ByteMem M PE AE F] {prog : Program} {s s' t : Machine M (AllocId × PE) F} (hr : Reachable prog s)
    (h : step s = .ok ((), s')) {B : Int → Prop} (hB : ∀ x, ReadAt s'.mem.accesses x → B x) (ht : MachineAgree B s t) :
    ∃ t', step t = .ok ((), t') ∧ MachineAgree (fun x => B x ∨ WrittenAt s'.mem.accesses x) s' t' := by
  have hrest := ht.rest
  have hacc : t.mem.accesses = s.mem.accesses := by rw [hrest]
  have hm : t.mem = { s.mem with memory := t.mem.memory } := congrArg (·.mem) hrest
  obtain ⟨t', h1, L⟩ := Loc.step hr.memReach ht.mem (hrest.trans (congrArg (fun m => { s with mem := m }) hm.symm)) hacc h hB
  refine ⟨t', h1, ?_, L.mem⟩
  have := L.full id
  have hm : t'.mem = { s'.mem with memory := t'.mem.memory } := by
    show t'.mem = ⟨t'.mem.memory, s'.mem.accesses⟩
    rw [← L.acc]
  rw [this]
  exact congrArg (fun m => { s' with mem := m }) hm

/-- C77: whatever a step reads, it reports as a read. If the memories of two machines agree on the addresses that the step
from one of them reports to have read, and otherwise the machines are equal, then the step from the other one succeeds
as well, with the same effect: afterwards the machines still differ only in the memory, which agrees wherever it did before,
and on everything the step reports to have written. -/
theorem C77_reads {prog : Program} {s s' t : Machine (BasicMem Unit Unit) (AllocId × Unit) Unit} (hr : Reachable prog s)
    (h : step s = .ok ((), s')) {B : Int → Prop} (hB : ∀ x, ReadAt s'.mem.accesses x → B x) (ht : MachineAgree B s t) :
    ∃ t', step t = .ok ((), t') ∧ MachineAgree (fun x => B x ∨ WrittenAt s'.mem.accesses x) s' t' :=
  step_reads hr h hB ht

/-- C77: the same under Tree Borrows. -/
theorem C77_reads_tree_borrows {prog : Program} {s s' t : Machine TBMem TBProv TBFrame} (hr : Reachable prog s)
    (h : step s = .ok ((), s')) {B : Int → Prop} (hB : ∀ x, ReadAt s'.mem.accesses x → B x) (ht : MachineAgree B s t) :
    ∃ t', step t = .ok ((), t') ∧ MachineAgree (fun x => B x ∨ WrittenAt s'.mem.accesses x) s' t' :=
  step_reads hr h hB ht

/-- C77: whatever a step writes, it reports as a write. No step changes address, alignment, kind or size of an allocation,
revives one, or changes the bytes of one that is dead; and if a byte of an allocation changes, the step reports a write to
its address. This holds for both memory models. -/
theorem C77_writes {s s' : Machine M (AllocId × PE) F} (h : step s = .ok ((), s')) {id : Nat} {a : Alloc PE AE}
    (ha : (K.mem s.mem.memory).allocations[id]? = some a) :
    ∃ b, (K.mem s'.mem.memory).allocations[id]? = some b ∧ b.addr = a.addr ∧ b.align = a.align ∧ b.kind = a.kind ∧
      b.size = a.size ∧ (a.live = false → b.live = false ∧ b.data = a.data) ∧
      ∀ i : Nat, b.data[i]? ≠ a.data[i]? → WrittenAt s'.mem.accesses (a.addr + i) := by
  have hw : Wrote { s.mem with accesses := [] } s'.mem := step_memRel h
  obtain ⟨b, h1, h2⟩ := hw.allocs id a ha
  exact ⟨b, h1, h2.addr, h2.align, h2.kind, h2.size, h2.dead, h2.bytes⟩

theorem step_race_free [ByteMem M PE AE F] {prog : Program} {s s' s'' t : Machine M (AllocId × PE) F} (hr : Reachable prog s)
    (h1 : step s = .ok ((), s')) (h2 : step s' = .ok ((), s'')) (hi : s''.activeThread ≠ s'.activeThread)
    (hs : s''.activeThread ∉ s'.synchronizedThreads)
    (ht : MachineAgree (fun x => ¬ ∃ a ∈ s'.mem.accesses, a.ty = .store ∧ a.atomicity = .none ∧ a.Covers x) s' t) :
    ∃ t', step t = .ok ((), t') ∧
      MachineAgree (fun x => (¬ ∃ a ∈ s'.mem.accesses, a.ty = .store ∧ a.atomicity = .none ∧ a.Covers x) ∨
        WrittenAt s''.mem.accesses x) s'' t' := by
  refine step_reads (hr.step h1) h2 ?_ ht
  rintro x ⟨b, hb, hbl, hb1, hb2⟩ ⟨a, ha, has, han, ha1, ha2⟩
  obtain ⟨_, _, _, _, _, _, _, hc⟩ := step_eq_ok.1 h2
  unfold ConcMem.checkDataRaces at hc
  rw [if_neg (by rw [mem_setInsert]; rintro (h | h); exacts [hs h, hi h]), raceLoop_ok] at hc
  have := hc b hb a ha
  unfold Access.races at this
  rw [if_neg (by rw [has]; simp), if_neg (by rw [han]; simp)] at this
  simp only [gt_iff_lt, Bool.and_eq_false_imp, decide_eq_true_eq, decide_eq_false_iff_not] at this
  omega

/-- C77: so without a data race, a step of another thread, not synchronised with the step before it, does not depend on
what that step wrote non-atomically: with arbitrary other bytes at these addresses, it does the same. -/
theorem C77_race_free {prog : Program} {s s' s'' t : Machine (BasicMem Unit Unit) (AllocId × Unit) Unit} (hr : Reachable prog s)
    (h1 : step s = .ok ((), s')) (h2 : step s' = .ok ((), s'')) (hi : s''.activeThread ≠ s'.activeThread)
    (hs : s''.activeThread ∉ s'.synchronizedThreads)
    (ht : MachineAgree (fun x => ¬ ∃ a ∈ s'.mem.accesses, a.ty = .store ∧ a.atomicity = .none ∧ a.Covers x) s' t) :
    ∃ t', step t = .ok ((), t') ∧
      MachineAgree (fun x => (¬ ∃ a ∈ s'.mem.accesses, a.ty = .store ∧ a.atomicity = .none ∧ a.Covers x) ∨
        WrittenAt s''.mem.accesses x) s'' t' :=
  step_race_free hr h1 h2 hi hs ht

/-- C77: the same under Tree Borrows. -/
theorem C77_race_free_tree_borrows {prog : Program} {s s' s'' t : Machine TBMem TBProv TBFrame} (hr : Reachable prog s)
    (h1 : step s = .ok ((), s')) (h2 : step s' = .ok ((), s'')) (hi : s''.activeThread ≠ s'.activeThread)
    (hs : s''.activeThread ∉ s'.synchronizedThreads)
    (ht : MachineAgree (fun x => ¬ ∃ a ∈ s'.mem.accesses, a.ty = .store ∧ a.atomicity = .none ∧ a.Covers x) s' t) :
    ∃ t', step t = .ok ((), t') ∧
      MachineAgree (fun x => (¬ ∃ a ∈ s'.mem.accesses, a.ty = .store ∧ a.atomicity = .none ∧ a.Covers x) ∨
        WrittenAt s''.mem.accesses x) s'' t' :=
  step_race_free hr h1 h2 hi hs ht

/-! ### C78: independent steps can be swapped -/

/-- C78: two adjacent steps of different threads that neither allocate nor deallocate nor involve other threads, locks,
output or exposed provenance, and whose accesses are independent, can be made in the other order, by the other choice of
threads: unless the step now made first races with the step before, both steps succeed, they make the same accesses, and the
resulting state is the same (apart from the records of the last step). -/
theorem C78_swap {prog : Program} {s s1 s2 : Machine (BasicMem Unit Unit) (AllocId × Unit) Unit} (hr : Reachable prog s)
    {a b : Nat} {rest : List (Choice (AllocId × Unit))} (ho : s.oracle = .int a :: .int b :: rest) (hab : a ≠ b)
    (h1 : step s = .ok ((), s1)) (h2 : step s1 = .ok ((), s2)) (la : s.NextLocal a) (lb : s.NextLocal b)
    (hi : Independent s1.mem.accesses s2.mem.accesses) :
    (step { s with oracle := .int b :: .int a :: rest } = .error .ub ∧
      ∃ x ∈ s2.mem.accesses, ∃ y ∈ s.mem.accesses, x.races y = true) ∨
    ∃ t, step { s with oracle := .int b :: .int a :: rest } = .ok ((), t) ∧ t.mem.accesses = s2.mem.accesses ∧
      step t = .ok ((), { s2 with activeThread := a, mem := { s2.mem with accesses := s1.mem.accesses } }) :=
  swap_steps hr.memReach ho hab h1 h2 la lb hi

/-- C78: in particular, if the second thread is not synchronised and one of the steps accesses memory only non-atomically,
then, as no data race was reported, the steps can be swapped. -/
theorem C78_race_free_swap {prog : Program} {s s1 s2 : Machine (BasicMem Unit Unit) (AllocId × Unit) Unit} (hr : Reachable prog s)
    {a b : Nat} {rest : List (Choice (AllocId × Unit))} (ho : s.oracle = .int a :: .int b :: rest) (hab : a ≠ b)
    (h1 : step s = .ok ((), s1)) (h2 : step s1 = .ok ((), s2)) (la : s.NextLocal a) (lb : s.NextLocal b)
    (hs : b ∉ s1.synchronizedThreads)
    (hn : (∀ x ∈ s1.mem.accesses, x.atomicity = .none) ∨ ∀ x ∈ s2.mem.accesses, x.atomicity = .none) :
    (step { s with oracle := .int b :: .int a :: rest } = .error .ub ∧
      ∃ x ∈ s2.mem.accesses, ∃ y ∈ s.mem.accesses, x.races y = true) ∨
    ∃ t, step { s with oracle := .int b :: .int a :: rest } = .ok ((), t) ∧ t.mem.accesses = s2.mem.accesses ∧
      step t = .ok ((), { s2 with activeThread := a, mem := { s2.mem with accesses := s1.mem.accesses } }) := by
  refine C78_swap hr ho hab h1 h2 la lb ?_
  obtain ⟨ho1, ha1⟩ := local_oracle ho h1 la
  obtain ⟨b', _, r', f1, _, _, f4, hc⟩ := step_eq_ok.1 h2
  rw [ho1] at f1; cases f1
  have hb : s2.activeThread = b := execStep_active f4
  unfold ConcMem.checkDataRaces at hc
  rw [if_neg (by rw [mem_setInsert, hb, ha1]; rintro (h | h); exacts [hs h, hab h.symm]), raceLoop_ok] at hc
  intro x hx y hy hxy
  have hr := hc y hy x hx
  unfold Access.races at hr
  rw [if_neg (by rintro ⟨h, h'⟩; rw [h, h'] at hxy; simp at hxy),
    if_neg (by rintro ⟨h, h'⟩; rcases hn with hn | hn; exacts [by simp [hn x hx] at h', by simp [hn y hy] at h])] at hr
  simp only [gt_iff_lt, Bool.and_eq_false_imp, decide_eq_true_eq, decide_eq_false_iff_not] at hr
  unfold Access.Apart
  omega

end

/-! ### Concrete cases -/

section
attribute [local instance] x86_64
open Ex

/-- The memory with another byte at an index of an allocation. -/
def pokeMem {PE AE : Type} (m : BasicMem PE AE) (id i : Nat) (v : AByte (AllocId × PE)) : BasicMem PE AE :=
  { m with allocations := m.allocations.modify id fun a => { a with data := a.data.set i v } }

theorem pokeMem_agree {PE AE : Type} {m : BasicMem PE AE} {id i : Nat} {v : AByte (AllocId × PE)} {p : Int}
    (h : ∀ a ∈ m.allocations[id]?, a.addr + i = p) : MemAgree (· ≠ p) m (pokeMem m id i v) := by
  unfold MemAgree pokeMem
  rw [List.forall₂_iff_get]
  refine ⟨by simp, fun j h1 h2 => ?_⟩
  simp only [List.get_eq_getElem, List.getElem_modify]
  split
  · rename_i hj
    subst hj
    refine ⟨rfl, rfl, rfl, rfl, rfl, by simp [Alloc.size], fun _ k hk => ?_⟩
    have := h _ (List.getElem?_eq_getElem h1)
    refine List.getElem?_set_ne fun hki => hk ?_
    rw [← this, hki]
  · exact ⟨rfl, rfl, rfl, rfl, rfl, rfl, fun _ _ _ => rfl⟩

/-- The machine with another byte in the first global. -/
def poke (s : BMach) (i : Nat) (v : AByte (AllocId × Unit)) : BMach :=
  { s with mem := { s.mem with memory := pokeMem s.mem.memory 0 i v } }

/-- The main thread and a spawned one write different parts of a global. -/
def apartProg : Program where
  functions := [(0, spawnAndWrite 4 u32 (.constant (.int 3) u32)), (1, writer)]
  start := 0
  globals := [(0, ⟨List.replicate 8 (some 0), [], ⟨2⟩⟩)]
  traits := []
  vtables := []

/-- A Boolean version of `Machine.NextLocal`. -/
def nextLocal {M P F : Type} (s : Machine M P F) (i : Nat) : Bool :=
  match s.threads[i]? with
  | some thread => match thread.stack with
    | frame :: _ => match frame.func.blocks.get? frame.nextBlock with
      | some block => match block.statements[frame.nextStmt]? with
        | some stmt => stmt.isLocal
        | none => decide (frame.nextStmt = block.statements.length) && block.terminator.isLocal
      | none => false
    | [] => false
  | none => false

theorem nextLocal_sound {M P F : Type} {s : Machine M P F} {i : Nat} (h : nextLocal s i = true) : s.NextLocal i := by
  unfold nextLocal at h
  split at h
  · rename_i thread h1
    split at h
    · rename_i frame rest h2
      split at h
      · rename_i block h3
        refine ⟨thread, frame, rest, block, h1, h2, h3, ?_⟩
        split at h
        · rename_i stmt h4
          exact .inr ⟨stmt, h4, h⟩
        · simp only [Bool.and_eq_true, decide_eq_true_eq] at h
          exact .inl h
      · cases h
    · cases h
  · cases h

deriving instance DecidableEq for Choice
instance (a b : Access) : Decidable (a.Apart b) := inferInstanceAs (Decidable (_ ∨ _))
instance (as bs : List Access) : Decidable (Independent as bs) :=
  inferInstanceAs (Decidable (∀ a ∈ as, ∀ b ∈ bs, a.ty = .store ∨ b.ty = .store → a.Apart b))
instance (a : Access) (x : Int) : Decidable (a.Covers x) := inferInstanceAs (Decidable (_ ∧ _))

set_option synthInstance.maxSize 1000 in
/-- The hypotheses of `C77_reads` are met: the spawned thread reads its argument and writes the global, whose last byte is
another one in the second machine. -/
example : ∃ (s s' : BMach), Reachable apartProg s ∧ step s = .ok ((), s') ∧
    (∃ x, ReadAt s'.mem.accesses x) ∧ (∃ x, WrittenAt s'.mem.accesses x) ∧ poke s 7 .uninit ≠ s ∧
    (∀ x, ReadAt s'.mem.accesses x → x ≠ 23) ∧ MachineAgree (· ≠ 23) s (poke s 7 .uninit) := by
  obtain ⟨s, s', h1, h2, h3, h4, h5, h6, h7⟩ := exists_step (M := BasicMem Unit Unit) (F := Unit) (prog := apartProg)
    mainRaceRun 2 (fun s s' => (∃ a ∈ s'.mem.accesses, a.ty = .load ∧ a.Covers a.addr) ∧
      (∃ a ∈ s'.mem.accesses, a.ty = .store ∧ a.Covers a.addr) ∧
      (pokeMem s.mem.memory 0 7 .uninit).allocations.map (·.data) ≠ s.mem.memory.allocations.map (·.data) ∧
      (∀ a ∈ s'.mem.accesses, a.ty = .load → ¬ a.Covers 23) ∧
      ∀ a ∈ s.mem.memory.allocations[0]?, a.addr + 7 = 23) (by decide +kernel)
  obtain ⟨a, ha, hal, hac⟩ := h3
  obtain ⟨b, hb, hbl, hbc⟩ := h4
  refine ⟨s, s', h1, h2, ⟨_, a, ha, hal, hac⟩, ⟨_, b, hb, hbl, hbc⟩, fun h => h5 ?_, ?_, rfl, pokeMem_agree h7⟩
  · exact congrArg (fun s : BMach => s.mem.memory.allocations.map (·.data)) h
  · rintro x ⟨c, hc, hcl, hcc⟩ rfl
    exact h6 c hc hcl hcc

/-- The hypotheses of `C77_writes` are met, with a byte that changes. -/
example : ∃ (s s' : BMach), Reachable apartProg s ∧ step s = .ok ((), s') ∧
    s.mem.memory.allocations[0]?.map (·.data) ≠ s'.mem.memory.allocations[0]?.map (·.data) :=
  exists_step (M := BasicMem Unit Unit) (F := Unit) (prog := apartProg) mainRaceRun 2
    (fun s s' => s.mem.memory.allocations[0]?.map (·.data) ≠ s'.mem.memory.allocations[0]?.map (·.data)) (by decide +kernel)

/-- The hypotheses of `C77_race_free` are met: the main thread, which is not synchronised, writes one half of the global after
the other thread wrote the other half, which is different in the second machine. -/
example : ∃ (s s' s'' : BMach), Reachable apartProg s ∧ step s = .ok ((), s') ∧ step s' = .ok ((), s'') ∧
    s''.activeThread ≠ s'.activeThread ∧ s''.activeThread ∉ s'.synchronizedThreads ∧ poke s' 0 .uninit ≠ s' ∧
    MachineAgree (fun x => ¬ ∃ a ∈ s'.mem.accesses, a.ty = .store ∧ a.atomicity = .none ∧ a.Covers x) s' (poke s' 0 .uninit) := by
  obtain ⟨s, hs, h⟩ := reachable_of_observe (M := BasicMem Unit Unit) (F := Unit) (prog := apartProg) (oracle := mainRaceRun)
    (n := 2) (a := true) (f := fun s => do
      let (_, s') ← step s
      let (_, s'') ← step s'
      .ok (decide (s''.activeThread ≠ s'.activeThread ∧ s''.activeThread ∉ s'.synchronizedThreads ∧
        (pokeMem s'.mem.memory 0 0 .uninit).allocations.map (·.data) ≠ s'.mem.memory.allocations.map (·.data) ∧
        (∃ a ∈ s'.mem.accesses, a.ty = .store ∧ a.atomicity = .none ∧ a.Covers 16) ∧
        ∀ a ∈ s'.mem.memory.allocations[0]?, a.addr + ((0 : Nat) : Int) = 16))) (by decide +kernel)
  obtain ⟨⟨_, s'⟩, h1, h⟩ := Res.bind_eq_ok.1 h
  obtain ⟨⟨_, s''⟩, h2, h⟩ := Res.bind_eq_ok.1 h
  injection h with h
  obtain ⟨h3, h4, h5, h6, h7⟩ := of_decide_eq_true h
  refine ⟨s, s', s'', hs, h1, h2, h3, h4, fun h => h5 ?_, rfl, ?_⟩
  · exact congrArg (fun s : BMach => s.mem.memory.allocations.map (·.data)) h
  · refine (pokeMem_agree h7).mono fun x hx hx' => hx ?_
    rw [hx']; exact h6

/-- The hypotheses of `C78_swap` and `C78_race_free_swap` are met, and the steps can be made in the other order. -/
example : ∃ (s s1 s2 : BMach) (rest : List (Choice (AllocId × Unit))), Reachable apartProg s ∧
    s.oracle = .int (1 : Nat) :: .int (0 : Nat) :: rest ∧ step s = .ok ((), s1) ∧ step s1 = .ok ((), s2) ∧
    s.NextLocal 1 ∧ s.NextLocal 0 ∧ Independent s1.mem.accesses s2.mem.accesses ∧
    s1.mem.accesses ≠ [] ∧ s2.mem.accesses ≠ [] ∧ 0 ∉ s1.synchronizedThreads ∧
    (∀ x ∈ s1.mem.accesses, x.atomicity = .none) ∧
    ¬ ∃ x ∈ s2.mem.accesses, ∃ y ∈ s.mem.accesses, x.races y = true := by
  obtain ⟨s, hs, h⟩ := reachable_of_observe (M := BasicMem Unit Unit) (F := Unit) (prog := apartProg) (oracle := mainRaceRun)
    (n := 2) (a := true) (f := fun s => do
      let (_, s1) ← step s
      let (_, s2) ← step s1
      .ok (decide (s.oracle = .int (1 : Nat) :: .int (0 : Nat) :: s.oracle.drop 2 ∧ nextLocal s 1 = true ∧ nextLocal s 0 = true ∧
        Independent s1.mem.accesses s2.mem.accesses ∧ s1.mem.accesses ≠ [] ∧ s2.mem.accesses ≠ [] ∧
        0 ∉ s1.synchronizedThreads ∧ (∀ x ∈ s1.mem.accesses, x.atomicity = .none) ∧
        ¬ ∃ x ∈ s2.mem.accesses, ∃ y ∈ s.mem.accesses, x.races y = true))) (by decide +kernel)
  obtain ⟨⟨_, s1⟩, h1, h⟩ := Res.bind_eq_ok.1 h
  obtain ⟨⟨_, s2⟩, h2, h⟩ := Res.bind_eq_ok.1 h
  injection h with h
  obtain ⟨h3, h4, h5, h6⟩ := of_decide_eq_true h
  exact ⟨s, s1, s2, _, hs, h3, h1, h2, nextLocal_sound h4, nextLocal_sound h5, h6⟩

/-- Passes the address of a local to a thread that writes it, and deallocates the local. -/
def spawnAndFree : Function where
  locals := [(0, unitTy), (1, u32), (2, u32)]
  args := []
  ret := 0
  callingConvention := .c
  blocks := [
    (0, ⟨[.storageLive 1, .storageLive 2], .intrinsic .spawn [fnPtr 1, .addrOf (.local 2) (.raw .none)] (.local 1) (some 1), .regular⟩),
    (1, ⟨[.storageDead 2], .intrinsic .join [.load (.local 1)] (.local 0) (some 2), .regular⟩),
    (2, ⟨[], .intrinsic .exit [] (.local 0) none, .regular⟩)]
  start := 0

def freeProg : Program where
  functions := [(0, spawnAndFree), (1, writer)]
  start := 0
  globals := []
  traits := []
  vtables := []

def freeRun : List (Choice (Nat × Unit)) :=
  [.int 32, .int 48, .int 64, .int 0, .int 80, .int 0, .int 88, .int 0, .int 96, .int 112, .int 1, .int 0, .int 0]

/-- C78 needs that the steps do not deallocate, because the data race detector is not told about deallocation: here a thread
writes a local of the main thread, which the main thread, not synchronised, deallocates in the next step. The accesses are
independent, no race is reported, but in the other order the write is undefined behavior. -/
theorem C78_deallocation_is_not_checked : ∃ (s s1 s2 t : BMach) (rest : List (Choice (AllocId × Unit))), Reachable freeProg s ∧
    s.oracle = .int (1 : Nat) :: .int (0 : Nat) :: rest ∧ step s = .ok ((), s1) ∧ step s1 = .ok ((), s2) ∧
    0 ∉ s1.synchronizedThreads ∧ Independent s1.mem.accesses s2.mem.accesses ∧ (∀ x ∈ s1.mem.accesses, x.atomicity = .none) ∧
    step { s with oracle := .int (0 : Nat) :: .int (1 : Nat) :: rest } = .ok ((), t) ∧ step t = .error .ub := by
  obtain ⟨s, hs, h⟩ := reachable_of_observe (M := BasicMem Unit Unit) (F := Unit) (prog := freeProg) (oracle := freeRun)
    (n := 3) (a := true) (f := fun s => do
      let (_, s1) ← step s
      let (_, s2) ← step s1
      let (_, t) ← step { s with oracle := .int (0 : Nat) :: .int (1 : Nat) :: s.oracle.drop 2 }
      .ok (decide (s.oracle = .int (1 : Nat) :: .int (0 : Nat) :: s.oracle.drop 2 ∧
        0 ∉ s1.synchronizedThreads ∧ Independent s1.mem.accesses s2.mem.accesses ∧
        (∀ x ∈ s1.mem.accesses, x.atomicity = .none) ∧ errOf (step t) = some .ub))) (by decide +kernel)
  obtain ⟨⟨_, s1⟩, h1, h⟩ := Res.bind_eq_ok.1 h
  obtain ⟨⟨_, s2⟩, h2, h⟩ := Res.bind_eq_ok.1 h
  obtain ⟨⟨_, t⟩, h3, h⟩ := Res.bind_eq_ok.1 h
  injection h with h
  obtain ⟨h4, h5, h6, h7, h8⟩ := of_decide_eq_true h
  exact ⟨s, s1, s2, t, _, hs, h4, h1, h2, h5, h6, h7, h3, errOf_eq_some h8⟩

end
end MiniRust
