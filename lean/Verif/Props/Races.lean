import Verif.Lemmas.Races
import Verif.Props.Threads
import Verif.Props.Footprint
import Verif.Props.Choices
/-
C83: a data race in an execution is reported under some schedule.
-/
namespace MiniRust
section
variable [T : Target]

theorem LocalRun.split {run1 run2 : List StepOf} : ∀ {s s' : PMach}, LocalRun s (run1 ++ run2) s' → ∃ s1, LocalRun s run1 s1 ∧ LocalRun s1 run2 s' := by
  induction run1 with
  | nil => intro s s' h; exact ⟨s, .nil _, h⟩
  | cons e run1 ih =>
    intro s s' h
    cases h with
    | cons ho hl hs hr =>
      obtain ⟨s1, h1, h2⟩ := ih hr
      exact ⟨s1, .cons ho hl hs h1, h2⟩

theorem LocalRun.oracle {run : List StepOf} : ∀ {s s' : PMach}, LocalRun s run s' →
    s.oracle = choices (AllocId × Unit) (run.map (·.thread)) ++ s'.oracle := by
  induction run with
  | nil => intro s s' h; cases h; rfl
  | cons e run ih =>
    intro s s' h
    cases h with
    | cons ho hl hs hr =>
      rw [ho, ← (local_oracle ho hs hl).1, ih hr]; rfl

theorem LocalRun.mem {run : List StepOf} : ∀ {s s' : PMach}, LocalRun s run s' → Mem s → Mem s' := by
  induction run with
  | nil => intro s s' h hm; cases h; exact hm
  | cons e run ih =>
    intro s s' h hm
    cases h with
    | cons ho hl hs hr => exact ih hr (step_memReach hm hs)

theorem LocalRun.sync {run : List StepOf} : ∀ {s s' : PMach}, LocalRun s run s' → s'.synchronizedThreads = s.synchronizedThreads := by
  induction run with
  | nil => intro s s' h; cases h; rfl
  | cons e run ih =>
    intro s s' h
    cases h with
    | cons ho hl hs hr => rw [ih hr, (local_own ho hs hl).1]

theorem LocalRun.can {s s' : PMach} {run} (h : LocalRun s run s') : Can s run s'.oracle := by
  refine ⟨s', ?_⟩
  rw [← h.oracle]; exact h

theorem LocalRun.bad {run : List StepOf} : ∀ {s s' : PMach} {l r}, LocalRun s run s' → Mem s → Bad s' l r → Bad s (run.map (·.thread) ++ l) r := by
  induction run with
  | nil => intro s s' l r h hm hb; cases h; exact hb
  | cons e run ih =>
    intro s s' l r h hm hb
    cases h with
    | cons ho hl hs hr =>
      rename_i s1 a rest
      have : step { s with oracle := .int (a : Int) :: rest } = .ok ((), s1) := by rw [← ho]; exact hs
      exact (ih hr (step_memReach hm hs) hb).cons hm this hl

theorem added_before {run : List StepOf} {i : Nat} : ∀ {es H : List StepOf} {n : Nat},
    (∀ h ∈ H, ∃ k, k < n ∧ run[k]? = some h ∧ (k = i ∨ Before run i k)) → (∀ m, m < es.length → run[n + m]? = es[m]?) →
    i < n → ∀ g ∈ added H es, ∃ k, n ≤ k ∧ k < n + es.length ∧ run[k]? = some g ∧ Before run i k
  | [], H, n, _, _, _, g, hg => by simp [added] at hg
  | e :: es, H, n, h1, h2, hn, g, hg => by
    have he : run[n]? = some e := by have := h2 0 (by simp); simpa using this
    have h2' : ∀ m, m < es.length → run[n + 1 + m]? = es[m]? := fun m hm => by
      have := h2 (m + 1) (by simp; omega)
      rw [show n + 1 + m = n + (m + 1) by omega, this]; simp
    unfold added at hg
    split at hg
    · rename_i hd
      obtain ⟨h, hh, hdep⟩ := hd
      obtain ⟨k, k1, k2, k3⟩ := h1 h hh
      have hb : Before run i n := by
        rcases k3 with rfl | k3
        · exact .dep k1 k2 he hdep
        · exact .trans k3 (.dep k1 k2 he hdep)
      rcases List.mem_cons.1 hg with rfl | hg
      · exact ⟨n, Nat.le_refl _, by simp, he, hb⟩
      · obtain ⟨k', q1, q2, q3⟩ := added_before (n := n + 1) (H := H ++ [e]) (fun h' hh' => by
          rcases List.mem_append.1 hh' with hh' | hh'
          · obtain ⟨k, p1, p2⟩ := h1 h' hh'
            exact ⟨k, by omega, p2⟩
          · rw [List.mem_singleton] at hh'; subst hh'
            exact ⟨n, by omega, he, .inr hb⟩) h2' (by omega) g hg
        exact ⟨k', by omega, by simp; omega, q3⟩
    · obtain ⟨k', q1, q2, q3⟩ := added_before (n := n + 1) (H := H) (fun h' hh' => by
          obtain ⟨k, p1, p2⟩ := h1 h' hh'
          exact ⟨k, by omega, p2⟩) h2' (by omega) g hg
      exact ⟨k', by omega, by simp; omega, q3⟩

/-- C83: consider steps that threads make on their own (neither allocating nor deallocating, and not using threads, locks, output
or exposed provenance), after any execution. If two of them by different threads make conflicting accesses, no step between them
has to come after the first one and before the second one, and the thread of the second one was not synchronised, then
scheduling the same threads in some order is an execution of the program that ends with undefined behaviour. (Missing: threads that were synchronised once,
of which the code never reports a race, `C22_race_missed`; and steps that are not of this kind.) -/
theorem C83_race_found_partial {prog : Program} {s s' : Machine (BasicMem Unit Unit) (AllocId × Unit) Unit} (hr : Reachable prog s)
    {run : List StepOf} (hrun : LocalRun s run s') {i j : Nat} {e f : StepOf} (hij : i < j) (hi : run[i]? = some e) (hj : run[j]? = some f)
    (hne : e.thread ≠ f.thread) (hc : ∃ x ∈ e.accesses, ∃ y ∈ f.accesses, x.Conflict y)
    (hb : ∀ k, ¬ (Before run i k ∧ Before run k j)) (hs : f.thread ∉ s.synchronizedThreads) :
    ∃ order : List Nat, order.Perm (run.map (·.thread)) ∧
      ∃ t, Reachable prog t ∧ Steps { s with oracle := choices (AllocId × Unit) order ++ s'.oracle } t ∧ step t = .error .ub := by
  suffices h : Bad s (run.map (·.thread)) s'.oracle by
    obtain ⟨order, h1, t, h2, h3⟩ := h
    obtain ⟨o, s0, h4, h5⟩ := C84_reachable hr (choices (AllocId × Unit) order ++ s'.oracle)
    exact ⟨order, h1, t, ⟨o, s0, h4, h5.trans h2⟩, h2, h3⟩
  obtain ⟨hi', rfl⟩ := List.getElem?_eq_some_iff.1 hi
  obtain ⟨hj', rfl⟩ := List.getElem?_eq_some_iff.1 hj
  have e1 : run = run.take i ++ (run[i] :: ((run.drop (i + 1)).take (j - (i + 1)) ++ [run[j]]) ++ run.drop (j + 1)) := by
    have h1 : run.drop i = run[i] :: run.drop (i + 1) := List.drop_eq_getElem_cons hi'
    have h2 : run.drop (i + 1) = (run.drop (i + 1)).take (j - (i + 1)) ++ run.drop j := by
      conv_lhs => rw [← List.take_append_drop (j - (i + 1)) (run.drop (i + 1))]
      rw [List.drop_drop, show i + 1 + (j - (i + 1)) = j by omega]
    have h3 : run.drop j = run[j] :: run.drop (j + 1) := List.drop_eq_getElem_cons hj'
    conv_lhs => rw [← List.take_append_drop i run, h1, h2, h3]
    simp
  have hrun' := hrun
  rw [e1] at hrun'
  obtain ⟨s1, r1, r2⟩ := hrun'.split
  obtain ⟨s2, r3, r4⟩ := r2.split
  have hm : Mem s := hr.memReach
  have hm1 := r1.mem hm
  have key := Can.race (e := run[i]) (f := run[j]) (r := s2.oracle) hne (by
      obtain ⟨x, hx, y, hy, h⟩ := hc
      refine ⟨y, hy, x, hx, C22_conflict_races y x ⟨h.1.symm, h.2.1.symm, ?_⟩⟩
      obtain ⟨z, h1, h2⟩ := h.2.2
      exact ⟨z, h2, h1⟩) ((run.drop (i + 1)).take (j - (i + 1))) (s := s1) (H := []) hm1 (by rw [r1.sync]; exact hs)
    (by simpa using r3.can) (by simp) (by
      intro g hg hd
      have hl : ((run.drop (i + 1)).take (j - (i + 1))).length = j - (i + 1) := by simp; omega
      obtain ⟨k, k1, k2, k3, k4⟩ := added_before (run := run) (i := i) (n := i + 1) (H := [run[i]])
        (fun h hh => by
          rw [List.mem_singleton] at hh; subst hh
          exact ⟨i, by omega, hi, .inl rfl⟩)
        (fun m hm => by
          rw [hl] at hm
          rw [List.getElem?_take, if_pos hm, List.getElem?_drop])
        (by omega) g hg
      rw [hl] at k2
      exact hb k ⟨k4, .dep (by omega) k3 hj hd⟩)
  have := r1.bad hm ((r4.oracle ▸ key : Bad s1 _ (choices (AllocId × Unit) _ ++ s'.oracle)).extend)
  refine this.perm (List.Perm.of_eq ?_)
  conv_rhs => rw [e1]
  simp only [List.map_append, List.map_cons, List.append_assoc, List.cons_append, List.nil_append]; rfl

end

/-! ### A concrete case -/

section
attribute [local instance] x86_64
open Ex

/-- Spawns a thread writing a global, jumps, and writes the global. -/
def spawnJumpWrite : Function where
  locals := [(0, unitTy), (1, u32)]
  args := []
  ret := 0
  callingConvention := .c
  blocks := [
    (0, ⟨[.storageLive 1], .intrinsic .spawn [fnPtr 1, global 0] (.local 1) (some 1), .regular⟩),
    (1, ⟨[], .goto 2, .regular⟩),
    (2, ⟨[.assign (.deref (global 0) u32) (.constant (.int 3) u32)], .intrinsic .join [.load (.local 1)] (.local 0) (some 3), .regular⟩),
    (3, ⟨[], .intrinsic .exit [] (.local 0) none, .regular⟩)]
  start := 0

def jumpProg : Program where
  functions := [(0, spawnJumpWrite), (1, writer)]
  start := 0
  globals := [(0, ⟨List.replicate 4 (some 0), [], ⟨2⟩⟩)]
  traits := []
  vtables := []

/-- The spawned thread writes, then the main thread jumps and writes. -/
def jumpRun : List (Choice (Nat × Unit)) :=
  [.int 16, .int 32, .int 48, .int 64, .int 0, .int 80, .int 0, .int 96, .int 112, .int 1, .int 0, .int 0]

theorem Before.lt {run : List StepOf} {i j : Nat} (h : Before run i j) : i < j := by
  induction h with
  | dep h => exact h
  | trans _ _ h1 h2 => omega

instance (e f : StepOf) : Decidable (e.Dependent f) := inferInstanceAs (Decidable (_ ∨ _))

/-- The hypotheses of `C83_race_found_partial` are met: the run does not stop with undefined behaviour, as the main thread
makes another step between the conflicting ones. -/
example : ∃ (s s' : BMach) (e g f : StepOf), Reachable jumpProg s ∧ LocalRun s [e, g, f] s' ∧
    e.thread ≠ f.thread ∧ (∃ x ∈ e.accesses, ∃ y ∈ f.accesses, x.Conflict y) ∧
    (∀ k, ¬ (Before [e, g, f] 0 k ∧ Before [e, g, f] k 2)) ∧ f.thread ∉ s.synchronizedThreads := by
  obtain ⟨s, hs, h⟩ := reachable_of_observe (M := BasicMem Unit Unit) (F := Unit) (prog := jumpProg) (oracle := jumpRun)
    (n := 2) (a := true) (f := fun s => do
      let (_, s1) ← step s
      let (_, s2) ← step s1
      let (_, s3) ← step s2
      .ok (decide (s.oracle = .int (1 : Nat) :: s.oracle.drop 1 ∧ s1.oracle = .int (0 : Nat) :: s1.oracle.drop 1 ∧
        s2.oracle = .int (0 : Nat) :: s2.oracle.drop 1 ∧ nextLocal s 1 = true ∧ nextLocal s1 0 = true ∧ nextLocal s2 0 = true ∧
        (∃ x ∈ s1.mem.accesses, ∃ y ∈ s3.mem.accesses, x.Conflict y) ∧
        ¬ (⟨1, s1.mem.accesses⟩ : StepOf).Dependent ⟨0, s2.mem.accesses⟩ ∧ 0 ∉ s.synchronizedThreads))) (by decide +kernel)
  obtain ⟨⟨_, s1⟩, h1, h⟩ := Res.bind_eq_ok.1 h
  obtain ⟨⟨_, s2⟩, h2, h⟩ := Res.bind_eq_ok.1 h
  obtain ⟨⟨_, s3⟩, h3, h⟩ := Res.bind_eq_ok.1 h
  injection h with h
  obtain ⟨o1, o2, o3, l1, l2, l3, hc, hd, hs'⟩ := of_decide_eq_true h
  refine ⟨s, s3, ⟨1, s1.mem.accesses⟩, ⟨0, s2.mem.accesses⟩, ⟨0, s3.mem.accesses⟩, hs,
    .cons o1 (nextLocal_sound l1) h1 (.cons o2 (nextLocal_sound l2) h2 (.cons o3 (nextLocal_sound l3) h3 (.nil _))), Nat.one_ne_zero, hc, ?_, hs'⟩
  rintro k ⟨k1, k2⟩
  have := k1.lt
  have := k2.lt
  obtain rfl : k = 1 := by omega
  cases k1 with
  | dep _ hi hj h => cases hi; cases hj; exact hd h
  | trans k3 k4 => have := k3.lt; have := k4.lt; omega
end
end MiniRust
