import Verif.Lemmas.Swap
import Verif.Spec.Races
/-
Reordering the steps of a run.
-/
set_option linter.unusedSectionVars false
namespace MiniRust
section
variable [T : Target]

abbrev PMach := Machine (BasicMem Unit Unit) (AllocId × Unit) Unit

theorem mem_eq_of_wrote {m m1 m2 : ConcMem (BasicMem Unit Unit)} (w1 : Wrote m m1) (w2 : Wrote m m2)
    (l1 : m1.memory.allocations.map (·.live) = m.memory.allocations.map (·.live))
    (l2 : m2.memory.allocations.map (·.live) = m.memory.allocations.map (·.live))
    {C : Int → Prop} (hC : ∀ x, C x) (ha : MemAgree C m1.memory m2.memory) : m2.memory = m1.memory := by
  refine BasicMem.ext_allocations (List.ext_getElem? fun id => ?_)
  have len : ∀ {m n : BasicMem Unit Unit}, m.allocations.map (·.live) = n.allocations.map (·.live) →
      m.allocations.length = n.allocations.length := fun h => by simpa using congrArg List.length h
  cases h0 : m.memory.allocations[id]? with
  | none =>
    have n1 : m.memory.allocations.length ≤ id := List.getElem?_eq_none_iff.1 h0
    rw [List.getElem?_eq_none (by rw [len l2]; exact n1), List.getElem?_eq_none (by rw [len l1]; exact n1)]
  | some a0 =>
    obtain ⟨a1, m1', u1⟩ := w1.allocs id a0 h0
    obtain ⟨a2, m2', u2⟩ := w2.allocs id a0 h0
    change m1.memory.allocations[id]? = _ at m1'
    change m2.memory.allocations[id]? = _ at m2'
    obtain ⟨b, hb, g⟩ := forall₂_get ha m1'
    rw [m2'] at hb; cases hb
    have live : a1.live = a0.live := by
      have := congrArg (fun l => l[id]?) l1
      simpa [List.getElem?_map, m1', h0] using this
    have hd : a2.data = a1.data := by
      cases hl : a0.live with
      | false => rw [(u2.dead hl).2, (u1.dead hl).2]
      | true => exact List.ext_getElem? fun i => g.bytes (by rw [live, hl]) i (hC _)
    rw [m1', m2']
    obtain ⟨d1, x1, y1, z1, w1, _⟩ := a2
    obtain ⟨d2, x2, y2, z2, w2, _⟩ := a1
    have q1 := g.addr
    have q2 := g.align
    have q3 := g.kind
    have q4 := g.live
    simp only at hd q1 q2 q3 q4
    subst hd q1 q2 q3 q4
    rfl

/-- What is known of a step a thread makes on its own. -/
theorem local_own {s s1 : PMach} {a : Nat} {rest} (ho : s.oracle = .int a :: rest)
    (h1 : step s = .ok ((), s1)) (la : s.NextLocal a) :
    s1 = { s with activeThread := a, oracle := rest, mem := s1.mem, threads := s1.threads } ∧
    (∀ i, i ≠ a → s1.threads[i]? = s.threads[i]?) := by
  obtain ⟨a', ta, r1, e1, e2, e3, e4, e5⟩ := step_eq_ok.1 h1
  rw [ho] at e1; cases e1
  obtain ⟨x, hx, hxe⟩ := execLocal (s := s.schedule a rest) la
  rw [hxe _ rfl] at e4
  have oa := (hx (fun _ => True)).own trivial _ _ _ e4
  exact ⟨oa.rest, oa.threads⟩

theorem step_memReach {s s1 : PMach} (hr : ∃ h : MemHistory Unit, MemReach h s.mem.memory) (h1 : step s = .ok ((), s1)) :
    ∃ h : MemHistory Unit, MemReach h s1.mem.memory := by
  obtain ⟨hh, hre⟩ := hr
  obtain ⟨h', hk, _⟩ : HistRel (PE := Unit) Unit { s.mem with accesses := [] } s1.mem := step_memRel (Rm := HistRel (PE := Unit) Unit) h1
  exact ⟨h' ++ hh, hre.append hk⟩

/-- A step a thread makes on its own does not look at the remaining choices. -/
theorem local_withOracle {s s1 : PMach} (hr : ∃ h : MemHistory Unit, MemReach h s.mem.memory) {a : Nat} {rest} (ho : s.oracle = .int a :: rest)
    (h1 : step s = .ok ((), s1)) (la : s.NextLocal a) (r : List (Choice (AllocId × Unit))) :
    step { s with oracle := .int a :: r } = .ok ((), { s1 with oracle := r }) := by
  have h1' := h1
  obtain ⟨a', ta, r1, e1, e2, e3, e4, e5⟩ := step_eq_ok.1 h1
  rw [ho] at e1; cases e1
  obtain ⟨x, hx, hxe⟩ := execLocal (s := s.schedule a rest) la
  rw [hxe _ rfl] at e4
  have oa := (hx (fun _ => True)).own trivial _ _ _ e4
  have wa : Wrote { s.mem with accesses := [] } s1.mem := step_memRel h1'
  have L : Look (fun _ => True) True (s.schedule a rest) (s.schedule a r) := by
    refine ⟨?_, rfl, hr, rfl, rfl, rfl, rfl, rfl, rfl, fun h => absurd trivial h⟩
    exact List.forall₂_same.2 fun _ _ => ⟨rfl, rfl, rfl, rfl, rfl, rfl, fun _ _ _ => rfl⟩
  obtain ⟨t, g1, Lb⟩ := (hx _).sim _ _ _ _ L e4 fun _ _ => trivial
  have ot := (hx (fun _ => True)).own trivial _ _ _ g1
  rw [← hxe _ L.curFrame] at g1
  have st : step { s with oracle := .int a :: r } = .ok ((), t) :=
    step_eq_ok.2 ⟨a, ta, r, rfl, e2, e3, g1, by
      rw [show t.activeThread = s1.activeThread from Lb.active]
      have : t.mem.accesses = s1.mem.accesses := Lb.acc
      unfold ConcMem.checkDataRaces at e5 ⊢
      rw [this]; exact e5⟩
  rw [st]
  have wt : Wrote { s.mem with accesses := [] } t.mem := step_memRel (s := { s with oracle := .int a :: r }) st
  have hm : t.mem.memory = s1.mem.memory :=
    mem_eq_of_wrote wa wt oa.live ot.live (C := fun x => True ∨ WrittenAt s1.mem.accesses x) (fun _ => .inl trivial) Lb.mem
  have hth : t.threads = s1.threads := by
    apply List.ext_getElem?
    intro i
    by_cases ia : i = a
    · subst ia
      have := Lb.thread
      rwa [show s1.activeThread = i by rw [oa.rest]; rfl] at this
    · exact (ot.threads i ia).trans (oa.threads i ia).symm
  have hmem : t.mem = s1.mem := by
    show t.mem = ⟨s1.mem.memory, s1.mem.accesses⟩
    rw [← hm, show s1.mem.accesses = t.mem.accesses from Lb.acc.symm]
  have q1 : t = { s with activeThread := a, oracle := r, mem := t.mem, threads := t.threads } := ot.rest
  have q2 : s1 = { s with activeThread := a, oracle := rest, mem := s1.mem, threads := s1.threads } := oa.rest
  congr 2
  rw [q1, hmem, hth]
  rw [q2]

/-! ### Runs that a machine can make -/

/-- The machine makes these steps if their threads are chosen. -/
def Can (s : PMach) (run : List StepOf) (r : List (Choice (AllocId × Unit))) : Prop :=
  ∃ s', LocalRun { s with oracle := choices (AllocId × Unit) (run.map (·.thread)) ++ r } run s'

/-- Scheduling the threads in some order, the machine stops with undefined behaviour. -/
def Bad (s : PMach) (threads : List Nat) (r : List (Choice (AllocId × Unit))) : Prop :=
  ∃ sched : List Nat, sched.Perm threads ∧ ∃ t, Steps { s with oracle := choices (AllocId × Unit) sched ++ r } t ∧ step t = .error .ub

def Mem (s : PMach) : Prop := ∃ h : MemHistory Unit, MemReach h s.mem.memory

theorem mem_step {s s1 : PMach} {o} (hm : Mem s) (h : step { s with oracle := o } = .ok ((), s1)) : Mem s1 :=
  step_memReach (s := { s with oracle := o }) hm h

theorem own_step {s s1 : PMach} {a : Nat} {rest} (h1 : step { s with oracle := .int (a : Int) :: rest } = .ok ((), s1)) (la : s.NextLocal a) :
    s1 = { s with activeThread := a, oracle := rest, mem := s1.mem, threads := s1.threads } ∧
    (∀ i, i ≠ a → s1.threads[i]? = s.threads[i]?) :=
  local_own (s := { s with oracle := .int (a : Int) :: rest }) rfl h1 la

theorem redo_step {s s1 : PMach} {a : Nat} {rest} (hm : Mem s) (h1 : step { s with oracle := .int (a : Int) :: rest } = .ok ((), s1))
    (la : s.NextLocal a) (r : List (Choice (AllocId × Unit))) :
    step { s with oracle := .int (a : Int) :: r } = .ok ((), { s1 with oracle := r }) :=
  local_withOracle (s := { s with oracle := .int (a : Int) :: rest }) hm rfl h1 la r

theorem Can.cons_iff {s : PMach} {e : StepOf} {run r} : Can s (e :: run) r ↔
    ∃ s1, step { s with oracle := .int (e.thread : Int) :: (choices (AllocId × Unit) (run.map (·.thread)) ++ r) } = .ok ((), s1) ∧
      s.NextLocal e.thread ∧ s1.mem.accesses = e.accesses ∧ Can s1 run r := by
  constructor
  · rintro ⟨s', h⟩
    cases h with
    | cons ho hl hs hr =>
      rename_i s1 a rest
      have ho' := ho
      simp only [choices, List.map_cons, List.cons_append, List.cons.injEq] at ho'
      refine ⟨s1, hs, hl, rfl, ?_⟩
      obtain ⟨g1, g2⟩ := local_own ho hs hl
      refine ⟨s', ?_⟩
      have : ({ s1 with oracle := choices (AllocId × Unit) (run.map (·.thread)) ++ r } : PMach) = s1 := by
        have h2 : s1.oracle = rest := by rw [g1]
        rw [show choices (AllocId × Unit) (run.map (·.thread)) ++ r = s1.oracle by rw [h2]; exact ho'.2]
      rw [this]; exact hr
  · rintro ⟨s1, h1, h2, h3, s', h4⟩
    obtain ⟨t, as⟩ := e
    subst h3
    refine ⟨s', .cons rfl h2 h1 ?_⟩
    obtain ⟨g1, g2⟩ := own_step h1 h2
    have : ({ s1 with oracle := choices (AllocId × Unit) (run.map (·.thread)) ++ r } : PMach) = s1 := by
      rw [show choices (AllocId × Unit) (run.map (·.thread)) ++ r = s1.oracle by rw [g1]]
    rw [← this]; exact h4

theorem Can.rest {run : List StepOf} : ∀ {s : PMach} {r} (_ : Mem s), Can s run r → ∀ r', Can s run r' := by
  induction run with
  | nil => intro s r _ _ r'; exact ⟨_, .nil _⟩
  | cons e run ih =>
    intro s r hm h r'
    rw [Can.cons_iff] at h ⊢
    obtain ⟨s1, h1, h2, h3, h4⟩ := h
    have := local_withOracle (s := { s with oracle := .int (e.thread : Int) :: (choices (AllocId × Unit) (run.map (·.thread)) ++ r) }) hm rfl h1 h2
      (choices (AllocId × Unit) (run.map (·.thread)) ++ r')
    exact ⟨_, this, h2, h3, ih (mem_step hm h1) h4 r'⟩

theorem Bad.perm {s : PMach} {l l' r} (h : Bad s l r) (hp : l.Perm l') : Bad s l' r := by
  obtain ⟨sc, h1, h2⟩ := h
  exact ⟨sc, h1.trans hp, h2⟩

theorem choices_append {P : Type} {l l' : List Nat} : choices P (l ++ l') = choices P l ++ choices P l' := List.map_append

theorem Bad.extend {s : PMach} {l l' r} (h : Bad s l (choices (AllocId × Unit) l' ++ r)) : Bad s (l ++ l') r := by
  obtain ⟨sc, h1, h2⟩ := h
  refine ⟨sc ++ l', h1.append_right _, ?_⟩
  rw [choices_append, List.append_assoc]; exact h2

/-- Undefined behaviour after a step of a thread on its own. -/
theorem Bad.cons {s s1 : PMach} (hm : Mem s) {a : Nat} {rest l r} (h1 : step { s with oracle := .int (a : Int) :: rest } = .ok ((), s1))
    (h2 : s.NextLocal a) (h : Bad s1 l r) : Bad s (a :: l) r := by
  obtain ⟨sc, h3, t, h4, h5⟩ := h
  refine ⟨a :: sc, h3.cons _, t, ?_, h5⟩
  have := local_withOracle (s := { s with oracle := .int (a : Int) :: rest }) hm rfl h1 h2 (choices (AllocId × Unit) sc ++ r)
  exact Steps.trans (.tail (.refl _) this) h4

/-- The state but for the records of the last step. -/
theorem Can.records {s : PMach} {a : Nat} {as run r} (h : Can s run r) :
    Bad { s with activeThread := a, mem := { s.mem with accesses := as } } (run.map (·.thread)) r ∨
    Can { s with activeThread := a, mem := { s.mem with accesses := as } } run r := by
  cases run with
  | nil => exact .inr ⟨_, .nil _⟩
  | cons e run =>
    rw [Can.cons_iff] at h
    obtain ⟨s1, h1, h2, h3, h4⟩ := h
    obtain ⟨i, th, rest, e1, e2, e3, e4, e5⟩ := step_eq_ok.1 h1
    simp only [List.cons.injEq, Choice.int.injEq, Int.natCast_inj] at e1
    obtain ⟨rfl, rfl⟩ := e1
    have hst := step_race (s := { s with activeThread := a, mem := { s.mem with accesses := as },
                                         oracle := .int (e.thread : Int) :: (choices (AllocId × Unit) (run.map (·.thread)) ++ r) }) (s1 := s1) rfl
      (by unfold Machine.threadState; rw [show s.threads[e.thread]? = some th from e2]; exact congrArg some e3) e4
    split at hst
    · left
      exact ⟨_, .refl _, _, .refl _, hst⟩
    · right
      rw [Can.cons_iff]
      exact ⟨s1, hst, h2, h3, h4⟩

theorem Can.swap {s : PMach} (hm : Mem s) {e f : StepOf} {run r} (h : Can s (e :: f :: run) r) (hne : e.thread ≠ f.thread)
    (hi : Independent e.accesses f.accesses) :
    Bad s (e.thread :: f.thread :: run.map (·.thread)) r ∨ Can s (f :: e :: run) r := by
  rw [Can.cons_iff] at h
  obtain ⟨s1, h1, h2, h3, h4⟩ := h
  have hm1 : Mem s1 := mem_step hm h1
  rw [Can.cons_iff] at h4
  obtain ⟨s2, h4, h5, h6, h7⟩ := h4
  have hm2 : Mem s2 := mem_step hm1 h4
  obtain ⟨g1, g2⟩ := own_step h1 h2
  have hs1 : ({ s1 with oracle := .int (f.thread : Int) :: (choices (AllocId × Unit) (run.map (·.thread)) ++ r) } : PMach) = s1 := by
    rw [show Choice.int (f.thread : Int) :: (choices (AllocId × Unit) (run.map (·.thread)) ++ r) = s1.oracle by rw [g1]; rfl]
  rw [hs1] at h4
  have lf : s.NextLocal f.thread := by
    obtain ⟨th, fr, r', bl, k1, k2⟩ := h5
    exact ⟨th, fr, r', bl, (g2 _ (Ne.symm hne)).symm.trans k1, k2⟩
  rcases swap_steps (s := { s with oracle := .int (e.thread : Int) :: .int (f.thread : Int) :: (choices (AllocId × Unit) (run.map (·.thread)) ++ r) })
    (rest := choices (AllocId × Unit) (run.map (·.thread)) ++ r) hm rfl hne h1 h4 h2 lf (by rw [h3, h6]; exact hi) with ⟨h8, _⟩ | ⟨t, h8, h9, h10⟩
  · left
    exact ⟨f.thread :: e.thread :: run.map (·.thread), .swap .., { s with oracle := .int (f.thread : Int) :: .int (e.thread : Int) :: (choices (AllocId × Unit) (run.map (·.thread)) ++ r) }, .refl _, h8⟩
  · have lt : t.NextLocal e.thread := by
      obtain ⟨k1, k2⟩ := own_step h8 lf
      obtain ⟨th, fr, r', bl, q1, q2⟩ := h2
      exact ⟨th, fr, r', bl, (k2 _ hne).trans q1, q2⟩
    have ht : ({ t with oracle := .int (e.thread : Int) :: (choices (AllocId × Unit) (run.map (·.thread)) ++ r) } : PMach) = t := by
      obtain ⟨k1, k2⟩ := own_step h8 lf
      rw [show Choice.int (e.thread : Int) :: (choices (AllocId × Unit) (run.map (·.thread)) ++ r) = t.oracle by rw [k1]]
    rw [← ht] at h10
    have hmt : Mem t := mem_step hm h8
    rcases h7.records (a := e.thread) (as := s1.mem.accesses) with h11 | h11
    · left
      exact ((h11.cons hmt h10 lt).cons hm h8 lf).perm (.swap ..)
    · right
      rw [Can.cons_iff]
      refine ⟨t, h8, lf, h9.trans h6, ?_⟩
      rw [Can.cons_iff]
      exact ⟨_, h10, lt, h3, h11⟩

theorem Can.moveLeft {f : StepOf} {run r} : ∀ {H : List StepOf} {s : PMach} (_ : Mem s), Can s (H ++ f :: run) r →
    (∀ h ∈ H, ¬ h.Dependent f) →
    Bad s ((H ++ f :: run).map (·.thread)) r ∨ Can s (f :: (H ++ run)) r
  | [], s, _, h, _ => .inr h
  | h :: H, s, hm, hc, hd => by
    rw [List.cons_append, Can.cons_iff] at hc
    obtain ⟨s1, h1, h2, h3, h4⟩ := hc
    have hm1 : Mem s1 := mem_step hm h1
    rcases moveLeft hm1 h4 fun x hx => hd x (List.mem_cons_of_mem _ hx) with h5 | h5
    · exact .inl (h5.cons hm h1 h2)
    · have hc : Can s (h :: f :: (H ++ run)) r := by
        rw [Can.cons_iff]
        refine ⟨_, redo_step hm h1 h2 _, h2, h3, h5⟩
      have hd' := hd h (List.mem_cons_self ..)
      unfold StepOf.Dependent at hd'
      push Not at hd'
      rcases hc.swap hm hd'.1 hd'.2 with h6 | h6
      · left
        refine h6.perm ?_
        simp only [List.cons_append, List.map_cons, List.map_append]
        exact .cons _ List.perm_middle.symm
      · exact .inr h6

open Classical in
/-- The steps of a run that depend on the given ones. -/
noncomputable def added : List StepOf → List StepOf → List StepOf
  | _, [] => []
  | H, g :: es => if ∃ h ∈ H, h.Dependent g then g :: added (H ++ [g]) es else added H es

theorem Can.race {e f : StepOf} {r} (hne : e.thread ≠ f.thread) (hrace : ∃ x ∈ f.accesses, ∃ y ∈ e.accesses, x.races y = true) :
    ∀ (es : List StepOf) {s : PMach} {H : List StepOf}, Mem s → f.thread ∉ s.synchronizedThreads →
    Can s (e :: H ++ (es ++ [f])) r → (∀ h ∈ H, ¬ h.Dependent f) → (∀ g ∈ added (e :: H) es, ¬ g.Dependent f) →
    Bad s ((e :: H ++ (es ++ [f])).map (·.thread)) r
  | [], s, H, hm, hs, hc, h1, h2 => by
    rw [List.cons_append, Can.cons_iff] at hc
    obtain ⟨s1, k1, k2, k3, k4⟩ := hc
    have hm1 : Mem s1 := mem_step hm k1
    rcases Can.moveLeft hm1 k4 h1 with h5 | h5
    · exact h5.cons hm k1 k2
    · exfalso
      rw [Can.cons_iff] at h5
      obtain ⟨s2, g1, g2, g3, g4⟩ := h5
      obtain ⟨i, th, rest, e1, e2, e3, e4, e5⟩ := step_eq_ok.1 g1
      simp only [List.cons.injEq, Choice.int.injEq, Int.natCast_inj] at e1
      obtain ⟨rfl, rfl⟩ := e1
      obtain ⟨q1, q2⟩ := own_step k1 k2
      have hst := step_race (s := { s1 with oracle := .int (f.thread : Int) :: (choices (AllocId × Unit) ((H ++ []).map StepOf.thread) ++ r) })
        (s1 := s2) rfl (by unfold Machine.threadState; rw [e2]; exact congrArg some e3) e4
      rw [g1, if_pos] at hst
      · cases hst
      · refine ⟨?_, ?_, ?_⟩
        · rw [q1]; exact Ne.symm hne
        · rw [q1]; exact hs
        · rw [g3]; show ∃ a ∈ f.accesses, ∃ p ∈ s1.mem.accesses, _
          rw [k3]; exact hrace
  | g :: es, s, H, hm, hs, hc, h1, h2 => by
    unfold added at h2
    split at h2
    · have := Can.race hne hrace es (s := s) (H := H ++ [g]) hm hs (by simpa using hc)
        (by
          intro h hh
          rcases List.mem_append.1 hh with hh | hh
          · exact h1 h hh
          · rw [List.mem_singleton] at hh; subst hh; exact h2 _ (List.mem_cons_self ..))
        (fun x hx => h2 x (List.mem_cons_of_mem _ hx))
      simpa using this
    · rename_i hd
      push Not at hd
      have hc' : Can s ((e :: H) ++ g :: (es ++ [f])) r := hc
      rcases hc'.moveLeft hm hd with h5 | h5
      · exact h5
      · rw [Can.cons_iff] at h5
        obtain ⟨s1, k1, k2, k3, k4⟩ := h5
        have hm1 : Mem s1 := mem_step hm k1
        obtain ⟨q1, q2⟩ := own_step k1 k2
        have := Can.race hne hrace es (s := s1) (H := H) hm1 (by rw [q1]; exact hs) k4 h1 h2
        refine (this.cons hm k1 k2).perm ?_
        simp only [List.map_append, List.map_cons]
        exact List.perm_middle.symm

end
end MiniRust
