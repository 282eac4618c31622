import Verif.Lemmas.FootWrite
import Verif.Lemmas.SoftMem
import Verif.Lemmas.Threads3
import Verif.Lemmas.KnownExpr
/-
Two steps of different threads in the other order.
-/
set_option linter.unusedSectionVars false
namespace MiniRust

/-! ### Accesses -/

theorem Independent.symm {as bs : List Access} (h : Independent as bs) : Independent bs as :=
  fun b hb a ha hs => (h a ha b hb hs.symm).symm

theorem Independent.load {as bs : List Access} (h : Independent as bs) {x : Int} (h1 : WrittenAt as x) : ¬ ReadAt bs x := by
  rintro ⟨b, hb, _, h4, h5⟩
  obtain ⟨a, ha, h6, h7, h8⟩ := h1
  rcases h a ha b hb (.inl h6) with h | h <;> omega

theorem Independent.store {as bs : List Access} (h : Independent as bs) {x : Int} (h1 : WrittenAt as x) : ¬ WrittenAt bs x := by
  rintro ⟨b, hb, _, h4, h5⟩
  obtain ⟨a, ha, h6, h7, h8⟩ := h1
  rcases h a ha b hb (.inl h6) with h | h <;> omega

theorem Access.races_imp {a b : Access} (h : a.races b = true) : (a.ty = .store ∨ b.ty = .store) ∧
    (a.atomicity = .none ∨ b.atomicity = .none) ∧ ¬ a.Apart b := by
  unfold Access.races at h
  split at h
  · cases h
  rename_i h1
  split at h
  · cases h
  rename_i h2
  simp only [gt_iff_lt, Bool.and_eq_true, decide_eq_true_eq] at h
  refine ⟨?_, ?_, ?_⟩
  · cases ha : a.ty <;> cases hb : b.ty <;> simp_all
  · cases ha : a.atomicity <;> cases hb : b.atomicity <;> simp_all
  · unfold Access.Apart; omega

theorem raceLoop_ok {ps : List Access} : ∀ {as : List Access}, raceLoop ps as = .ok () ↔ ∀ a ∈ as, ∀ p ∈ ps, a.races p = false
  | [] => by simp [raceLoop]
  | a :: as => by
    unfold raceLoop
    split
    · rename_i h
      refine ⟨fun h => (by cases h), fun h1 => ?_⟩
      obtain ⟨p, hp, h2⟩ := List.any_eq_true.1 h
      rw [h1 a (List.mem_cons_self ..) p hp] at h2; cases h2
    · rename_i h
      rw [raceLoop_ok]
      refine ⟨fun h1 x hx p hp => ?_, fun h1 x hx => h1 x (List.mem_cons_of_mem _ hx)⟩
      rcases List.mem_cons.1 hx with rfl | hx
      · simp only [List.any_eq_true, not_exists, not_and, Bool.not_eq_true] at h
        exact h p hp
      · exact h1 x hx p hp

theorem raceLoop_error {ps : List Access} : ∀ {as : List Access} {e}, raceLoop ps as = .error e →
    e = .ub ∧ ∃ a ∈ as, ∃ p ∈ ps, a.races p = true
  | [], e, h => by cases h
  | a :: as, e, h => by
    unfold raceLoop at h
    split at h
    · rename_i h1
      obtain ⟨p, hp, h2⟩ := List.any_eq_true.1 h1
      cases h
      exact ⟨rfl, a, List.mem_cons_self .., p, hp, h2⟩
    · obtain ⟨h1, x, hx, h2⟩ := raceLoop_error h
      exact ⟨h1, x, List.mem_cons_of_mem _ hx, h2⟩

theorem Independent.noRace {M : Type} {as bs : List Access} (h : Independent as bs) {m : ConcMem M} (hm : m.accesses = bs) {i sy} :
    m.checkDataRaces i sy as = .ok () := by
  unfold ConcMem.checkDataRaces
  split
  · rfl
  · rw [raceLoop_ok, hm]
    intro b hb a ha
    rw [Bool.eq_false_iff]
    intro hr
    obtain ⟨h1, _, h2⟩ := Access.races_imp hr
    exact h2 (h a ha b hb h1.symm).symm

section
variable [T : Target] {M PE AE F : Type} [Memory M (AllocId × PE) F] [K : BasicBacked M PE AE F] [DecidableEq PE]
variable [BM : ByteMem M PE AE F] {s : Machine M (AllocId × PE) F}

theorem execLocal (hn : s.NextLocal s.activeThread) : ∃ x : EM M (AllocId × PE) F Unit, (∀ B, Loc B True x) ∧
    ∀ t : Machine M (AllocId × PE) F, t.curFrame = s.curFrame → execStep t = x t := by
  obtain ⟨th, fr, rest, block, h1, h2, h3, h4⟩ := hn
  have hf : s.curFrame = .ok fr := curFrame_eq_ok.2 ⟨th, rest, h1, h2⟩
  have hb : fr.func.blocks.get fr.nextBlock = .ok block := Map.get_eq_ok.2 h3
  rcases h4 with ⟨h4, h5⟩ | ⟨st, h4, h5⟩
  · refine ⟨evalTerminator block.terminator, fun B => .evalTerminator fun _ => h5, fun t ht => ?_⟩
    unfold execStep
    rw [EM.bind_of_ok (EM.read_of_ok (ht.trans hf)), EM.bind_of_ok (EM.lift_eq_ok.2 ⟨hb, rfl⟩), if_pos h4]
  · refine ⟨evalStatement st >>= fun _ => bumpStmt, fun B => .bind (.evalStatement fun _ => h5) fun _ => .bumpStmt, fun t ht => ?_⟩
    unfold execStep
    have hne : ¬ fr.nextStmt = block.statements.length := by
      have := (List.getElem?_eq_some_iff.1 h4).1; omega
    rw [EM.bind_of_ok (EM.read_of_ok (ht.trans hf)), EM.bind_of_ok (EM.lift_eq_ok.2 ⟨hb, rfl⟩), if_neg hne,
      EM.bind_of_ok (EM.lift_eq_ok.2 ⟨index_eq_ok.2 h4, rfl⟩)]
end

section
variable [T : Target]

theorem BasicMem.ext_allocations {m n : BasicMem Unit Unit} (h : m.allocations = n.allocations) : m = n := by
  cases m; cases n; cases h; rfl

theorem agree_of_wrote {m m' : ConcMem (BasicMem Unit Unit)} (h : Wrote m m')
    (hl : m'.memory.allocations.map (·.live) = m.memory.allocations.map (·.live)) :
    MemAgree (fun x => ¬ WrittenAt m'.accesses x) m'.memory m.memory := by
  have hlen : m'.memory.allocations.length = m.memory.allocations.length := by simpa using congrArg List.length hl
  refine List.forall₂_iff_get.2 ⟨hlen, fun i h1 h2 => ?_⟩
  simp only [List.get_eq_getElem]
  obtain ⟨b, hb, ht⟩ := h.allocs i _ (List.getElem?_eq_getElem h2)
  change m'.memory.allocations[i]? = some b at hb
  rw [List.getElem?_eq_getElem h1] at hb
  injection hb with hb
  rw [hb]
  refine ⟨ht.addr.symm, ht.align.symm, ht.kind.symm, ?_, rfl, ht.size.symm, fun _ j hj => ?_⟩
  · have := congrArg (fun l => l[i]?) hl
    simp only [List.getElem?_map, List.getElem?_eq_getElem h1, List.getElem?_eq_getElem h2, Option.map_some,
      Option.some.injEq] at this
    rw [← hb]; exact this.symm
  · by_contra hne
    exact hj (by rw [ht.addr]; exact ht.bytes j (Ne.symm hne))

theorem MemAgree.symm {C : Int → Prop} {m n : BasicMem Unit Unit} (h : MemAgree C m n) : MemAgree C n m :=
  List.Forall₂.flip (List.Forall₂.imp (fun a b (h : AllocAgree C a b) =>
    (⟨h.addr.symm, h.align.symm, h.kind.symm, h.live.symm, rfl, h.size.symm, fun hl i hi =>
      (h.bytes (by rw [← h.live]; exact hl) i (by rw [← h.addr]; exact hi)).symm⟩ : AllocAgree C b a)) h)

theorem local_oracle {M PE AE F : Type} [Memory M (AllocId × PE) F] [K : BasicBacked M PE AE F] [DecidableEq PE]
    [BM : ByteMem M PE AE F] {s s1 : Machine M (AllocId × PE) F} {a : Nat} {rest} (ho : s.oracle = .int a :: rest)
    (h1 : step s = .ok ((), s1)) (la : s.NextLocal a) : s1.oracle = rest ∧ s1.activeThread = a := by
  obtain ⟨a', ta, r1, e1, e2, e3, e4, e5⟩ := step_eq_ok.1 h1
  rw [ho] at e1; cases e1
  obtain ⟨x, hx, hxe⟩ := execLocal (s := s.schedule a rest) la
  rw [hxe _ rfl] at e4
  have oa := (hx (fun _ => True)).own trivial _ _ _ e4
  rw [oa.rest]
  exact ⟨rfl, rfl⟩

theorem swap_steps {s s1 s2 : Machine (BasicMem Unit Unit) (AllocId × Unit) Unit} (hr : ∃ h : MemHistory Unit, MemReach h s.mem.memory) {a b : Nat} {rest}
    (ho : s.oracle = .int a :: .int b :: rest) (hab : a ≠ b) (h1 : step s = .ok ((), s1)) (h2 : step s1 = .ok ((), s2))
    (la : s.NextLocal a) (lb : s.NextLocal b) (hi : Independent s1.mem.accesses s2.mem.accesses) :
    (step { s with oracle := .int b :: .int a :: rest } = .error .ub ∧
      ∃ x ∈ s2.mem.accesses, ∃ y ∈ s.mem.accesses, x.races y = true) ∨
    ∃ t, step { s with oracle := .int b :: .int a :: rest } = .ok ((), t) ∧ t.mem.accesses = s2.mem.accesses ∧
      step t = .ok ((), { s2 with activeThread := a, mem := { s2.mem with accesses := s1.mem.accesses } }) := by
  obtain ⟨a', ta, r1, e1, e2, e3, e4, e5⟩ := step_eq_ok.1 h1
  rw [ho] at e1; cases e1
  obtain ⟨x, hx, hxe⟩ := execLocal (s := s.schedule a (.int b :: rest)) la
  rw [hxe _ rfl] at e4
  have oa := (hx (fun _ => True)).own trivial _ _ _ e4
  have wa : Wrote { s.mem with accesses := [] } s1.mem := step_memRel h1
  obtain ⟨b', tb, r2, f1, f2, f3, f4, f5⟩ := step_eq_ok.1 h2
  have hos1 : s1.oracle = .int b :: rest := by rw [oa.rest]; rfl
  rw [hos1] at f1; cases f1
  have tbs : s1.threads[b]? = s.threads[b]? := oa.threads b (Ne.symm hab)
  have lb1 : s1.NextLocal b := by
    obtain ⟨th, fr, r, bl, g1, g2⟩ := lb
    exact ⟨th, fr, r, bl, tbs.trans g1, g2⟩
  obtain ⟨y, hy, hye⟩ := execLocal (s := s1.schedule b rest) lb1
  rw [hye _ rfl] at f4
  have ob := (hy (fun _ => True)).own trivial _ _ _ f4
  have wb : Wrote { s1.mem with accesses := [] } s2.mem := step_memRel h2
  -- the step of `b` from `s`
  have La : Look (fun x => ¬ WrittenAt s1.mem.accesses x) True (s1.schedule b rest) (s.schedule b (.int a :: rest)) := by
    have hm := agree_of_wrote wa oa.live
    refine ⟨hm.mono ?_, rfl, ?_, ?_, ?_, ?_, ?_, rfl, tbs.symm, fun h => absurd trivial h⟩
    · rintro x (h | ⟨_, h, _⟩)
      · exact h
      · cases h
    · obtain ⟨hh, hre⟩ := hr
      obtain ⟨h', hk, _⟩ : HistRel (PE := Unit) Unit { s.mem with accesses := [] } s1.mem := step_memRel (Rm := HistRel (PE := Unit) Unit) h1
      exact ⟨h' ++ hh, hre.append hk⟩
    · show s.prog = s1.prog; rw [oa.rest]; rfl
    · show s.globalPtrs = s1.globalPtrs; rw [oa.rest]; rfl
    · show s.fnPtrs = s1.fnPtrs; rw [oa.rest]; rfl
    · show s.vtablePtrs = s1.vtablePtrs; rw [oa.rest]; rfl
  obtain ⟨t, g1, Lb⟩ := (hy _).sim _ _ _ _ La f4 fun z hz hst => hi.load hst hz
  have ot := (hy (fun _ => True)).own trivial _ _ _ g1
  rw [← hye _ La.curFrame] at g1
  have ho' : ({ s with oracle := .int b :: .int a :: rest } : Machine (BasicMem Unit Unit) (AllocId × Unit) Unit).oracle = .int b :: .int a :: rest := rfl
  have htb : s.threads[b]? = some tb := tbs ▸ f2
  have tacc : t.mem.accesses = s2.mem.accesses := Lb.acc
  have tact : t.activeThread = b := by rw [ot.rest]; rfl
  have hst := step_race (s := { s with oracle := .int b :: .int a :: rest }) (s1 := t) ho'
    (by unfold Machine.threadState; rw [htb]; exact congrArg some f3) g1
  by_cases hrace : b ≠ s.activeThread ∧ b ∉ s.synchronizedThreads ∧ ∃ a ∈ t.mem.accesses, ∃ p ∈ s.mem.accesses, a.races p = true
  · rw [if_pos hrace] at hst
    exact .inl ⟨hst, tacc ▸ hrace.2.2⟩
  right
  have st : step { s with oracle := .int b :: .int a :: rest } = .ok ((), t) := by rw [hst, if_neg hrace]
  refine ⟨t, st, tacc, ?_⟩
  have wt : Wrote { s.mem with accesses := [] } t.mem := step_memRel (s := { s with oracle := .int b :: .int a :: rest }) st
  -- the step of `a` from `t`
  have tas : t.threads[a]? = s.threads[a]? := ot.threads a hab
  have Lc : Look (fun x => ¬ WrittenAt t.mem.accesses x) True (s.schedule a (.int b :: rest)) (t.schedule a rest) := by
    have hm := (agree_of_wrote wt ot.live).symm
    refine ⟨hm.mono ?_, rfl, hr, ?_, ?_, ?_, ?_, rfl, tas, fun h => absurd trivial h⟩
    · rintro x (h | ⟨_, h, _⟩)
      · exact h
      · cases h
    · show t.prog = s.prog; rw [ot.rest]; rfl
    · show t.globalPtrs = s.globalPtrs; rw [ot.rest]; rfl
    · show t.fnPtrs = s.fnPtrs; rw [ot.rest]; rfl
    · show t.vtablePtrs = s.vtablePtrs; rw [ot.rest]; rfl
  obtain ⟨t2, k1, Ld⟩ := (hx _).sim _ _ _ _ Lc e4 fun z hz hst => hi.symm.load (tacc ▸ hst) hz
  have ot2 := (hx (fun _ => True)).own trivial _ _ _ k1
  rw [← hxe _ Lc.curFrame] at k1
  have t2acc : t2.mem.accesses = s1.mem.accesses := Ld.acc
  have t2o : t.oracle = .int a :: rest := by rw [ot.rest]; rfl
  have st2 : step t = .ok ((), t2) :=
    step_eq_ok.2 ⟨a, ta, rest, t2o, tas.trans e2, e3, k1, by rw [tacc]; exact hi.symm.noRace t2acc⟩
  rw [st2]
  have wt2 : Wrote { t.mem with accesses := [] } t2.mem := step_memRel st2
  -- the results
  have hmem : t2.mem.memory = s2.mem.memory := by
    refine BasicMem.ext_allocations (List.ext_getElem? fun id => ?_)
    have l1 : s1.mem.memory.allocations.map (·.live) = s.mem.memory.allocations.map (·.live) := oa.live
    have l2 : s2.mem.memory.allocations.map (·.live) = s1.mem.memory.allocations.map (·.live) := ob.live
    have l3 : t.mem.memory.allocations.map (·.live) = s.mem.memory.allocations.map (·.live) := ot.live
    have l4 : t2.mem.memory.allocations.map (·.live) = t.mem.memory.allocations.map (·.live) := ot2.live
    have len : ∀ {m n : BasicMem Unit Unit}, m.allocations.map (·.live) = n.allocations.map (·.live) →
        m.allocations.length = n.allocations.length := fun h => by simpa using congrArg List.length h
    cases ha : s.mem.memory.allocations[id]? with
    | none =>
      have n1 : s.mem.memory.allocations.length ≤ id := List.getElem?_eq_none_iff.1 ha
      rw [List.getElem?_eq_none (by rw [len l4, len l3]; exact n1), List.getElem?_eq_none (by rw [len l2, len l1]; exact n1)]
    | some a0 =>
      obtain ⟨a1, m1, u1⟩ := wa.allocs id a0 ha
      obtain ⟨a2, m2, u2⟩ := wb.allocs id a1 m1
      obtain ⟨b1, m3, u3⟩ := wt.allocs id a0 ha
      obtain ⟨b2, m4, u4⟩ := wt2.allocs id b1 m3
      change s1.mem.memory.allocations[id]? = _ at m1
      change s2.mem.memory.allocations[id]? = _ at m2
      change t.mem.memory.allocations[id]? = _ at m3
      change t2.mem.memory.allocations[id]? = _ at m4
      have live : ∀ {m n : BasicMem Unit Unit} {x y}, m.allocations.map (·.live) = n.allocations.map (·.live) →
          m.allocations[id]? = some x → n.allocations[id]? = some y → x.live = y.live := by
        intro m n x y h hx hy
        have := congrArg (fun l => l[id]?) h
        simpa [List.getElem?_map, hx, hy] using this
      have v1 := live l1 m1 ha
      have v2 := live l2 m2 m1
      have v3 := live l3 m3 ha
      have v4 := live l4 m4 m3
      have g1 : AllocAgree (fun x => (¬ WrittenAt s1.mem.accesses x) ∨ WrittenAt s2.mem.accesses x) a2 b1 := by
        obtain ⟨b, hb, h⟩ := forall₂_get Lb.mem m2
        rw [show (BasicBacked.mem t.mem.memory : BasicMem Unit Unit).allocations[id]? = some b1 from m3] at hb
        cases hb; exact h
      have g2 : AllocAgree (fun x => (¬ WrittenAt t.mem.accesses x) ∨ WrittenAt s1.mem.accesses x) a1 b2 := by
        obtain ⟨b, hb, h⟩ := forall₂_get Ld.mem m1
        rw [show (BasicBacked.mem t2.mem.memory : BasicMem Unit Unit).allocations[id]? = some b2 from m4] at hb
        cases hb; exact h
      have hd : b2.data = a2.data := by
        cases hl : a0.live with
        | false =>
          rw [(u4.dead (by rw [v3, hl])).2, (u3.dead hl).2, (u2.dead (by rw [v1, hl])).2, (u1.dead hl).2]
        | true =>
          apply List.ext_getElem?
          intro i
          by_cases hs : WrittenAt s2.mem.accesses (a0.addr + i)
          · have h3 : b2.data[i]? = b1.data[i]? := by
              by_contra hne
              have := u4.bytes i hne
              rw [u3.addr, t2acc] at this
              exact hi.symm.store hs this
            rw [h3, g1.bytes (by rw [v2, v1, hl]) i (.inr (by rw [u2.addr, u1.addr]; exact hs))]
          · have h3 : a2.data[i]? = a1.data[i]? := by
              by_contra hne
              have := u2.bytes i hne
              rw [u1.addr] at this
              exact hs this
            rw [h3, g2.bytes (by rw [v1, hl]) i (.inl (by rw [u1.addr, tacc]; exact hs))]
      rw [m4, m2]
      obtain ⟨d1, x1, y1, z1, w1, _⟩ := b2
      obtain ⟨d2, x2, y2, z2, w2, _⟩ := a2
      have q1 := u4.addr.trans (u3.addr.trans (u2.addr.trans u1.addr).symm)
      have q2 := u4.align.trans (u3.align.trans (u2.align.trans u1.align).symm)
      have q3 := u4.kind.trans (u3.kind.trans (u2.kind.trans u1.kind).symm)
      have q4 := v4.trans (v3.trans (v2.trans v1).symm)
      simp only at hd q1 q2 q3 q4
      subst hd q1 q2 q3 q4
      rfl
  have hth : t2.threads = s2.threads := by
    apply List.ext_getElem?
    intro i
    by_cases ia : i = a
    · subst ia
      have h3 : s2.threads[i]? = s1.threads[i]? := ob.threads i hab
      have h4 : t2.threads[i]? = s1.threads[i]? := by
        have := Ld.thread
        rwa [show s1.activeThread = i by rw [oa.rest]; rfl] at this
      rw [h3, h4]
    · have h3 : t2.threads[i]? = t.threads[i]? := ot2.threads i ia
      by_cases ib : i = b
      · subst ib
        have := Lb.thread
        rw [show s2.activeThread = i by rw [ob.rest]; rfl] at this
        rw [h3, this]
      · have h4 : t.threads[i]? = s.threads[i]? := ot.threads i ib
        have h5 : s2.threads[i]? = s1.threads[i]? := ob.threads i ib
        have h6 : s1.threads[i]? = s.threads[i]? := oa.threads i ia
        rw [h3, h4, h5, h6]
  have q1 : t2 = { s with activeThread := a, oracle := rest, mem := t2.mem, threads := t2.threads } := by
    refine ot2.rest.trans ?_
    rw [ot.rest]; rfl
  have q2 : s2 = { s with activeThread := b, oracle := rest, mem := s2.mem, threads := s2.threads } := by
    refine ob.rest.trans ?_
    rw [oa.rest]; rfl
  have hm : t2.mem = { s2.mem with accesses := s1.mem.accesses } := by
    show t2.mem = ⟨s2.mem.memory, s1.mem.accesses⟩
    rw [← hmem, ← t2acc]
  congr 2
  rw [q1, hm, hth]
  rw [q2]
end
end MiniRust
