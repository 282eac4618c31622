import Verif.Lemmas.Frames
/-
Positions and pending unwind payloads of the threads of reachable states, for programs whose functions
start at a regular block.
-/
set_option linter.unusedSectionVars false
namespace MiniRust
section
variable {M PE AE F : Type} [T : Target] [DecidableEq PE] [Memory M (AllocId × PE) F] [hm : SoftMem M (AllocId × PE) F]
  [B : BasicBacked M PE AE F]
variable {s s' : Machine M (AllocId × PE) F} {prog : Program}

/-- How many payloads are pending for a frame that executes a block of this kind. -/
def BbKind.Pending : BbKind → Nat → Prop
  | .regular, k => k = 0
  | .cleanup, k => k = 1
  | .catch, k => k = 1
  | .terminate, k => 2 ≤ k

/-- Each frame is inside one of the blocks of its function, and the payloads are those of its frames. -/
def Pends : List (StackFrame (AllocId × PE) F) → Nat → Prop
  | [], n => n = 0
  | f :: rest, n => ∃ blk k m, f.func.blocks.get? f.nextBlock = some blk ∧ f.nextStmt ≤ blk.statements.length ∧
      blk.kind.Pending k ∧ Pends rest m ∧ n = k + m

variable {t t' : Thread (AllocId × PE) F} {f : StackFrame (AllocId × PE) F} {rest : List (StackFrame (AllocId × PE) F)} {blk : BasicBlock}
  {new : List (Thread (AllocId × PE) F)}

theorem BbKind.UnwindTo.pending {k k' : BbKind} {n : Nat} (h : k.UnwindTo k') (hn : k.Pending n) : k'.Pending (n + 1) := by
  cases k <;> cases k' <;> simp_all [BbKind.UnwindTo, BbKind.Pending]
  omega

/-- The target of a terminator of a well-formed function. -/
theorem Terminator.Jumps.kind {P : Type} {func : Function} {term : Terminator} {kind : BbKind} {b} {pl pl' : List (ThinPtr P)} (h : term.Jumps b pl pl')
    (hw : term.checkWf prog func kind = .ok ()) : ∃ blk, func.blocks.get? b = some blk ∧
      ((blk.kind = kind ∧ pl' = pl) ∨ (kind = .regular ∧ kind.UnwindTo blk.kind ∧ ∃ x, pl' = x :: pl) ∨
        (kind = .catch ∧ blk.kind = .regular ∧ ∃ x, pl = x :: pl')) := by
  cases term with
  | goto b' =>
    obtain ⟨rfl, h⟩ := h
    simp only [Terminator.checkWf] at hw
    obtain ⟨blk, h1, h2⟩ := Function.checkNextBlock_eq_ok.1 hw
    exact ⟨blk, h1, .inl ⟨h2, h⟩⟩
  | switch v cs fb =>
    obtain ⟨hb, h⟩ := h
    simp only [Terminator.checkWf, Res.bind_eq_ok] at hw
    obtain ⟨ty, _, hw⟩ := hw
    cases ty with
    | int ity =>
      simp only [Res.bind_eq_ok] at hw
      obtain ⟨⟨⟩, hw1, hw2⟩ := hw
      have : func.checkNextBlock kind b = .ok () := by
        rcases hb with rfl | hb
        · exact hw2
        · obtain ⟨c, hc⟩ := hb
          exact (checkSwitchCases_mem hw1 (Map.get?_mem hc)).2
      obtain ⟨blk, h1, h2⟩ := Function.checkNextBlock_eq_ok.1 this
      exact ⟨blk, h1, .inl ⟨h2, h⟩⟩
    | _ => cases hw
  | startUnwind v b' =>
    obtain ⟨rfl, h⟩ := h
    simp only [Terminator.checkWf, Res.bind_eq_ok, ensureWf_eq_ok, beq_iff_eq] at hw
    obtain ⟨_, _, _, _, _, hk, hw⟩ := hw
    obtain ⟨blk, h1, h2⟩ := Function.checkUnwindBlock_eq_ok.1 hw
    exact ⟨blk, h1, .inr (.inl ⟨hk, h2, h⟩)⟩
  | stopUnwind b' =>
    obtain ⟨rfl, h⟩ := h
    simp only [Terminator.checkWf, Res.bind_eq_ok, ensureWf_eq_ok, beq_iff_eq] at hw
    obtain ⟨_, hk, hw⟩ := hw
    obtain ⟨blk, h1, h2⟩ := Function.checkNextBlock_eq_ok.1 hw
    exact ⟨blk, h1, .inr (.inr ⟨hk, h2, h⟩)⟩
  | intrinsic op as r n =>
    obtain ⟨rfl, h⟩ := h
    simp only [Terminator.checkWf, Res.bind_eq_ok] at hw
    obtain ⟨_, _, _, _, _, _, _, _, _, _, hw⟩ := hw
    obtain ⟨blk, h1, h2⟩ := Function.checkNextBlock_eq_ok.1 hw
    exact ⟨blk, h1, .inl ⟨h2, h⟩⟩
  | _ => exact h.elim

theorem FreshFrame.pends {fn : Function} {name act} {g : StackFrame (AllocId × PE) F} (hst : prog.StartsOk) (hn : prog.functions.get? name = some fn)
    (h : FreshFrame fn act g) : Pends [g] 0 := by
  obtain ⟨b, h1, h2⟩ := hst name fn hn
  refine ⟨b, 0, 0, by rw [h.func, h.block]; exact h1, by rw [h.stmt]; exact Nat.zero_le _, by rw [h2]; rfl, rfl, rfl⟩

theorem Move.pends (hst : s.prog.StartsOk) (hwf : s.prog.checkWf = .ok ()) (hs : t.stack = f :: rest)
    (hb : f.func.blocks.get? f.nextBlock = some blk) (ht : ThreadOk s.prog t) (hp : Pends t.stack t.unwindPayloads.length)
    (h : Move (B := B) s s' t t' f rest blk new) :
    Pends t'.stack t'.unwindPayloads.length ∧ ∀ u ∈ new, Pends u.stack u.unwindPayloads.length := by
  have hso := ht.stack
  rw [hs] at hso hp
  have hf := hso.1
  obtain ⟨name, hname⟩ := hf.func
  have hfw := Function.wf (Program.checkWf_function hwf hname)
  obtain ⟨blk', k, m, hb', hpos, hk, hr, hn⟩ := hp
  rw [hb] at hb'; cases hb'
  have hw := hfw.terms _ _ hb
  cases h with
  | stmt st f' h1 h2 h3 h4 h5 h6 h7 h8 h9 h10 =>
    refine ⟨?_, by simp⟩
    rw [h2, h3]
    refine ⟨blk, k, m, by rw [h4, h6]; exact hb, ?_, hk, hr, hn⟩
    have := (List.getElem?_eq_some_iff.1 h1).1
    omega
  | jump b e _ h1 h2 h3 h4 h5 h6 =>
    refine ⟨?_, ?_⟩
    · rw [h2]
      obtain ⟨blk2, g1, g2⟩ := h3.kind hw
      rcases g2 with ⟨g2, g3⟩ | ⟨g2, g3, x, g4⟩ | ⟨g2, g3, x, g4⟩
      · exact ⟨blk2, k, m, g1, Nat.zero_le _, by rw [g2]; exact hk, hr, by rw [g3]; exact hn⟩
      · exact ⟨blk2, k + 1, m, g1, Nat.zero_le _, g3.pending hk, hr, by rw [g4, List.length_cons]; omega⟩
      · refine ⟨blk2, 0, m, g1, Nat.zero_le _, by rw [g3]; rfl, hr, ?_⟩
        rw [g4, List.length_cons] at hn
        rw [g2] at hk
        simp only [BbKind.Pending] at hk
        omega
    · rcases h4 with rfl | ⟨fn, nm, g, k1, k2, rfl⟩
      · simp
      · intro u hu
        cases List.mem_singleton.1 hu
        exact k2.pends hst k1
  | call c conv as r n u fn nm g e p h1 h2 h3 h4 h5 h6 h7 h8 =>
    refine ⟨?_, by simp⟩
    rw [h5, h6]
    obtain ⟨b2, q1, q2⟩ := hst nm fn h3
    exact ⟨b2, 0, k + m, by rw [h4.func, h4.block]; exact q1, by rw [h4.stmt]; exact Nat.zero_le _, by rw [q2]; rfl,
      ⟨blk, k, m, hb, hpos, hk, hr, rfl⟩, by omega⟩
  | ret n u p b g rest' h1 h2 h3 h4 h5 h6 h7 h8 =>
    refine ⟨?_, by simp⟩
    rw [h5, h6]
    have hr2 := hso.2.2
    have hso2 := hso.2.1
    rw [h3] at hr2 hso2 hr
    obtain ⟨c, conv, as, r, n', u', p', e, hg⟩ := hr2
    rw [h2] at e; cases e
    obtain ⟨gname, hgname⟩ := hso2.1.func
    have hgw := Function.wf (Program.checkWf_function hwf hgname)
    obtain ⟨gb, gk, gm, q1, q2, q3, q4, q5⟩ := hr
    obtain ⟨gb2, q6, q7, q8⟩ := hg
    have q6' : g.func.blocks.get? g.nextBlock = some gb2 := q6
    rw [q1] at q6'; cases q6'
    have hcw := hgw.terms _ _ q1
    rw [← q8] at hcw
    simp only [Terminator.checkWf, Res.bind_eq_ok] at hcw
    obtain ⟨_, _, _, _, _, _, _, _, _, _, _, _, _, w1, w2⟩ := hcw
    rcases h4 with ⟨k1, rfl⟩ | ⟨k1, rfl⟩
    · obtain ⟨nb, r1, r2⟩ := Function.checkNextBlock_eq_ok.1 w1
      rw [k1] at hw
      simp only [Terminator.checkWf, ensureWf_eq_ok, beq_iff_eq] at hw
      rw [hw] at hk
      simp only [BbKind.Pending] at hk
      exact ⟨nb, gk, gm, r1, Nat.zero_le _, by rw [r2]; exact q3, q4, by omega⟩
    · obtain ⟨nb, r1, r2⟩ := Function.checkUnwindBlock_eq_ok.1 w2
      rw [k1] at hw
      simp only [Terminator.checkWf, ensureWf_eq_ok, beq_iff_eq] at hw
      rw [hw] at hk
      simp only [BbKind.Pending] at hk
      exact ⟨nb, gk + 1, gm, r1, Nat.zero_le _, r2.pending q3, q4, by omega⟩
  | bottom h1 h2 h3 h4 h5 h6 h7 h8 =>
    refine ⟨?_, by simp⟩
    rw [h5, h7]
    rw [h4] at hw
    simp only [Terminator.checkWf, ensureWf_eq_ok, beq_iff_eq] at hw
    rw [hw] at hk
    simp only [BbKind.Pending] at hk
    rw [h3] at hr
    have : m = 0 := hr
    show _ = 0
    omega

/-- Positions and payloads of all threads. -/
def PendsOk (s : Machine M (AllocId × PE) F) : Prop := ∀ t ∈ s.threads, Pends t.stack t.unwindPayloads.length

include B in
theorem Reachable.pends (hst : prog.StartsOk) (h : Reachable prog s) : PendsOk s := by
  have : FramesInv (B := B) prog s ∧ PendsOk s := by
    refine h.induct (I := fun s => FramesInv (B := B) prog s ∧ PendsOk s) ?_ ?_
    · intro oracle s0 h0
      obtain ⟨h1, h2, h3, h4, f, g, h5, h6, h7⟩ := new_frames (B := B) h0
      refine ⟨⟨h1, h2, h3, h4⟩, ?_⟩
      intro t ht
      rw [h7] at ht
      cases List.mem_singleton.1 ht
      exact h6.pends hst h5
    · rintro s s' ⟨hi, hp⟩ h
      refine ⟨hi.next h, ?_⟩
      obtain ⟨a, r, t, f, rest, blk, h1, h2, h3, h4, h5, _, h6⟩ := hi.step h
      obtain ⟨sm, t', new, ha, k1, k2, k3, k4, k5, hmv⟩ := h6
      have hm := Move.pends (s := s.schedule a r) (by show s.prog.StartsOk; rw [hi.eq]; exact hst) (by show s.prog.checkWf = _; rw [hi.eq]; exact hi.wf) h3 h4
        (hi.threads t (List.mem_of_getElem? h2)) (hp t (List.mem_of_getElem? h2)) hmv
      intro u hu
      rw [k2] at hu
      rcases List.mem_append.1 hu with hu | hu
      · obtain ⟨i, hi'⟩ := List.mem_iff_getElem?.1 hu
        by_cases hia : i = (s.schedule a r).activeThread
        · rw [hia, k1] at hi'; cases hi'
          exact hm.1
        · have hlt : i < (s.schedule a r).threads.length := by rw [← ha.length]; exact (List.getElem?_eq_some_iff.1 hi').1
          obtain ⟨j1, j2, j3⟩ := ha.others i _ u hia (List.getElem?_eq_getElem hlt) hi'
          rw [j1, j2]
          exact hp _ (List.getElem_mem hlt)
      · exact hm.2 u hu
  exact this.2

theorem Pends.block : ∀ {st : List (StackFrame (AllocId × PE) F)} {n}, Pends st n → ∀ f ∈ st, ∃ blk, f.func.blocks.get? f.nextBlock = some blk ∧ f.nextStmt ≤ blk.statements.length
  | g :: st, n, ⟨blk, k, m, h1, h2, h3, h4, h5⟩, f, hf => by
    rcases List.mem_cons.1 hf with rfl | hf
    · exact ⟨blk, h1, h2⟩
    · exact h4.block f hf

theorem framesIn_cons {k : BbKind} {f : StackFrame (AllocId × PE) F} {rest} {blk : BasicBlock} (h : f.func.blocks.get? f.nextBlock = some blk) :
    framesIn k (f :: rest) = framesIn k rest + (if blk.kind = k then 1 else 0) := by
  unfold framesIn
  rw [List.countP_cons, h]
  simp

theorem Pends.count : ∀ {st : List (StackFrame (AllocId × PE) F)} {n}, Pends st n →
    framesIn .cleanup st + framesIn .catch st + 2 * framesIn .terminate st ≤ n ∧
    (framesIn .terminate st = 0 → n = framesIn .cleanup st + framesIn .catch st)
  | [], n, h => by
    have : n = 0 := h
    subst this
    simp [framesIn]
  | f :: st, n, ⟨blk, k, m, h1, h2, h3, h4, h5⟩ => by
    obtain ⟨a, b⟩ := h4.count
    rw [framesIn_cons h1, framesIn_cons h1, framesIn_cons h1]
    cases hk : blk.kind <;> rw [hk] at h3 <;> simp only [BbKind.Pending] at h3 <;> simp <;> omega

end
end MiniRust
