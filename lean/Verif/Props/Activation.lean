import Verif.Spec.Activation
import Verif.Props.Calls
import Verif.Props.Builder
/-
C66: activations of functions, as executed by the machine, are runs of the control flow graph; for functions that were
built from structured programs, they are runs of the structured program.
-/
set_option linter.unusedSectionVars false
namespace MiniRust

theorem CfgRun.snoc {bl : Map BbName BasicBlock} {p as q} (h : CfgRun bl p as (some q)) {a r} (hs : CfgStep bl q a r) :
    CfgRun bl p (as ++ [a]) r := by
  generalize hx : some q = x at h
  induction h with
  | nil =>
    cases hx
    cases r with
    | none => exact .last hs
    | some r => exact .cons hs .nil
  | last _ => cases hx
  | cons h1 _ ih => exact .cons h1 (ih hx)
  | goto h1 _ ih => exact .goto h1 (ih hx)

theorem CfgRun.snocGoto {bl : Map BbName BasicBlock} {p as q} (h : CfgRun bl p as (some q)) {n} (hs : TermAt bl q (.goto n)) :
    CfgRun bl p as (some (n, 0)) := by
  generalize hx : some q = x at h
  induction h with
  | nil => cases hx; exact .goto hs .nil
  | last _ => cases hx
  | cons h1 _ ih => exact .cons h1 (ih hx)
  | goto h1 _ ih => exact .goto h1 (ih hx)

section
variable {M PE AE F : Type} [T : Target] [DecidableEq PE] [Memory M (AllocId × PE) F] [hm : SoftMem M (AllocId × PE) F]
  [B : BasicBacked M PE AE F]
variable {s s' : Machine M (AllocId × PE) F} {prog : Program}
variable {i d a : Nat} {r : List (Choice (AllocId × PE))} {t : Thread (AllocId × PE) F} {f g : StackFrame (AllocId × PE) F}
  {rest : List (StackFrame (AllocId × PE) F)} {P' : Type}

theorem StackFrame.AtTerm.det {t1 t2} (h1 : f.AtTerm t1) (h2 : f.AtTerm t2) : t1 = t2 := by
  obtain ⟨b1, k1, _, rfl⟩ := h1
  obtain ⟨b2, k2, _, rfl⟩ := h2
  rw [Option.some.inj (k1.symm.trans k2)]

theorem StackFrame.AtTerm.notStmt {t1 st} (h1 : f.AtTerm t1) (h2 : f.AtStmt st) : False := by
  obtain ⟨b1, k1, k2, rfl⟩ := h1
  obtain ⟨b2, j1, j2⟩ := h2
  have := Option.some.inj (k1.symm.trans j1)
  subst this
  rw [k2] at j2
  simp at j2

theorem StackFrame.AtTerm.termAt {t1} (h : f.AtTerm t1) : TermAt f.func.blocks (f.nextBlock, f.nextStmt) t1 := by
  obtain ⟨b, k1, k2, rfl⟩ := h
  exact ⟨b, k1, k2, rfl⟩

theorem StackFrame.AtStmt.stmtAt {st} (h : f.AtStmt st) : StmtAt f.func.blocks (f.nextBlock, f.nextStmt) st := h

theorem rev_top {α : Type} {x : α} {l : List α} {d : Nat} (h : l.length = d) : (x :: l).reverse[d]? = some x := by
  subst h; simp

theorem rev_below {α : Type} {x : α} {l : List α} {d : Nat} (h : d < l.length) : (x :: l).reverse[d]? = l.reverse[d]? := by
  simp [List.getElem?_append_left, h]

/-- What happens to a frame in a step, seen from the control flow graph. -/
def Seen (as : List Act) (g g' : StackFrame (AllocId × PE) F) : Prop :=
  g'.func = g.func ∧
  ((as = [] ∧ g'.nextBlock = g.nextBlock ∧ g'.nextStmt = g.nextStmt) ∨
   (as = [] ∧ g.AtTerm (.goto g'.nextBlock) ∧ g'.nextStmt = 0) ∨
   ∃ x, as = [x] ∧ CfgStep g.func.blocks (g.nextBlock, g.nextStmt) x (some (g'.nextBlock, g'.nextStmt)))

theorem Seen.run {as bs} {p : BbName × Nat} (h : Seen bs f g) (hr : CfgRun f.func.blocks p as (some (f.nextBlock, f.nextStmt))) :
    CfgRun g.func.blocks p (as ++ bs) (some (g.nextBlock, g.nextStmt)) := by
  obtain ⟨hf, ⟨rfl, h1, h2⟩ | ⟨rfl, h1, h2⟩ | ⟨x, rfl, h1⟩⟩ := h
  · rw [hf, h1, h2, List.append_nil]; exact hr
  · rw [hf, h2, List.append_nil]; exact hr.snocGoto h1.termAt
  · rw [hf]; exact hr.snoc h1

theorem Seen.refl : Seen [] f f := ⟨rfl, .inl ⟨rfl, rfl, rfl⟩⟩

/-- A step of the frame itself. -/
theorem seen_moved {b x} (hm : f.MovedTo b g) (h : CfgStep f.func.blocks (f.nextBlock, f.nextStmt) x (some (b, 0))) : Seen [x] f g := by
  refine ⟨hm.same.func, .inr (.inr ⟨x, rfl, ?_⟩)⟩
  rw [hm.block, hm.stmt]; exact h

include B in
/-- The next step of the machine, seen by frame `d` of thread `i`. -/
theorem does_step (hr : Reachable prog s) (h : step s = .ok ((), s')) (hg : s.FrameAt i d g) :
    ∃ as left, s.Does i d as left ∧
      (left = false → ∃ g', s'.FrameAt i d g' ∧ Seen as g g') ∧
      (left = true → (∀ g', ¬ s'.FrameAt i d g') ∧ ∃ x, as = [x] ∧ CfgStep g.func.blocks (g.nextBlock, g.nextStmt) x none) := by
  obtain ⟨t0, hthr, hget⟩ := hg
  obtain ⟨a', t1, t1', hact, ht1, ht1', hst, hoth, _⟩ := C35_stack_discipline (B := B) hr h
  obtain ⟨a, r, t, f, rest, blk, hrun, hb, hact2, _⟩ := Machine.Runs.ofStep (hr.frames (B := B)) h
  have : a' = a := hact.symm.trans hact2
  subst this
  have := hrun.thread.symm.trans ht1
  cases this
  by_cases hne : i = a'
  swap
  · obtain ⟨u', hu, hs, _⟩ := hoth i t0 hne hthr
    exact ⟨[], false, .other hrun (Ne.symm hne), fun _ => ⟨g, ⟨u', hu, by rw [hs]; exact hget⟩, .refl⟩, fun h => by cases h⟩
  subst hne
  have := hrun.thread.symm.trans hthr
  cases this
  have hstack := hrun.stack
  rw [hstack] at hst hget
  by_cases hd : rest.length = d
  · -- the frame is the top one
    rw [rev_top hd, Option.some.injEq] at hget
    subst hget
    generalize hp' : t1'.unwindPayloads = pl' at hst
    generalize hp : t0.unwindPayloads = pl at hst
    generalize hs' : t1'.stack = st' at hst
    generalize hs0 : (f :: rest) = st at hst
    have mk : ∀ {g' : StackFrame (AllocId × PE) F} {as}, st' = g' :: rest → Seen as f g' → ∃ g', s'.FrameAt i d g' ∧ Seen as f g' :=
      fun {g' as} he hse => ⟨g', ⟨t1', ht1', by rw [hs', he]; exact rev_top hd⟩, hse⟩
    have gone : st'.length = d → ∀ g', ¬ s'.FrameAt i d g' := by
      rintro hl g' ⟨t2, k1, k2⟩
      have := ht1'.symm.trans k1
      cases this
      rw [hs'] at k2
      have := (List.getElem?_eq_some_iff.mp k2).1
      simp at this; omega
    cases hst with
    | stmt hat haft =>
      cases hs0
      refine ⟨_, false, .stmt hrun hd hat, fun _ => mk rfl ⟨haft.func, .inr (.inr ⟨_, rfl, ?_⟩)⟩, fun h => by cases h⟩
      rw [haft.block, haft.stmt]
      exact .stmt hat.stmtAt
    | goto hat hm =>
      cases hs0
      refine ⟨_, false, .goto hrun hd hat, fun _ => mk rfl ⟨hm.same.func, .inr (.inl ⟨rfl, ?_, hm.stmt⟩)⟩, fun h => by cases h⟩
      rw [hm.block]; exact hat
    | switch hat _ hm =>
      cases hs0
      obtain ⟨j, ty, s1, b, t', f', k1, k2, k3, k4, k5⟩ := C46_switch (B := B) h hrun hat
      have := k3.symm.trans ht1'
      cases this
      refine ⟨_, false, .switch hrun hd hat k1, fun _ => mk (by rw [← hs', k4]) (seen_moved k5 ?_), fun h => by cases h⟩
      obtain hc | ⟨hc, rfl⟩ := k2
      · exact .switchCase hat.termAt hc
      · exact .switchFallback hat.termAt hc
    | intrinsic hat hm =>
      cases hs0
      exact ⟨_, false, .op hrun hd hat, fun _ => mk rfl (seen_moved hm (.op hat.termAt)), fun h => by cases h⟩
    | startUnwind hat hm =>
      cases hs0
      exact ⟨_, false, .startUnwind hrun hd hat, fun _ => mk rfl (seen_moved hm (.startUnwind hat.termAt)), fun h => by cases h⟩
    | stopUnwind hat hm =>
      cases hs0
      exact ⟨_, false, .stopUnwind hrun hd hat, fun _ => mk rfl (seen_moved hm (.stopUnwind hat.termAt)), fun h => by cases h⟩
    | @call _ f' g1 _ _ _ _ _ _ _ _ _ _ hat _ _ hm =>
      cases hs0
      refine ⟨_, false, .call hrun hd hat, fun _ => ⟨f', ⟨t1', ht1', ?_⟩, hm.same.func, .inl ⟨rfl, hm.block, hm.stmt⟩⟩, fun h => by cases h⟩
      rw [hs', rev_below (by simp; omega)]; exact rev_top hd
    | ret hat _ hm =>
      cases hs0
      exact ⟨_, true, .ret hrun hd hat, fun h => (by cases h), fun _ => ⟨gone (by simpa using hd), _, rfl, .ret hat.termAt⟩⟩
    | resume hat _ hm =>
      cases hs0
      exact ⟨_, true, .resume hrun hd hat, fun h => (by cases h), fun _ => ⟨gone (by simpa using hd), _, rfl, .resume hat.termAt⟩⟩
    | finish hat =>
      cases hs0
      exact ⟨_, true, .ret hrun hd hat, fun h => (by cases h), fun _ => ⟨gone (by simpa using hd), _, rfl, .ret hat.termAt⟩⟩
  · -- the frame is below the top one
    have hlt : d < rest.length := by
      have := (List.getElem?_eq_some_iff.mp hget).1
      simp at this; omega
    rw [rev_below hlt] at hget
    -- the step leaves the frames below alone unless the top frame is left
    have keep : ∀ {st' : List (StackFrame (AllocId × PE) F)}, t1'.stack = st' → (∃ pre, st' = pre ++ rest) → s'.FrameAt i d g := by
      rintro st' he ⟨pre, rfl⟩
      refine ⟨t1', ht1', ?_⟩
      rw [he, List.reverse_append, List.getElem?_append_left (by simpa using hlt)]
      exact hget
    by_cases hleft : f.AtTerm .return ∨ f.AtTerm .resumeUnwind
    swap
    · have hnr : ¬ f.AtTerm .return := fun h => hleft (.inl h)
      have hnu : ¬ f.AtTerm .resumeUnwind := fun h => hleft (.inr h)
      have hkeep : s'.FrameAt i d g ∨ ∃ f' g1, t1'.stack = g1 :: f' :: rest := by
        generalize hp' : t1'.unwindPayloads = pl' at hst
        generalize hp : t0.unwindPayloads = pl at hst
        generalize hs' : t1'.stack = st' at hst
        generalize hs0 : (f :: rest) = st at hst
        cases hst with
        | call => cases hs0; exact .inr ⟨_, _, rfl⟩
        | ret hat => cases hs0; exact absurd hat hnr
        | resume hat => cases hs0; exact absurd hat hnu
        | finish hat => cases hs0; exact absurd hat hnr
        | _ => cases hs0; exact .inl (keep hs' ⟨[_], rfl⟩)
      have hk : s'.FrameAt i d g := by
        obtain hk | ⟨f', g1, hk⟩ := hkeep
        · exact hk
        · exact keep hk ⟨[g1, f'], rfl⟩
      by_cases h1 : rest.length = d + 1
      · exact ⟨[], false, .callee hrun h1 hnr hnu, fun _ => ⟨g, hk, .refl⟩, fun h => by cases h⟩
      · exact ⟨[], false, .above hrun (by omega), fun _ => ⟨g, hk, .refl⟩, fun h => by cases h⟩
    · -- the top frame is left
      cases rest with
      | nil => simp at hlt
      | cons g1 rest' =>
        by_cases h1 : rest'.length = d
        · rw [rev_top h1, Option.some.injEq] at hget
          subst hget
          generalize hp' : t1'.unwindPayloads = pl' at hst
          generalize hp : t0.unwindPayloads = pl at hst
          generalize hs' : t1'.stack = st' at hst
          generalize hs0 : (f :: g1 :: rest') = st at hst
          have mk : ∀ {g' : StackFrame (AllocId × PE) F} {as}, st' = g' :: rest' → Seen as g1 g' →
              ∃ g', s'.FrameAt i d g' ∧ Seen as g1 g' :=
            fun {g' as} he hse => ⟨g', ⟨t1', ht1', by rw [hs', he]; exact rev_top h1⟩, hse⟩
          cases hst with
          | ret hat hcall hm =>
            cases hs0
            exact ⟨_, false, .returned hrun h1 hat hcall, fun _ => mk rfl (seen_moved hm (.callR hcall.termAt)), fun h => by cases h⟩
          | resume hat hcall hm =>
            cases hs0
            exact ⟨_, false, .unwound hrun h1 hat hcall, fun _ => mk rfl (seen_moved hm (.callU hcall.termAt)), fun h => by cases h⟩
          | finish hat => cases hs0
          | stmt hat => cases hs0; obtain h | h := hleft <;> exact (h.notStmt hat).elim
          | goto hat => cases hs0; obtain h | h := hleft <;> exact absurd (hat.det h) (by simp)
          | switch hat => cases hs0; obtain h | h := hleft <;> exact absurd (hat.det h) (by simp)
          | intrinsic hat => cases hs0; obtain h | h := hleft <;> exact absurd (hat.det h) (by simp)
          | startUnwind hat => cases hs0; obtain h | h := hleft <;> exact absurd (hat.det h) (by simp)
          | stopUnwind hat => cases hs0; obtain h | h := hleft <;> exact absurd (hat.det h) (by simp)
          | call hat => cases hs0; obtain h | h := hleft <;> exact absurd (hat.det h) (by simp)
        · have h2 : d < rest'.length := by simp at hlt; omega
          rw [rev_below h2] at hget
          have hk : s'.FrameAt i d g := by
            have : ∃ pre, t1'.stack = pre ++ rest' := by
              generalize hp' : t1'.unwindPayloads = pl' at hst
              generalize hp : t0.unwindPayloads = pl at hst
              generalize hs' : t1'.stack = st' at hst
              generalize hs0 : (f :: g1 :: rest') = st at hst
              cases hst with
              | ret => cases hs0; exact ⟨[_], rfl⟩
              | resume => cases hs0; exact ⟨[_], rfl⟩
              | finish => cases hs0
              | call => cases hs0; exact ⟨[_, _, _], rfl⟩
              | _ => cases hs0; exact ⟨[_, _], rfl⟩
            obtain ⟨pre, he⟩ := this
            refine ⟨t1', ht1', ?_⟩
            rw [he, List.reverse_append, List.getElem?_append_left (by simpa using h2)]
            exact hget
          exact ⟨[], false, .above hrun (by simp; omega), fun _ => ⟨g, hk, .refl⟩, fun h => by cases h⟩

theorem Machine.Runs.det {a2 r2 t2 f2 rest2} (h1 : s.Runs a r t f rest) (h2 : s.Runs a2 r2 t2 f2 rest2) :
    a2 = a ∧ r2 = r ∧ t2 = t ∧ f2 = f ∧ rest2 = rest := by
  have e := h2.oracle.symm.trans h1.oracle
  simp only [List.cons.injEq, Choice.int.injEq, Int.natCast_inj] at e
  obtain ⟨rfl, rfl⟩ := e
  have e := h2.thread.symm.trans h1.thread
  simp only [Option.some.injEq] at e
  have k := h2.stack
  rw [e, h1.stack] at k
  simp only [List.cons.injEq] at k
  exact ⟨rfl, rfl, e, k.1.symm, k.2.symm⟩

/-- The next instruction of a frame. -/
def StackFrame.cur (f : StackFrame (AllocId × PE) F) : Option (Statement ⊕ Terminator) :=
  match f.func.blocks.get? f.nextBlock with
  | none => none
  | some b => if f.nextStmt = b.statements.length then some (.inr b.terminator) else (b.statements[f.nextStmt]?).map .inl

theorem StackFrame.AtTerm.cur {t1} (h : f.AtTerm t1) : f.cur = some (.inr t1) := by
  obtain ⟨b, h1, h2, rfl⟩ := h
  have h1 : f.func.blocks.get? f.nextBlock = some b := h1
  unfold StackFrame.cur
  rw [h1]; simp only [h2, if_true]

theorem StackFrame.AtStmt.cur {st} (h : f.AtStmt st) : f.cur = some (.inl st) := by
  obtain ⟨b, h1, h2⟩ := h
  have h1 : f.func.blocks.get? f.nextBlock = some b := h1
  have : f.nextStmt ≠ b.statements.length := by
    have := (List.getElem?_eq_some_iff.mp h2).1
    omega
  unfold StackFrame.cur
  rw [h1]; simp only [this, if_false, h2, Option.map_some]

theorem StackFrame.atTerm_of_cur {t1} (h : f.cur = some (.inr t1)) : f.AtTerm t1 := by
  unfold StackFrame.cur at h
  cases hb : f.func.blocks.get? f.nextBlock with
  | none => rw [hb] at h; cases h
  | some b =>
    rw [hb] at h
    simp only at h
    by_cases hn : f.nextStmt = b.statements.length
    · rw [if_pos hn] at h; cases h; exact ⟨b, hb, hn, rfl⟩
    · rw [if_neg hn] at h
      cases hg : b.statements[f.nextStmt]? <;> rw [hg] at h <;> cases h

theorem StackFrame.atTerm_iff {t1} : f.AtTerm t1 ↔ f.cur = some (.inr t1) := ⟨fun h => h.cur, StackFrame.atTerm_of_cur⟩

/-- What a frame does in a step is determined. -/
theorem Machine.Does.det {as bs l k} (h1 : s.Does i d as l) (h2 : s.Does i d bs k) : as = bs ∧ l = k := by
  cases h1 <;> (
    rename s.Runs _ _ _ _ _ => hr1
    cases h2 <;> (
      rename s.Runs _ _ _ _ _ => hr2
      obtain ⟨e1, e2, e3, e4, e5⟩ := hr1.det hr2
      try rename StackFrame.AtStmt _ _ => hst
      try replace hst := StackFrame.AtStmt.cur hst
      try rename StackFrame.AtStmt _ _ => hst2
      try replace hst2 := StackFrame.AtStmt.cur hst2
      first
        | exact ⟨rfl, rfl⟩
        | (subst e5; simp only [List.length_cons] at *; omega)
        | simp_all [StackFrame.atTerm_iff]))

/-! ### C66 -/

theorem Machine.Lives.reachable {as} (hr : Reachable prog s) (h : s.Lives i d as s') : Reachable prog s' := by
  induction h with
  | nil => exact hr
  | step _ _ h ih => exact .step ih h

include B in
/-- C66: every successful step of the machine is, for each frame, one of those described by `Does`, and what the frame does
is determined. The frame is gone after the step iff it returns or resumes unwinding in it. -/
theorem C66_every_step (hr : Reachable prog s) (h : step s = .ok ((), s')) (hg : s.FrameAt i d g) :
    ∃ as left, (s.Does i d as left ∧ ∀ bs l, s.Does i d bs l → bs = as ∧ l = left) ∧
      ((∃ g', s'.FrameAt i d g') ↔ left = false) := by
  obtain ⟨as, left, h1, h2, h3⟩ := does_step (B := B) hr h hg
  refine ⟨as, left, ⟨h1, fun bs l hb => hb.det h1⟩, ?_⟩
  cases left with
  | false =>
    obtain ⟨g', hg', _⟩ := h2 rfl
    exact ⟨fun _ => rfl, fun _ => ⟨g', hg'⟩⟩
  | true => exact ⟨fun ⟨g', hg'⟩ => absurd hg' ((h3 rfl).1 g'), fun h => by cases h⟩

include B in
/-- C66: from any state on, each frame lives on, or there is a step in which it is left. -/
theorem C66_lives_or_left (hr : Reachable prog s) (hg : s.FrameAt i d g) (h : Steps s s') :
    (∃ as, s.Lives i d as s') ∨
    ∃ as s1 x s2, s.Lives i d as s1 ∧ s1.Does i d [x] true ∧ step s1 = .ok ((), s2) ∧ Steps s2 s' := by
  have key : ∀ {s'}, Steps s s' → (∃ as, s.Lives i d as s' ∧ ∃ g', s'.FrameAt i d g') ∨
      ∃ as s1 x s2, s.Lives i d as s1 ∧ s1.Does i d [x] true ∧ step s1 = .ok ((), s2) ∧ Steps s2 s' := by
    intro s' h
    induction h with
    | refl => exact .inl ⟨[], .nil, g, hg⟩
    | tail _ hs ih =>
      rcases ih with ⟨as, hl, g', hg'⟩ | ⟨as, s1, x, s2, h1, h2, h3, h4⟩
      · obtain ⟨bs, left, k1, k2, k3⟩ := does_step (B := B) (hl.reachable hr) hs hg'
        cases left with
        | false =>
          obtain ⟨g2, hg2, _⟩ := k2 rfl
          exact .inl ⟨_, hl.step k1 hs, g2, hg2⟩
        | true =>
          obtain ⟨_, x, rfl, _⟩ := k3 rfl
          exact .inr ⟨as, _, x, _, hl, k1, hs, .refl _⟩
      · exact .inr ⟨as, s1, x, s2, h1, h2, h3, .tail h4 hs⟩
  rcases key h with ⟨as, hl, _⟩ | h
  · exact .inl ⟨as, hl⟩
  · exact .inr h

include B in
/-- C66: whatever else the machine does meanwhile, what an activation of a function does is a run of its control flow
graph. -/
theorem C66_follows_graph {fn : Function} {as} (hr : Reachable prog s) (hg : s.FrameAt i d g) (hfresh : g.Fresh fn)
    (h : s.Lives i d as s') :
    ∃ g', s'.FrameAt i d g' ∧ g'.func = fn ∧ CfgRun fn.blocks (fn.start, 0) as (some (g'.nextBlock, g'.nextStmt)) := by
  induction h with
  | nil =>
    refine ⟨g, hg, hfresh.func, ?_⟩
    rw [hfresh.block, hfresh.stmt]; exact .nil
  | @step as s1 bs s2 hl hd hs ih =>
    obtain ⟨g1, hg1, hfn, hrun⟩ := ih
    obtain ⟨bs', left, h1, h2, _⟩ := does_step (B := B) (hl.reachable hr) hs hg1
    obtain ⟨rfl, rfl⟩ := hd.det h1
    obtain ⟨g2, hg2, hseen⟩ := h2 rfl
    refine ⟨g2, hg2, hseen.1.trans hfn, ?_⟩
    have := hseen.run (p := (fn.start, 0)) (as := as) (by rw [hfn]; exact hrun)
    rwa [hseen.1, hfn] at this

include B in
/-- C66: the same when the function is left. -/
theorem C66_follows_graph_to_end {fn : Function} {as x s''} (hr : Reachable prog s) (hg : s.FrameAt i d g) (hfresh : g.Fresh fn)
    (h : s.Lives i d as s') (hd : s'.Does i d [x] true) (hs : step s' = .ok ((), s'')) :
    CfgRun fn.blocks (fn.start, 0) (as ++ [x]) none := by
  obtain ⟨g1, hg1, hfn, hrun⟩ := C66_follows_graph (B := B) hr hg hfresh h
  obtain ⟨bs', left, h1, _, h3⟩ := does_step (B := B) (h.reachable hr) hs hg1
  obtain ⟨rfl, rfl⟩ := hd.det h1
  obtain ⟨_, y, hy, hstep⟩ := h3 rfl
  cases hy
  rw [hfn] at hstep
  exact hrun.snoc hstep

include B in
/-- C66: every activation of a function built with the function builder does what the structured program says (`finish_program`
changes the calling convention of the start function). -/
theorem C66_follows_structure {decls : List Decl} {code : Code} {fn : Function} {as} (hb : buildFunction decls code = .ok fn)
    {conv : CallingConvention} (hr : Reachable prog s) (hg : s.FrameAt i d g)
    (hfresh : g.Fresh { fn with callingConvention := conv }) (h : s.Lives i d as s') :
    ∃ c, Code.Run code as (some c) := by
  obtain ⟨g1, _, _, hrun⟩ := C66_follows_graph (B := B) hr hg hfresh h
  exact ((C65_same_behavior hb as).1).mp ⟨_, hrun⟩

include B in
/-- C66: the same when the function is left: it is left only where the structured program ends. -/
theorem C66_follows_structure_to_end {decls : List Decl} {code : Code} {fn : Function} {as x s''}
    (hb : buildFunction decls code = .ok fn) {conv : CallingConvention} (hr : Reachable prog s) (hg : s.FrameAt i d g)
    (hfresh : g.Fresh { fn with callingConvention := conv }) (h : s.Lives i d as s') (hd : s'.Does i d [x] true) (hs : step s' = .ok ((), s'')) : Code.Run code (as ++ [x]) none :=
  ((C65_same_behavior hb _).2).mp (C66_follows_graph_to_end (B := B) (fn := { fn with callingConvention := conv }) hr hg hfresh h hd hs)

end
/-! ### A concrete activation -/

namespace ActEx
attribute [local instance] x86_64

def u32 : Ty := .int ⟨.unsigned, 4⟩

/-- `y = 0; while y < 2 { y = y + 1 }; return` -/
def code : Code :=
  .stmt (.storageLive 0) <|
  .stmt (.assign (.local 0) (.constant (.int 0) u32)) <|
  .while_ (.binOp (.rel .lt) (.load (.local 0)) (.constant (.int 2) u32))
    (.stmt (.assign (.local 0) (.binOp (.int .add) (.load (.local 0)) (.constant (.int 1) u32))) .nil) <|
  .ret .nil

def fn : Function := match buildFunction [.var u32] code with
  | .ok f => f
  | .error _ => ⟨[], [], 0, .c, [], 0⟩

theorem built : buildFunction [.var u32] code = .ok fn := by rfl

/-- `f(); exit()` -/
def mainCode : Code :=
  .callNounwind (.local 0) (.constant (.fnPointer 1) (.ptr .fnPtr)) [] <| .halt .exit [] (.local 0) .nil

def main : Function := match buildFunction [] mainCode with
  | .ok f => { f with callingConvention := .c }
  | .error _ => ⟨[], [], 0, .c, [], 0⟩

def prog : Program := ⟨[(0, main), (1, fn)], 0, [], [], []⟩

def run : List (Choice (Nat × Unit)) :=
  [.int 16, .int 17, .int 18, .int 0, .int 19] ++ [.int 0, .int 32] ++ List.replicate 30 (.int 0)

/-- The top frame of thread 0, if there are two frames. -/
def top2 (s : BMach) : Option (StackFrame (Nat × Unit) Unit) :=
  match s.threads with
  | [t] => (match t.stack with
    | [f, _] => some f
    | _ => none)
  | _ => none

/-- There is a state in which the function was just called, and later it is left. -/
theorem called_and_left : ∃ (s s1 s2 : BMach) (g : StackFrame (Nat × Unit) Unit) (as : List Act) (x : Act), Reachable prog s ∧
    s.FrameAt 0 1 g ∧ g.Fresh fn ∧ s.Lives 0 1 as s1 ∧ s1.Does 0 1 [x] true ∧ step s1 = .ok ((), s2) := by
  obtain ⟨s, s', hr, hs, h1, h2⟩ := exists_steps (M := BasicMem Unit Unit) (prog := prog) run 1 12
    (fun s s' => (match top2 s with
      | some g => decide (g.nextBlock = 0 ∧ g.nextStmt = 0 ∧ g.locals.keys = [1] ∧ g.func.callingConvention = .rust)
      | none => false) = true ∧ s'.threads.map (·.stack.length) = [1]) (by decide +kernel)
  cases ht : top2 s with
  | none => rw [ht] at h1; cases h1
  | some g =>
    rw [ht] at h1
    obtain ⟨g1, g2, g3, g4⟩ := of_decide_eq_true h1
    unfold top2 at ht
    split at ht
    swap
    · cases ht
    rename_i t hthr
    split at ht
    swap
    · cases ht
    rename_i f f0 hstack
    cases ht
    have hfn : g.func = fn := by
      obtain ⟨⟨name, hn⟩, _⟩ := C46_in_block (Program.startsOk_eq (by decide +kernel)) hr (t := t) (f := g) (by rw [hthr]; simp) (by rw [hstack]; simp)
      simp only [prog, Map.get?] at hn
      split at hn
      · rw [← Option.some.inj hn] at g4
        exact absurd g4 (show main.callingConvention ≠ .rust by decide +kernel)
      · split at hn
        · exact (Option.some.inj hn).symm
        · cases hn
    have hframe : s.FrameAt 0 1 g := ⟨t, by rw [hthr]; rfl, by rw [hstack]; rfl⟩
    have hfresh : g.Fresh fn := ⟨hfn, g1, g2, fun l => by rw [g3]; simp [show fn.ret = 1 from rfl, show fn.args = [] from rfl]⟩
    rcases C66_lives_or_left hr hframe (runSteps_steps hs) with ⟨as, hl⟩ | ⟨as, s1, x, s2, k1, k2, k3, _⟩
    · obtain ⟨g', ⟨t', k1, k2⟩, _⟩ := C66_follows_graph hr hframe hfresh hl
      have := List.mem_of_getElem? k1
      have h3 : t'.stack.length ∈ s'.threads.map (·.stack.length) := List.mem_map.mpr ⟨t', this, rfl⟩
      rw [h2] at h3
      have h4 := (List.getElem?_eq_some_iff.mp k2).1
      simp only [List.mem_singleton] at h3
      simp [h3] at h4
    · exact ⟨s, s1, s2, g, as, x, hr, hframe, hfresh, k1, k2, k3⟩

/-- The hypotheses of the theorems are met: this activation is a run of the structured program, from beginning to end. -/
example : ∃ (as : List Act) (x : Act), CfgRun fn.blocks (fn.start, 0) (as ++ [x]) none ∧ Code.Run code (as ++ [x]) none := by
  obtain ⟨s, s1, s2, g, as, x, hr, hf, hfresh, h1, h2, h3⟩ := called_and_left
  exact ⟨as, x, C66_follows_graph_to_end hr hf hfresh h1 h2 h3,
    C66_follows_structure_to_end built (conv := .rust) hr hf hfresh h1 h2 h3⟩

/-- In fact all runs of this program start with these two actions. -/
example {as r} (h : Code.Run code as r) (h2 : 2 ≤ as.length) :
    as.take 2 = [.stmt (.storageLive 0), .stmt (.assign (.local 0) (.constant (.int 0) u32))] := by
  unfold code at h
  cases h with
  | nil => simp at h2
  | last h => cases h
  | cons h h' =>
    cases h
    cases h' with
    | nil => simp at h2
    | last h => cases h
    | cons h h' => cases h; rfl

end ActEx
end MiniRust
