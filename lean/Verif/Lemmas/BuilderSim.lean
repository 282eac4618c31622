import Verif.Spec.Builder
import Verif.Lemmas.Basic
/-
How a structured program lies in a control flow graph, and that the graph then behaves like the program.
-/
namespace MiniRust

abbrev Pos := BbName × Nat

/-- Where a branch ends, it goes to the block `after`. -/
def Joins (bl : Map BbName BasicBlock) (o : Option Pos) (after : Option BbName) : Prop :=
  ∀ q, o = some q → ∃ a, after = some a ∧ TermAt bl q (.goto a)

mutual
/-- The program lies in the blocks, starting at the first position and ending at the second. -/
def Code.Laid (bl : Map BbName BasicBlock) : Code → Pos → Option Pos → Prop
  | .nil, p, out => out = some p
  | .stmt s rest, p, out => StmtAt bl p s ∧ rest.Laid bl (p.1, p.2 + 1) out
  | .op o a r rest, p, out => ∃ n, TermAt bl p (.intrinsic o a r (some n)) ∧ rest.Laid bl (n, 0) out
  | .halt o a r _, p, out => TermAt bl p (.intrinsic o a r none) ∧ out = none
  | .unreachable _, p, out => TermAt bl p .unreachable ∧ out = none
  | .ret _, p, out => TermAt bl p .return ∧ out = none
  | .resume _, p, out => TermAt bl p .resumeUnwind ∧ out = none
  | .callNoret r f a _, p, out => TermAt bl p (.call f .rust a r none none) ∧ out = none
  | .callNounwind r f a rest, p, out => ∃ n, TermAt bl p (.call f .rust a r (some n) none) ∧ rest.Laid bl (n, 0) out
  | .call c _ handler rest, p, out => ∃ n u, TermAt bl p (.call c.callee c.conv c.args c.ret (some n) (some u)) ∧
      handler.Laid bl (u, 0) none ∧ rest.Laid bl (n, 0) out
  | .tryCall c handler rest, p, out => ∃ n u cont o, TermAt bl p (.call c.callee c.conv c.args c.ret (some n) (some u)) ∧
      TermAt bl (n, 0) (.goto cont) ∧ handler.Laid bl (u, 0) o ∧ (∀ q, o = some q → TermAt bl q (.stopUnwind cont)) ∧
      rest.Laid bl (cont, 0) out
  | .startUnwind e _ handler _, p, out => ∃ u, TermAt bl p (.startUnwind e u) ∧ handler.Laid bl (u, 0) none ∧ out = none
  | .tryUnwind e handler rest, p, out => ∃ u cont o, TermAt bl p (.startUnwind e u) ∧
      handler.Laid bl (u, 0) o ∧ (∀ q, o = some q → TermAt bl q (.stopUnwind cont)) ∧ rest.Laid bl (cont, 0) out
  | .stop rest, p, out => ∃ n, TermAt bl p (.stopUnwind n) ∧ rest.Laid bl (n, 0) out
  | .switch v cs f rest, p, out => ∃ m fb after o, TermAt bl p (.switch v m fb) ∧
      (∀ i, Map.get? m i = none ↔ i ∉ cs.values) ∧ cs.Laid bl m after ∧
      f.Laid bl (fb, 0) o ∧ Joins bl o after ∧
      (after = none → out = none) ∧ (∀ a, after = some a → rest.Laid bl (a, 0) out)
  | .while_ c body rest, p, out => ∃ cond m b f o a, (p = (cond, 0) ∨ TermAt bl p (.goto cond)) ∧
      TermAt bl (cond, 0) (.switch (FnBuilder.boolToInt c) m f) ∧
      Map.get? m 1 = some b ∧ (∀ i, i ≠ 1 → Map.get? m i = none) ∧
      body.Laid bl (b, 0) o ∧ (∀ q, o = some q → TermAt bl q (.goto cond)) ∧
      TermAt bl (f, 0) (.goto a) ∧ rest.Laid bl (a, 0) out
def Cases.Laid (bl : Map BbName BasicBlock) (m : Map Int BbName) (after : Option BbName) : Cases → Prop
  | .nil => True
  | .cons i body rest => (∃ n o, Map.get? m i = some n ∧ body.Laid bl (n, 0) o ∧ Joins bl o after) ∧ rest.Laid bl m after
end

theorem Cases.Laid.get {bl m after} : ∀ {cs : Cases} {i body}, cs.Laid bl m after → cs.get? i = some body →
    ∃ n o, Map.get? m i = some n ∧ body.Laid bl (n, 0) o ∧ Joins bl o after
  | .nil, i, body, _, h => by simp [Cases.get?] at h
  | .cons j b rest, i, body, hl, h => by
    simp only [Cases.get?] at h
    simp only [Cases.Laid] at hl
    split at h
    · subst_vars; cases h; exact hl.1
    · exact Cases.Laid.get hl.2 h

theorem Cases.get?_none {cs : Cases} {i : Int} (h : cs.get? i = none) : i ∉ cs.values := by
  match cs with
  | .nil => simp [Cases.values]
  | .cons j b rest =>
    simp only [Cases.get?] at h
    split at h
    · simp at h
    · rename_i hne
      simp only [Cases.values, List.mem_cons, not_or]
      exact ⟨fun e => hne e.symm, Cases.get?_none h⟩

theorem Cases.get?_some {cs : Cases} {i : Int} {b : Code} (h : cs.get? i = some b) : i ∈ cs.values := by
  match cs with
  | .nil => simp [Cases.get?] at h
  | .cons j b rest =>
    simp only [Cases.get?] at h
    simp only [Cases.values, List.mem_cons]
    split at h
    · rename_i e; exact .inl e.symm
    · exact .inr (Cases.get?_some h)

theorem Code.append_nil : ∀ c : Code, c.append .nil = c
  | .nil => rfl
  | .stmt _ r | .op _ _ _ r | .halt _ _ _ r | .unreachable r | .ret r | .resume r | .callNoret _ _ _ r
  | .callNounwind _ _ _ r | .call _ _ _ r | .tryCall _ _ r | .startUnwind _ _ _ r | .tryUnwind _ _ r | .stop r
  | .switch _ _ _ r | .while_ _ _ r => by simp only [Code.append, Code.append_nil r]

/-- The position corresponds to the remaining program. -/
inductive Sim (bl : Map BbName BasicBlock) : Code → Pos → Prop
  | seq {c d : Code} {p o} : c.Laid bl p o → (∀ q, o = some q → Sim bl d q) → Sim bl (c.append d) p
  | goto {c p n} : TermAt bl p (.goto n) → Sim bl c (n, 0) → Sim bl c p

def Match (bl : Map BbName BasicBlock) : Option Code → Option Pos → Prop
  | none, none => True
  | some c, some p => Sim bl c p
  | _, _ => False

def Direct (bl : Map BbName BasicBlock) (c : Code) (p : Pos) : Prop :=
  (∀ a r, c.Step a r → ∃ r', CfgStep bl p a r' ∧ Match bl r r') ∧
  (∀ a r', CfgStep bl p a r' → ∃ r, c.Step a r ∧ Match bl r r') ∧ (∀ n, ¬ TermAt bl p (.goto n)) ∧ ∃ a r, c.Step a r

inductive Poised (bl : Map BbName BasicBlock) : Code → Pos → Prop
  | direct {c p} : Direct bl c p → Poised bl c p
  | goto {c p n} : TermAt bl p (.goto n) → Sim bl c (n, 0) → Poised bl c (n, 0) → Poised bl c p

theorem TermAt.inj {bl p t t'} (h : TermAt bl p t) (h' : TermAt bl p t') : t = t' := by
  obtain ⟨b, hb, _, rfl⟩ := h
  obtain ⟨b', hb', _, rfl⟩ := h'
  rw [hb] at hb'; cases hb'; rfl

theorem StmtAt.inj {bl p s s'} (h : StmtAt bl p s) (h' : StmtAt bl p s') : s = s' := by
  obtain ⟨b, hb, e⟩ := h
  obtain ⟨b', hb', e'⟩ := h'
  rw [hb] at hb'; cases hb'; rw [e] at e'; cases e'; rfl

theorem StmtAt.not_term {bl p s t} (h : StmtAt bl p s) (h' : TermAt bl p t) : False := by
  obtain ⟨b, hb, e⟩ := h
  obtain ⟨b', hb', e', _⟩ := h'
  rw [hb] at hb'; cases hb'
  rw [e', List.getElem?_eq_none (Nat.le_refl _)] at e; cases e

/-- The steps of a terminator. -/
def Terminator.Steps (t : Terminator) (a : Act) (r : Option Pos) : Prop :=
  match t with
  | .goto _ => False
  | .switch v m f => ∃ j, a = .switch v j ∧ ((∃ n, Map.get? m j = some n ∧ r = some (n, 0)) ∨ (Map.get? m j = none ∧ r = some (f, 0)))
  | .unreachable => a = .unreachable ∧ r = none
  | .intrinsic o as p next => a = .op o as p ∧ r = next.map fun n => (n, 0)
  | .call f c as p next unwind => (a = .call ⟨f, c, as, p⟩ .neither ∧ r = none) ∨
      (∃ n, next = some n ∧ a = .call ⟨f, c, as, p⟩ .returned ∧ r = some (n, 0)) ∨
      (∃ n, unwind = some n ∧ a = .call ⟨f, c, as, p⟩ .unwound ∧ r = some (n, 0))
  | .return => a = .ret ∧ r = none
  | .startUnwind e n => a = .startUnwind e ∧ r = some (n, 0)
  | .stopUnwind n => a = .stopUnwind ∧ r = some (n, 0)
  | .resumeUnwind => a = .resume ∧ r = none

theorem TermAt.steps {bl p t} (h : TermAt bl p t) {a r} : CfgStep bl p a r ↔ t.Steps a r := by
  constructor
  · intro hs
    cases hs with
    | stmt hs => exact (hs.not_term h).elim
    | op h' | unreachable h' | ret h' | resume h' | callN h' | startUnwind h' | stopUnwind h' =>
      cases h.inj h'; simp [Terminator.Steps]
    | callR h' | callU h' => cases h.inj h'; simp [Terminator.Steps]
    | switchCase h' e => cases h.inj h'; exact ⟨_, rfl, .inl ⟨_, e, rfl⟩⟩
    | switchFallback h' e => cases h.inj h'; exact ⟨_, rfl, .inr ⟨e, rfl⟩⟩
  · intro hs
    cases t with
    | goto _ => exact hs.elim
    | switch v m f =>
      obtain ⟨j, rfl, ⟨n, e, rfl⟩ | ⟨e, rfl⟩⟩ := hs
      · exact .switchCase h e
      · exact .switchFallback h e
    | unreachable => obtain ⟨rfl, rfl⟩ := hs; exact .unreachable h
    | intrinsic => obtain ⟨rfl, rfl⟩ := hs; exact .op h
    | call =>
      obtain ⟨rfl, rfl⟩ | ⟨n, rfl, rfl, rfl⟩ | ⟨n, rfl, rfl, rfl⟩ := hs
      · exact .callN h
      · exact .callR h
      · exact .callU h
    | «return» => obtain ⟨rfl, rfl⟩ := hs; exact .ret h
    | startUnwind => obtain ⟨rfl, rfl⟩ := hs; exact .startUnwind h
    | stopUnwind => obtain ⟨rfl, rfl⟩ := hs; exact .stopUnwind h
    | resumeUnwind => obtain ⟨rfl, rfl⟩ := hs; exact .resume h

theorem Terminator.exists_step (t : Terminator) (hg : ∀ n, t ≠ .goto n) : ∃ a r, t.Steps a r := by
  cases t with
  | goto n => exact absurd rfl (hg n)
  | switch v m f =>
    cases h : Map.get? m 0 with
    | none => exact ⟨_, _, 0, rfl, .inr ⟨h, rfl⟩⟩
    | some n => exact ⟨_, _, 0, rfl, .inl ⟨n, h, rfl⟩⟩
  | call => exact ⟨_, _, .inl ⟨rfl, rfl⟩⟩
  | _ => exact ⟨_, _, rfl, rfl⟩

theorem direct_term {bl} {c : Code} {p t} (h : TermAt bl p t) (hg : ∀ n, t ≠ .goto n)
    (h1 : ∀ a r, c.Step a r → ∃ r', t.Steps a r' ∧ Match bl r r')
    (h2 : ∀ a r', t.Steps a r' → ∃ r, c.Step a r ∧ Match bl r r') : Direct bl c p :=
  ⟨fun a r hs => by obtain ⟨r', ht, hm⟩ := h1 a r hs; exact ⟨r', h.steps.mpr ht, hm⟩,
   fun a r' hs => h2 a r' (h.steps.mp hs), fun n hn => hg n (h.inj hn), by
    obtain ⟨a, r', hs⟩ := t.exists_step hg
    obtain ⟨r, hs, _⟩ := h2 a r' hs
    exact ⟨a, r, hs⟩⟩

theorem direct_loop {bl : Map BbName BasicBlock} {c : ValueExpr} {body rest d : Code} {cond m b f o a out}
    (hsw : TermAt bl (cond, 0) (.switch (FnBuilder.boolToInt c) m f))
    (h1 : Map.get? m 1 = some b) (hn : ∀ i, i ≠ 1 → Map.get? m i = none)
    (hb : body.Laid bl (b, 0) o) (hj : ∀ q, o = some q → TermAt bl q (.goto cond))
    (hf : TermAt bl (f, 0) (.goto a)) (hr : rest.Laid bl (a, 0) out)
    (hd : ∀ q, out = some q → Sim bl d q) : Direct bl (.while_ c body (rest.append d)) (cond, 0) := by
  have loop : ∀ q, (q = (cond, 0) ∨ TermAt bl q (.goto cond)) → Sim bl (.while_ c body (rest.append d)) q := fun q hq =>
    Sim.seq (c := .while_ c body rest) (o := out)
      (by unfold Code.Laid; exact ⟨cond, m, b, f, o, a, hq, hsw, h1, hn, hb, hj, hf, hr⟩) hd
  have hbody : Sim bl (body.append (.while_ c body (rest.append d))) (b, 0) := .seq hb fun q hq => loop q (.inr (hj q hq))
  have hrest : Sim bl (rest.append d) (f, 0) := .goto hf (.seq hr hd)
  refine direct_term hsw (by intro n h; cases h) ?_ ?_
  · intro x r hs
    cases hs with
    | whileTrue => exact ⟨_, ⟨1, rfl, .inl ⟨_, h1, rfl⟩⟩, hbody⟩
    | whileFalse hi => exact ⟨_, ⟨_, rfl, .inr ⟨hn _ hi, rfl⟩⟩, hrest⟩
  · rintro x r' ⟨j, rfl, ⟨n, e, rfl⟩ | ⟨e, rfl⟩⟩
    · have : j = 1 := Classical.byContradiction fun hj => by rw [hn j hj] at e; cases e
      subst this
      rw [h1] at e; cases e
      exact ⟨_, .whileTrue, hbody⟩
    · have : j ≠ 1 := fun hj => by subst hj; rw [h1] at e; cases e
      exact ⟨_, .whileFalse this, hrest⟩

theorem Sim.poised {bl c p} (h : Sim bl c p) : Poised bl c p := by
  induction h with
  | goto ht hs ih => exact .goto ht hs ih
  | @seq c d p o hl hd ih =>
    cases c with
    | nil => simp only [Code.Laid] at hl; exact ih p hl
    | stmt s rest =>
      simp only [Code.Laid] at hl
      have hm : Sim bl (rest.append d) (p.1, p.2 + 1) := .seq hl.2 hd
      refine .direct ⟨?_, ?_, fun n hn => hl.1.not_term hn, _, _, .stmt⟩
      · intro a r hs; cases hs; exact ⟨_, .stmt hl.1, hm⟩
      · intro a r' hs
        cases hs with
        | stmt h' => cases hl.1.inj h'; exact ⟨_, .stmt, hm⟩
        | _ h' => exact (hl.1.not_term h').elim
    | op o a r rest =>
      simp only [Code.Laid] at hl
      obtain ⟨n, ht, hr⟩ := hl
      have hm : Sim bl (rest.append d) (n, 0) := .seq hr hd
      refine .direct (direct_term ht (by intro n h; cases h) ?_ ?_)
      · intro a r hs; cases hs; exact ⟨_, ⟨rfl, rfl⟩, hm⟩
      · rintro a r' ⟨rfl, rfl⟩; exact ⟨_, .op, hm⟩
    | halt o a r rest =>
      simp only [Code.Laid] at hl
      refine .direct (direct_term hl.1 (by intro n h; cases h) ?_ ?_)
      · intro a r hs; cases hs; exact ⟨_, ⟨rfl, rfl⟩, trivial⟩
      · rintro a r' ⟨rfl, rfl⟩; exact ⟨_, .halt, trivial⟩
    | unreachable rest =>
      simp only [Code.Laid] at hl
      refine .direct (direct_term hl.1 (by intro n h; cases h) ?_ ?_)
      · intro a r hs; cases hs; exact ⟨_, ⟨rfl, rfl⟩, trivial⟩
      · rintro a r' ⟨rfl, rfl⟩; exact ⟨_, .unreachable, trivial⟩
    | ret rest =>
      simp only [Code.Laid] at hl
      refine .direct (direct_term hl.1 (by intro n h; cases h) ?_ ?_)
      · intro a r hs; cases hs; exact ⟨_, ⟨rfl, rfl⟩, trivial⟩
      · rintro a r' ⟨rfl, rfl⟩; exact ⟨_, .ret, trivial⟩
    | resume rest =>
      simp only [Code.Laid] at hl
      refine .direct (direct_term hl.1 (by intro n h; cases h) ?_ ?_)
      · intro a r hs; cases hs; exact ⟨_, ⟨rfl, rfl⟩, trivial⟩
      · rintro a r' ⟨rfl, rfl⟩; exact ⟨_, .resume, trivial⟩
    | callNoret r f a rest =>
      simp only [Code.Laid] at hl
      refine .direct (direct_term hl.1 (by intro n h; cases h) ?_ ?_)
      · intro a r hs; cases hs; exact ⟨_, .inl ⟨rfl, rfl⟩, trivial⟩
      · rintro a r' (⟨rfl, rfl⟩ | ⟨n, h, _⟩ | ⟨n, h, _⟩)
        · exact ⟨_, .callNoret, trivial⟩
        · cases h
        · cases h
    | callNounwind r f a rest =>
      simp only [Code.Laid] at hl
      obtain ⟨n, ht, hr⟩ := hl
      have hm : Sim bl (rest.append d) (n, 0) := .seq hr hd
      refine .direct (direct_term ht (by intro n h; cases h) ?_ ?_)
      · intro a r hs
        cases hs with
        | callNounwindN => exact ⟨_, .inl ⟨rfl, rfl⟩, trivial⟩
        | callNounwind => exact ⟨_, .inr (.inl ⟨_, rfl, rfl, rfl⟩), hm⟩
      · rintro a r' (⟨rfl, rfl⟩ | ⟨n, h, rfl, rfl⟩ | ⟨n, h, _⟩)
        · exact ⟨_, .callNounwindN, trivial⟩
        · cases h; exact ⟨_, .callNounwind, hm⟩
        · cases h
    | call c k handler rest =>
      simp only [Code.Laid] at hl
      obtain ⟨n, u, ht, hh, hr⟩ := hl
      have hm : Sim bl (rest.append d) (n, 0) := .seq hr hd
      have hu : Sim bl handler (u, 0) := by
        have := Sim.seq (bl := bl) (d := .nil) hh (fun q h => by cases h)
        rwa [Code.append_nil] at this
      refine .direct (direct_term ht (by intro n h; cases h) ?_ ?_)
      · intro a r hs
        cases hs with
        | callN => exact ⟨_, .inl ⟨rfl, rfl⟩, trivial⟩
        | callR => exact ⟨_, .inr (.inl ⟨_, rfl, rfl, rfl⟩), hm⟩
        | callU => exact ⟨_, .inr (.inr ⟨_, rfl, rfl, rfl⟩), hu⟩
      · rintro a r' (⟨rfl, rfl⟩ | ⟨n, h, rfl, rfl⟩ | ⟨n, h, rfl, rfl⟩)
        · exact ⟨_, .callN, trivial⟩
        · cases h; exact ⟨_, .callR, hm⟩
        · cases h; exact ⟨_, .callU, hu⟩
    | tryCall c handler rest =>
      simp only [Code.Laid] at hl
      obtain ⟨n, u, cont, o', ht, hg, hh, hs, hr⟩ := hl
      have hm : Sim bl (rest.append d) (n, 0) := .goto hg (.seq hr hd)
      have hu : Sim bl (handler.append (.stop (rest.append d))) (u, 0) := .seq hh fun q hq =>
        Sim.seq (c := .stop rest) (o := o) (by unfold Code.Laid; exact ⟨cont, hs q hq, hr⟩) hd
      refine .direct (direct_term ht (by intro n h; cases h) ?_ ?_)
      · intro a r hs
        cases hs with
        | tryCallN => exact ⟨_, .inl ⟨rfl, rfl⟩, trivial⟩
        | tryCallR => exact ⟨_, .inr (.inl ⟨_, rfl, rfl, rfl⟩), hm⟩
        | tryCallU => exact ⟨_, .inr (.inr ⟨_, rfl, rfl, rfl⟩), hu⟩
      · rintro a r' (⟨rfl, rfl⟩ | ⟨n, h, rfl, rfl⟩ | ⟨n, h, rfl, rfl⟩)
        · exact ⟨_, .tryCallN, trivial⟩
        · cases h; exact ⟨_, .tryCallR, hm⟩
        · cases h; exact ⟨_, .tryCallU, hu⟩
    | startUnwind e k handler rest =>
      simp only [Code.Laid] at hl
      obtain ⟨u, ht, hh, _⟩ := hl
      have hu : Sim bl handler (u, 0) := by
        have := Sim.seq (bl := bl) (d := .nil) hh (fun q h => by cases h)
        rwa [Code.append_nil] at this
      refine .direct (direct_term ht (by intro n h; cases h) ?_ ?_)
      · intro a r hs; cases hs; exact ⟨_, ⟨rfl, rfl⟩, hu⟩
      · rintro a r' ⟨rfl, rfl⟩; exact ⟨_, .startUnwind, hu⟩
    | tryUnwind e handler rest =>
      simp only [Code.Laid] at hl
      obtain ⟨u, cont, o', ht, hh, hs, hr⟩ := hl
      have hu : Sim bl (handler.append (.stop (rest.append d))) (u, 0) := .seq hh fun q hq =>
        Sim.seq (c := .stop rest) (o := o) (by unfold Code.Laid; exact ⟨cont, hs q hq, hr⟩) hd
      refine .direct (direct_term ht (by intro n h; cases h) ?_ ?_)
      · intro a r hs; cases hs; exact ⟨_, ⟨rfl, rfl⟩, hu⟩
      · rintro a r' ⟨rfl, rfl⟩; exact ⟨_, .tryUnwind, hu⟩
    | stop rest =>
      simp only [Code.Laid] at hl
      obtain ⟨n, ht, hr⟩ := hl
      have hm : Sim bl (rest.append d) (n, 0) := .seq hr hd
      refine .direct (direct_term ht (by intro n h; cases h) ?_ ?_)
      · intro a r hs; cases hs; exact ⟨_, ⟨rfl, rfl⟩, hm⟩
      · rintro a r' ⟨rfl, rfl⟩; exact ⟨_, .stop, hm⟩
    | switch v cs f rest =>
      simp only [Code.Laid] at hl
      obtain ⟨m, fb, after, o', ht, hkeys, hcs, hf, hj, hnone, hsome⟩ := hl
      have join : ∀ {body : Code} {o'' n}, body.Laid bl (n, 0) o'' → Joins bl o'' after → Sim bl (body.append (rest.append d)) (n, 0) :=
        fun hb hj => .seq hb fun q hq => by
          obtain ⟨a, ha, ht⟩ := hj q hq
          exact .goto ht (.seq (hsome a ha) hd)
      have hfall : Sim bl (f.append (rest.append d)) (fb, 0) := join hf hj
      refine .direct (direct_term ht (by intro n h; cases h) ?_ ?_)
      · intro a r hs
        cases hs with
        | switchCase hb =>
          obtain ⟨n, o'', hn, hb, hj⟩ := hcs.get hb
          exact ⟨_, ⟨_, rfl, .inl ⟨n, hn, rfl⟩⟩, join hb hj⟩
        | switchFallback hb => exact ⟨_, ⟨_, rfl, .inr ⟨(hkeys _).mpr (Cases.get?_none hb), rfl⟩⟩, hfall⟩
      · rintro a r' ⟨j, rfl, ⟨n, e, rfl⟩ | ⟨e, rfl⟩⟩
        · cases hb : cs.get? j with
          | none => rw [(hkeys j).mpr (Cases.get?_none hb)] at e; cases e
          | some body =>
            obtain ⟨n', o'', hn, hb', hj⟩ := hcs.get hb
            rw [hn] at e; cases e
            exact ⟨_, .switchCase hb, join hb' hj⟩
        · cases hb : cs.get? j with
          | none => exact ⟨_, .switchFallback hb, hfall⟩
          | some body => exact absurd (Cases.get?_some hb) ((hkeys j).mp e)
    | while_ c body rest =>
      simp only [Code.Laid] at hl
      obtain ⟨cond, m, b, f, o', a, hp, hsw, h1, hn, hb, hj, hf, hr⟩ := hl
      have hdir : Direct bl (.while_ c body (rest.append d)) (cond, 0) := direct_loop hsw h1 hn hb hj hf hr hd
      obtain rfl | hp := hp
      · exact .direct hdir
      · refine .goto hp ?_ (.direct hdir)
        exact Sim.seq (c := .while_ c body rest) (o := o)
          (by unfold Code.Laid; exact ⟨cond, m, b, f, o', a, .inl rfl, hsw, h1, hn, hb, hj, hf, hr⟩) hd

theorem Poised.forth {bl} {c : Code} {p} (h : Poised bl c p) {a r} (hs : c.Step a r) :
    ∃ r', Match bl r r' ∧ (∀ p', r' = some p' → ∀ as r'', CfgRun bl p' as r'' → CfgRun bl p (a :: as) r'') ∧
      (r' = none → CfgRun bl p [a] none) := by
  induction h with
  | direct h =>
    obtain ⟨r', hc, hm⟩ := h.1 a r hs
    exact ⟨r', hm, fun p' e as r'' hr => by subst e; exact .cons hc hr, fun e => by subst e; exact .last hc⟩
  | goto ht _ _ ih =>
    obtain ⟨r', hm, h1, h2⟩ := ih
    exact ⟨r', hm, fun p' e as r'' hr => .goto ht (h1 p' e as r'' hr), fun e => .goto ht (h2 e)⟩

theorem Sim.forth {bl} {c : Code} {p as r} (hr : Code.Run c as r) (h : Sim bl c p) : ∃ r', CfgRun bl p as r' ∧ Match bl r r' := by
  induction hr generalizing p with
  | nil => exact ⟨some p, .nil, h⟩
  | last hs =>
    obtain ⟨r', hm, _, h2⟩ := h.poised.forth hs
    cases r' with
    | none => exact ⟨none, h2 rfl, trivial⟩
    | some p' => exact hm.elim
  | cons hs _ ih =>
    obtain ⟨r', hm, h1, _⟩ := h.poised.forth hs
    cases r' with
    | none => exact hm.elim
    | some p' =>
      obtain ⟨r'', hr, hm'⟩ := ih hm
      exact ⟨r'', h1 p' rfl _ _ hr, hm'⟩

theorem Sim.back {bl c p as r} (hr : CfgRun bl p as r) (h : Sim bl c p) : ∃ r', Code.Run c as r' ∧ Match bl r' r := by
  induction hr generalizing c with
  | nil => exact ⟨some c, .nil, h⟩
  | last hs =>
    cases h.poised with
    | direct hd =>
      obtain ⟨r', hc, hm⟩ := hd.2.1 _ _ hs
      cases r' with
      | none => exact ⟨none, .last hc, trivial⟩
      | some c' => exact hm.elim
    | goto ht => exact absurd (ht.steps.mp hs) id
  | cons hs _ ih =>
    cases h.poised with
    | direct hd =>
      obtain ⟨r', hc, hm⟩ := hd.2.1 _ _ hs
      cases r' with
      | none => exact hm.elim
      | some c' =>
        obtain ⟨r'', hr, hm'⟩ := ih hm
        exact ⟨r'', .cons hc hr, hm'⟩
    | goto ht => exact absurd (ht.steps.mp hs) id
  | goto ht _ ih =>
    cases h.poised with
    | direct hd => exact absurd ht (hd.2.2.1 _)
    | goto ht' hs =>
      cases ht.inj ht'
      exact ih hs

theorem Poised.progress {bl} {c : Code} {p} (h : Poised bl c p) : ∃ a r, c.Step a r := by
  induction h with
  | direct h => exact h.2.2.2
  | goto _ _ _ ih => exact ih

end MiniRust
