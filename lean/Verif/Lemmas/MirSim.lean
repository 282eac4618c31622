import Verif.Spec.Mir
import Verif.Lemmas.BuilderSim
/-
How the blocks of a MIR body lie in a control flow graph, and that the graph then behaves like the body.
-/
namespace MiniRust

/-- What is left to do lies in the blocks, starting at the position; the first `n` blocks are those of the body. -/
def Todo.Laid (bl : Map BbName BasicBlock) (n : Nat) : Todo → Pos → Prop
  | .goto b, p => TermAt bl p (.goto b) ∧ b < n
  | .stmt s rest, p => StmtAt bl p s ∧ (rest.Laid bl n (p.1, p.2 + 1) ∨
      ∃ b, TermAt bl (p.1, p.2 + 1) (.goto b) ∧ rest.Laid bl n (b, 0))
  | .op o a r next, p => ∃ nx, TermAt bl p (.intrinsic o a r nx) ∧ (nx = none → next = .absent) ∧
      ∀ b, nx = some b → (next = .goto b ∧ b < n) ∨ next.Laid bl n (b, 0) ∨
        ∃ b', TermAt bl (b, 0) (.goto b') ∧ next.Laid bl n (b', 0)
  | .unreachable, p => TermAt bl p .unreachable
  | .ret, p => TermAt bl p .return
  | .resume, p => TermAt bl p .resumeUnwind
  | .call c next unwind, p => ∃ nx u, TermAt bl p (.call c.callee c.conv c.args c.ret nx u) ∧ (nx = none → next = .absent) ∧
      (∀ b, nx = some b → (next = .goto b ∧ b < n) ∨ next.Laid bl n (b, 0)) ∧ (u = none → unwind = .absent) ∧
      ∀ b, u = some b → (unwind = .goto b ∧ b < n) ∨ unwind.Laid bl n (b, 0)
  | .drop c next _, p => ∃ b, TermAt bl p (.call c.callee c.conv c.args c.ret (some b) none) ∧
      ((next = .goto b ∧ b < n) ∨ next.Laid bl n (b, 0))
  | .startUnwind e h, p => ∃ b, TermAt bl p (.startUnwind e b) ∧ ((h = .goto b ∧ b < n) ∨ h.Laid bl n (b, 0))
  | .stopUnwind next, p => ∃ b, TermAt bl p (.stopUnwind b) ∧ ((next = .goto b ∧ b < n) ∨ next.Laid bl n (b, 0))
  | .switch v cs f, p => ∃ m fb, TermAt bl p (.switch v m fb) ∧ (∀ i, Map.get? m i = caseOf cs i) ∧
      (∀ i b, caseOf cs i = some b → b < n) ∧ ((f = .goto fb ∧ fb < n) ∨ f.Laid bl n (fb, 0))
  | .absent, _ => False

/-- It lies at the position, or behind a jump there. -/
def Todo.Starts (bl : Map BbName BasicBlock) (n : Nat) (t : Todo) (p : Pos) : Prop :=
  t.Laid bl n p ∨ ∃ b, TermAt bl p (.goto b) ∧ t.Laid bl n (b, 0)

/-- The position is where the rest lies, or the start of the block it goes to. -/
def Todo.At (bl : Map BbName BasicBlock) (n : Nat) (t : Todo) (p : Pos) : Prop :=
  (∃ b, t = .goto b ∧ b < n ∧ p = (b, 0)) ∨ t.Starts bl n p

theorem Todo.At.mk {bl n} {t : Todo} {b : Nat} (h : (t = .goto b ∧ b < n) ∨ t.Laid bl n (b, 0)) : t.At bl n (b, 0) := by
  rcases h with ⟨h1, h2⟩ | h
  · exact .inl ⟨b, h1, h2, rfl⟩
  · exact .inr (.inl h)

theorem Todo.At.mk' {bl n} {t : Todo} {b : Nat} (h : (t = .goto b ∧ b < n) ∨ t.Starts bl n (b, 0)) : t.At bl n (b, 0) := by
  rcases h with ⟨h1, h2⟩ | h
  · exact .inl ⟨b, h1, h2, rfl⟩
  · exact .inr h

theorem Todo.At.ne_absent {bl n} {t : Todo} {p} (h : t.At bl n p) : t ≠ .absent := by
  rintro rfl
  rcases h with ⟨b, h, _⟩ | h | ⟨b, _, h⟩
  · cases h
  · exact h
  · exact h

theorem Todo.opt_of_ne {t : Todo} (h : t ≠ .absent) : t.opt = some t := by
  cases t <;> first | rfl | exact absurd rfl h

def MatchTodo (bl : Map BbName BasicBlock) (n : Nat) : Option Todo → Option Pos → Prop
  | none, none => True
  | some t, some p => t.At bl n p
  | _, _ => False

/-- Away from jumps, steps correspond. -/
theorem Todo.Laid.steps {bl n} {t : Todo} {p} (h : t.Laid bl n p) (hg : ∀ b, t ≠ .goto b) :
    (∀ a r, t.Step false a r → ∃ r', CfgStep bl p a r' ∧ MatchTodo bl n r r') ∧
    (∀ a r', CfgStep bl p a r' → ∃ r, t.Step false a r ∧ MatchTodo bl n r r') ∧ ∀ b, ¬ TermAt bl p (.goto b) := by
  cases t with
  | goto b => exact absurd rfl (hg b)
  | absent => exact h.elim
  | stmt s rest =>
    simp only [Todo.Laid] at h
    refine ⟨fun a r hs => ?_, fun a r' hs => ?_, fun b hb => h.1.not_term hb⟩
    · cases hs; exact ⟨_, .stmt h.1, .inr h.2⟩
    · cases hs with
      | stmt h' => cases h.1.inj h'; exact ⟨_, .stmt, .inr h.2⟩
      | _ h' => exact (h.1.not_term h').elim
  | op o a r next =>
    simp only [Todo.Laid] at h
    obtain ⟨nx, ht, h1, h2⟩ := h
    have hm : MatchTodo bl n next.opt (nx.map fun b => (b, 0)) := by
      cases nx with
      | none => rw [h1 rfl]; trivial
      | some b =>
        have := Todo.At.mk' (h2 b rfl)
        rw [Todo.opt_of_ne this.ne_absent]; exact this
    refine ⟨fun a r hs => ?_, fun a r' hs => ?_, fun b hb => by cases ht.inj hb⟩
    · cases hs; exact ⟨_, .op ht, hm⟩
    · obtain ⟨rfl, rfl⟩ := ht.steps.mp hs
      exact ⟨_, .op, hm⟩
  | unreachable =>
    simp only [Todo.Laid] at h
    refine ⟨fun a r hs => ?_, fun a r' hs => ?_, fun b hb => by cases h.inj hb⟩
    · cases hs; exact ⟨_, .unreachable h, trivial⟩
    · obtain ⟨rfl, rfl⟩ := h.steps.mp hs; exact ⟨_, .unreachable, trivial⟩
  | ret =>
    simp only [Todo.Laid] at h
    refine ⟨fun a r hs => ?_, fun a r' hs => ?_, fun b hb => by cases h.inj hb⟩
    · cases hs; exact ⟨_, .ret h, trivial⟩
    · obtain ⟨rfl, rfl⟩ := h.steps.mp hs; exact ⟨_, .ret, trivial⟩
  | resume =>
    simp only [Todo.Laid] at h
    refine ⟨fun a r hs => ?_, fun a r' hs => ?_, fun b hb => by cases h.inj hb⟩
    · cases hs; exact ⟨_, .resume h, trivial⟩
    · obtain ⟨rfl, rfl⟩ := h.steps.mp hs; exact ⟨_, .resume, trivial⟩
  | call c next unwind =>
    simp only [Todo.Laid] at h
    obtain ⟨nx, u, ht, h1, h2, h3, h4⟩ := h
    refine ⟨fun a r hs => ?_, fun a r' hs => ?_, fun b hb => by cases ht.inj hb⟩
    · cases hs with
      | callN => exact ⟨_, .callN ht, trivial⟩
      | callR hne =>
        cases nx with
        | none => exact absurd (h1 rfl) hne
        | some b => exact ⟨_, .callR ht, .mk (h2 b rfl)⟩
      | callU hne =>
        cases u with
        | none => exact absurd (h3 rfl) hne
        | some b => exact ⟨_, .callU ht, .mk (h4 b rfl)⟩
    · rcases ht.steps.mp hs with ⟨rfl, rfl⟩ | ⟨b, rfl, rfl, rfl⟩ | ⟨b, rfl, rfl, rfl⟩
      · exact ⟨_, .callN, trivial⟩
      · exact ⟨_, .callR (Todo.At.mk (h2 b rfl)).ne_absent, .mk (h2 b rfl)⟩
      · exact ⟨_, .callU (Todo.At.mk (h4 b rfl)).ne_absent, .mk (h4 b rfl)⟩
  | drop c next unwind =>
    simp only [Todo.Laid] at h
    obtain ⟨b, ht, h1⟩ := h
    refine ⟨fun a r hs => ?_, fun a r' hs => ?_, fun b hb => by cases ht.inj hb⟩
    · cases hs with
      | dropN => exact ⟨_, .callN ht, trivial⟩
      | dropR => exact ⟨_, .callR ht, .mk h1⟩
      | dropU h => cases h
    · rcases ht.steps.mp hs with ⟨rfl, rfl⟩ | ⟨b, h, rfl, rfl⟩ | ⟨b, h, rfl, rfl⟩
      · exact ⟨_, .dropN, trivial⟩
      · cases h; exact ⟨_, .dropR, .mk h1⟩
      · cases h
  | startUnwind e hd =>
    simp only [Todo.Laid] at h
    obtain ⟨b, ht, h1⟩ := h
    refine ⟨fun a r hs => ?_, fun a r' hs => ?_, fun b hb => by cases ht.inj hb⟩
    · cases hs; exact ⟨_, .startUnwind ht, .mk h1⟩
    · obtain ⟨rfl, rfl⟩ := ht.steps.mp hs; exact ⟨_, .startUnwind, .mk h1⟩
  | stopUnwind next =>
    simp only [Todo.Laid] at h
    obtain ⟨b, ht, h1⟩ := h
    refine ⟨fun a r hs => ?_, fun a r' hs => ?_, fun b hb => by cases ht.inj hb⟩
    · cases hs; exact ⟨_, .stopUnwind ht, .mk h1⟩
    · obtain ⟨rfl, rfl⟩ := ht.steps.mp hs; exact ⟨_, .stopUnwind, .mk h1⟩
  | switch v cs f =>
    simp only [Todo.Laid] at h
    obtain ⟨m, fb, ht, hm, hlt, h1⟩ := h
    refine ⟨fun a r hs => ?_, fun a r' hs => ?_, fun b hb => by cases ht.inj hb⟩
    · cases hs with
      | switchCase hc => exact ⟨_, .switchCase ht (by rw [hm]; exact hc), .inl ⟨_, rfl, hlt _ _ hc, rfl⟩⟩
      | switchFallback hc => exact ⟨_, .switchFallback ht (by rw [hm]; exact hc), .mk h1⟩
    · obtain ⟨j, rfl, ⟨b, e, rfl⟩ | ⟨e, rfl⟩⟩ := ht.steps.mp hs
      · rw [hm] at e; exact ⟨_, .switchCase e, .inl ⟨_, rfl, hlt _ _ e, rfl⟩⟩
      · rw [hm] at e; exact ⟨_, .switchFallback e, .mk h1⟩

theorem Todo.At.forth {bl n} {m : Nat → Option Todo} (hm : ∀ b, b < n → ∃ t, m b = some t ∧ t.Starts bl n (b, 0)) {t as r}
    (hr : MirRun false m t as r) : ∀ {p}, t.At bl n p → ∃ r', CfgRun bl p as r' ∧ MatchTodo bl n r r' := by
  have enter : ∀ {t : Todo} {p as r}, (∀ {p}, t.Laid bl n p → ∃ r', CfgRun bl p as r' ∧ MatchTodo bl n r r') →
      t.Starts bl n p → ∃ r', CfgRun bl p as r' ∧ MatchTodo bl n r r' := by
    intro t p as r hyp h
    rcases h with h | ⟨b, ht, h⟩
    · exact hyp h
    · obtain ⟨r', h1, h2⟩ := hyp h
      exact ⟨r', .goto ht h1, h2⟩
  induction hr with
  | nil => exact fun h => ⟨_, .nil, h⟩
  | @last t a hs =>
    intro p h
    rcases h with ⟨b, rfl, _⟩ | h
    · cases hs
    · refine enter (fun {p} h => ?_) h
      obtain ⟨r', h1, h2⟩ := (h.steps (by rintro b rfl; cases hs)).1 _ _ hs
      cases r' with
      | none => exact ⟨none, .last h1, trivial⟩
      | some _ => exact h2.elim
  | @cons t a t' as r hs _ ih =>
    intro p h
    rcases h with ⟨b, rfl, _⟩ | h
    · cases hs
    · refine enter (fun {p} h => ?_) h
      obtain ⟨r', h1, h2⟩ := (h.steps (by rintro b rfl; cases hs)).1 _ _ hs
      cases r' with
      | none => exact h2.elim
      | some q =>
        obtain ⟨r'', h3, h4⟩ := ih h2
        exact ⟨r'', .cons h1 h3, h4⟩
  | @goto b t as r hb _ ih =>
    intro p h
    have key : ∀ {b'}, b = b' → b' < n → ∃ r', CfgRun bl (b', 0) as r' ∧ MatchTodo bl n r r' := by
      rintro _ rfl hlt
      obtain ⟨t', ht', hl⟩ := hm b hlt
      rw [hb] at ht'; cases ht'
      exact ih (.inr hl)
    rcases h with ⟨b', e, hlt, rfl⟩ | h
    · exact key (by cases e; rfl) hlt
    · refine enter (fun {p} h => ?_) h
      simp only [Todo.Laid] at h
      obtain ⟨r', h1, h2⟩ := key rfl h.2
      exact ⟨r', .goto h.1 h1, h2⟩

theorem Todo.At.back {bl n} {m : Nat → Option Todo} (hm : ∀ b, b < n → ∃ t, m b = some t ∧ t.Starts bl n (b, 0)) {p as r}
    (hr : CfgRun bl p as r) : ∀ {t : Todo}, t.At bl n p → ∃ r', MirRun false m t as r' ∧ MatchTodo bl n r' r := by
  have enter : ∀ {t : Todo} {p} {as : List Act} {r}, (∀ {t : Todo}, t.Starts bl n p → ∃ r', MirRun false m t as r' ∧ MatchTodo bl n r' r) →
      t.At bl n p → ∃ r', MirRun false m t as r' ∧ MatchTodo bl n r' r := by
    intro t p as r hyp h
    rcases h with ⟨b, rfl, hlt, rfl⟩ | h
    · obtain ⟨t, ht, hl⟩ := hm b hlt
      obtain ⟨r', h1, h2⟩ := hyp hl
      exact ⟨r', .goto ht h1, h2⟩
    · exact hyp h
  induction hr with
  | nil => exact fun h => ⟨_, .nil, h⟩
  | @last p a hs =>
    intro t h
    refine enter (fun {t} h => ?_) h
    rcases h with h | ⟨b, ht, _⟩
    · by_cases hg : ∃ b, t = .goto b
      · obtain ⟨b, rfl⟩ := hg
        simp only [Todo.Laid] at h
        exact (h.1.steps.mp hs).elim
      · obtain ⟨r', h1, h2⟩ := (h.steps fun b e => hg ⟨b, e⟩).2.1 _ _ hs
        cases r' with
        | none => exact ⟨none, .last h1, trivial⟩
        | some _ => exact h2.elim
    · exact (ht.steps.mp hs).elim
  | @cons p a p' as r hs _ ih =>
    intro t h
    refine enter (fun {t} h => ?_) h
    rcases h with h | ⟨b, ht, _⟩
    · by_cases hg : ∃ b, t = .goto b
      · obtain ⟨b, rfl⟩ := hg
        simp only [Todo.Laid] at h
        exact (h.1.steps.mp hs).elim
      · obtain ⟨r', h1, h2⟩ := (h.steps fun b e => hg ⟨b, e⟩).2.1 _ _ hs
        cases r' with
        | none => exact h2.elim
        | some t' =>
          obtain ⟨r'', h3, h4⟩ := ih h2
          exact ⟨r'', .cons h1 h3, h4⟩
    · exact (ht.steps.mp hs).elim
  | @goto p b as r ht _ ih =>
    intro t h
    refine enter (fun {t} h => ?_) h
    rcases h with h | ⟨b', ht', h⟩
    · by_cases hg : ∃ b, t = .goto b
      · obtain ⟨b', rfl⟩ := hg
        simp only [Todo.Laid] at h
        cases ht.inj h.1
        exact ih (.inl ⟨b, rfl, h.2, rfl⟩)
      · exact absurd ht ((h.steps fun b e => hg ⟨b, e⟩).2.2 b)
    · cases ht.inj ht'
      exact ih (.inr (.inl h))

end MiniRust
