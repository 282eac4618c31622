import Verif.Spec.Recode
import Verif.Lemmas.Eval
import Verif.Lemmas.Threads2
/-
Programs whose code has been changed run in the same way.
-/
set_option linter.unusedSectionVars false
namespace MiniRust

section
variable [T : Target] {M P F α β γ δ : Type} [Memory M P F] [DecidableEq P]
variable {V : Function → BbName → Prop} {σ : BbName → BbName}

/-- The action with its targets renamed. -/
def StackPopAction.rename (σ : BbName → BbName) : StackPopAction P → StackPopAction P
  | .bottomOfStack => .bottomOfStack
  | .backToCaller n u p => .backToCaller (n.map σ) (u.map σ) p

/-- Frames that are at the same place of a function and of its recoded version. -/
structure FrameRel (V : Function → BbName → Prop) (σ : BbName → BbName) (fr fr' : StackFrame P F) : Prop where
  func : Function.Recoded V σ fr.func fr'.func
  eq : fr' = { fr with func := fr'.func, stackPopAction := fr.stackPopAction.rename σ, nextBlock := σ fr.nextBlock }

/-- Threads that are at the same place. -/
structure ThreadRel (V : Function → BbName → Prop) (σ : BbName → BbName) (th th' : Thread P F) : Prop where
  stack : List.Forall₂ (FrameRel V σ) th.stack th'.stack
  eq : th' = { th with stack := th'.stack }

/-- The second machine runs the recoded program, and is otherwise in the same state. -/
structure MRel (V : Function → BbName → Prop) (σ : BbName → BbName) (s s' : Machine M P F) : Prop where
  functions : List.Forall₂ (fun x y => y.1 = x.1 ∧ Function.Recoded V σ x.2 y.2) s.prog.functions s'.prog.functions
  threads : List.Forall₂ (ThreadRel V σ) s.threads s'.threads
  eq : s' = { s with prog := { s.prog with functions := s'.prog.functions }, threads := s'.threads }

/-- Results of related computations. -/
inductive RR (V : Function → BbName → Prop) (σ : BbName → BbName) (R : α → β → Prop) :
    Res (α × Machine M P F) → Res (β × Machine M P F) → Prop
  | ok {a b t t'} : R a b → MRel V σ t t' → RR V σ R (.ok (a, t)) (.ok (b, t'))
  | error (e) : RR V σ R (.error e) (.error e)

/-- Related computations. -/
def RSim (V : Function → BbName → Prop) (σ : BbName → BbName) (R : α → β → Prop) (x : EM M P F α) (y : EM M P F β) : Prop :=
  ∀ s s', MRel V σ s s' → RR V σ R (x s) (y s')

/-- Computations that do the same on both machines. -/
def Same (V : Function → BbName → Prop) (σ : BbName → BbName) (x : EM M P F α) : Prop := RSim V σ Eq x x

namespace RSim
variable {R : α → β → Prop} {Q : γ → δ → Prop} {x : EM M P F α} {y : EM M P F β}

theorem bind {f : α → EM M P F γ} {g : β → EM M P F δ} (h : RSim V σ R x y) (hf : ∀ a b, R a b → RSim V σ Q (f a) (g b)) :
    RSim V σ Q (x >>= f) (y >>= g) := by
  intro s s' hs
  have h := h s s' hs
  show RR V σ Q (match x s with | .ok (a, s') => f a s' | .error e => .error e) (match y s' with | .ok (a, s') => g a s' | .error e => .error e)
  cases hx : x s <;> cases hy : y s' <;> rw [hx, hy] at h
  · cases h; exact .error _
  · cases h
  · cases h
  · cases h with
    | ok h1 h2 => exact hf _ _ h1 _ _ h2

theorem pure {a : α} {b : β} (h : R a b) : RSim V σ R (pure a : EM M P F α) (Pure.pure b) := fun _ _ hs => .ok h hs
theorem throw {e : Err} : RSim V σ R (EM.throw e : EM M P F α) (EM.throw e) := fun _ _ _ => .error e

theorem read {f : Machine M P F → Res α} {g : Machine M P F → Res β}
    (h : ∀ s s' : Machine M P F, MRel V σ s s' → (∃ a b, f s = .ok a ∧ g s' = .ok b ∧ R a b) ∨ ∃ e, f s = .error e ∧ g s' = .error e) :
    RSim V σ R (EM.read f) (EM.read g) := by
  intro s s' hs
  rcases h s s' hs with ⟨a, b, h1, h2, h3⟩ | ⟨e, h1, h2⟩
  · rw [EM.read_of_ok h1, EM.read_of_ok h2]; exact .ok h3 hs
  · rw [EM.read_of_error h1, EM.read_of_error h2]; exact .error e

theorem modify {f g : Machine M P F → Machine M P F} (h : ∀ s s', MRel V σ s s' → MRel V σ (f s) (g s')) :
    RSim V σ Eq (EM.modify f) (EM.modify g) := fun s s' hs => .ok rfl (h s s' hs)

theorem ite {c : Prop} [Decidable c] {x' : EM M P F α} {y' : EM M P F β} (h1 : RSim V σ R x y) (h2 : RSim V σ R x' y') :
    RSim V σ R (if c then x else x') (if c then y else y') := by split <;> assumption

theorem ite' {c c' : Prop} [Decidable c] [Decidable c'] {x' : EM M P F α} {y' : EM M P F β} (hc : c ↔ c') (h1 : RSim V σ R x y) (h2 : RSim V σ R x' y') :
    RSim V σ R (if c then x else x') (if c' then y else y') := by
  by_cases h : c
  · rw [if_pos h, if_pos (hc.1 h)]; exact h1
  · rw [if_neg h, if_neg fun h' => h (hc.2 h')]; exact h2

end RSim

namespace Same
variable {x : EM M P F α} {f : α → EM M P F β}

/-- Computations that neither look at the functions and threads nor change them. -/
theorem indep (hx : ∀ s fs ts, x { s with prog := { s.prog with functions := fs }, threads := ts } =
    (x s).map fun r => (r.1, { r.2 with prog := { r.2.prog with functions := fs }, threads := ts })) : Same V σ x := by
  intro s s' hs
  have h0 := hx s s.prog.functions s.threads
  change x s = _ at h0
  have h1 := hx s s'.prog.functions s'.threads
  rw [← hs.eq] at h1
  rw [h1]
  cases h : x s with
  | error e => exact .error e
  | ok r =>
    obtain ⟨a, t⟩ := r
    rw [h] at h0
    injection h0 with h0
    injection h0 with _ h0
    refine .ok rfl ⟨?_, ?_, rfl⟩
    · rw [show t.prog.functions = s.prog.functions by rw [h0]]; exact hs.functions
    · rw [show t.threads = s.threads by rw [h0]]; exact hs.threads

theorem pure {a : α} : Same V σ (pure a : EM M P F α) := RSim.pure rfl
theorem throw {e : Err} : Same V σ (EM.throw e : EM M P F α) := RSim.throw
theorem bind (hx : Same V σ x) (hf : ∀ a, Same V σ (f a)) : Same V σ (x >>= f) :=
  RSim.bind hx fun a b h => by subst h; exact hf a

theorem lift {r : Res α} : Same V σ (EM.lift r : EM M P F α) := .indep fun _ _ _ => by cases r <;> rfl

theorem read {g : Machine M P F → Res α}
    (hg : ∀ s fs ts, g { s with prog := { s.prog with functions := fs }, threads := ts } = g s) : Same V σ (EM.read g) :=
  .indep fun s fs ts => by
    unfold EM.read
    rw [hg]; cases g s <;> rfl

theorem readBind {g : Machine M P F → Res α}
    (hg : ∀ s fs ts, g { s with prog := { s.prog with functions := fs }, threads := ts } = g s)
    (hf : ∀ a, Same V σ (f a)) : Same V σ (fun s => g s >>= fun a => f a s) := by
  have : (fun s => g s >>= fun a => f a s) = (EM.read g >>= f : EM M P F β) := by
    funext s
    cases h : g s with
    | error e => symm; exact EM.bind_of_error (EM.read_of_error h)
    | ok a => symm; exact EM.bind_of_ok (EM.read_of_ok h)
  rw [this]
  exact .bind (.read hg) hf

theorem modify {g : Machine M P F → Machine M P F}
    (hg : ∀ s fs ts, g { s with prog := { s.prog with functions := fs }, threads := ts } =
      { g s with prog := { (g s).prog with functions := fs }, threads := ts }) : Same V σ (EM.modify g) :=
  .indep fun s fs ts => by
    show Except.ok ((), g _) = .ok ((), _)
    rw [hg]

theorem ite {c : Prop} [Decidable c] {y : EM M P F α} (h1 : Same V σ x) (h2 : Same V σ y) :
    Same V σ (if c then x else y) := by split <;> assumption

theorem unwrapRes (hx : Same V σ x) : Same V σ (EM.unwrapRes x) := by
  intro s s' hs
  have h := hx s s' hs
  unfold EM.unwrapRes
  cases h1 : x s <;> cases h2 : x s' <;> rw [h1, h2] at h
  · cases h
    rename_i e
    cases e <;> exact .error _
  · cases h
  · cases h
  · cases h with
    | ok g1 g2 => exact .ok g1 g2
end Same

/-! ### Threads and frames -/

section
variable {R : α → β → Prop}

theorem rel_getElem? {l : List α} {l' : List β} (h : List.Forall₂ R l l') (i : Nat) :
    (l[i]? = none ∧ l'[i]? = none) ∨ ∃ a b, l[i]? = some a ∧ l'[i]? = some b ∧ R a b := by
  induction h generalizing i with
  | nil => exact .inl ⟨rfl, rfl⟩
  | cons h _ ih =>
    cases i with
    | zero => exact .inr ⟨_, _, rfl, rfl, h⟩
    | succ i => exact ih i

theorem rel_set {l : List α} {l' : List β} (h : List.Forall₂ R l l') {a b} (hab : R a b) (i : Nat) :
    List.Forall₂ R (l.set i a) (l'.set i b) := by
  induction h generalizing i with
  | nil => exact .nil
  | cons h h' ih =>
    cases i with
    | zero => exact .cons hab h'
    | succ i => exact .cons h (ih i)

theorem rel_append {l₁ l₂ : List α} {l₁' l₂' : List β} (h₁ : List.Forall₂ R l₁ l₁') (h₂ : List.Forall₂ R l₂ l₂') :
    List.Forall₂ R (l₁ ++ l₂) (l₁' ++ l₂') := by
  induction h₁ with
  | nil => exact h₂
  | cons h _ ih => exact .cons h ih

theorem rel_index {l : List α} {l' : List β} (h : List.Forall₂ R l l') (i : Nat) :
    (∃ a b, index l i = .ok a ∧ index l' i = .ok b ∧ R a b) ∨ ∃ e, index l i = .error e ∧ index l' i = .error e := by
  unfold index
  rcases rel_getElem? h i with ⟨h1, h2⟩ | ⟨a, b, h1, h2, h3⟩
  · rw [h1, h2]; exact .inr ⟨_, rfl, rfl⟩
  · rw [h1, h2]; exact .inl ⟨a, b, rfl, rfl, h3⟩

end

namespace MRel
variable {s s' : Machine M P F}

theorem activeThread (h : MRel V σ s s') : s'.activeThread = s.activeThread := by rw [h.eq]
theorem locks (h : MRel V σ s s') : s'.locks = s.locks := by rw [h.eq]
theorem fnPtrs (h : MRel V σ s s') : s'.fnPtrs = s.fnPtrs := by rw [h.eq]
theorem synchronizedThreads (h : MRel V σ s s') : s'.synchronizedThreads = s.synchronizedThreads := by rw [h.eq]

theorem getActive (h : MRel V σ s s') :
    (∃ a b, s.getActive = .ok a ∧ s'.getActive = .ok b ∧ ThreadRel V σ a b) ∨ ∃ e, s.getActive = .error e ∧ s'.getActive = .error e := by
  unfold Machine.getActive
  rw [h.activeThread]
  exact rel_index h.threads _

theorem curFrame (h : MRel V σ s s') :
    (∃ a b, s.curFrame = .ok a ∧ s'.curFrame = .ok b ∧ FrameRel V σ a b) ∨ ∃ e, s.curFrame = .error e ∧ s'.curFrame = .error e := by
  unfold Machine.curFrame
  rcases h.getActive with ⟨a, b, h1, h2, h3⟩ | ⟨e, h1, h2⟩
  · rw [h1, h2]
    show (∃ _ _, a.curFrame = _ ∧ b.curFrame = _ ∧ _) ∨ ∃ _, a.curFrame = _ ∧ b.curFrame = _
    unfold Thread.curFrame
    have := h3.stack
    cases ha : a.stack <;> cases hb : b.stack <;> rw [ha, hb] at this
    · exact .inr ⟨_, rfl, rfl⟩
    · cases this
    · cases this
    · cases this with
      | cons h _ => exact .inl ⟨_, _, rfl, rfl, h⟩
  · rw [h1, h2]; exact .inr ⟨_, rfl, rfl⟩

theorem setActive (h : MRel V σ s s') {a b} (hab : ThreadRel V σ a b) : MRel V σ (s.setActive a) (s'.setActive b) := by
  refine ⟨h.functions, ?_, ?_⟩
  · show List.Forall₂ _ (s.threads.set s.activeThread a) (s'.threads.set s'.activeThread b)
    rw [h.activeThread]
    exact rel_set h.threads hab _
  · unfold Machine.setActive
    conv_lhs => rw [h.eq]
    rw [h.activeThread]

end MRel

theorem ThreadRel.setCurFrame {a b : Thread P F} (h : ThreadRel V σ a b) {fr fr'} (hf : FrameRel V σ fr fr') :
    (∃ c d, a.setCurFrame fr = .ok c ∧ b.setCurFrame fr' = .ok d ∧ ThreadRel V σ c d) ∨ ∃ e, a.setCurFrame fr = .error e ∧ b.setCurFrame fr' = .error e := by
  unfold Thread.setCurFrame
  have h1 := h.stack
  cases ha : a.stack <;> cases hb : b.stack <;> rw [ha, hb] at h1
  · exact .inr ⟨_, rfl, rfl⟩
  · cases h1
  · cases h1
  · cases h1 with
    | cons _ h2 => exact .inl ⟨_, _, rfl, rfl, .cons hf h2, by rw [h.eq]⟩

theorem RSim.lift {R : α → β → Prop} {r : Res α} {r' : Res β} (h : (∃ a b, r = .ok a ∧ r' = .ok b ∧ R a b) ∨ ∃ e, r = .error e ∧ r' = .error e) :
    RSim V σ R (EM.lift r : EM M P F α) (EM.lift r') := by
  intro s s' hs
  rcases h with ⟨a, b, rfl, rfl, h⟩ | ⟨e, rfl, rfl⟩
  · exact .ok h hs
  · exact .error e

theorem RSim.lift_eq {r r' : Res α} (h : r' = r) : RSim V σ Eq (EM.lift r : EM M P F α) (EM.lift r') := by
  subst h; exact Same.lift

theorem RSim.getActive : RSim V σ (ThreadRel V σ) (EM.read (·.getActive) : EM M P F _) (EM.read (·.getActive)) :=
  .read fun _ _ h => h.getActive

theorem RSim.curFrame : RSim V σ (FrameRel V σ) (EM.read (·.curFrame) : EM M P F _) (EM.read (·.curFrame)) :=
  .read fun _ _ h => h.curFrame

theorem RSim.setActive {a b : Thread P F} (h : ThreadRel V σ a b) :
    RSim V σ Eq (EM.modify (·.setActive a) : EM M P F Unit) (EM.modify (·.setActive b)) :=
  .modify fun _ _ hs => hs.setActive h

theorem RSim.mutateCurFrame {f g : StackFrame P F → EM M P F (α × StackFrame P F)}
    (hf : ∀ fr fr', FrameRel V σ fr fr' → RSim V σ (fun a b => a.1 = b.1 ∧ FrameRel V σ a.2 b.2) (f fr) (g fr')) :
    RSim V σ Eq (mutateCurFrame f) (mutateCurFrame g) := by
  unfold MiniRust.mutateCurFrame
  exact .bind .curFrame fun _ _ h => .bind (hf _ _ h) fun _ _ h => .bind .getActive fun _ _ h1 =>
    .bind (.lift (h1.setCurFrame h.2)) fun _ _ h2 => .bind (.setActive h2) fun _ _ _ => .pure h.1

namespace FrameRel
variable {fr fr' : StackFrame P F}
theorem locals (h : FrameRel V σ fr fr') : fr'.locals = fr.locals := by rw [h.eq]
theorem extra (h : FrameRel V σ fr fr') : fr'.extra = fr.extra := by rw [h.eq]
theorem nextStmt (h : FrameRel V σ fr fr') : fr'.nextStmt = fr.nextStmt := by rw [h.eq]
theorem nextBlock (h : FrameRel V σ fr fr') : fr'.nextBlock = σ fr.nextBlock := by rw [h.eq]
theorem stackPopAction (h : FrameRel V σ fr fr') : fr'.stackPopAction = fr.stackPopAction.rename σ := by rw [h.eq]
theorem localLayout (h : FrameRel V σ fr fr') {l} : fr'.localLayout l = fr.localLayout l := by
  unfold StackFrame.localLayout; rw [h.func.locals]
theorem withLocals (h : FrameRel V σ fr fr') {m} : FrameRel V σ { fr with locals := m } { fr' with locals := m } :=
  ⟨h.func, by rw [h.eq]⟩
theorem withExtra (h : FrameRel V σ fr fr') {m : F} : FrameRel V σ { fr with extra := m } { fr' with extra := m } :=
  ⟨h.func, by rw [h.eq]⟩
theorem withStmt (h : FrameRel V σ fr fr') {m} : FrameRel V σ { fr with nextStmt := m } { fr' with nextStmt := m } :=
  ⟨h.func, by rw [h.eq]⟩
theorem jump (h : FrameRel V σ fr fr') {b} : FrameRel V σ (fr.jumpToBlock b) (fr'.jumpToBlock (σ b)) :=
  ⟨h.func, by unfold StackFrame.jumpToBlock; rw [h.eq]⟩
end FrameRel

end
end MiniRust
