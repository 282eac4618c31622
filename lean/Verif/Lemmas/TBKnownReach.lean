import Verif.Lemmas.TBKnownStep
import Verif.Lemmas.Threads2
/-
Executions under Tree Borrows: what holds in all their states, and how they relate to executions under the memory
models that check more and less.
-/
namespace MiniRust
namespace TB
variable [T : Target] {prog : Program} {s s' s0 : Mach}

theorem wf_empty {oracle} : Wf [] (Machine.empty prog oracle : Mach) where
  reach := ⟨[], .refl, .refl _⟩
  mem := fun id a h => by cases id <;> cases h
  exposed := fun p hp => by cases hp
  globals := fun x hx => by cases hx
  fns := fun x hx => by cases hx
  vtables := fun x hx => by cases hx
  threads := fun t ht => by cases ht

theorem Agree.ok {α : Type} {a g b : Res α} (h : Agree a g b) {r} (e : a = .ok r) : g = .ok r ∧ b = .ok r := by
  subst e
  rcases h with ⟨rfl, rfl | h⟩ | ⟨h, _⟩
  · exact ⟨rfl, rfl⟩
  · cases h
  · cases h

theorem Agree.ok_guarded {α : Type} {a g b : Res α} (h : Agree a g b) {r} (e : g = .ok r) : a = .ok r ∧ b = .ok r := by
  subst e
  rcases h with ⟨rfl, rfl | h⟩ | ⟨_, h⟩
  · exact ⟨rfl, rfl⟩
  · cases h
  · cases h

theorem init_empty {oracle} :
    Agree (@initMachine _ _ _ instMemoryTBMemTBProvTBFrameOfTarget _ T prog (Machine.empty prog oracle))
      (@initMachine _ _ _ TBMem.guarded _ T prog (Machine.empty prog oracle))
      (@initMachine _ _ _ TBMem.lax _ T prog (Machine.empty prog oracle)) ∧
    ∀ a s', @initMachine _ _ _ instMemoryTBMemTBProvTBFrameOfTarget _ T prog (Machine.empty prog oracle) = .ok (a, s') →
      Grow [] (Machine.empty prog oracle) [] s' ∧ True :=
  Kt.initMachine (s := Machine.empty prog oracle) (pd := []) (fun x hx => by cases hx) wf_empty

theorem new_agree {oracle} :
    Agree (@Machine.new _ _ _ instMemoryTBMemTBProvTBFrameOfTarget _ T prog oracle) (@Machine.new _ _ _ TBMem.guarded _ T prog oracle)
      (@Machine.new _ _ _ TBMem.lax _ T prog oracle) := by
  unfold Machine.new
  cases hw : prog.checkWf with
  | error e => exact .inl ⟨rfl, .inl rfl⟩
  | ok _ =>
    have h := (init_empty (prog := prog) (oracle := oracle)).1
    simp only [Res.bind_ok]
    rcases h with ⟨h1, h2 | h2⟩ | ⟨h1, h2⟩
    · exact .inl ⟨by erw [h1], .inl (by erw [h2])⟩
    · exact .inl ⟨by erw [h1], .inr (by erw [h2]; rfl)⟩
    · exact .inr ⟨by erw [h1]; rfl, by erw [h2]; rfl⟩

theorem wf_new {oracle} (h : Machine.new prog oracle = .ok s) : Wf [] s := by
  simp only [Machine.new, Res.bind_eq_ok] at h
  obtain ⟨_, _, ⟨a, s1⟩, h1, h2⟩ := h
  cases h2
  exact ((init_empty (prog := prog) (oracle := oracle)).2 _ _ h1).1.wf

theorem Grow.step (h : Wf [] s) (e : MiniRust.step s = .ok ((), s')) : Grow [] s [] s' := (Kt.step h).2 _ _ e |>.1

theorem Grow.steps (h : Wf [] s) (e : Steps s s') : Grow [] s [] s' := by
  induction e with
  | refl => exact .refl h
  | tail _ e ih => exact ih.trans (.step ih.wf e)

theorem step_agree (h : Wf [] s) : Agree (@MiniRust.step _ _ _ instMemoryTBMemTBProvTBFrameOfTarget _ T s) (@MiniRust.step _ _ _ TBMem.guarded _ T s)
    (@MiniRust.step _ _ _ TBMem.lax _ T s) := (Kt.step h).1

end TB

variable [T : Target] {prog : Program} {s s' : TB.Mach}

theorem Reachable.tbWf (h : Reachable prog s) : TB.Wf [] s := by
  obtain ⟨o, s0, hn, hs⟩ := h
  exact (TB.Grow.steps (TB.wf_new hn) hs).wf

theorem Reachable.tbOther (h : Reachable prog s) :
    @Reachable _ _ _ TBMem.guarded _ T prog s ∧ @Reachable _ _ _ TBMem.lax _ T prog s := by
  obtain ⟨o, s0, hn, hs⟩ := h
  obtain ⟨h1, h2⟩ := TB.new_agree.ok hn
  have : @Steps _ _ _ TBMem.guarded _ T s0 s ∧ @Steps _ _ _ TBMem.lax _ T s0 s := by
    have hw := TB.wf_new hn
    clear hn h1 h2
    induction hs with
    | refl => exact ⟨@Steps.refl _ _ _ TBMem.guarded _ T _, @Steps.refl _ _ _ TBMem.lax _ T _⟩
    | tail hs e ih =>
      obtain ⟨h1, h2⟩ := (TB.step_agree (TB.Grow.steps hw hs).wf).ok e
      exact ⟨@Steps.tail _ _ _ TBMem.guarded _ T _ _ _ ih.1 h1, @Steps.tail _ _ _ TBMem.lax _ T _ _ _ ih.2 h2⟩
  exact ⟨⟨o, s0, h1, this.1⟩, ⟨o, s0, h2, this.2⟩⟩

theorem Reachable.ofGuarded (h : @Reachable _ _ _ TBMem.guarded _ T prog s) : Reachable prog s := by
  obtain ⟨o, s0, hn, hs⟩ := h
  obtain ⟨h1, _⟩ := TB.new_agree.ok_guarded hn
  refine ⟨o, s0, h1, ?_⟩
  have hw := TB.wf_new h1
  clear hn h1
  induction hs with
  | refl => exact .refl _
  | tail hs e ih => exact .tail ih ((TB.step_agree (TB.Grow.steps hw ih).wf).ok_guarded e).1

end MiniRust
