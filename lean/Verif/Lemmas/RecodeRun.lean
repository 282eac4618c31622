import Verif.Lemmas.Recode2
import Verif.Run
/-
Programs whose code has been changed run in the same way: whole executions.
-/
set_option linter.unusedSectionVars false
namespace MiniRust

section
variable [T : Target] {M P F α β γ δ : Type} [Memory M P F] [DecidableEq P]
variable {V : Function → BbName → Prop} {σ : BbName → BbName} {s s' : Machine M P F}

theorem RR.bind {R : α → β → Prop} {Q : γ → δ → Prop} {x : EM M P F α} {y : EM M P F β} {f : α → EM M P F γ} {g : β → EM M P F δ}
    (h : RR V σ R (x s) (y s')) (hf : ∀ a b t t', x s = .ok (a, t) → R a b → MRel V σ t t' → RR V σ Q (f a t) (g b t')) :
    RR V σ Q ((x >>= f) s) ((y >>= g) s') := by
  show RR V σ Q (match x s with | .ok (a, s') => f a s' | .error e => .error e) (match y s' with | .ok (a, s') => g a s' | .error e => .error e)
  cases hx : x s <;> cases hy : y s' <;> rw [hx, hy] at h
  · cases h; exact .error _
  · cases h
  · cases h
  · cases h with
    | ok h1 h2 => exact hf _ _ _ _ hx h1 h2

theorem pickThread_threads {u} {t : Machine M P F} (h : pickThread s = .ok (u, t)) : t.threads = s.threads := by
  unfold pickThread at h
  obtain ⟨i, s1, h1, h2⟩ := EM.bind_eq_ok.1 h
  obtain ⟨r, _, rfl⟩ := EM.popInt_eq_ok.1 h1
  dsimp only at h2
  split at h2
  · cases h2
  · split at h2
    · cases h2; rfl
    · cases h2

theorem step_rel (hs : MRel V σ s s') (hv : s.InBlocks V) : RR V σ Eq (step s) (step s') := by
  unfold step
  refine RR.bind (R := Eq) (RSim.read (R := Eq) (fun s s' hs => .inl ⟨_, _, rfl, rfl, ?_⟩) s s' hs) fun a b t t' h e ht => ?_
  · unfold Machine.anyEnabled; exact (Same.any_state hs.threads _).symm
  obtain ⟨_, rfl⟩ := EM.read_eq_ok.1 h
  subst e
  split
  · exact .error _
  have hreset : Same V σ (resetDataRaceTracking : EM M P F _) := .indep fun _ _ _ => rfl
  refine RR.bind (hreset _ _ ht) fun a b t1 t1' h1 e ht1 => ?_
  subst e
  have e1 : t1.threads = t.threads := by cases h1; rfl
  refine RR.bind (Same.pickThread _ _ ht1) fun a b t2 t2' h2 e ht2 => ?_
  have e2 : t2.threads = t.threads := (pickThread_threads h2).trans e1
  refine RR.bind (execStep_rel ht2 fun fr hfr => ?_) fun a b t3 t3' h3 e ht3 => ?_
  · unfold Machine.curFrame at hfr
    obtain ⟨th, h3, h4⟩ := Res.bind_eq_ok.1 hfr
    unfold Machine.getActive index at h3
    rw [unwrap_eq_ok] at h3
    unfold Thread.curFrame at h4
    rw [unwrap_eq_ok] at h4
    rw [e2] at h3
    cases hst : th.stack with
    | nil => rw [hst] at h4; cases h4
    | cons f rest =>
      rw [hst] at h4
      cases h4
      exact hv th (List.mem_of_getElem? h3) _ _ hst
  · exact Same.read (fun _ _ _ => rfl) _ _ ht3

namespace Same

theorem allocGlobals : ∀ gs, Same V σ (allocGlobals gs : EM M P F _)
  | [] => .pure
  | _ :: gs => .bind .memAllocate fun _ => .bind (.modify fun _ _ _ => rfl) fun _ => allocGlobals gs

theorem relocate_indep {s : Machine M P F} {fs ts} : ∀ rs bytes,
    ({ s with prog := { s.prog with functions := fs }, threads := ts } : Machine M P F).relocate rs bytes = s.relocate rs bytes
  | [], _ => rfl
  | (i, r) :: rs, bytes => by
    unfold Machine.relocate
    simp only [relocate_indep rs]

theorem fillGlobals : ∀ gs, Same V σ (fillGlobals gs : EM M P F _)
  | [] => .pure
  | _ :: gs => .bind (.read fun _ _ _ => relocate_indep _ _) fun _ => .bind (.read fun _ _ _ => rfl) fun _ => .bind (.unwrapRes .memStore) fun _ => fillGlobals gs

theorem allocFunctions : ∀ gs, Same V σ (allocFunctions gs : EM M P F _)
  | [] => .pure
  | _ :: gs => .bind .memAllocate fun _ => .bind (.modify fun _ _ _ => rfl) fun _ => allocFunctions gs

theorem allocVTables : ∀ gs, Same V σ (allocVTables gs : EM M P F _)
  | [] => .pure
  | _ :: gs => .bind .memAllocate fun _ => .bind (.modify fun _ _ _ => rfl) fun _ => allocVTables gs

end Same

theorem Program.Recoded.keys {p p' : Program} (h : Program.Recoded V σ p p') : p'.functions.keys = p.functions.keys := by
  have h := h.functions
  unfold Map.keys
  revert h
  generalize p.functions = l
  generalize p'.functions = l'
  intro h
  induction h with
  | nil => rfl
  | cons h _ ih => rw [List.map_cons, List.map_cons, ih, h.1]

theorem Program.Recoded.empty {p p' : Program} (h : Program.Recoded V σ p p') {o} :
    MRel V σ (Machine.empty p o : Machine M P F) (Machine.empty p' o) := by
  refine ⟨h.functions, .nil, ?_⟩
  unfold Machine.empty
  obtain ⟨_, _, _, _, _⟩ := p
  obtain ⟨_, _, _, _, _⟩ := p'
  obtain ⟨_, h2, h3, h4, h5⟩ := h
  cases h2; cases h3; cases h4; cases h5
  rfl

theorem Program.Recoded.init {p p' : Program} (h : Program.Recoded V σ p p') :
    RSim V σ Eq (initMachine p : EM M P F _) (initMachine p') := by
  unfold initMachine
  rw [h.globals, h.vtables, h.keys, h.start]
  refine .bind (Same.allocGlobals _) fun _ _ _ => .bind (Same.fillGlobals _) fun _ _ _ => .bind (Same.allocFunctions _) fun _ _ _ =>
    .bind (Same.allocVTables _) fun _ _ _ => .bind (.lift (Same.functions_get h.functions _)) fun _ _ h => .bind (.newThread h) fun _ _ _ => Same.pure

/-- The two programs start in the same way. -/
theorem Program.Recoded.new {p p' : Program} (h : Program.Recoded V σ p p') (hw : p'.checkWf = p.checkWf) (o : List (Choice P)) :
    (∃ s s' : Machine M P F, Machine.new p o = .ok s ∧ Machine.new p' o = .ok s' ∧ MRel V σ s s') ∨
      ∃ e, (Machine.new p o : Res (Machine M P F)) = .error e ∧ (Machine.new p' o : Res (Machine M P F)) = .error e := by
  unfold Machine.new
  rw [hw]
  cases p.checkWf with
  | error e => exact .inr ⟨e, rfl, rfl⟩
  | ok u =>
    have := h.init _ _ (h.empty (M := M) (F := F) (o := o))
    show (∃ _ _, (initMachine p _ >>= _) = _ ∧ (initMachine p' _ >>= _) = _ ∧ _) ∨ ∃ _, (initMachine p _ >>= _) = _ ∧ (initMachine p' _ >>= _) = _
    cases h1 : initMachine p (Machine.empty p o : Machine M P F) <;> cases h2 : initMachine p' (Machine.empty p' o : Machine M P F) <;>
      rw [h1, h2] at this
    · cases this; exact .inr ⟨_, rfl, rfl⟩
    · cases this
    · cases this
    · cases this with
      | ok _ h => exact .inl ⟨_, _, rfl, rfl, h⟩

/-- Steps of the first machine are steps of the second. -/
theorem steps_rel {t : Machine M P F} (h : Steps s t) (hs : MRel V σ s s') (hv : ∀ u, Steps s u → u.InBlocks V) :
    ∃ t', Steps s' t' ∧ MRel V σ t t' := by
  induction h with
  | refl => exact ⟨s', .refl _, hs⟩
  | tail h1 h2 ih =>
    obtain ⟨t', k1, k2⟩ := ih
    have := step_rel k2 (hv _ h1)
    rw [h2] at this
    cases h3 : step t' with
    | error e => rw [h3] at this; cases this
    | ok r =>
      obtain ⟨u, t2⟩ := r
      rw [h3] at this
      cases this with
      | ok e h => exact ⟨t2, .tail k1 h3, h⟩

theorem Steps.head {s t u : Machine M P F} (h : step s = .ok ((), t)) (h' : Steps t u) : Steps s u := by
  induction h' with
  | refl => exact .tail (.refl _) h
  | tail _ h ih => exact .tail ih h

theorem runLoop_rel : ∀ fuel {s s' : Machine M P F}, MRel V σ s s' → (∀ u, Steps s u → u.InBlocks V) →
    (runLoop fuel s = none ∧ runLoop fuel s' = none) ∨ ∃ e t t', runLoop fuel s = some (e, t) ∧ runLoop fuel s' = some (e, t') ∧ MRel V σ t t'
  | 0, _, _, _, _ => .inl ⟨rfl, rfl⟩
  | n + 1, s, s', hs, hv => by
    unfold runLoop
    have := step_rel hs (hv s (.refl _))
    cases h1 : step s <;> cases h2 : step s' <;> rw [h1, h2] at this
    · cases this; exact .inr ⟨_, _, _, rfl, rfl, hs⟩
    · cases this
    · cases this
    · cases this with
      | ok _ h =>
        exact runLoop_rel n h fun u hu => hv u (Steps.head h1 hu)

end
end MiniRust
