import Verif.Step
import Verif.Lemmas.Good
import Verif.Spec.Abi
/-
Lemmas for C15: `check_abi_compatibility`.
-/
set_option linter.unusedSectionVars false
namespace MiniRust

theorem Map.get?_of_nodup {K V : Type} [DecidableEq K] {m : Map K V} {k : K} {v : V}
    (hnd : (m.map (·.1)).Nodup) (h : (k, v) ∈ m) : Map.get? m k = some v := by
  induction m with
  | nil => cases h
  | cons e m ih =>
    obtain ⟨k', v'⟩ := e
    simp only [List.map_cons, List.nodup_cons] at hnd
    unfold Map.get?
    rcases List.mem_cons.1 h with h | h
    · cases h; simp
    · split
      · rename_i hk
        exact absurd (List.mem_map.2 ⟨_, h, rfl⟩) (hk ▸ hnd.1)
      · exact ih hnd.2 h

theorem Map.get?_isSome_of_key {K V : Type} [DecidableEq K] {m : Map K V} {k : K}
    (h : k ∈ m.map (·.1)) : ∃ v, Map.get? m k = some v := by
  induction m with
  | nil => cases h
  | cons e m ih =>
    obtain ⟨k', v'⟩ := e
    unfold Map.get?
    split
    · exact ⟨_, rfl⟩
    · rename_i hk
      rcases List.mem_cons.1 h with h | h
      · exact absurd h.symm hk
      · exact ih h

theorem Res.not_ite_ok {b : Bool} {x : Res Bool} :
    ((if (!b) = true then (.ok false : Res Bool) else x) = .ok true) ↔ b = true ∧ x = .ok true := by
  cases b <;> simp

theorem abiFields_true {fs gs : List (Nat × Ty)} (hl : fs.length = gs.length) :
    abiFields fs gs = .ok true ↔
      List.Forall₂ (fun f g => f.1 = g.1 ∧ abiCompat f.2 g.2 = .ok true) fs gs := by
  induction fs generalizing gs with
  | nil =>
    cases gs with
    | nil => simp [abiFields]
    | cons => cases hl
  | cons f fs ih =>
    cases gs with
    | nil => cases hl
    | cons g gs =>
      obtain ⟨o, t⟩ := f
      obtain ⟨o', t'⟩ := g
      simp only [abiFields, List.forall₂_cons]
      rw [← ih (Nat.succ.inj hl)]
      by_cases ho : o = o'
      · simp only [ho, ne_eq, not_true_eq_false, if_false, Res.bind_eq_ok, Res.not_ite_ok, true_and]
        constructor
        · rintro ⟨_, h1, rfl, h2⟩; exact ⟨h1, h2⟩
        · rintro ⟨h1, h2⟩; exact ⟨_, h1, rfl, h2⟩
      · simp [ho]

theorem abiVariants_true {vs ws : List (Int × (Ty × Tagger))} :
    abiVariants vs ws = .ok true ↔
      ∀ v ∈ vs, ∃ w, Map.get? ws v.1 = some w ∧ abiCompat v.2.1 w.1 = .ok true ∧ v.2.2 = w.2 := by
  induction vs with
  | nil => simp [abiVariants]
  | cons v vs ih =>
    obtain ⟨d, t, g⟩ := v
    simp only [abiVariants, List.forall_mem_cons]
    rw [← ih]
    cases hg : Map.get? ws d with
    | none => simp
    | some w =>
      obtain ⟨t', g'⟩ := w
      simp only [Option.some.injEq, exists_eq_left', Res.bind_eq_ok, Res.not_ite_ok]
      by_cases hgg : g = g'
      · subst hgg
        simp only [ne_eq, not_true_eq_false, if_false, and_true]
        constructor
        · rintro ⟨_, h1, rfl, h2⟩; exact ⟨h1, h2⟩
        · rintro ⟨h1, h2⟩; exact ⟨_, h1, rfl, h2⟩
      · simp [hgg]

/-- What it means to be compatible, by the shape of the types. -/
theorem abiCompat_tuple {fs gs h h' u u'} :
    abiCompat (.tuple fs h u) (.tuple gs h' u') = .ok true ↔
      u = none ∧ u' = none ∧
      List.Forall₂ (fun f g => f.1 = g.1 ∧ abiCompat f.2 g.2 = .ok true) fs gs ∧
      h.headSizeAndAlign = h'.headSizeAndAlign := by
  cases u <;> cases u' <;> simp only [abiCompat, Res.bind_eq_ok, rassert_eq_ok, Option.isNone_none,
    Option.isNone_some, Bool.false_eq_true, false_and, exists_false, true_and,
    reduceCtorEq, and_false, exists_const]
  by_cases hl : fs.length = gs.length
  · simp only [hl, ne_eq, not_true_eq_false, if_false, Res.bind_eq_ok, Res.not_ite_ok]
    rw [← abiFields_true hl]
    simp only [Except.ok.injEq, Bool.and_eq_true, beq_iff_eq]
    constructor
    · rintro ⟨_, h1, rfl, h2, h3⟩; exact ⟨h1, Prod.ext h2 h3⟩
    · rintro ⟨h1, h2⟩; exact ⟨_, h1, rfl, by rw [h2], by rw [h2]⟩
  · simp only [hl, ne_eq, not_false_eq_true, if_true, Except.ok.injEq, Bool.false_eq_true, false_iff]
    rintro ⟨h1, _⟩; exact hl h1.length_eq

theorem abiCompat_array {e e' n n'} :
    abiCompat (.array e n) (.array e' n') = .ok true ↔ abiCompat e e' = .ok true ∧ n = n' := by
  simp only [abiCompat, Res.bind_eq_ok, Res.not_ite_ok, Except.ok.injEq, decide_eq_true_eq]
  constructor
  · rintro ⟨_, h1, rfl, h2⟩; exact ⟨h1, h2⟩
  · rintro ⟨h1, h2⟩; exact ⟨_, h1, rfl, h2⟩

theorem abiCompat_union {fs gs cs cs' s s' a a'} :
    abiCompat (.union fs cs s a) (.union gs cs' s' a') = .ok true ↔
      List.Forall₂ (fun f g => f.1 = g.1 ∧ abiCompat f.2 g.2 = .ok true) fs gs ∧
      cs = cs' ∧ s = s' ∧ a = a' := by
  simp only [abiCompat]
  by_cases hl : fs.length = gs.length
  · simp only [hl, ne_eq, not_true_eq_false, if_false, Res.bind_eq_ok, Res.not_ite_ok]
    rw [← abiFields_true hl]
    simp only [Except.ok.injEq, Bool.and_eq_true, beq_iff_eq]
    constructor
    · rintro ⟨_, h1, rfl, ⟨h2, h3⟩, h4⟩; exact ⟨h1, h2, h3, h4⟩
    · rintro ⟨h1, h2, h3, h4⟩; exact ⟨_, h1, rfl, ⟨h2, h3⟩, h4⟩
  · simp only [hl, ne_eq, not_false_eq_true, if_true, Except.ok.injEq, Bool.false_eq_true, false_iff]
    rintro ⟨h1, _⟩; exact hl h1.length_eq

theorem abiCompat_enum {vs ws dt dt' d d' s s' a a'} :
    abiCompat (.enum vs dt d s a) (.enum ws dt' d' s' a') = .ok true ↔
      vs.length = ws.length ∧
      (∀ v ∈ vs, ∃ w, Map.get? ws v.1 = some w ∧ abiCompat v.2.1 w.1 = .ok true ∧ v.2.2 = w.2) ∧
      dt = dt' ∧ d = d' ∧ s = s' ∧ a = a' := by
  simp only [abiCompat]
  by_cases hl : vs.length = ws.length
  · simp only [hl, ne_eq, not_true_eq_false, if_false, Res.bind_eq_ok, Res.not_ite_ok, true_and]
    rw [← abiVariants_true]
    simp only [Except.ok.injEq, Bool.and_eq_true, beq_iff_eq, decide_eq_true_eq]
    constructor
    · rintro ⟨_, h1, rfl, ⟨⟨h2, h3⟩, h4⟩, h5⟩; exact ⟨h1, h3, h2, h4, h5⟩
    · rintro ⟨h1, h2, h3, h4, h5⟩; exact ⟨_, h1, rfl, ⟨⟨h3, h2⟩, h4⟩, h5⟩
  · simp [hl]

theorem abiCompat_refl_of_good [T : Target] {ty : Ty} (h : ty.Good) (hu : ty.UniqueKeys) :
    abiCompat ty ty = .ok true := by
  induction h with
  | int => simp [abiCompat]
  | bool => simp [abiCompat]
  | ptr => simp [abiCompat]
  | tuple _ _ _ ih =>
    rw [abiCompat_tuple]
    refine ⟨rfl, rfl, ?_, rfl⟩
    cases hu with
    | tuple _ _ _ h1 _ =>
      rw [List.forall₂_same]
      exact fun f hf => ⟨rfl, ih f hf (h1 f hf)⟩
  | array _ _ ih =>
    rw [abiCompat_array]
    cases hu with
    | array _ _ h1 => exact ⟨ih h1, rfl⟩
  | union _ _ _ _ ih =>
    rw [abiCompat_union]
    cases hu with
    | union _ _ _ _ h1 =>
      refine ⟨?_, rfl, rfl, rfl⟩
      rw [List.forall₂_same]
      exact fun f hf => ⟨rfl, ih f hf (h1 f hf)⟩
  | enum _ _ _ _ _ ih =>
    rw [abiCompat_enum]
    cases hu with
    | enum _ _ _ _ _ hnd h1 =>
      refine ⟨rfl, fun v hv => ⟨v.2, ?_, ih v hv (h1 v hv), rfl⟩, rfl, rfl, rfl, rfl⟩
      exact Map.get?_of_nodup hnd hv

theorem abiCompat_symm {a b : Ty} (ha : a.UniqueKeys) (hb : b.UniqueKeys)
    (h : abiCompat a b = .ok true) : abiCompat b a = .ok true := by
  induction a using Ty.induct generalizing b with
  | int i => cases b <;> simp_all [abiCompat]
  | bool => cases b <;> simp_all [abiCompat]
  | ptr p => cases b <;> simp_all [abiCompat]
  | slice => cases b <;> simp [abiCompat] at h
  | traitObject => cases b <;> simp [abiCompat] at h
  | tuple fs hd tl ih _ =>
    cases b with
    | tuple gs hd' tl' =>
      rw [abiCompat_tuple] at h ⊢
      obtain ⟨rfl, rfl, h, he⟩ := h
      refine ⟨rfl, rfl, ?_, he.symm⟩
      cases ha with | tuple _ _ _ ha _ =>
      cases hb with | tuple _ _ _ hb _ =>
      clear he
      induction h with
      | nil => exact .nil
      | cons h1 h2 ih2 =>
        refine .cons ⟨h1.1.symm, ?_⟩ ?_
        · exact ih _ List.mem_cons_self (ha _ List.mem_cons_self) (hb _ List.mem_cons_self) h1.2
        · exact ih2 (fun f hf => ih f (List.mem_cons_of_mem _ hf))
            (fun f hf => ha f (List.mem_cons_of_mem _ hf)) (fun f hf => hb f (List.mem_cons_of_mem _ hf))
    | _ => simp [abiCompat] at h
  | array e n ih =>
    cases b with
    | array e' n' =>
      rw [abiCompat_array] at h ⊢
      cases ha with | array _ _ ha =>
      cases hb with | array _ _ hb =>
      exact ⟨ih ha hb h.1, h.2.symm⟩
    | _ => simp [abiCompat] at h
  | union fs cs s al ih =>
    cases b with
    | union gs cs' s' al' =>
      rw [abiCompat_union] at h ⊢
      obtain ⟨h, e1, e2, e3⟩ := h
      refine ⟨?_, e1.symm, e2.symm, e3.symm⟩
      cases ha with | union _ _ _ _ ha =>
      cases hb with | union _ _ _ _ hb =>
      clear e1 e2 e3
      induction h with
      | nil => exact .nil
      | cons h1 h2 ih2 =>
        refine .cons ⟨h1.1.symm, ?_⟩ ?_
        · exact ih _ List.mem_cons_self (ha _ List.mem_cons_self) (hb _ List.mem_cons_self) h1.2
        · exact ih2 (fun f hf => ih f (List.mem_cons_of_mem _ hf))
            (fun f hf => ha f (List.mem_cons_of_mem _ hf)) (fun f hf => hb f (List.mem_cons_of_mem _ hf))
    | _ => simp [abiCompat] at h
  | enum vs dt d s al ih =>
    cases b with
    | enum ws dt' d' s' al' =>
      rw [abiCompat_enum] at h ⊢
      obtain ⟨hl, h, e1, e2, e3, e4⟩ := h
      refine ⟨hl.symm, ?_, e1.symm, e2.symm, e3.symm, e4.symm⟩
      cases ha with | enum _ _ _ _ _ hnda ha =>
      cases hb with | enum _ _ _ _ _ hndb hb =>
      have hsub : vs.map (·.1) ⊆ ws.map (·.1) := by
        intro k hk
        obtain ⟨v, hv, rfl⟩ := List.mem_map.1 hk
        obtain ⟨w, hw, _⟩ := h v hv
        exact List.mem_map.2 ⟨_, Map.get?_mem hw, rfl⟩
      have hperm : (vs.map (·.1)).Perm (ws.map (·.1)) :=
        (List.subperm_of_subset hnda hsub).perm_of_length_le (by simp [hl])
      intro w hw
      obtain ⟨v, hv⟩ := Map.get?_isSome_of_key (m := vs) (k := w.1)
        (hperm.mem_iff.2 (List.mem_map.2 ⟨w, hw, rfl⟩))
      have hvm := Map.get?_mem hv
      obtain ⟨w', hw', hc, ht⟩ := h _ hvm
      rw [Map.get?_of_nodup hndb (v := w.2) hw] at hw'
      cases hw'
      exact ⟨v, hv, ih _ hvm (ha _ hvm) (hb _ hw) hc, ht.symm⟩
    | _ => simp [abiCompat] at h

theorem forall₂_trans_of {α : Type} {r : α → α → Prop} {a b c : List α}
    (ht : ∀ x ∈ a, ∀ y z, r x y → r y z → r x z)
    (h1 : List.Forall₂ r a b) (h2 : List.Forall₂ r b c) : List.Forall₂ r a c := by
  induction h1 generalizing c with
  | nil => exact h2
  | cons hab h1 ih =>
    cases h2 with
    | cons hbc h2 =>
      exact .cons (ht _ List.mem_cons_self _ _ hab hbc)
        (ih (fun x hx => ht x (List.mem_cons_of_mem _ hx)) h2)

theorem abiCompat_trans {a b c : Ty} (h : abiCompat a b = .ok true) (h' : abiCompat b c = .ok true) :
    abiCompat a c = .ok true := by
  induction a using Ty.induct generalizing b c with
  | int i => cases b <;> cases c <;> simp_all [abiCompat]
  | bool => cases b <;> cases c <;> simp_all [abiCompat]
  | ptr p => cases b <;> cases c <;> simp_all [abiCompat]
  | slice => cases b <;> simp [abiCompat] at h
  | traitObject => cases b <;> simp [abiCompat] at h
  | tuple fs hd tl ih _ =>
    cases b with
    | tuple gs hd' tl' =>
      cases c with
      | tuple =>
        rw [abiCompat_tuple] at h h' ⊢
        refine ⟨h.1, h'.2.1, forall₂_trans_of ?_ h.2.2.1 h'.2.2.1, h.2.2.2.trans h'.2.2.2⟩
        exact fun x hx y z h1 h2 => ⟨h1.1.trans h2.1, ih x hx h1.2 h2.2⟩
      | _ => simp [abiCompat] at h'
    | _ => simp [abiCompat] at h
  | array e n ih =>
    cases b with
    | array e' n' =>
      cases c with
      | array =>
        rw [abiCompat_array] at h h' ⊢
        exact ⟨ih h.1 h'.1, h.2.trans h'.2⟩
      | _ => simp [abiCompat] at h'
    | _ => simp [abiCompat] at h
  | union fs cs s al ih =>
    cases b with
    | union gs cs' s' al' =>
      cases c with
      | union =>
        rw [abiCompat_union] at h h' ⊢
        obtain ⟨h, e1, e2, e3⟩ := h
        obtain ⟨h', e1', e2', e3'⟩ := h'
        refine ⟨forall₂_trans_of ?_ h h', e1.trans e1', e2.trans e2', e3.trans e3'⟩
        exact fun x hx y z h1 h2 => ⟨h1.1.trans h2.1, ih x hx h1.2 h2.2⟩
      | _ => simp [abiCompat] at h'
    | _ => simp [abiCompat] at h
  | enum vs dt d s al ih =>
    cases b with
    | enum ws dt' d' s' al' =>
      cases c with
      | enum =>
        rw [abiCompat_enum] at h h' ⊢
        obtain ⟨hl, h, e1, e2, e3, e4⟩ := h
        obtain ⟨hl', h', e1', e2', e3', e4'⟩ := h'
        refine ⟨hl.trans hl', ?_, e1.trans e1', e2.trans e2', e3.trans e3', e4.trans e4'⟩
        intro v hv
        obtain ⟨w, hw, hc, ht⟩ := h v hv
        obtain ⟨x, hx, hc', ht'⟩ := h' _ (Map.get?_mem hw)
        exact ⟨x, hx, ih v hv hc hc', ht.trans ht'⟩
      | _ => simp [abiCompat] at h'
    | _ => simp [abiCompat] at h

theorem abiCompat_layout [T : Target] {a b : Ty} (h : abiCompat a b = .ok true) :
    a.layout = b.layout := by
  induction a using Ty.induct generalizing b with
  | int i => cases b <;> simp_all [abiCompat]
  | bool => cases b <;> simp_all [abiCompat]
  | ptr p =>
    cases b <;> simp only [abiCompat, Except.ok.injEq, decide_eq_true_eq, Bool.false_eq_true] at h
    simp only [Ty.layout, h]
  | slice => cases b <;> simp [abiCompat] at h
  | traitObject => cases b <;> simp [abiCompat] at h
  | tuple fs hd tl ih _ =>
    cases b with
    | tuple gs hd' tl' =>
      rw [abiCompat_tuple] at h
      obtain ⟨rfl, rfl, _, he⟩ := h
      simp only [Ty.layout, he]
    | _ => simp [abiCompat] at h
  | array e n ih =>
    cases b with
    | array e' n' =>
      rw [abiCompat_array] at h
      obtain ⟨h, rfl⟩ := h
      simp only [Ty.layout, ih h]
    | _ => simp [abiCompat] at h
  | union fs cs s al ih =>
    cases b with
    | union gs cs' s' al' =>
      rw [abiCompat_union] at h
      obtain ⟨_, _, rfl, rfl⟩ := h
      rfl
    | _ => simp [abiCompat] at h
  | enum vs dt d s al ih =>
    cases b with
    | enum ws dt' d' s' al' =>
      rw [abiCompat_enum] at h
      obtain ⟨_, _, _, _, rfl, rfl⟩ := h
      rfl
    | _ => simp [abiCompat] at h

theorem abiFields_total {fs gs : List (Nat × Ty)}
    (h : ∀ f ∈ fs, ∀ g ∈ gs, ∃ r, abiCompat f.2 g.2 = .ok r) : ∃ r, abiFields fs gs = .ok r := by
  induction fs generalizing gs with
  | nil => exact ⟨true, by cases gs <;> rfl⟩
  | cons f fs ih =>
    cases gs with
    | nil => exact ⟨true, rfl⟩
    | cons g gs =>
      obtain ⟨o, t⟩ := f
      obtain ⟨o', t'⟩ := g
      obtain ⟨r, hr⟩ := h _ List.mem_cons_self _ List.mem_cons_self
      obtain ⟨r', hr'⟩ := ih (gs := gs) fun f hf g hg =>
        h f (List.mem_cons_of_mem _ hf) g (List.mem_cons_of_mem _ hg)
      simp only [abiFields, hr, Res.bind_ok, hr']
      split
      · exact ⟨_, rfl⟩
      · split
        · exact ⟨_, rfl⟩
        · exact ⟨_, rfl⟩

theorem abiVariants_total {vs ws : List (Int × (Ty × Tagger))}
    (h : ∀ f ∈ vs, ∀ g ∈ ws, ∃ r, abiCompat f.2.1 g.2.1 = .ok r) : ∃ r, abiVariants vs ws = .ok r := by
  induction vs with
  | nil => exact ⟨true, rfl⟩
  | cons f fs ih =>
    obtain ⟨d, t, g⟩ := f
    simp only [abiVariants]
    cases hg : Map.get? ws d with
    | none => exact ⟨_, rfl⟩
    | some w =>
      obtain ⟨t', g'⟩ := w
      obtain ⟨r, hr⟩ := h _ List.mem_cons_self _ (Map.get?_mem hg)
      obtain ⟨r', hr'⟩ := ih fun f hf g hg => h f (List.mem_cons_of_mem _ hf) g hg
      simp only at hr
      simp only [hr, Res.bind_ok, hr']
      split
      · exact ⟨_, rfl⟩
      · split
        · exact ⟨_, rfl⟩
        · exact ⟨_, rfl⟩

theorem abiCompat_total [T : Target] {a b : Ty} (ha : a.Good) (hb : b.Good) :
    ∃ r, abiCompat a b = .ok r := by
  induction ha generalizing b with
  | int => cases b <;> simp [abiCompat]
  | bool => cases b <;> simp [abiCompat]
  | ptr => cases b <;> simp [abiCompat]
  | tuple _ _ _ ih =>
    cases hb with
    | @tuple gs _ hg _ _ =>
      simp only [abiCompat, Option.isNone_none]
      obtain ⟨r, hr⟩ := abiFields_total (fun f hf g hg' => ih f hf (hg g hg'))
      simp only [rassert, if_true, Res.bind_ok, hr]
      split
      · exact ⟨_, rfl⟩
      · split <;> exact ⟨_, rfl⟩
    | _ => simp [abiCompat]
  | array _ _ ih =>
    cases hb with
    | array _ hg =>
      obtain ⟨r, hr⟩ := ih hg
      simp only [abiCompat, hr, Res.bind_ok]
      split <;> exact ⟨_, rfl⟩
    | _ => simp [abiCompat]
  | union _ _ _ _ ih =>
    cases hb with
    | union hg =>
      obtain ⟨r, hr⟩ := abiFields_total (fun f hf g hg' => ih f hf (hg g hg'))
      simp only [abiCompat, hr, Res.bind_ok]
      split
      · exact ⟨_, rfl⟩
      · split <;> exact ⟨_, rfl⟩
    | _ => simp [abiCompat]
  | enum _ _ _ _ _ ih =>
    cases hb with
    | enum hg =>
      obtain ⟨r, hr⟩ := abiVariants_total (fun f hf g hg' => ih f hf (hg g hg'))
      simp only [abiCompat, hr, Res.bind_ok]
      split
      · exact ⟨_, rfl⟩
      · split <;> exact ⟨_, rfl⟩
    | _ => simp [abiCompat]

end MiniRust
