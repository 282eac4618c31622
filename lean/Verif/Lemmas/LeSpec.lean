import Verif.Lemmas.ReprLaws2
/-
The executable `le_defined` agrees with the declarative specification.
-/
set_option linter.unusedSectionVars false
namespace MiniRust
variable {P : Type} [DecidableEq P]

theorem byteLe_iff {a b : AByte P} : a.le b = true ↔ ByteLe a b := by
  rcases a with _ | ⟨d, _ | f⟩ <;> rcases b with _ | ⟨d', _ | f'⟩ <;> (simp [AByte.le, ByteLe]; try exact eq_comm)

theorem forall₂_iff_getElem? {α β : Type} {R : α → β → Prop} {a : List α} {b : List β} :
    List.Forall₂ R a b ↔ a.length = b.length ∧ ∀ (i : Nat) x y, a[i]? = some x → b[i]? = some y → R x y := by
  rw [List.forall₂_iff_get]
  constructor
  · rintro ⟨h1, h2⟩
    refine ⟨h1, ?_⟩
    intro i x y hx hy
    obtain ⟨hi, rfl⟩ := List.getElem?_eq_some_iff.1 hx
    obtain ⟨hi', rfl⟩ := List.getElem?_eq_some_iff.1 hy
    exact h2 i hi hi'
  · rintro ⟨h1, h2⟩
    exact ⟨h1, fun i hi hi' => h2 i _ _ (List.getElem?_eq_getElem hi) (List.getElem?_eq_getElem hi')⟩

theorem bytesLe_iff {a b : List (AByte P)} : listLe AByte.le a b = true ↔ BytesLe a b := by
  rw [listLe_iff, forall₂_iff_getElem?]
  simp only [BytesLe, byteLe_iff]

theorem bLe_iff {a b : List (AByte P)} : BLe a b ↔ BytesLe a b := by
  rw [← bytesLe_iff, listLe_iff]

theorem thinLe_iff {p q : ThinPtr P} : p.le q = true ↔ ThinLe p q := by
  obtain ⟨a, pp⟩ := p; obtain ⟨b, qp⟩ := q
  cases pp <;> cases qp <;> simp [ThinPtr.le, ThinLe]

theorem metaLe_iff {p q : Option (PtrMeta P)} : optLe PtrMeta.le p q = true ↔ MetaLe p q := by
  rcases p with _ | p
  · simp only [optLe, true_iff]; exact .none q
  · rcases q with _ | q
    · simp only [optLe, Bool.false_eq_true, false_iff]; intro h; cases h
    · cases p <;> cases q <;> simp only [optLe, PtrMeta.le]
      · simp only [beq_iff_eq, PtrMeta.elementCount.injEq]
        constructor
        · rintro rfl; exact .count _
        · intro h; cases h; rfl
      · simp only [beq_iff_eq, reduceCtorEq, false_iff]; intro h; cases h
      · simp only [beq_iff_eq, reduceCtorEq, false_iff]; intro h; cases h
      · rw [thinLe_iff]
        constructor
        · intro h; exact .vtable _ _ h
        · intro h; cases h; assumption

/-- Induction over values. -/
theorem Value.induct {motive : Value P → Prop}
    (int : ∀ i, motive (.int i)) (bool : ∀ b, motive (.bool b)) (ptr : ∀ p, motive (.ptr p))
    (tuple : ∀ vs, (∀ v ∈ vs, motive v) → motive (.tuple vs))
    (variant : ∀ d v, motive v → motive (.variant d v))
    (union : ∀ cs, motive (.union cs)) : ∀ v, motive v
  | .int i => int i
  | .bool b => bool b
  | .ptr p => ptr p
  | .tuple vs => tuple vs (elems vs)
  | .variant d v => variant d v (Value.induct int bool ptr tuple variant union v)
  | .union cs => union cs
where
  elems : (vs : List (Value P)) → ∀ v ∈ vs, motive v
    | [] => fun _ h => by cases h
    | v :: vs => fun w h => by
      have hv := Value.induct int bool ptr tuple variant union v
      have hvs := elems vs
      rcases List.mem_cons.1 h with rfl | h
      · exact hv
      · exact hvs w h

theorem valueLe_iff {v w : Value P} : v.le w = true ↔ ValueLe v w := by
  induction v using Value.induct generalizing w with
  | int i =>
    cases w <;> simp only [Value.le, beq_iff_eq, Bool.false_eq_true, false_iff]
    · constructor
      · rintro rfl; exact .int _
      · intro h; cases h; rfl
    all_goals intro h; cases h
  | bool i =>
    cases w <;> simp only [Value.le, beq_iff_eq, Bool.false_eq_true, false_iff]
    · intro h; cases h
    · constructor
      · rintro rfl; exact .bool _
      · intro h; cases h; rfl
    all_goals intro h; cases h
  | ptr p =>
    cases w <;> simp only [Value.le, Bool.false_eq_true, false_iff]
    · intro h; cases h
    · intro h; cases h
    · simp only [Pointer.le, Bool.and_eq_true, thinLe_iff, metaLe_iff]
      constructor
      · rintro ⟨h1, h2⟩; exact .ptr _ _ h1 h2
      · intro h; cases h; constructor <;> assumption
    all_goals intro h; cases h
  | tuple vs ih =>
    cases w <;> simp only [Value.le, Bool.false_eq_true, false_iff]
    · intro h; cases h
    · intro h; cases h
    · intro h; cases h
    · rename_i ws
      rw [Value.leL_iff, forall₂_iff_getElem?]
      constructor
      · rintro ⟨h1, h2⟩
        refine .tuple _ _ h1 ?_
        intro i v w hv hw
        exact (ih v (List.mem_of_getElem? hv)).1 (h2 i v w hv hw)
      · intro h
        cases h with
        | tuple _ _ h1 h2 =>
          exact ⟨h1, fun i v w hv hw => (ih v (List.mem_of_getElem? hv)).2 (h2 i v w hv hw)⟩
    all_goals intro h; cases h
  | variant d v ih =>
    cases w <;> simp only [Value.le, Bool.false_eq_true, false_iff]
    · intro h; cases h
    · intro h; cases h
    · intro h; cases h
    · intro h; cases h
    · simp only [Bool.and_eq_true, beq_iff_eq, ih]
      constructor
      · rintro ⟨rfl, h⟩; exact .variant _ _ _ h
      · intro h; cases h; exact ⟨rfl, by assumption⟩
    · intro h; cases h
  | union cs =>
    cases w <;> simp only [Value.le, Bool.false_eq_true, false_iff]
    · intro h; cases h
    · intro h; cases h
    · intro h; cases h
    · intro h; cases h
    · intro h; cases h
    · rw [listLe_iff, forall₂_iff_getElem?]
      simp only [bytesLe_iff]
      constructor
      · rintro ⟨h1, h2⟩; exact .union _ _ h1 h2
      · intro h; cases h; constructor <;> assumption

/-! ### Order laws -/

theorem ByteLe.refl (a : AByte P) : ByteLe a a := byteLe_iff.1 (AByte.le_refl a)
theorem ByteLe.trans {a b c : AByte P} (h1 : ByteLe a b) (h2 : ByteLe b c) : ByteLe a c :=
  byteLe_iff.1 (AByte.le_trans (byteLe_iff.2 h1) (byteLe_iff.2 h2))
theorem ByteLe.antisymm {a b : AByte P} (h1 : ByteLe a b) (h2 : ByteLe b a) : a = b :=
  AByte.le_antisymm (byteLe_iff.2 h1) (byteLe_iff.2 h2)

theorem BytesLe.refl (a : List (AByte P)) : BytesLe a a := bLe_iff.1 (BLe.refl a)
theorem BytesLe.trans {a b c : List (AByte P)} (h1 : BytesLe a b) (h2 : BytesLe b c) : BytesLe a c :=
  bLe_iff.1 ((bLe_iff.2 h1).trans (bLe_iff.2 h2))
theorem BytesLe.antisymm {a b : List (AByte P)} (h1 : BytesLe a b) (h2 : BytesLe b a) : a = b :=
  (bLe_iff.2 h1).antisymm (bLe_iff.2 h2)

theorem ThinLe.refl (p : ThinPtr P) : ThinLe p p := ⟨rfl, Or.inr rfl⟩
theorem ThinLe.trans {p q r : ThinPtr P} (h1 : ThinLe p q) (h2 : ThinLe q r) : ThinLe p r := by
  refine ⟨h1.1.trans h2.1, ?_⟩
  rcases h1.2 with h | h
  · exact Or.inl h
  · rw [h]; exact h2.2
theorem ThinLe.antisymm {p q : ThinPtr P} (h1 : ThinLe p q) (h2 : ThinLe q p) : p = q := by
  obtain ⟨a, pp⟩ := p; obtain ⟨b, qp⟩ := q
  obtain ⟨h1, h3⟩ := h1
  obtain ⟨_, h4⟩ := h2
  simp only at *
  subst h1
  rcases h3 with rfl | rfl
  · rcases h4 with rfl | rfl <;> rfl
  · rfl

theorem MetaLe.refl (m : Option (PtrMeta P)) : MetaLe m m := by
  rcases m with _ | m
  · exact .none _
  · cases m with
    | elementCount n => exact .count n
    | vtablePointer p => exact .vtable _ _ (ThinLe.refl p)
theorem MetaLe.trans {a b c : Option (PtrMeta P)} (h1 : MetaLe a b) (h2 : MetaLe b c) : MetaLe a c := by
  cases h1 with
  | none => exact .none _
  | count n => cases h2; exact .count n
  | vtable p q h => cases h2 with
    | vtable _ r h' => exact .vtable _ _ (h.trans h')
theorem MetaLe.antisymm {a b : Option (PtrMeta P)} (h1 : MetaLe a b) (h2 : MetaLe b a) : a = b := by
  cases h1 with
  | none => cases h2; rfl
  | count n => rfl
  | vtable p q h => cases h2 with
    | vtable _ _ h' => rw [h.antisymm h']

theorem getElem?_some_of_length {α β : Type} {a : List α} {b : List β} (hl : a.length = b.length) {i : Nat}
    {x : α} (h : a[i]? = some x) : ∃ y, b[i]? = some y := by
  obtain ⟨hi, _⟩ := List.getElem?_eq_some_iff.1 h
  exact ⟨b[i], List.getElem?_eq_getElem (by omega)⟩

theorem listEq_of_pointwise {α : Type} {a b : List α} (hl : a.length = b.length)
    (h : ∀ (i : Nat) x y, a[i]? = some x → b[i]? = some y → x = y) : a = b := by
  apply List.ext_getElem?
  intro i
  cases ha : a[i]? with
  | none =>
    have := List.getElem?_eq_none_iff.1 ha
    rw [List.getElem?_eq_none (by omega)]
  | some x =>
    obtain ⟨y, hy⟩ := getElem?_some_of_length hl ha
    rw [hy, h i x y ha hy]

theorem ValueLe.refl (v : Value P) : ValueLe v v := by
  induction v using Value.induct with
  | int i => exact .int i
  | bool b => exact .bool b
  | ptr p => exact .ptr _ _ (ThinLe.refl _) (MetaLe.refl _)
  | tuple vs ih =>
    refine .tuple _ _ rfl ?_
    intro i v w hv hw
    rw [hv] at hw; cases hw
    exact ih v (List.mem_of_getElem? hv)
  | variant d v ih => exact .variant _ _ _ ih
  | union cs =>
    refine .union _ _ rfl ?_
    intro i v w hv hw
    rw [hv] at hw; cases hw
    exact BytesLe.refl _

theorem ValueLe.trans {a b c : Value P} (h1 : ValueLe a b) (h2 : ValueLe b c) : ValueLe a c := by
  induction h1 generalizing c with
  | int i => exact h2
  | bool b => exact h2
  | ptr p q h3 h4 =>
    cases h2 with
    | ptr _ r h5 h6 => exact .ptr _ _ (h3.trans h5) (h4.trans h6)
  | tuple vs ws hl _ ih =>
    cases h2 with
    | tuple _ xs hl' h =>
      refine .tuple _ _ (hl.trans hl') ?_
      intro i v x hv hx
      obtain ⟨w, hw⟩ := getElem?_some_of_length hl hv
      exact ih i v w hv hw (h i w x hw hx)
  | variant d v w _ ih =>
    cases h2 with
    | variant _ _ x h => exact .variant _ _ _ (ih h)
  | union as bs hl h3 =>
    cases h2 with
    | union _ cs hl' h =>
      refine .union _ _ (hl.trans hl') ?_
      intro i v x hv hx
      obtain ⟨w, hw⟩ := getElem?_some_of_length hl hv
      exact (h3 i v w hv hw).trans (h i w x hw hx)

theorem ValueLe.antisymm {a b : Value P} (h1 : ValueLe a b) (h2 : ValueLe b a) : a = b := by
  induction h1 with
  | int i => rfl
  | bool b => rfl
  | ptr p q h3 h4 =>
    cases h2 with
    | ptr _ _ h5 h6 =>
      obtain ⟨pt, pm⟩ := p; obtain ⟨qt, qm⟩ := q
      simp only at *
      rw [h3.antisymm h5, h4.antisymm h6]
  | tuple vs ws hl _ ih =>
    cases h2 with
    | tuple _ _ hl' h =>
      congr 1
      exact listEq_of_pointwise hl fun i x y hx hy => ih i x y hx hy (h i y x hy hx)
  | variant d v w _ ih =>
    cases h2 with
    | variant _ _ _ h => rw [ih h]
  | union as bs hl h3 =>
    cases h2 with
    | union _ _ hl' h =>
      congr 1
      exact listEq_of_pointwise hl fun i x y hx hy => (h3 i x y hx hy).antisymm (h i y x hy hx)

end MiniRust
