import Verif.Spec.RsTypes
import Verif.Lemmas.Good
/-
Lemmas about the translation of types.
-/
set_option linter.unusedSectionVars false
namespace MiniRust
variable {P : Type} [DecidableEq P]

/-- The fields of a type. -/
def RsTy.subFields : RsTy → List (Nat × RsTy)
  | .struct _ _ _ fs => fs
  | .union _ _ fs => fs
  | _ => []

/-- The variants of a type. -/
def RsTy.subVariants : RsTy → List (Nat × List (Nat × RsTy))
  | .enum _ _ _ vs _ => vs
  | _ => []

/-- The other types in a type. -/
def RsTy.subElem : RsTy → Option RsTy
  | .array e _ => some e
  | .slice e => some e
  | .pat e => some e
  | _ => none

theorem RsTy.induct {motive : RsTy → Prop}
    (leaf : ∀ t, (∀ f ∈ t.subFields, motive f.2) → (∀ v ∈ t.subVariants, ∀ f ∈ v.2, motive f.2) →
      (∀ e, t.subElem = some e → motive e) → motive t) : ∀ t, motive t
  | .bool => leaf _ (fun _ h => by cases h) (fun _ h => by cases h) (fun _ h => by cases h)
  | .int .. => leaf _ (fun _ h => by cases h) (fun _ h => by cases h) (fun _ h => by cases h)
  | .char => leaf _ (fun _ h => by cases h) (fun _ h => by cases h) (fun _ h => by cases h)
  | .pat e => leaf _ (fun _ h => by cases h) (fun _ h => by cases h) (fun e' h => by
      have := RsTy.induct leaf e
      cases h; exact this)
  | .ref .. => leaf _ (fun _ h => by cases h) (fun _ h => by cases h) (fun _ h => by cases h)
  | .box .. => leaf _ (fun _ h => by cases h) (fun _ h => by cases h) (fun _ h => by cases h)
  | .raw .. => leaf _ (fun _ h => by cases h) (fun _ h => by cases h) (fun _ h => by cases h)
  | .fnPtr => leaf _ (fun _ h => by cases h) (fun _ h => by cases h) (fun _ h => by cases h)
  | .fnDef => leaf _ (fun _ h => by cases h) (fun _ h => by cases h) (fun _ h => by cases h)
  | .never => leaf _ (fun _ h => by cases h) (fun _ h => by cases h) (fun _ h => by cases h)
  | .struct _ _ _ fs => leaf _ (fields fs) (fun _ h => by cases h) (fun _ h => by cases h)
  | .union _ _ fs => leaf _ (fields fs) (fun _ h => by cases h) (fun _ h => by cases h)
  | .enum _ _ _ vs _ => leaf _ (fun _ h => by cases h) (vars vs) (fun _ h => by cases h)
  | .array e _ => leaf _ (fun _ h => by cases h) (fun _ h => by cases h) (fun e' h => by
      have := RsTy.induct leaf e
      cases h; exact this)
  | .slice e => leaf _ (fun _ h => by cases h) (fun _ h => by cases h) (fun e' h => by
      have := RsTy.induct leaf e
      cases h; exact this)
  | .str => leaf _ (fun _ h => by cases h) (fun _ h => by cases h) (fun _ h => by cases h)
  | .dyn _ => leaf _ (fun _ h => by cases h) (fun _ h => by cases h) (fun _ h => by cases h)
where
  fields : (fs : List (Nat × RsTy)) → ∀ f ∈ fs, motive f.2
    | [] => fun _ h => by cases h
    | (o, t) :: fs => fun f h => by
      have ht := RsTy.induct leaf t
      have hfs := fields fs
      rcases List.mem_cons.1 h with rfl | h
      · exact ht
      · exact hfs f h
  vars : (vs : List (Nat × List (Nat × RsTy))) → ∀ v ∈ vs, ∀ f ∈ v.2, motive f.2
    | [] => fun _ h => by cases h
    | (d, fs) :: vs => fun v h => by
      have ht := fields fs
      have hvs := vars vs
      rcases List.mem_cons.1 h with rfl | h
      · exact ht
      · exact hvs v h

theorem RsTy.fieldsFreeze_iff : ∀ {fs : List (Nat × RsTy)}, RsTy.fieldsFreeze fs = true ↔ ∀ f ∈ fs, f.2.isFreeze = true
  | [] => by simp [RsTy.fieldsFreeze]
  | (_, t) :: fs => by simp [RsTy.fieldsFreeze, RsTy.fieldsFreeze_iff]

theorem RsTy.variantsFreeze_iff : ∀ {vs : List (Nat × List (Nat × RsTy))},
    RsTy.variantsFreeze vs = true ↔ ∀ v ∈ vs, ∀ f ∈ v.2, f.2.isFreeze = true
  | [] => by simp [RsTy.variantsFreeze]
  | (_, fs) :: vs => by simp [RsTy.variantsFreeze, RsTy.variantsFreeze_iff, RsTy.fieldsFreeze_iff]

/-- `is_freeze` says whether there is no `UnsafeCell`. -/
theorem RsTy.isFreeze_iff (ty : RsTy) : ty.isFreeze = true ↔ ¬ ty.HasCell := by
  induction ty using RsTy.induct with
  | leaf t hf hv he =>
    cases t with
    | struct cell size align fs =>
      simp only [RsTy.isFreeze, Bool.and_eq_true, RsTy.fieldsFreeze_iff, Bool.not_eq_true']
      constructor
      · rintro ⟨h1, h2⟩ hc
        cases hc with
        | cell => cases h1
        | field hm hc => exact (hf _ hm).1 (h2 _ hm) hc
      · intro h
        refine ⟨?_, fun f hm => (hf f hm).2 fun hc => h (.field hm hc)⟩
        cases cell with
        | false => rfl
        | true => exact absurd .cell h
    | union size align fs =>
      simp only [RsTy.isFreeze, RsTy.fieldsFreeze_iff]
      constructor
      · intro h hc
        cases hc with
        | union hm hc => exact (hf _ hm).1 (h _ hm) hc
      · exact fun h f hm => (hf f hm).2 fun hc => h (.union hm hc)
    | enum size align dt vs l =>
      simp only [RsTy.isFreeze, RsTy.variantsFreeze_iff]
      constructor
      · intro h hc
        cases hc with
        | enum hm hm' hc => exact (hv _ hm _ hm').1 (h _ hm _ hm') hc
      · exact fun h v hm f hm' => (hv v hm f hm').2 fun hc => h (.enum hm hm' hc)
    | array e n =>
      simp only [RsTy.isFreeze, he e rfl]
      exact ⟨fun h hc => by cases hc with | elem hc => exact h hc, fun h hc => h (.elem hc)⟩
    | slice e =>
      simp only [RsTy.isFreeze, he e rfl]
      exact ⟨fun h hc => by cases hc with | slice hc => exact h hc, fun h hc => h (.slice hc)⟩
    | pat e =>
      simp only [RsTy.isFreeze, he e rfl]
      exact ⟨fun h hc => by cases hc with | pat hc => exact h hc, fun h hc => h (.pat hc)⟩
    | dyn t => exact ⟨fun h => (by cases h), fun h => absurd .dyn h⟩
    | _ => exact ⟨fun _ hc => (by cases hc), fun _ => rfl⟩

section
variable [T : Target]

/-- The cells of the fields, one by one. -/
theorem RsTy.fieldCells_ok : ∀ {fs : List (Nat × RsTy)} {cs : List (Nat × Nat)}, RsTy.fieldCells fs = .ok cs →
    (∀ f ∈ fs, ∃ fc, f.2.cells = .ok fc) ∧
    ∀ c, c ∈ cs ↔ ∃ f ∈ fs, ∃ fc, f.2.cells = .ok fc ∧ ∃ d ∈ fc, c = (d.1 + f.1, d.2)
  | [], cs, h => by
    simp only [RsTy.fieldCells] at h
    cases h
    simp
  | (o, t) :: fs, cs, h => by
    simp only [RsTy.fieldCells, Res.bind_eq_ok] at h
    obtain ⟨a, h1, b, h2, h3⟩ := h
    cases h3
    obtain ⟨i1, i2⟩ := RsTy.fieldCells_ok h2
    refine ⟨fun f hf => ?_, fun c => ?_⟩
    · rcases List.mem_cons.1 hf with rfl | hf
      · exact ⟨a, h1⟩
      · exact i1 f hf
    · rw [List.mem_append, i2, List.mem_map]
      constructor
      · rintro (⟨d, hd, rfl⟩ | ⟨f, hf, hr⟩)
        · exact ⟨_, List.mem_cons_self .., a, h1, d, hd, rfl⟩
        · exact ⟨f, List.mem_cons_of_mem _ hf, hr⟩
      · rintro ⟨f, hf, fc, h4, d, hd, rfl⟩
        rcases List.mem_cons.1 hf with rfl | hf
        · rw [h1] at h4
          cases h4
          exact .inl ⟨d, hd, rfl⟩
        · exact .inr ⟨f, hf, fc, h4, d, hd, rfl⟩

/-- The cells of an array, if there are any. -/
theorem RsTy.arrayCells_ok {e : RsTy} {n : Nat} {cs : List (Nat × Nat)} (h : (RsTy.array e n).cells = .ok cs) :
    ∃ range, e.cells = .ok range ∧ ((range = [] ∧ cs = []) ∨ (range ≠ [] ∧ ∃ s a, e.sizeAlign = some (s, a) ∧
      cs = range.map (fun c => (c.1, c.2)) ++ range.map fun c => (c.1 + s, c.2))) := by
  simp only [RsTy.cells, Res.bind_eq_ok] at h
  obtain ⟨range, h1, h2⟩ := h
  refine ⟨range, h1, ?_⟩
  cases range with
  | nil =>
    simp at h2
    exact .inl ⟨rfl, h2⟩
  | cons c cs =>
    simp only [List.isEmpty_cons, Bool.not_false, if_true, Res.bind_eq_ok, unwrap_eq_ok] at h2
    obtain ⟨⟨s, a⟩, h3, h4⟩ := h2
    refine .inr ⟨by simp, s, a, h3, ?_⟩
    cases h4
    simp [List.zipIdx]

/-- Only types with an `UnsafeCell` have cells. -/
theorem RsTy.hasCell_of_cells (ty : RsTy) : ∀ {cs : List (Nat × Nat)}, ty.cells = .ok cs → ∀ c ∈ cs, ty.HasCell := by
  induction ty using RsTy.induct with
  | leaf t hf hv he =>
    intro cs h c hc
    cases t with
    | struct cell size align fs =>
      cases cell with
      | true => exact .cell
      | false =>
        simp only [RsTy.cells, Bool.false_eq_true, if_false] at h
        obtain ⟨f, hm, fc, h1, d, hd, _⟩ := ((RsTy.fieldCells_ok h).2 c).1 hc
        exact .field hm (hf f hm h1 d hd)
    | union size align fs =>
      simp only [RsTy.cells, Except.ok.injEq] at h
      subst h
      split at hc
      · cases hc
      · rename_i hn
        by_contra hcon
        exact hn ((RsTy.isFreeze_iff _).2 hcon)
    | enum size align dt vs l =>
      simp only [RsTy.cells, Except.ok.injEq] at h
      subst h
      split at hc
      · cases hc
      · rename_i hn
        by_contra hcon
        exact hn ((RsTy.isFreeze_iff _).2 hcon)
    | array e n =>
      obtain ⟨range, h1, h2⟩ := RsTy.arrayCells_ok h
      rcases h2 with ⟨_, rfl⟩ | ⟨hne, _⟩
      · cases hc
      · obtain ⟨d, hd⟩ := List.exists_mem_of_ne_nil _ hne
        exact .elem (he e rfl h1 d hd)
    | _ => simp [RsTy.cells, panic] at h; try (subst h; cases hc)

theorem RsTy.PairedArrays.field {size : Nat} {align : Align} {fs : List (Nat × RsTy)}
    (h : (RsTy.struct false size align fs).PairedArrays) {f : Nat × RsTy} (hf : f ∈ fs) : f.2.PairedArrays :=
  fun e n hp hc => h e n (.field hf hp) hc

theorem RsTy.PairedArrays.elem {e : RsTy} {n : Nat} (h : (RsTy.array e n).PairedArrays) : e.PairedArrays :=
  fun e' n' hp hc => h e' n' (.elem hp) hc

/-- The cells cover the bytes inside `UnsafeCell`s. -/
theorem RsTy.cells_covers (ty : RsTy) : ∀ {cs : List (Nat × Nat)}, ty.cells = .ok cs → ty.PairedArrays →
    ∀ i, CellsCover cs i ↔ ty.InCell i := by
  induction ty using RsTy.induct with
  | leaf t hf hv he =>
    intro cs h hp i
    cases t with
    | struct cell size align fs =>
      cases cell with
      | true =>
        simp only [RsTy.cells, if_true, Except.ok.injEq] at h
        subst h
        simp only [CellsCover, List.mem_singleton]
        constructor
        · rintro ⟨c, rfl, _, h⟩
          exact .cell (by simpa using h)
        · intro h
          cases h with
          | cell h => exact ⟨_, rfl, Nat.zero_le _, by simpa using h⟩
      | false =>
        simp only [RsTy.cells, Bool.false_eq_true, if_false] at h
        obtain ⟨h1, h2⟩ := RsTy.fieldCells_ok h
        constructor
        · rintro ⟨c, hc, g1, g2⟩
          obtain ⟨f, hm, fc, h3, d, hd, rfl⟩ := (h2 c).1 hc
          simp only at g1 g2
          have := (hf f hm h3 (hp.field hm) (i - f.1)).1 ⟨d, hd, by omega, by omega⟩
          have heq : i = f.1 + (i - f.1) := by omega
          rw [heq]
          exact .field hm this
        · intro hi
          cases hi with
          | field hm hi =>
            obtain ⟨fc, h3⟩ := h1 _ hm
            obtain ⟨d, hd, g1, g2⟩ := (hf _ hm h3 (hp.field hm) _).2 hi
            exact ⟨_, (h2 _).2 ⟨_, hm, fc, h3, d, hd, rfl⟩, by simp only; omega, by simp only; omega⟩
    | union size align fs =>
      simp only [RsTy.cells, Except.ok.injEq] at h
      subst h
      split
      · rename_i hfr
        simp only [CellsCover, List.not_mem_nil, false_and, exists_false, false_iff]
        intro hi
        cases hi with
        | union hc _ => exact (RsTy.isFreeze_iff _).1 hfr hc
      · rename_i hfr
        simp only [CellsCover, List.mem_singleton]
        constructor
        · rintro ⟨c, rfl, _, h⟩
          exact .union (by by_contra hcon; exact hfr ((RsTy.isFreeze_iff _).2 hcon)) (by simpa using h)
        · intro h
          cases h with
          | union _ h => exact ⟨_, rfl, Nat.zero_le _, by simpa using h⟩
    | enum size align dt vs l =>
      simp only [RsTy.cells, Except.ok.injEq] at h
      subst h
      split
      · rename_i hfr
        simp only [CellsCover, List.not_mem_nil, false_and, exists_false, false_iff]
        intro hi
        cases hi with
        | enum hc _ => exact (RsTy.isFreeze_iff _).1 hfr hc
      · rename_i hfr
        simp only [CellsCover, List.mem_singleton]
        constructor
        · rintro ⟨c, rfl, _, h⟩
          exact .enum (by by_contra hcon; exact hfr ((RsTy.isFreeze_iff _).2 hcon)) (by simpa using h)
        · intro h
          cases h with
          | enum _ h => exact ⟨_, rfl, Nat.zero_le _, by simpa using h⟩
    | array e n =>
      obtain ⟨range, h1, h2⟩ := RsTy.arrayCells_ok h
      have hih := he e rfl h1 hp.elem
      rcases h2 with ⟨rfl, rfl⟩ | ⟨hne, s, a, hs, rfl⟩
      · constructor
        · rintro ⟨c, hc, _⟩
          cases hc
        · intro hi
          cases hi with
          | elem _ _ hi =>
            obtain ⟨c, hc, _⟩ := (hih _).2 hi
            cases hc
      · obtain ⟨d, hd⟩ := List.exists_mem_of_ne_nil _ hne
        obtain rfl : n = 2 := hp e n .refl (RsTy.hasCell_of_cells e h1 d hd)
        constructor
        · rintro ⟨c, hc, g1, g2⟩
          rcases List.mem_append.1 hc with hc | hc
          · obtain ⟨d, hd, rfl⟩ := List.mem_map.1 hc
            have := InCell.elem (k := 0) hs (by decide : 0 < 2) ((hih i).1 ⟨d, hd, g1, g2⟩)
            simpa using this
          · obtain ⟨d, hd, rfl⟩ := List.mem_map.1 hc
            simp only at g1 g2
            have := InCell.elem (k := 1) hs (by decide : 1 < 2) ((hih (i - s)).1 ⟨d, hd, by omega, by omega⟩)
            have heq : 1 * s + (i - s) = i := by omega
            rwa [heq] at this
        · intro hi
          cases hi with
          | elem hs' hk hi =>
            rename_i s' a' i k
            rw [hs] at hs'
            cases hs'
            obtain ⟨d, hd, g1, g2⟩ := (hih _).2 hi
            rcases Nat.eq_zero_or_pos k with rfl | hk0
            · exact ⟨d, List.mem_append_left _ (List.mem_map.2 ⟨d, hd, rfl⟩), by omega, by omega⟩
            · obtain rfl : k = 1 := by omega
              refine ⟨(d.1 + s, d.2), List.mem_append_right _ (List.mem_map.2 ⟨d, hd, rfl⟩), ?_, ?_⟩
              · simp only; omega
              · simp only; omega
    | _ =>
      simp only [RsTy.cells, panic, Except.ok.injEq, reduceCtorEq] at h
      try
        subst h
        simp only [CellsCover, List.not_mem_nil, false_and, exists_false, false_iff]
        intro hi
        cases hi

theorem RsTy.sizeAlign_array {e : RsTy} {n s : Nat} {a : Align} (h : e.sizeAlign = some (s, a)) :
    (RsTy.array e n).sizeAlign = some (s * n, a) := by
  simp [RsTy.sizeAlign, h]

theorem fieldCells_apart : ∀ {fs : List (Nat × RsTy)} {cs : List (Nat × Nat)}, RsTy.fieldCells fs = .ok cs →
    (∀ f ∈ fs, ∃ s a, f.2.sizeAlign = some (s, a)) →
    (∀ f ∈ fs, ∀ fc, f.2.cells = .ok fc → ∀ s a, f.2.sizeAlign = some (s, a) →
      (∀ c ∈ fc, c.1 + c.2 ≤ s) ∧ fc.Pairwise fun c d => RangesApart c.1 c.2 d.1 d.2) →
    (fs.Pairwise fun f g => ∀ s a s' a', f.2.sizeAlign = some (s, a) → g.2.sizeAlign = some (s', a') →
      RangesApart f.1 s g.1 s') →
    cs.Pairwise fun c d => RangesApart c.1 c.2 d.1 d.2
  | [], cs, h, _, _, _ => by
    simp only [RsTy.fieldCells] at h
    cases h
    exact .nil
  | (o, t) :: fs, cs, h, hs, hc, hp => by
    simp only [RsTy.fieldCells, Res.bind_eq_ok] at h
    obtain ⟨x, h1, y, h2, h3⟩ := h
    cases h3
    rw [List.pairwise_cons] at hp
    obtain ⟨s, a, hsa⟩ := hs _ (List.mem_cons_self ..)
    obtain ⟨g1, g2⟩ := hc _ (List.mem_cons_self ..) x h1 s a hsa
    rw [List.pairwise_append, List.pairwise_map]
    refine ⟨g2.imp fun {c d} h => ?_, fieldCells_apart h2 (fun f hf => hs f (List.mem_cons_of_mem _ hf))
      (fun f hf => hc f (List.mem_cons_of_mem _ hf)) hp.2, fun c hcm d hdm => ?_⟩
    · simp only [RangesApart] at h ⊢
      omega
    · obtain ⟨c, hc', rfl⟩ := List.mem_map.1 hcm
      obtain ⟨f, hf, fc, hfc, d, hd, rfl⟩ := ((RsTy.fieldCells_ok h2).2 d).1 hdm
      obtain ⟨s', a', hsa'⟩ := hs f (List.mem_cons_of_mem _ hf)
      have hap := hp.1 f hf s a s' a' hsa hsa'
      have k1 := g1 c hc'
      have k2 := (hc f (List.mem_cons_of_mem _ hf) fc hfc s' a' hsa').1 d hd
      simp only [RangesApart] at hap ⊢
      omega

theorem RsTy.PartsLaid.field {size : Nat} {align : Align} {fs : List (Nat × RsTy)}
    (h : (RsTy.struct false size align fs).PartsLaid) {f : Nat × RsTy} (hf : f ∈ fs) : f.2.PartsLaid :=
  fun s a fs' hp => h s a fs' (.field hf hp)

theorem RsTy.PartsLaid.elem {e : RsTy} {n : Nat} (h : (RsTy.array e n).PartsLaid) : e.PartsLaid :=
  fun s a fs' hp => h s a fs' (.elem hp)

/-- The cells are inside the type and do not overlap. -/
theorem RsTy.cells_apart (ty : RsTy) : ∀ {cs : List (Nat × Nat)}, ty.cells = .ok cs → ty.PairedArrays → ty.PartsLaid →
    ∀ s a, ty.sizeAlign = some (s, a) →
    (∀ c ∈ cs, c.1 + c.2 ≤ s) ∧ cs.Pairwise fun c d => RangesApart c.1 c.2 d.1 d.2 := by
  induction ty using RsTy.induct with
  | leaf t hf hv he =>
    intro cs h hp hl s a hsa
    cases t with
    | struct cell size align fs =>
      simp only [RsTy.sizeAlign, Option.some.injEq, Prod.mk.injEq] at hsa
      obtain ⟨rfl, rfl⟩ := hsa
      cases cell with
      | true =>
        simp only [RsTy.cells, if_true, Except.ok.injEq] at h
        subst h
        simp
      | false =>
        simp only [RsTy.cells, Bool.false_eq_true, if_false] at h
        have hfl := hl _ _ _ .refl
        have hih : ∀ f ∈ fs, ∀ fc, f.2.cells = .ok fc → ∀ s a, f.2.sizeAlign = some (s, a) →
            (∀ c ∈ fc, c.1 + c.2 ≤ s) ∧ fc.Pairwise fun c d => RangesApart c.1 c.2 d.1 d.2 :=
          fun f hm fc hfc s a hs => hf f hm hfc (hp.field hm) (hl.field hm) s a hs
        refine ⟨fun c hc => ?_, fieldCells_apart h (fun f hm => ?_) hih hfl.apart⟩
        · obtain ⟨f, hm, fc, h3, d, hd, rfl⟩ := ((RsTy.fieldCells_ok h).2 c).1 hc
          obtain ⟨s, a, h4, h5⟩ := hfl.inside f hm
          have := (hih f hm fc h3 s a h4).1 d hd
          simp only
          omega
        · obtain ⟨s, a, h4, _⟩ := hfl.inside f hm
          exact ⟨s, a, h4⟩
    | union size align fs =>
      simp only [RsTy.sizeAlign, Option.some.injEq, Prod.mk.injEq] at hsa
      obtain ⟨rfl, rfl⟩ := hsa
      simp only [RsTy.cells, Except.ok.injEq] at h
      subst h
      split <;> simp
    | enum size align dt vs l =>
      simp only [RsTy.sizeAlign, Option.some.injEq, Prod.mk.injEq] at hsa
      obtain ⟨rfl, rfl⟩ := hsa
      simp only [RsTy.cells, Except.ok.injEq] at h
      subst h
      split <;> simp
    | array e n =>
      obtain ⟨range, h1, h2⟩ := RsTy.arrayCells_ok h
      rcases h2 with ⟨rfl, rfl⟩ | ⟨hne, s', a', hs, rfl⟩
      · simp
      · obtain ⟨d, hd⟩ := List.exists_mem_of_ne_nil _ hne
        obtain rfl : n = 2 := hp e n .refl (RsTy.hasCell_of_cells e h1 d hd)
        rw [RsTy.sizeAlign_array hs] at hsa
        cases hsa
        obtain ⟨g1, g2⟩ := he e rfl h1 hp.elem hl.elem s' _ hs
        refine ⟨fun c hc => ?_, ?_⟩
        · rcases List.mem_append.1 hc with hc | hc
          · obtain ⟨d, hd, rfl⟩ := List.mem_map.1 hc
            have := g1 d hd
            simp only
            omega
          · obtain ⟨d, hd, rfl⟩ := List.mem_map.1 hc
            have := g1 d hd
            simp only
            omega
        · rw [List.pairwise_append, List.pairwise_map, List.pairwise_map]
          refine ⟨g2, g2.imp fun {c d} h => ?_, fun c hc d hd => ?_⟩
          · simp only [RangesApart] at h ⊢
            omega
          · obtain ⟨c, hc', rfl⟩ := List.mem_map.1 hc
            obtain ⟨d, hd', rfl⟩ := List.mem_map.1 hd
            have := g1 c hc'
            simp only [RangesApart]
            omega
    | _ =>
      simp only [RsTy.cells, panic, Except.ok.injEq, reduceCtorEq] at h
      try
        subst h
        simp

theorem RsTy.NoEmptyCell.field {size : Nat} {align : Align} {fs : List (Nat × RsTy)}
    (h : (RsTy.struct false size align fs).NoEmptyCell) {f : Nat × RsTy} (hf : f ∈ fs) : f.2.NoEmptyCell :=
  fun t hp => h t (.field hf hp)

theorem RsTy.NoEmptyCell.elem {e : RsTy} {n : Nat} (h : (RsTy.array e n).NoEmptyCell) : e.NoEmptyCell :=
  fun t hp => h t (.elem hp)

theorem RsTy.cells_pos (ty : RsTy) : ∀ {cs : List (Nat × Nat)}, ty.cells = .ok cs → ty.NoEmptyCell →
    ∀ c ∈ cs, 0 < c.2 := by
  induction ty using RsTy.induct with
  | leaf t hf hv he =>
    intro cs h hn c hc
    have hhas := RsTy.hasCell_of_cells t h c hc
    cases t with
    | struct cell size align fs =>
      cases cell with
      | true =>
        simp only [RsTy.cells, if_true, Except.ok.injEq] at h
        subst h
        obtain ⟨s, a, h1, h2⟩ := hn _ .refl (.inl ⟨_, _, _, rfl⟩) hhas
        cases h1
        simp only [List.mem_singleton] at hc
        subst hc
        exact h2
      | false =>
        simp only [RsTy.cells, Bool.false_eq_true, if_false] at h
        obtain ⟨f, hm, fc, h3, d, hd, rfl⟩ := ((RsTy.fieldCells_ok h).2 c).1 hc
        exact hf f hm h3 (hn.field hm) d hd
    | union size align fs =>
      obtain ⟨s, a, h1, h2⟩ := hn _ .refl (.inr (.inl ⟨_, _, _, rfl⟩)) hhas
      cases h1
      simp only [RsTy.cells, Except.ok.injEq] at h
      subst h
      split at hc
      · cases hc
      · simp only [List.mem_singleton] at hc
        subst hc
        exact h2
    | enum size align dt vs l =>
      obtain ⟨s, a, h1, h2⟩ := hn _ .refl (.inr (.inr ⟨_, _, _, _, _, rfl⟩)) hhas
      cases h1
      simp only [RsTy.cells, Except.ok.injEq] at h
      subst h
      split at hc
      · cases hc
      · simp only [List.mem_singleton] at hc
        subst hc
        exact h2
    | array e n =>
      obtain ⟨range, h1, h2⟩ := RsTy.arrayCells_ok h
      rcases h2 with ⟨rfl, rfl⟩ | ⟨hne, s', a', hs, rfl⟩
      · cases hc
      · rcases List.mem_append.1 hc with hc | hc
        · obtain ⟨d, hd, rfl⟩ := List.mem_map.1 hc
          exact he e rfl h1 hn.elem d hd
        · obtain ⟨d, hd, rfl⟩ := List.mem_map.1 hc
          exact he e rfl h1 hn.elem d hd
    | _ =>
      simp only [RsTy.cells, panic, Except.ok.injEq, reduceCtorEq] at h
      try
        subst h
        cases hc

/-! ### Sorting by offset -/

theorem sortByOffset_cons {α : Type} (f : Nat × α) (l : List (Nat × α)) :
    sortByOffset (f :: l) = (sortByOffset l).orderedInsert (fun a b => a.1 ≤ b.1) f := rfl

theorem sortByOffset_perm {α : Type} (l : List (Nat × α)) : (sortByOffset l).Perm l := List.perm_insertionSort _ _

theorem orderedInsert_ascending {α : Type} {sz : Nat × α → Nat} {f : Nat × α} : ∀ {l : List (Nat × α)},
    (∀ g ∈ l, RangesApart f.1 (sz f) g.1 (sz g) ∧ (f.1 = g.1 → sz f = 0)) →
    l.Pairwise (fun x y => x.1 + sz x ≤ y.1) →
    (l.orderedInsert (fun a b => a.1 ≤ b.1) f).Pairwise fun x y => x.1 + sz x ≤ y.1
  | [], _, _ => by simp
  | b :: l, h, hp => by
    rw [List.orderedInsert_cons]
    obtain ⟨hb, hz⟩ := h b (List.mem_cons_self ..)
    rw [List.pairwise_cons] at hp
    simp only [RangesApart] at hb
    split
    · rename_i hle
      have hfb : f.1 + sz f ≤ b.1 := by omega
      refine List.pairwise_cons.2 ⟨fun g hg => ?_, List.pairwise_cons.2 hp⟩
      rcases List.mem_cons.1 hg with rfl | hg
      · exact hfb
      · have := hp.1 g hg
        omega
    · rename_i hle
      refine List.pairwise_cons.2 ⟨fun g hg => ?_, orderedInsert_ascending (fun g hg => h g (List.mem_cons_of_mem _ hg)) hp.2⟩
      rcases (List.mem_orderedInsert _).1 hg with rfl | hg
      · omega
      · exact hp.1 g hg

/-- Ranges that do not overlap are in ascending order after sorting. -/
theorem sortByOffset_ascending {α : Type} {sz : Nat × α → Nat} : ∀ {l : List (Nat × α)},
    (l.Pairwise fun f g => RangesApart f.1 (sz f) g.1 (sz g) ∧ (f.1 = g.1 → sz f = 0)) →
    (sortByOffset l).Pairwise fun x y => x.1 + sz x ≤ y.1
  | [], _ => .nil
  | f :: l, h => by
    rw [List.pairwise_cons] at h
    rw [sortByOffset_cons]
    exact orderedInsert_ascending (fun g hg => h.1 g ((sortByOffset_perm l).mem_iff.1 hg)) (sortByOffset_ascending h.2)

theorem checkRanges_of : ∀ {l : List (Nat × Nat)} {lo hi : Nat}, l.Pairwise (fun x y => x.1 + x.2 ≤ y.1) →
    (∀ c ∈ l, lo ≤ c.1 ∧ c.1 + c.2 ≤ hi) → lo ≤ hi → ∃ e, checkRanges l lo = .ok e ∧ e ≤ hi
  | [], lo, hi, _, _, h => ⟨lo, rfl, h⟩
  | c :: l, lo, hi, hp, hb, h => by
    rw [List.pairwise_cons] at hp
    obtain ⟨h1, h2⟩ := hb c (List.mem_cons_self ..)
    obtain ⟨e, h3, h4⟩ := checkRanges_of (lo := c.1 + c.2) hp.2 (fun d hd => ⟨hp.1 d hd, (hb d (List.mem_cons_of_mem _ hd)).2⟩) h2
    refine ⟨e, ?_, h4⟩
    simp only [checkRanges, ensureWf, ge_iff_le, h1, decide_true, if_true, Res.bind_ok]
    exact h3

/-- Cells that do not overlap, and are not empty, pass the check of MiniRust once sorted. -/
theorem checkCells_sorted {cs : List (Nat × Nat)} {size : Nat} (hp : cs.Pairwise fun c d => RangesApart c.1 c.2 d.1 d.2)
    (hb : ∀ c ∈ cs, c.1 + c.2 ≤ size) (h0 : ∀ c ∈ cs, 0 < c.2) : checkCells (sortByOffset cs) size = .ok () := by
  have hs : (sortByOffset cs).Pairwise fun x y => x.1 + x.2 ≤ y.1 := by
    refine sortByOffset_ascending (sz := fun c => c.2) (hp.imp_of_mem fun {c d} hc hd h => ⟨h, fun he => ?_⟩)
    have := h0 c hc
    have := h0 d hd
    simp only [RangesApart] at h
    omega
  obtain ⟨e, h1, h2⟩ := checkRanges_of (lo := 0) (hi := size) hs
    (fun c hc => ⟨Nat.zero_le _, hb c ((sortByOffset_perm cs).mem_iff.1 hc)⟩) (Nat.zero_le _)
  simp only [checkCells, h1, Res.bind_ok, ensureWf, h2, decide_true, if_true]

end
end MiniRust
