import Verif.Lemmas.EnumTranslation
import Verif.Lemmas.Abi
import Verif.Props.Representation
/-
C61: the translation of Rust enums.
-/
set_option linter.unusedSectionVars false
namespace MiniRust
variable {P : Type} [DecidableEq P]
section
variable [T : Target]

theorem roundTrips_of_coherent [LawfulTarget T] {prog : Program} {env : ValEnv P} {ty : Ty} {n : Nat} (hwf : ty.checkWf prog = .ok ())
    (hs : ty.size = .ok n) (hc : ty.Coherent env) : RoundTrips env ty :=
  ⟨fun v hv => C02_decode_encode_partial prog ty n hwf hs env hc v hv,
    fun bytes v hv => C03_encode_decode_partial prog ty n hwf hs env hc bytes v hv⟩

theorem discriminantForVariant_eq {e : RsEnum} (hs : e.discriminantTy.size ≤ 16) {i : Nat} {v : RsVariant}
    (h : e.variants[i]? = some v) : discriminantForVariant e i = .ok (e.discr v) := by
  simp only [discriminantForVariant, index, h, unwrap_some, Res.bind_ok, intFromBits_ok hs]
  rfl

/-- The part of `TranslatedTo` about variants, from the list of variants. -/
theorem translated_variants {e : RsEnum} (hs : e.discriminantTy.size ≤ 16) (hnd : (e.variants.map e.discr).Nodup)
    {tg : RsVariant → Nat → Tagger} {vs : Variants} (hvs : vs = e.variants.mapIdx fun i v => (e.discr v, (e.variantTy v, tg v i))) :
    (∀ (i : Nat) v, e.variants[i]? = some v → ∃ d tagger, discriminantForVariant e i = .ok d ∧
      Map.get? vs d = some (e.variantTy v, tagger)) ∧
    ∀ x ∈ vs, ∃ i, i < e.variants.length ∧ discriminantForVariant e i = .ok x.1 := by
  have hkeys : vs.map (·.1) = e.variants.map e.discr := by
    subst hvs
    apply List.ext_getElem?
    intro i
    simp only [List.getElem?_map, List.getElem?_mapIdx, Option.map_map]
    rfl
  constructor
  · intro i v hv
    refine ⟨_, tg v i, discriminantForVariant_eq hs hv, Map.get?_of_nodup (hkeys ▸ hnd) ?_⟩
    subst hvs
    apply List.mem_of_getElem? (i := i)
    rw [List.getElem?_mapIdx, hv]
    rfl
  · intro x hx
    obtain ⟨i, hi⟩ := List.getElem?_of_mem hx
    subst hvs
    rw [List.getElem?_mapIdx] at hi
    cases hv : e.variants[i]? with
    | none => simp [hv] at hi
    | some v =>
      simp only [hv, Option.map_some, Option.some.injEq] at hi
      subst hi
      exact ⟨i, (List.getElem?_eq_some_iff.1 hv).1, discriminantForVariant_eq hs hv⟩

/-- **C61, direct tags.** The translation of an enum with a direct tag is good. -/
theorem C61_direct {prog : Program} {e : RsEnum} {tagTy : IntType} {valid : Nat × Nat} {off : Nat}
    (hl : e.layout = .multiple tagTy valid .direct off) (h : e.DirectLayout prog tagTy off) :
    ∃ ty, translateEnum e = .ok ty ∧ e.TranslatedTo prog ty ∧
      ∀ env : ValEnv P, (∀ v ∈ e.variants, ∀ f ∈ v.fields, f.2.Coherent env) → ty.Coherent env := by
  have hbr : ((e.plain e.variants).map fun v => ((v.1, v.1 + 1), Discriminator.known v.1)).Pairwise
      fun c c' => RangeDisj c.1 c'.1 := by
    rw [List.pairwise_map]
    have := h.distinct
    rw [← e.plain_keys, List.Nodup, List.pairwise_map] at this
    refine this.imp fun {a b} hab => ?_
    rcases Int.lt_or_gt_of_ne hab with h | h
    · left; simp only; omega
    · right; simp only; omega
  have hbk := keys_nodup_of_disj (fun c hc => by
    obtain ⟨v, _, rfl⟩ := List.mem_map.1 hc
    simp) hbr
  have hloop := directLoop_eq (e := e) (tt := tagTy) (off := off) h.discriminant_size e.variants [] []
    (by simpa using h.distinct) (by simpa [RsEnum.plain, Function.comp_def] using hbk)
  simp only [List.nil_append] at hloop
  have hvs : directVariants off tagTy (e.plain e.variants) =
      e.variants.mapIdx fun _ v => (e.discr v, (e.variantTy v, [(off, (tagTy, e.discr v))])) := by
    apply List.ext_getElem?
    intro i
    simp only [directVariants, RsEnum.plain, List.map_map, List.getElem?_map, List.getElem?_mapIdx]
    rfl
  have hkeys : (directVariants off tagTy (e.plain e.variants)).map (·.1) = e.variants.map e.discr := by
    simp [directVariants, RsEnum.plain, Function.comp_def]
  refine ⟨directEnum off tagTy e.discriminantTy (e.plain e.variants) e.size e.align, ?_, ⟨?_, rfl, _, _, rfl, ?_⟩, ?_⟩
  · simp only [translateEnum, hl, hloop, Res.bind_ok]
    rfl
  · refine enum_checkWf h.size_valid h.aligned (fun v hv => ?_) ?_
    · simp only [directVariants, RsEnum.plain, List.map_map, List.mem_map, Function.comp] at hv
      obtain ⟨w, hw, rfl⟩ := hv
      refine ⟨e.canRepresent_discr w, h.variants_wf w hw, h.variant_layout w, ?_⟩
      simp only [checkTagger, IntType.checkWf, h.power, h.fits w hw, h.inside, ensureWf, decide_true, if_true, Res.bind_ok]
    · refine branch_checkWf h.power h.inside rfl (fun c hc => ?_) hbr
      simp only [RsEnum.plain, List.map_map, List.mem_map, Function.comp] at hc
      obtain ⟨w, hw, rfl⟩ := hc
      refine ⟨h.fits w hw, by simpa using h.fits w hw, by simp, ?_⟩
      have : (Map.get? (directVariants off tagTy (e.plain e.variants)) (e.discr w)).isSome = true := by
        obtain ⟨x, hx⟩ := Map.get?_isSome_of_key (hkeys ▸ List.mem_map_of_mem hw)
        rw [hx]
        rfl
      simp only [Discriminator.checkWf, this, ensureWf, if_true]
  · exact translated_variants h.discriminant_size h.distinct hvs
  · intro env hf
    refine coherent_of_enum (directEnum_coherent env ?_ ?_) ?_
    · rw [e.plain_keys]; exact h.distinct
    · intro v hv
      obtain ⟨w, hw, rfl⟩ := List.mem_map.1 hv
      exact h.apart w hw
    · intro v hv
      simp only [directVariants, RsEnum.plain, List.map_map, List.mem_map, Function.comp] at hv
      obtain ⟨w, hw, rfl⟩ := hv
      exact coherent_tupleTy (hf w hw)

section niche
variable {prog : Program} {env : ValEnv P} {e : RsEnum} {tagTy : IntType} {valid : Nat × Nat}
  {untagged first last start off : Nat}

theorem RsEnum.NicheLayout.discr_index (h : e.NicheLayout prog env tagTy valid untagged first last start off)
    {i : Nat} {v : RsVariant} (hv : e.variants[i]? = some v) :
    e.discr v = i ∧ tagTy.bringInBounds v.discr = i := by
  have hi := h.index_fits i (List.getElem?_eq_some_iff.1 hv).1
  rw [RsEnum.discr, h.discr_eq i v hv]
  exact ⟨bringInBounds_of_inBounds _ _ _ hi.1, bringInBounds_of_inBounds _ _ _ hi.2⟩

theorem RsEnum.NicheLayout.indexed_eq (h : e.NicheLayout prog env tagTy valid untagged first last start off) :
    e.indexed tagTy 0 e.variants = e.variants.mapIdx fun i v => (i, (e.discr v, e.variantTy v)) := by
  apply List.ext_getElem?
  intro i
  simp only [RsEnum.indexed, List.getElem?_mapIdx]
  cases hv : e.variants[i]? with
  | none => rfl
  | some v => simp [h.discr_index hv]

theorem RsEnum.NicheLayout.mem_indexed (h : e.NicheLayout prog env tagTy valid untagged first last start off)
    {x : Nat × RustVariant} (hx : x ∈ e.indexed tagTy 0 e.variants) :
    ∃ (i : Nat) (v : RsVariant), e.variants[i]? = some v ∧ x = (i, ((i : Int), e.variantTy v)) := by
  rw [h.indexed_eq] at hx
  obtain ⟨i, hi⟩ := List.getElem?_of_mem hx
  rw [List.getElem?_mapIdx] at hi
  cases hv : e.variants[i]? with
  | none => simp [hv] at hi
  | some v =>
    simp only [hv, Option.map_some, Option.some.injEq, (h.discr_index hv).1] at hi
    exact ⟨i, v, hv, hi.symm⟩

/-- The niche of the layout, as the earlier definitions want it. -/
def nicheOf (tagTy : IntType) (valid : Nat × Nat) (untagged first last start off : Nat) : Niche :=
  ⟨off, tagTy, untagged, (first, last), start, (tagTy.bringInBounds valid.1, tagTy.bringInBounds valid.2)⟩

theorem nicheTag_canRepresent (i : Nat) : tagTy.canRepresent (nicheTag tagTy first start i) = true :=
  bringInBounds_inBounds _ _ _

theorem RsEnum.NicheLayout.tag_inj (h : e.NicheLayout prog env tagTy valid untagged first last start off)
    {i j : Nat} (hi : first ≤ i ∧ i ≤ last) (hj : first ≤ j ∧ j ≤ last)
    (he : nicheTag tagTy first start i = nicheTag tagTy first start j) : i = j := by
  have h1 := bringInBounds_cong tagTy.signed tagTy.size ((i : Int) - first + start)
  have h2 := bringInBounds_cong tagTy.signed tagTy.size ((j : Int) - first + start)
  have hs := h.niche_size
  unfold nicheTag IntType.bringInBounds at he
  rw [he] at h1
  obtain ⟨a, ha⟩ := h1
  obtain ⟨b, hb⟩ := h2
  generalize (2 : Int) ^ (8 * tagTy.size) = m at *
  have h3 : (i : Int) - j = m * (b - a) := by rw [Int.mul_sub]; omega
  have hm : (m : Int) > 0 := by omega
  by_contra hne
  rcases Nat.lt_or_gt_of_ne hne with hlt | hlt
  · have : b - a < 0 := by
      by_contra hcon
      have := Int.mul_nonneg (Int.le_of_lt hm) (Int.not_lt.1 hcon)
      omega
    have : m * (b - a) ≤ m * (-1) := Int.mul_le_mul_of_nonneg_left (by omega) (Int.le_of_lt hm)
    omega
  · have : 0 < b - a := by
      by_contra hcon
      have := Int.mul_le_mul_of_nonneg_left (Int.not_lt.1 hcon) (Int.le_of_lt hm)
      omega
    have : m * 1 ≤ m * (b - a) := Int.mul_le_mul_of_nonneg_left (by omega) (Int.le_of_lt hm)
    omega

/-- The children that come from the variants. -/
theorem RsEnum.NicheLayout.child (h : e.NicheLayout prog env tagTy valid untagged first last start off)
    {x : Nat × RustVariant} (hx : x ∈ e.indexed tagTy 0 e.variants) {c : (Int × Int) × Discriminator}
    (hc : (let tag := (nicheOf tagTy valid untagged first last start off).tagInt x.2.1
      if untagged ≠ x.1 then some ((tag, tag + 1), Discriminator.known x.2.1)
      else if first ≤ x.1 ∧ x.1 ≤ last then some ((tag, tag + 1), .invalid)
      else none) = some c) :
    first ≤ x.1 ∧ x.1 ≤ last ∧ c.1 = (nicheTag tagTy first start x.1, nicheTag tagTy first start x.1 + 1) ∧
      (c.2 = .invalid ∨ c.2 = .known x.2.1) := by
  obtain ⟨i, v, hv, rfl⟩ := h.mem_indexed hx
  simp only at hc
  by_cases hu : untagged = i
  · rw [if_neg (by simpa using hu)] at hc
    by_cases hr : first ≤ i ∧ i ≤ last
    · rw [if_pos hr] at hc
      cases hc
      exact ⟨hr.1, hr.2, rfl, .inl rfl⟩
    · rw [if_neg hr] at hc
      cases hc
  · rw [if_pos hu] at hc
    cases hc
    have hr := h.in_niche i (List.getElem?_eq_some_iff.1 hv).1 (fun he => hu he.symm)
    exact ⟨hr.1, hr.2, rfl, .inr rfl⟩

theorem RsEnum.NicheLayout.indexed_pairwise (h : e.NicheLayout prog env tagTy valid untagged first last start off) :
    (e.indexed tagTy 0 e.variants).Pairwise fun x y => x.1 ≠ y.1 := by
  rw [h.indexed_eq, List.pairwise_iff_getElem]
  intro i j hi hj hij
  simp only [List.getElem_mapIdx]
  omega

theorem RsEnum.NicheLayout.mem_children (h : e.NicheLayout prog env tagTy valid untagged first last start off)
    {c : (Int × Int) × Discriminator}
    (hc : c ∈ (nicheOf tagTy valid untagged first last start off).variantChildren (e.indexed tagTy 0 e.variants)) :
    ∃ i, i < e.variants.length ∧ first ≤ i ∧ i ≤ last ∧
      c.1 = (nicheTag tagTy first start i, nicheTag tagTy first start i + 1) ∧
      (c.2 = .invalid ∨ c.2 = .known i) := by
  unfold Niche.variantChildren at hc
  obtain ⟨x, hx, hc⟩ := List.mem_filterMap.1 hc
  obtain ⟨i, v, hv, rfl⟩ := h.mem_indexed hx
  obtain ⟨h1, h2, h3, h4⟩ := h.child hx hc
  exact ⟨i, (List.getElem?_eq_some_iff.1 hv).1, h1, h2, h3, h4⟩

theorem RsEnum.NicheLayout.disj (h : e.NicheLayout prog env tagTy valid untagged first last start off) :
    ((nicheOf tagTy valid untagged first last start off).variantChildren (e.indexed tagTy 0 e.variants) ++
      (nicheOf tagTy valid untagged first last start off).rangeChildren).Pairwise fun c c' => RangeDisj c.1 c'.1 := by
  rw [List.pairwise_append]
  refine ⟨?_, (rangeChildren_good (n := nicheOf tagTy valid untagged first last start off) h.power (bringInBounds_inBounds _ _ _) (bringInBounds_inBounds _ _ _)).1, ?_⟩
  · unfold Niche.variantChildren
    rw [List.pairwise_filterMap]
    refine h.indexed_pairwise.imp_of_mem fun {x y} hx hy hxy c hc c' hc' => ?_
    obtain ⟨a1, a2, a3, _⟩ := h.child hx hc
    obtain ⟨b1, b2, b3, _⟩ := h.child hy hc'
    have hne : nicheTag tagTy first start x.1 ≠ nicheTag tagTy first start y.1 := fun he =>
      hxy (h.tag_inj ⟨a1, a2⟩ ⟨b1, b2⟩ he)
    rw [a3, b3]
    rcases Int.lt_or_gt_of_ne hne with h | h
    · left; simp only; omega
    · right; simp only; omega
  · intro c hc c' hc'
    obtain ⟨i, _, h1, h2, h3, _⟩ := h.mem_children hc
    have := (rangeChildren_iff (n := nicheOf tagTy valid untagged first last start off) h.power rfl
      (nicheTag_canRepresent i)).2 (h.tags_valid i h1 h2) c' hc'
    rw [h3]
    simp only [RangeDisj]
    by_contra hcon
    apply this
    constructor <;> simp only [nicheOf] <;> omega

/-- **C61, niche tags.** The translation of an enum whose tag is in a niche is good. -/
theorem C61_niche_partial (hl : e.layout = .multiple tagTy valid (.niche untagged (first, last) start) off)
    (h : e.NicheLayout prog env tagTy valid untagged first last start off) :
    ∃ ty, translateEnum e = .ok ty ∧ e.TranslatedTo prog ty ∧
      ((∀ v ∈ e.variants, ∀ f ∈ v.fields, f.2.Coherent env) → ty.Coherent env) := by
  have hgood := rangeChildren_good (n := nicheOf tagTy valid untagged first last start off) h.power
    (bringInBounds_inBounds _ _ _) (bringInBounds_inBounds _ _ _)
  have hdisj := h.disj
  have hall : ∀ c ∈ (nicheOf tagTy valid untagged first last start off).variantChildren (e.indexed tagTy 0 e.variants) ++
      (nicheOf tagTy valid untagged first last start off).rangeChildren, tagTy.canRepresent c.1.1 = true ∧
      tagTy.canRepresent (c.1.2 - 1) = true ∧ c.1.1 < c.1.2 ∧
      (c.2 = .invalid ∨ ∃ i, i < e.variants.length ∧ c.2 = .known (i : Nat)) := by
    intro c hc
    rcases List.mem_append.1 hc with hc | hc
    · obtain ⟨i, hi, _, _, h3, h4⟩ := h.mem_children hc
      rw [h3]
      refine ⟨nicheTag_canRepresent i, ?_, by simp, h4.imp id fun h => ⟨i, hi, h⟩⟩
      simpa using nicheTag_canRepresent i
    · obtain ⟨h1, h2, h3, h4⟩ := hgood.2 c hc
      exact ⟨h1, h2, h3, .inl h4⟩
  have hbk := keys_nodup_of_disj (fun c hc => (hall c hc).2.2.1) hdisj
  rw [List.map_append] at hbk
  have hvs : (nicheOf tagTy valid untagged first last start off).variants (e.indexed tagTy 0 e.variants) =
      e.variants.mapIdx fun i v => (e.discr v, (e.variantTy v,
        if untagged ≠ i then [(off, (tagTy, (nicheOf tagTy valid untagged first last start off).tagInt (e.discr v)))] else [])) := by
    rw [h.indexed_eq]
    apply List.ext_getElem?
    intro i
    simp only [Niche.variants, List.getElem?_map, List.getElem?_mapIdx, Option.map_map]
    rfl
  have hkeys : (e.indexed tagTy 0 e.variants).map (·.2.1) = e.variants.map e.discr := by
    rw [h.indexed_eq]
    apply List.ext_getElem?
    intro i
    simp only [List.getElem?_map, List.getElem?_mapIdx, Option.map_map]
    rfl
  have hmap := translated_variants h.discriminant_size h.distinct hvs
  have hhas : ∀ i, i < e.variants.length → (Map.get? ((nicheOf tagTy valid untagged first last start off).variants
      (e.indexed tagTy 0 e.variants)) (i : Nat)).isSome = true := by
    intro i hi
    obtain ⟨d, tg, hd, hg⟩ := hmap.1 i _ (List.getElem?_eq_getElem hi)
    rw [discriminantForVariant_eq h.discriminant_size (List.getElem?_eq_getElem hi),
      (h.discr_index (List.getElem?_eq_getElem hi)).1] at hd
    cases hd
    rw [hg]
    rfl
  have hloop := nicheLoop_eq (e := e) (n := nicheOf tagTy valid untagged first last start off) rfl h.discriminant_size
    h.size e.variants 0 [] [] (by simpa [nicheOf] using hkeys ▸ h.distinct) (by
      simp only [List.map_nil, List.nil_append]
      exact (List.nodup_append.1 hbk).1)
  have hins := insertRange_eq (n := nicheOf tagTy valid untagged first last start off) hbk
  refine ⟨(nicheOf tagTy valid untagged first last start off).enum e.discriminantTy (e.indexed tagTy 0 e.variants) e.size e.align,
    ?_, ⟨?_, rfl, _, _, rfl, hmap⟩, ?_⟩
  · simp only [nicheOf] at hloop hins
    simp only [translateEnum, hl, hloop, Res.bind_ok, intFromBits_ok h.size, List.nil_append, hins]
    rfl
  · refine enum_checkWf h.size_valid h.aligned (fun v hv => ?_) ?_
    · simp only [Niche.variants, List.mem_map] at hv
      obtain ⟨x, hx, rfl⟩ := hv
      obtain ⟨i, w, hw, rfl⟩ := h.mem_indexed hx
      refine ⟨(h.index_fits i (List.getElem?_eq_some_iff.1 hw).1).1, h.variants_wf w (List.mem_of_getElem? hw),
        h.variant_layout w, ?_⟩
      simp only
      split
      · have hr : tagTy.canRepresent ((nicheOf tagTy valid untagged first last start off).tagInt i) = true :=
          bringInBounds_inBounds _ _ _
        simp only [nicheOf] at hr
        simp only [checkTagger, IntType.checkWf, nicheOf, h.power, hr, h.inside, ensureWf, decide_true, if_true, Res.bind_ok]
      · rfl
    · refine branch_checkWf h.power h.inside ?_ (fun c hc => ?_) hdisj
      · simp only [Discriminator.checkWf, ensureWf]
        rw [if_pos]
        exact hhas untagged h.untagged_exists
      · obtain ⟨h1, h2, h3, h4⟩ := hall c hc
        refine ⟨h1, h2, h3, ?_⟩
        rcases h4 with h4 | ⟨i, hi, h4⟩
        · rw [h4]; rfl
        · rw [h4]
          simp only [Discriminator.checkWf, ensureWf]
          rw [if_pos (hhas i hi)]
  · intro hf
    refine coherent_of_enum (nicheEnum_coherent env ?_ ?_ hdisj ?_ ?_) ?_
    · rw [hkeys]; exact h.distinct
    · intro x hx
      obtain ⟨i, v, hv, rfl⟩ := h.mem_indexed hx
      simp [nicheOf]
    · intro x hx hne
      obtain ⟨i, v, hv, rfl⟩ := h.mem_indexed hx
      exact h.apart i v hv hne
    · intro x hx hne data hd bytes hb
      obtain ⟨i, v, hv, rfl⟩ := h.mem_indexed hx
      simp only [nicheOf] at hne
      subst hne
      obtain ⟨tag, val, h1, h2, h3, h4⟩ := h.niche v hv data hd bytes hb
      refine ⟨tag, val, h1, h2, fun c hc => ?_⟩
      rcases List.mem_append.1 hc with hc | hc
      · obtain ⟨j, _, j1, j2, j3, _⟩ := h.mem_children hc
        have := h4 j j1 j2
        rw [j3]
        simp only
        omega
      · exact (rangeChildren_iff (n := nicheOf tagTy valid i first last start off) h.power rfl
          (decodeInt_canRepresent h2)).2 h3 c hc
    · intro v hv
      simp only [Niche.variants, List.mem_map] at hv
      obtain ⟨x, hx, rfl⟩ := hv
      obtain ⟨i, w, hw, rfl⟩ := h.mem_indexed hx
      exact coherent_tupleTy (hf w (List.mem_of_getElem? hw))

end niche

/-- **C61, a single inhabited variant.** -/
theorem C61_single {prog : Program} {env : ValEnv P} {e : RsEnum} {index : Nat}
    (hl : e.layout = .single index) (h : e.SingleLayout prog env index) :
    ∃ ty, translateEnum e = .ok ty ∧ e.TranslatedTo prog ty ∧
      ((∀ v ∈ e.variants, ∀ f ∈ v.fields, f.2.Coherent env) → ty.Coherent env) := by
  have hvs : (e.variants.map fun v => (e.discr v, (e.variantTy v, ([] : Tagger)))) =
      e.variants.mapIdx fun _ v => (e.discr v, (e.variantTy v, [])) := by
    apply List.ext_getElem?
    intro i
    simp only [List.getElem?_map, List.getElem?_mapIdx]
  have hmap := translated_variants h.discriminant_size h.distinct hvs
  have hloop := singleLoop_eq h.discriminant_size e.variants [] (by simpa using h.distinct)
  simp only [List.nil_append] at hloop
  obtain ⟨w, hw⟩ : ∃ w, e.variants[index]? = some w := ⟨_, List.getElem?_eq_getElem h.index_exists⟩
  refine ⟨.enum (e.variants.map fun v => (e.discr v, (e.variantTy v, []))) e.discriminantTy (.known (e.discr w)) e.size e.align,
    ?_, ⟨?_, rfl, _, _, rfl, hmap⟩, ?_⟩
  · simp only [translateEnum, hl, hloop, Res.bind_ok, MiniRust.index, hw, unwrap_some, intFromBits_ok h.discriminant_size]
    rfl
  · refine enum_checkWf h.size_valid h.aligned (fun v hv => ?_) ?_
    · obtain ⟨x, hx, rfl⟩ := List.mem_map.1 hv
      exact ⟨e.canRepresent_discr x, h.variants_wf x hx, h.variant_layout x, rfl⟩
    · obtain ⟨d, tg, hd, hg⟩ := hmap.1 index w hw
      rw [discriminantForVariant_eq h.discriminant_size hw] at hd
      cases hd
      simp only [Discriminator.checkWf, ensureWf, hg]
      rfl
  · intro hf
    refine coherent_of_enum ⟨?_, ?_, ?_, ?_⟩ ?_
    · intro v hv
      obtain ⟨x, hx, rfl⟩ := List.mem_map.1 hv
      exact List.Pairwise.nil
    · intro v hv t ht
      obtain ⟨x, hx, rfl⟩ := List.mem_map.1 hv
      cases ht
    · intro v hv data hd bytes hb
      obtain ⟨x, hx, rfl⟩ := List.mem_map.1 hv
      obtain ⟨i, hi⟩ := List.getElem?_of_mem hx
      by_cases hii : i = index
      · subst hii
        rw [hw] at hi
        cases hi
        rfl
      · exact absurd hd (h.uninhabited i x hi hii data)
    · intro bytes _ v hv _ t ht
      obtain ⟨x, hx, rfl⟩ := List.mem_map.1 hv
      cases ht
    · intro v hv
      obtain ⟨x, hx, rfl⟩ := List.mem_map.1 hv
      exact coherent_tupleTy (hf x hx)

/-- **C61, no variants.** The translation has no values at all. -/
theorem C61_empty {prog : Program} {e : RsEnum} (hl : e.layout = .empty) (hv : e.variants = []) (h : e.Laid prog) :
    ∃ ty, translateEnum e = .ok ty ∧ e.TranslatedTo prog ty ∧
      (∀ (env : ValEnv P) v, checkValue env ty v ≠ .ok ()) ∧ ∀ (bytes : List (AByte P)) v, decode ty bytes ≠ .ok v := by
  refine ⟨.enum [] e.discriminantTy .invalid e.size e.align, ?_, ⟨?_, rfl, _, _, rfl, ?_, ?_⟩, ?_, ?_⟩
  · simp only [translateEnum, hl, hv]
    rfl
  · refine enum_checkWf h.size_valid h.aligned (fun v hv => by cases hv) rfl
  · intro i v hi
    simp [hv] at hi
  · intro x hx
    cases hx
  · intro env v hv
    cases v <;> simp [checkValue, checkVariant, panic, ub] at hv
  · intro bytes v hv
    simp [decode, Res.bind_eq_ok, decodeDiscriminant] at hv

/-- **C61, round trips.** If the translation is good, values of the enum survive being stored and loaded. -/
theorem C61_roundTrips [LawfulTarget T] {prog : Program} {e : RsEnum} {ty : Ty} (h : e.TranslatedTo prog ty) {env : ValEnv P}
    (hc : ty.Coherent env) : RoundTrips env ty := by
  refine roundTrips_of_coherent (n := e.size) h.wf ?_ hc
  simp only [Ty.size, h.layout, Res.bind_ok]
  rfl

end

/-! ### Non-trivial cases, and where the translation is not good -/

section
attribute [local instance] x86_64

/-- `enum E { A = 0, B(u16) = 258 }`-like, with a direct tag of two bytes. -/
def Ex.directEnum : RsEnum :=
  ⟨4, ⟨1⟩, ⟨.signed, 8⟩, [⟨0, []⟩, ⟨258, [(2, .int ⟨.unsigned, 2⟩)]⟩],
    .multiple ⟨.unsigned, 2⟩ (0, 258) .direct 0⟩

example : Ex.directEnum.DirectLayout Ex.prog ⟨.unsigned, 2⟩ 0 where
  size_valid := by decide
  aligned := by decide
  discriminant_size := by decide
  variants_wf := by decide
  distinct := by decide
  power := by decide
  size := by decide
  inside := by decide
  fits := by decide
  apart := by
    intro v hv i h1 h2 hu
    simp only [Ex.directEnum, List.mem_cons, List.not_mem_nil, or_false] at hv
    simp only at h2
    rcases hv with rfl | rfl
    · cases hu with
      | field h _ => cases h
    · cases hu with
      | field h h' =>
        simp only [List.mem_cons, List.not_mem_nil, or_false, Prod.mk.injEq] at h
        omega

/-- `Option<bool>`: the tag of `None` is 2, in the niche of `bool`. -/
def Ex.nicheEnum : RsEnum :=
  ⟨1, ⟨0⟩, ⟨.signed, 8⟩, [⟨0, []⟩, ⟨1, [(0, .bool)]⟩],
    .multiple ⟨.unsigned, 1⟩ (0, 2) (.niche 1 (0, 0) 2) 0⟩

theorem Ex.nicheEnum_layout : Ex.nicheEnum.NicheLayout Ex.prog Ex.env ⟨.unsigned, 1⟩ (0, 2) 1 0 0 2 0 where
  size_valid := by decide
  aligned := by decide
  discriminant_size := by decide
  variants_wf := by decide
  distinct := by decide
  power := by decide
  size := by decide
  inside := by decide
  discr_eq := by
    intro i v h
    match i with
    | 0 => cases h; rfl
    | 1 => cases h; rfl
    | i + 2 => cases h
  index_fits := by decide
  untagged_exists := by decide
  in_niche := by decide
  niche_size := by decide
  tags_valid := by
    intro i h1 h2
    obtain rfl : i = 0 := by omega
    simp only [WrapContains]
    decide
  apart := by
    intro i v hv hne k h1 h2 hu
    match i with
    | 0 =>
      cases hv
      cases hu with
      | field h _ => cases h
    | 1 => exact hne rfl
    | i + 2 => cases hv
  niche := by
    intro v hv data hd bytes hb
    cases hv
    match data, hd, hb with
    | .tuple [.bool b], _, hb =>
      refine ⟨bytes, if b then 1 else 0, ?_, ?_, ?_, ?_⟩
      all_goals cases b <;> cases hb
      · rfl
      · rfl
      · decide
      · decide
      · simp only [WrapContains]; decide
      · simp only [WrapContains]; decide
      · intro i h1 h2
        obtain rfl : i = 0 := by omega
        decide
      · intro i h1 h2
        obtain rfl : i = 0 := by omega
        decide
    | .tuple [], hd, _ => simp [RsEnum.variantTy, tupleTy, checkValue, ensureUb] at hd
    | .tuple [.int _], hd, _ => simp [RsEnum.variantTy, tupleTy, checkValue, checkFields, panic] at hd
    | .tuple [.ptr _], hd, _ => simp [RsEnum.variantTy, tupleTy, checkValue, checkFields, panic] at hd
    | .tuple [.tuple _], hd, _ => simp [RsEnum.variantTy, tupleTy, checkValue, checkFields, panic] at hd
    | .tuple [.variant _ _], hd, _ => simp [RsEnum.variantTy, tupleTy, checkValue, checkFields, panic] at hd
    | .tuple [.union _], hd, _ => simp [RsEnum.variantTy, tupleTy, checkValue, checkFields, panic] at hd
    | .tuple (_ :: _ :: _), hd, _ => simp [RsEnum.variantTy, tupleTy, checkValue, ensureUb] at hd
    | .int _, hd, _ => cases hd
    | .bool _, hd, _ => cases hd
    | .ptr _, hd, _ => cases hd
    | .variant _ _, hd, _ => cases hd
    | .union _, hd, _ => cases hd

/-- The type of `!`, `/repo/tooling/minimize/src/ty.rs:244-245`. -/
def Ex.never : Ty := .enum [] ⟨.unsigned, 1⟩ .invalid 0 ⟨0⟩

/-- `Result<u8, !>`. -/
def Ex.singleEnum : RsEnum :=
  ⟨1, ⟨0⟩, ⟨.signed, 8⟩, [⟨0, [(0, .int ⟨.unsigned, 1⟩)]⟩, ⟨1, [(0, Ex.never)]⟩], .single 0⟩

theorem Ex.singleEnum_layout : Ex.singleEnum.SingleLayout Ex.prog Ex.env 0 where
  size_valid := by decide
  aligned := by decide
  discriminant_size := by decide
  variants_wf := by decide
  distinct := by decide
  index_exists := by decide
  uninhabited := by
    intro i v hv hne data hd
    match i with
    | 0 => exact hne rfl
    | 1 =>
      cases hv
      cases data with
      | tuple vs =>
        match vs with
        | [] => simp [RsEnum.variantTy, tupleTy, checkValue, ensureUb] at hd
        | v :: vs =>
          simp only [RsEnum.variantTy, tupleTy, checkValue, checkFields, Res.bind_eq_ok] at hd
          obtain ⟨_, _, _, _, _, h, _⟩ := hd
          cases v <;> simp [Ex.never, checkValue, checkVariant, panic, ub] at h
      | _ => cases hd
    | i + 2 => cases hv

/-- `enum Void {}`. -/
example : (⟨0, ⟨0⟩, ⟨.signed, 8⟩, [], .empty⟩ : RsEnum).Laid Ex.prog where
  size_valid := by decide
  aligned := by decide
  discriminant_size := by decide
  variants_wf := by decide
  distinct := by decide

/-- `enum E { Never(!), A(bool), B }`. rustc gives `Never` no tag: it is uninhabited and takes no space, so the niche
range has `B` only. -/
def Ex.absentVariant : RsEnum :=
  ⟨1, ⟨0⟩, ⟨.signed, 8⟩, [⟨0, [(0, Ex.never)]⟩, ⟨1, [(0, .bool)]⟩, ⟨2, []⟩],
    .multiple ⟨.unsigned, 1⟩ (0, 2) (.niche 1 (2, 2) 2) 0⟩

/-- The type `Ex.absentVariant` translates to. -/
def Ex.absentTy : Ty :=
  match translateEnum Ex.absentVariant with
  | .ok ty => ty
  | .error _ => .bool

/-- **C61 is false of uninhabited variants outside the niche.** The translation still makes up a tag for them. Here
the tag of `Never` is 0, which is also the byte of `A(false)`. So the valid value `A(false)` cannot be loaded back
after it was stored. The type is well-formed. -/
theorem C61_absent_variant_breaks_data :
    translateEnum Ex.absentVariant = .ok Ex.absentTy ∧ Ex.absentTy.checkWf Ex.prog = .ok () ∧
    checkValue Ex.env Ex.absentTy (.variant 1 (.tuple [.bool false])) = .ok () ∧
    encode Ex.absentTy (.variant 1 (.tuple [.bool false]) : Value Nat) = .ok [.init 0 none] ∧
    decode Ex.absentTy ([.init 0 none] : List (AByte Nat)) = .error .none := by
  refine ⟨rfl, ?_, ?_, ?_, ?_⟩ <;> decide +kernel

/-- The layout hypotheses other than `in_niche` hold of the witness: the tag of `B` is valid, and `A` has a niche. -/
example : ¬ (∀ i, i < Ex.absentVariant.variants.length → i ≠ 1 → 2 ≤ i ∧ i ≤ 2) := by decide

/-- An enum with 130 further variants, around a field with a one byte signed tag (such as an `#[repr(i8)]` enum with
the only value 0): the tags are 1 to 130. -/
def Ex.signedNiche : RsEnum :=
  ⟨1, ⟨0⟩, ⟨.signed, 8⟩, ⟨0, [(0, .enum [(0, (.tuple [] ⟨1, ⟨0⟩, none⟩ none, [(0, (⟨.signed, 1⟩, 0))]))] ⟨.signed, 1⟩
      (.branch 0 ⟨.signed, 1⟩ .invalid [((0, 1), .known 0)]) 1 ⟨0⟩)]⟩ ::
    (List.range 130).map (fun i => ⟨i + 1, []⟩),
    .multiple ⟨.signed, 1⟩ (0, 130) (.niche 0 (1, 130) 1) 0⟩

/-- **C61 is false of signed niches with many variants.** The variants are keyed by their discriminant read as the tag
type. The rest of the translation asks for the discriminant read as the discriminant type, and does not find it. -/
theorem C61_signed_niche_loses_variant :
    discriminantForVariant Ex.signedNiche 130 = .ok 130 ∧
    (match translateEnum Ex.signedNiche with
      | .ok (.enum vs _ _ _ _) => some ((Map.get? vs 130).isSome, (Map.get? vs (-126)).isSome)
      | _ => none) = some (false, true) := by
  constructor <;> decide +kernel

end
end MiniRust
