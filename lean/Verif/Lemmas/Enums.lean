import Verif.Enums
import Verif.Lemmas.ReprLaws2
/-
Discriminators with disjoint branches; the enums built by `minimize` are coherent.
-/
set_option linter.unusedSectionVars false
namespace MiniRust
variable {P : Type} [DecidableEq P]

/-- Ranges `[a.1, a.2)` and `[b.1, b.2)` are disjoint. -/
def RangeDisj (a b : Int × Int) : Prop := a.2 ≤ b.1 ∨ b.2 ≤ a.1

theorem checkChildren_disj {size : Nat} {has : Int → Bool} {vt : IntType} {keys : List (Int × Int)}
    {cs : List ((Int × Int) × Discriminator)} {n : Nat}
    (h : Discriminator.checkChildren size has vt keys cs n = .ok ()) :
    ∀ (i : Nat) c, cs[i]? = some c → c.1.1 < c.1.2 ∧ ∀ (j : Nat) k, keys[j]? = some k → n + i ≠ j →
      RangeDisj k c.1 := by
  induction cs generalizing n with
  | nil => intro i c hc; simp at hc
  | cons c cs ih =>
    obtain ⟨⟨a, b⟩, d⟩ := c
    simp only [Discriminator.checkChildren, Res.bind_eq_ok, ensureWf_eq_ok, decide_eq_true_eq] at h
    obtain ⟨-, -, -, -, -, hlt, -, hall, -, -, h⟩ := h
    intro i c hc
    rcases i with _ | i
    · simp only [List.getElem?_cons_zero, Option.some.injEq] at hc
      subst hc
      refine ⟨hlt, ?_⟩
      intro j k hk hne
      rw [List.all_eq_true] at hall
      have hmem : (k, j) ∈ keys.zipIdx := by
        rw [List.mem_zipIdx_iff_getElem?]; exact hk
      have := hall _ hmem
      simp only [decide_eq_true_eq] at this
      rcases this with h1 | h1 | h1
      · exact Or.inl h1
      · exact Or.inr h1
      · omega
    · simp only [List.getElem?_cons_succ] at hc
      obtain ⟨h1, h2⟩ := ih h i c hc
      refine ⟨h1, fun j k hk hne => h2 j k hk (by omega)⟩

/-- The children of an accepted discriminator have pairwise disjoint ranges. -/
theorem checkWf_branch_disj {size : Nat} {has : Int → Bool} {o : Nat} {vt : IntType} {f : Discriminator}
    {cs : List ((Int × Int) × Discriminator)}
    (h : (Discriminator.branch o vt f cs).checkWf size has = .ok ()) :
    cs.Pairwise fun c c' => RangeDisj c.1 c'.1 := by
  simp only [Discriminator.checkWf, Res.bind_eq_ok] at h
  obtain ⟨-, -, -, -, -, -, h⟩ := h
  have h1 := checkChildren_disj h
  rw [List.pairwise_iff_getElem]
  intro i j hi hj hij
  refine (h1 j _ (List.getElem?_eq_getElem hj)).2 i _ ?_ (by omega)
  rw [List.getElem?_map, List.getElem?_eq_getElem hi]; rfl

theorem pickChild_eq_none {cs : List ((Int × Int) × Discriminator)} {v : Int} :
    pickChild cs v = none ↔ ∀ c ∈ cs, ¬ (c.1.1 ≤ v ∧ v < c.1.2) := by
  induction cs with
  | nil => simp [pickChild]
  | cons c cs ih =>
    obtain ⟨⟨a, b⟩, d⟩ := c
    simp only [pickChild]
    split
    · rename_i h; simp only [List.mem_cons, forall_eq_or_imp, reduceCtorEq, false_iff]
      intro hh; exact hh.1 h
    · rename_i h; simp only [List.mem_cons, forall_eq_or_imp, ih]
      exact ⟨fun hh => ⟨h, hh⟩, fun hh => hh.2⟩

/-- With disjoint ranges, the child found is the one whose range contains the value. -/
theorem pickChild_eq_some {cs : List ((Int × Int) × Discriminator)} {v : Int} {d : Discriminator}
    (hd : cs.Pairwise fun c c' => RangeDisj c.1 c'.1) :
    pickChild cs v = some d ↔ ∃ c ∈ cs, c.2 = d ∧ c.1.1 ≤ v ∧ v < c.1.2 := by
  constructor
  · exact pickChild_mem
  · rintro ⟨c, hc, rfl, h1, h2⟩
    induction cs with
    | nil => cases hc
    | cons c' cs ih =>
      rw [List.pairwise_cons] at hd
      obtain ⟨⟨a, b⟩, d'⟩ := c'
      simp only [pickChild]
      rcases List.mem_cons.1 hc with rfl | hc
      · rw [if_pos ⟨h1, h2⟩]
      · have := hd.1 c hc
        rw [if_neg]
        · exact ih hd.2 hc
        · rintro ⟨h3, h4⟩
          rcases this with h | h <;> simp only at h <;> omega

section
variable [T : Target]

/-- What a branch answers, by the decoded tag. -/
theorem discriminantOf_branch_ok {o : Nat} {vt : IntType} {f : Discriminator}
    {cs : List ((Int × Int) × Discriminator)} {bytes tag : List (AByte P)} {val : Int}
    (h1 : subslice bytes o vt.size = .ok tag) (h2 : decodeInt vt tag = .ok val) :
    discriminantOf (.branch o vt f cs) bytes =
      match pickChild cs val with
      | some d => discriminantOf d bytes
      | none => discriminantOf f bytes := by
  rw [discriminantOf_branch, h1]
  simp only [h2]
  cases pickChild cs val <;> rfl

theorem discriminantOf_branch_some {o : Nat} {vt : IntType} {f : Discriminator}
    {cs : List ((Int × Int) × Discriminator)} {bytes : List (AByte P)} {d : Int}
    (h : discriminantOf (.branch o vt f cs) bytes = .ok (some d)) :
    ∃ tag val, subslice bytes o vt.size = .ok tag ∧ decodeInt vt tag = .ok val := by
  rw [discriminantOf_branch] at h
  split at h
  · cases h
  · rename_i tag h1
    split at h
    · cases h
    · cases h
    · rename_i val h2; exact ⟨tag, val, h1, h2⟩

/-- Writing a single tag entry makes it readable. -/
theorem encodeDiscriminant_single {o : Nat} {vt : IntType} {val : Int} {a b : List (AByte P)}
    (h : encodeDiscriminant writeSubslice [(o, (vt, val))] a = .ok b) :
    ∃ tag, subslice b o vt.size = .ok tag ∧ decodeInt vt tag = .ok val := by
  simp only [encodeDiscriminant, Res.bind_eq_ok] at h
  obtain ⟨tag, h1, b', h2, h3⟩ := h
  cases h3
  have := subslice_writeSubslice_same h2
  rw [encodeInt_length h1] at this
  exact ⟨tag, this, decodeInt_encodeInt h1⟩

theorem discriminantOf_known (d : Int) (bytes : List (AByte P)) :
    discriminantOf (.known d) bytes = .ok (some d) := rfl
theorem discriminantOf_invalid (bytes : List (AByte P)) :
    discriminantOf .invalid bytes = .ok none := rfl

/-- Directly tagged enums (as built by `minimize`) are coherent, provided that the variants'
data does not use the bytes of the tag. -/
theorem directEnum_coherent (env : ValEnv P) {off : Nat} {tt : IntType} {vs : List RustVariant} {size : Nat}
    (hnd : (vs.map (·.1)).Nodup)
    (hdata : ∀ v ∈ vs, ∀ i, off ≤ i → i < off + tt.size → ¬ UsesByte v.2 i) :
    EnumCoherent env (directVariants off tt vs) (directDiscriminator off tt vs) size where
  tags_apart := by
    intro v hv
    obtain ⟨w, _, rfl⟩ := List.mem_map.1 hv
    simp
  tag_not_data := by
    intro v hv e he
    obtain ⟨w, hw, rfl⟩ := List.mem_map.1 hv
    simp only [List.mem_singleton] at he
    subst he
    exact hdata w hw
  disc_complete := by
    intro v hv data _ bytes hb
    obtain ⟨w, hw, rfl⟩ := List.mem_map.1 hv
    have hget : Map.get? (directVariants off tt vs) w.1 = some (w.2, [(off, (tt, w.1))]) := by
      clear hv hb hdata
      induction vs with
      | nil => cases hw
      | cons x xs ih =>
        simp only [List.map_cons, List.nodup_cons] at hnd
        simp only [directVariants, List.map_cons, Map.get?]
        rcases List.mem_cons.1 hw with rfl | hw
        · simp
        · rw [if_neg]
          · exact ih hnd.2 hw
          · intro hx
            exact hnd.1 (hx ▸ List.mem_map_of_mem hw)
    simp only [encodeVariant_eq, hget, Res.bind_eq_ok] at hb
    obtain ⟨b0, _, hb⟩ := hb
    obtain ⟨tag, h1, h2⟩ := encodeDiscriminant_single hb
    unfold directDiscriminator
    rw [discriminantOf_branch_ok h1 h2]
    cases hp : pickChild (vs.map fun v => ((v.1, v.1 + 1), Discriminator.known v.1)) w.1 with
    | none =>
      rw [pickChild_eq_none] at hp
      exact absurd ⟨le_refl _, by show w.1 < w.1 + 1; omega⟩ (hp _ (List.mem_map_of_mem hw))
    | some d =>
      obtain ⟨c, hc, rfl, h3, h4⟩ := pickChild_mem hp
      obtain ⟨x, _, rfl⟩ := List.mem_map.1 hc
      simp only at h3 h4 ⊢
      have : x.1 = w.1 := by omega
      rw [this]; rfl
  disc_sound := by
    intro bytes _ v hv hd e he
    obtain ⟨w, hw, rfl⟩ := List.mem_map.1 hv
    simp only [List.mem_singleton] at he
    subst he
    unfold directDiscriminator at hd
    obtain ⟨tag, val, h1, h2⟩ := discriminantOf_branch_some hd
    refine ⟨tag, h1, ?_⟩
    rw [discriminantOf_branch_ok h1 h2] at hd
    cases hp : pickChild (vs.map fun v => ((v.1, v.1 + 1), Discriminator.known v.1)) val with
    | none => rw [hp] at hd; cases hd
    | some d =>
      rw [hp] at hd
      obtain ⟨c, hc, rfl, h3, h4⟩ := pickChild_mem hp
      obtain ⟨x, _, rfl⟩ := List.mem_map.1 hc
      simp only [discriminantOf_known, Except.ok.injEq, Option.some.injEq] at hd
      simp only at h3 h4 ⊢
      rw [h2]; congr 1; omega

/-- Niche-encoded enums (as built by `minimize`) are coherent, provided that the tagged variants' data
does not use the bytes of the tag, and that valid data of the untagged variant has in the place of
the tag a value that is neither a tag of another variant nor excluded by the valid range. -/
theorem nicheEnum_coherent (env : ValEnv P) {n : Niche} {vs : List (Nat × RustVariant)} {size : Nat}
    (hnd : (vs.map (·.2.1)).Nodup) (hidx : ∀ v ∈ vs, v.1 = n.untagged ↔ v.2.1 = n.untagged)
    (hdisj : (n.variantChildren vs ++ n.rangeChildren).Pairwise fun c c' => RangeDisj c.1 c'.1)
    (hdata : ∀ v ∈ vs, v.1 ≠ n.untagged → ∀ i, n.tagOffset ≤ i → i < n.tagOffset + n.tagTy.size →
      ¬ UsesByte v.2.2 i)
    (hniche : ∀ v ∈ vs, v.1 = n.untagged → ∀ data, checkValue env v.2.2 data = .ok () →
      ∀ bytes, encode v.2.2 data = .ok bytes → ∃ tag val, subslice bytes n.tagOffset n.tagTy.size = .ok tag ∧
        decodeInt n.tagTy tag = .ok val ∧
        ∀ c ∈ n.variantChildren vs ++ n.rangeChildren, ¬ (c.1.1 ≤ val ∧ val < c.1.2)) :
    EnumCoherent env (n.variants vs) (n.discriminator vs) size := by
  have hget : ∀ w ∈ vs, Map.get? (n.variants vs) w.2.1 = some (w.2.2,
      if n.untagged ≠ w.1 then [(n.tagOffset, (n.tagTy, n.tagInt w.2.1))] else []) := by
    clear hidx hdisj hdata hniche
    intro w hw
    induction vs with
    | nil => cases hw
    | cons x xs ih =>
      simp only [List.map_cons, List.nodup_cons] at hnd
      simp only [Niche.variants, List.map_cons, Map.get?]
      rcases List.mem_cons.1 hw with rfl | hw
      · simp
      · rw [if_neg]
        · exact ih hnd.2 hw
        · intro hx
          exact hnd.1 (hx ▸ List.mem_map_of_mem (f := fun v => v.2.1) hw)
  have hrange : ∀ c ∈ n.rangeChildren, c.2 = .invalid := by
    intro c hc
    unfold Niche.rangeChildren at hc
    simp only at hc
    split at hc
    · rw [List.mem_append] at hc
      rcases hc with hc | hc <;> split at hc <;> simp_all
    · split at hc <;> simp_all
  constructor
  · intro v hv
    obtain ⟨w, _, rfl⟩ := List.mem_map.1 hv
    simp only
    split <;> simp
  · intro v hv e he
    obtain ⟨w, hw, rfl⟩ := List.mem_map.1 hv
    simp only at he
    split at he
    · rename_i hu
      simp only [List.mem_singleton] at he
      subst he
      exact hdata w hw (Ne.symm hu)
    · cases he
  · intro v hv data hval bytes hb
    obtain ⟨w, hw, rfl⟩ := List.mem_map.1 hv
    simp only [encodeVariant_eq, hget w hw, Res.bind_eq_ok] at hb
    obtain ⟨b0, h0, hb⟩ := hb
    unfold Niche.discriminator
    by_cases hu : n.untagged = w.1
    · rw [if_neg (by simpa using hu)] at hb
      cases hb
      obtain ⟨tag, val, h1, h2, h3⟩ := hniche w hw hu.symm data hval _ h0
      rw [discriminantOf_branch_ok h1 h2, pickChild_eq_none.2 h3]
      rw [(hidx w hw).1 hu.symm]; rfl
    · rw [if_pos hu] at hb
      obtain ⟨tag, h1, h2⟩ := encodeDiscriminant_single hb
      rw [discriminantOf_branch_ok h1 h2]
      have hp : pickChild (n.variantChildren vs ++ n.rangeChildren) (n.tagInt w.2.1) = some (.known w.2.1) := by
        rw [pickChild_eq_some hdisj]
        refine ⟨((n.tagInt w.2.1, n.tagInt w.2.1 + 1), .known w.2.1), ?_, rfl, le_refl _, by
          show n.tagInt w.2.1 < n.tagInt w.2.1 + 1; omega⟩
        apply List.mem_append_left
        rw [Niche.variantChildren, List.mem_filterMap]
        exact ⟨w, hw, by simp [hu]⟩
      rw [hp]; rfl
  · intro bytes _ v hv hd e he
    obtain ⟨w, hw, rfl⟩ := List.mem_map.1 hv
    simp only at he hd
    split at he
    · rename_i hu
      simp only [List.mem_singleton] at he
      subst he
      unfold Niche.discriminator at hd
      obtain ⟨tag, val, h1, h2⟩ := discriminantOf_branch_some hd
      refine ⟨tag, h1, ?_⟩
      rw [discriminantOf_branch_ok h1 h2] at hd
      cases hp : pickChild (n.variantChildren vs ++ n.rangeChildren) val with
      | none =>
        rw [hp] at hd
        simp only [discriminantOf_known, Except.ok.injEq, Option.some.injEq] at hd
        exact absurd ((hidx w hw).2 hd.symm) (Ne.symm hu)
      | some d =>
        rw [hp] at hd
        obtain ⟨c, hc, rfl, h3, h4⟩ := pickChild_mem hp
        rw [List.mem_append] at hc
        rcases hc with hc | hc
        · rw [Niche.variantChildren, List.mem_filterMap] at hc
          obtain ⟨x, hx, hc⟩ := hc
          simp only at hc
          split at hc
          · cases hc
            simp only [discriminantOf_known, Except.ok.injEq, Option.some.injEq] at hd
            rw [hd] at h3 h4
            rw [h2]; congr 1
            simp only at h3 h4 ⊢; omega
          · split at hc
            · cases hc; cases hd
            · cases hc
        · rw [hrange c hc] at hd; cases hd
    · cases he

end
end MiniRust
