import Verif.Spec.Enums
import Verif.Lemmas.Enums
import Verif.Lemmas.IntEnc
/-
The loops of the translation of enums, and the well-formedness of their result.
-/
set_option linter.unusedSectionVars false
namespace MiniRust
variable {P : Type} [DecidableEq P]

/-! ### Insertion of new keys -/

theorem Map.insert_new {K V : Type} [DecidableEq K] {k : K} {v : V} : ∀ {m : Map K V}, k ∉ m.map (·.1) →
    Map.insert m k v = m ++ [(k, v)]
  | [], _ => rfl
  | (k', v') :: m, h => by
    simp only [List.map_cons, List.mem_cons, not_or] at h
    rw [Map.insert, if_neg (fun he => h.1 he.symm), Map.insert_new h.2]
    rfl

theorem intFromBits_ok {bits : Nat} {ity : IntType} (h : ity.size ≤ 16) :
    intFromBits bits ity = .ok (ity.bringInBounds bits) := by
  simp [intFromBits, h]

/-- The translated variants, as the earlier definitions want them. -/
def RsEnum.plain (e : RsEnum) (vs : List RsVariant) : List RustVariant := vs.map fun v => (e.discr v, e.variantTy v)

theorem RsEnum.plain_keys (e : RsEnum) (vs : List RsVariant) : (e.plain vs).map (·.1) = vs.map e.discr := by
  simp [RsEnum.plain]

theorem singleLoop_eq {e : RsEnum} (hs : e.discriminantTy.size ≤ 16) : ∀ (vs : List RsVariant) (acc : Variants),
    (acc.map (·.1) ++ vs.map e.discr).Nodup →
    singleLoop e vs acc = .ok (acc ++ vs.map fun v => (e.discr v, (e.variantTy v, [])))
  | [], acc, _ => by simp [singleLoop]
  | v :: vs, acc, h => by
    simp only [singleLoop, intFromBits_ok hs, Res.bind_ok]
    have hn : e.discr v ∉ acc.map (·.1) := fun hm =>
      (List.nodup_append.1 h).2.2 _ hm _ (by simp) rfl
    rw [show e.discriminantTy.bringInBounds v.discr = e.discr v from rfl, Map.insert_new hn, singleLoop_eq hs vs]
    · simp [RsEnum.variantTy]
    · simpa using h

theorem directLoop_eq {e : RsEnum} {tt : IntType} {off : Nat} (hs : e.discriminantTy.size ≤ 16) :
    ∀ (vs : List RsVariant) (acc : Variants) (br : Map (Int × Int) Discriminator),
    (acc.map (·.1) ++ vs.map e.discr).Nodup → (br.map (·.1) ++ vs.map fun v => (e.discr v, e.discr v + 1)).Nodup →
    directLoop e tt off vs acc br = .ok (acc ++ directVariants off tt (e.plain vs),
      br ++ (e.plain vs).map fun v => ((v.1, v.1 + 1), .known v.1))
  | [], acc, br, _, _ => by simp [directLoop, directVariants, RsEnum.plain]
  | v :: vs, acc, br, h, h' => by
    simp only [directLoop, intFromBits_ok hs, Res.bind_ok]
    have hn : e.discr v ∉ acc.map (·.1) := fun hm => (List.nodup_append.1 h).2.2 _ hm _ (by simp) rfl
    have hn' : (e.discr v, e.discr v + 1) ∉ br.map (·.1) := fun hm => (List.nodup_append.1 h').2.2 _ hm _ (by simp) rfl
    rw [show e.discriminantTy.bringInBounds v.discr = e.discr v from rfl, Map.insert_new hn, Map.insert_new hn',
      directLoop_eq hs vs]
    · simp [RsEnum.variantTy, RsEnum.plain, directVariants]
    · simpa using h
    · simpa using h'

/-- Variants with their index and their discriminant at the tag type. -/
def RsEnum.indexed (e : RsEnum) (tt : IntType) (i : Nat) (vs : List RsVariant) : List (Nat × RustVariant) :=
  vs.mapIdx fun k v => (i + k, (tt.bringInBounds v.discr, e.variantTy v))

theorem RsEnum.indexed_cons (e : RsEnum) (tt : IntType) (i : Nat) (v : RsVariant) (vs : List RsVariant) :
    e.indexed tt i (v :: vs) = (i, (tt.bringInBounds v.discr, e.variantTy v)) :: e.indexed tt (i + 1) vs := by
  simp only [RsEnum.indexed, List.mapIdx_cons, Nat.add_zero]
  congr 2
  funext k v
  congr 1
  omega

theorem nicheLoop_eq {e : RsEnum} {n : Niche} {start : Nat} (hn : n.nicheStart = start)
    (hs : e.discriminantTy.size ≤ 16) (ht : n.tagTy.size ≤ 16) :
    ∀ (vs : List RsVariant) (i : Nat) (acc : Variants) (br : Map (Int × Int) Discriminator),
    (acc.map (·.1) ++ (e.indexed n.tagTy i vs).map (·.2.1)).Nodup →
    (br.map (·.1) ++ (n.variantChildren (e.indexed n.tagTy i vs)).map (·.1)).Nodup →
    nicheLoop e n.tagTy n.tagOffset n.untagged n.nicheVariants start i vs acc br =
      .ok (acc ++ n.variants (e.indexed n.tagTy i vs), br ++ n.variantChildren (e.indexed n.tagTy i vs))
  | [], i, acc, br, _, _ => by simp [nicheLoop, RsEnum.indexed, Niche.variants, Niche.variantChildren]
  | v :: vs, i, acc, br, h, h' => by
    rw [e.indexed_cons] at h h' ⊢
    simp only [nicheLoop, intFromBits_ok hs, intFromBits_ok ht, Res.bind_ok]
    have hd : n.tagTy.bringInBounds v.discr ∉ acc.map (·.1) := fun hm =>
      (List.nodup_append.1 h).2.2 _ hm _ (by simp) rfl
    have htag : n.tagTy.bringInBounds (n.tagTy.bringInBounds v.discr - (n.nicheVariants.1 : Int) + (start : Int)) =
        n.tagInt (n.tagTy.bringInBounds v.discr) := by rw [Niche.tagInt, hn]
    rw [htag]
    by_cases hu : n.untagged = i
    · rw [if_neg (by simpa using hu)]
      by_cases hr : n.nicheVariants.1 ≤ i ∧ i ≤ n.nicheVariants.2
      · rw [if_pos hr]
        have hc : n.variantChildren ((i, (n.tagTy.bringInBounds v.discr, e.variantTy v)) :: e.indexed n.tagTy (i + 1) vs) =
            ((n.tagInt (n.tagTy.bringInBounds v.discr), n.tagInt (n.tagTy.bringInBounds v.discr) + 1), .invalid) ::
              n.variantChildren (e.indexed n.tagTy (i + 1) vs) := by
          simp [Niche.variantChildren, hu, hr]
        rw [hc] at h' ⊢
        have hb : (n.tagInt (n.tagTy.bringInBounds v.discr), n.tagInt (n.tagTy.bringInBounds v.discr) + 1) ∉ br.map (·.1) :=
          fun hm => (List.nodup_append.1 h').2.2 _ hm _ (by simp) rfl
        rw [Map.insert_new hd, Map.insert_new hb, nicheLoop_eq hn hs ht vs]
        · simp [RsEnum.variantTy, Niche.variants, hu]
        · simpa using h
        · simpa using h'
      · rw [if_neg hr]
        have hc : n.variantChildren ((i, (n.tagTy.bringInBounds v.discr, e.variantTy v)) :: e.indexed n.tagTy (i + 1) vs) =
              n.variantChildren (e.indexed n.tagTy (i + 1) vs) := by
          simp only [Niche.variantChildren, List.filterMap_cons, hu, ne_eq, not_true_eq_false, if_false, if_neg hr]
        rw [hc] at h' ⊢
        rw [Map.insert_new hd, nicheLoop_eq hn hs ht vs]
        · simp [RsEnum.variantTy, Niche.variants, hu]
        · simpa using h
        · simpa using h'
    · rw [if_pos hu]
      have hc : n.variantChildren ((i, (n.tagTy.bringInBounds v.discr, e.variantTy v)) :: e.indexed n.tagTy (i + 1) vs) =
          ((n.tagInt (n.tagTy.bringInBounds v.discr), n.tagInt (n.tagTy.bringInBounds v.discr) + 1),
            .known (n.tagTy.bringInBounds v.discr)) :: n.variantChildren (e.indexed n.tagTy (i + 1) vs) := by
        simp [Niche.variantChildren, hu]
      rw [hc] at h' ⊢
      have hb : (n.tagInt (n.tagTy.bringInBounds v.discr), n.tagInt (n.tagTy.bringInBounds v.discr) + 1) ∉ br.map (·.1) :=
        fun hm => (List.nodup_append.1 h').2.2 _ hm _ (by simp) rfl
      rw [Map.insert_new hd, Map.insert_new hb, nicheLoop_eq hn hs ht vs]
      · simp [RsEnum.variantTy, Niche.variants, hu]
      · simpa using h
      · simpa using h'

theorem insertRange_eq {n : Niche} {br : Map (Int × Int) Discriminator}
    (h : (br.map (·.1) ++ n.rangeChildren.map (·.1)).Nodup) :
    insertRange n.tagTy n.validRange.1 n.validRange.2 br = br ++ n.rangeChildren := by
  have hnd := (List.nodup_append.1 h).2.2
  have hnd2 := (List.nodup_append.1 h).2.1
  unfold insertRange
  unfold Niche.rangeChildren at hnd hnd2 ⊢
  by_cases h1 : n.validRange.1 ≤ n.validRange.2
  · simp only [h1, if_true] at hnd hnd2 ⊢
    generalize (if n.tagTy.signed = .signed then (2 : Int) ^ (8 * n.tagTy.size) / 2 - 1 else 2 ^ (8 * n.tagTy.size) - 1) = mx at *
    generalize (if n.tagTy.signed = .signed then -(2 : Int) ^ (8 * n.tagTy.size) / 2 else 0) = mn at *
    by_cases h2 : n.validRange.2 < mx
    · simp only [h2, if_true] at hnd hnd2 ⊢
      rw [Map.insert_new (fun hm => hnd _ hm _ (by simp) rfl)]
      by_cases h3 : mn < n.validRange.1
      · simp only [h3, if_true] at hnd hnd2 ⊢
        rw [Map.insert_new]
        · simp
        · intro hm
          rw [List.map_append, List.mem_append] at hm
          rcases hm with hm | hm
          · exact hnd _ hm _ (by simp) rfl
          · simp only [List.map_cons, List.map_nil, List.mem_singleton] at hm
            simp [hm] at hnd2
      · simp only [h3, if_false, List.append_nil]
    · simp only [h2, if_false] at hnd hnd2 ⊢
      by_cases h3 : mn < n.validRange.1
      · simp only [h3, if_true] at hnd ⊢
        rw [Map.insert_new (fun hm => hnd _ hm _ (by simp) rfl)]
        simp
      · simp only [h3, if_false, List.append_nil, List.nil_append]
  · simp only [h1, if_false] at hnd ⊢
    by_cases h2 : n.validRange.2 + 1 < n.validRange.1
    · simp only [h2, if_true] at hnd ⊢
      rw [Map.insert_new (fun hm => hnd _ hm _ (by simp) rfl)]
    · simp [h2]

/-! ### Well-formedness of discriminators -/

theorem checkChildren_of {size : Nat} {has : Int → Bool} {vt : IntType} {keys : List (Int × Int)} :
    ∀ {cs : List ((Int × Int) × Discriminator)} {n : Nat},
    (∀ (i : Nat) c, cs[i]? = some c → vt.canRepresent c.1.1 = true ∧ vt.canRepresent (c.1.2 - 1) = true ∧ c.1.1 < c.1.2 ∧
      c.2.checkWf size has = .ok () ∧ ∀ (j : Nat) k, keys[j]? = some k → n + i ≠ j → RangeDisj k c.1) →
    Discriminator.checkChildren size has vt keys cs n = .ok ()
  | [], _, _ => rfl
  | ((a, b), d) :: cs, n, h => by
    obtain ⟨h1, h2, h3, h4, h5⟩ := h 0 _ rfl
    simp only at h1 h2 h3 h4 h5
    have h6 : (keys.zipIdx.all fun x => decide (x.1.2 ≤ a ∨ x.1.1 ≥ b ∨ n = x.2)) = true := by
      rw [List.all_eq_true]
      rintro ⟨k, j⟩ hm
      rw [List.mem_zipIdx_iff_getElem?] at hm
      simp only [decide_eq_true_eq]
      by_cases hj : n = j
      · exact .inr (.inr hj)
      · rcases h5 j k hm (by omega) with h | h
        · exact .inl h
        · exact .inr (.inl h)
    have ih := checkChildren_of (size := size) (has := has) (vt := vt) (keys := keys) (cs := cs) (n := n + 1)
      (fun i c hc => by
        obtain ⟨g1, g2, g3, g4, g5⟩ := h (i + 1) c (by simpa using hc)
        exact ⟨g1, g2, g3, g4, fun j k hk hne => g5 j k hk (by omega)⟩)
    simp only [Discriminator.checkChildren, h1, h2, h3, h4, ensureWf, decide_true, if_true, Res.bind_ok]
    rw [if_pos h6]
    exact ih

theorem branch_checkWf {size : Nat} {has : Int → Bool} {o : Nat} {vt : IntType} {f : Discriminator}
    {cs : List ((Int × Int) × Discriminator)} (hp : isPowerOfTwo vt.size = true) (ho : o + vt.size ≤ size)
    (hf : f.checkWf size has = .ok ())
    (hc : ∀ c ∈ cs, vt.canRepresent c.1.1 = true ∧ vt.canRepresent (c.1.2 - 1) = true ∧ c.1.1 < c.1.2 ∧
      c.2.checkWf size has = .ok ())
    (hd : cs.Pairwise fun c c' => RangeDisj c.1 c'.1) :
    (Discriminator.branch o vt f cs).checkWf size has = .ok () := by
  simp only [Discriminator.checkWf, IntType.checkWf, ensureWf, hp, ho, hf, decide_true, if_true, Res.bind_ok]
  apply checkChildren_of
  intro i c hi
  obtain ⟨h1, h2, h3, h4⟩ := hc c (List.mem_of_getElem? hi)
  refine ⟨h1, h2, h3, h4, fun j k hk hne => ?_⟩
  rw [List.getElem?_map] at hk
  cases hj : cs[j]? with
  | none => simp [hj] at hk
  | some c' =>
    simp only [hj, Option.map_some, Option.some.injEq] at hk
    subst hk
    obtain ⟨hi', rfl⟩ := List.getElem?_eq_some_iff.1 hi
    obtain ⟨hj', rfl⟩ := List.getElem?_eq_some_iff.1 hj
    rw [List.pairwise_iff_getElem] at hd
    rcases Nat.lt_or_gt_of_ne hne with h | h
    · exact (hd i j hi' hj' (by omega)).symm
    · exact hd j i hj' hi' (by omega)

theorem keys_nodup_of_disj {cs : List ((Int × Int) × Discriminator)} (hlt : ∀ c ∈ cs, c.1.1 < c.1.2)
    (hd : cs.Pairwise fun c c' => RangeDisj c.1 c'.1) : (cs.map (·.1)).Nodup := by
  rw [List.Nodup, List.pairwise_map]
  refine hd.imp_of_mem fun {a b} ha hb h he => ?_
  have h1 := hlt a ha
  have h2 := hlt b hb
  rw [he] at h h1
  rcases h with h | h <;> omega

/-! ### Valid ranges of tags -/

/-- The smallest and largest value of an integer type, as computed for the branches. -/
theorem window {tt : IntType} (hp : isPowerOfTwo tt.size = true) :
    ∃ mn mx : Int, mn = (if tt.signed = .signed then -(2 ^ (8 * tt.size)) / 2 else 0) ∧
      mx = (if tt.signed = .signed then 2 ^ (8 * tt.size) / 2 - 1 else 2 ^ (8 * tt.size) - 1) ∧
      mx + 1 = mn + 2 ^ (8 * tt.size) ∧ mn ≤ mx ∧ ∀ t : Int, tt.canRepresent t = true ↔ mn ≤ t ∧ t ≤ mx := by
  have h0 := isPowerOfTwo_pos hp
  obtain ⟨k, hk⟩ : ∃ k, 8 * tt.size = k + 1 := ⟨8 * tt.size - 1, by omega⟩
  have hpos : (0 : Int) < 2 ^ k := Int.pow_pos (by decide)
  have h2 : (2 : Int) ^ (8 * tt.size) = 2 * 2 ^ k := by rw [hk, pow_succ]; ring
  refine ⟨_, _, rfl, rfl, ?_⟩
  rw [h2]
  generalize (2 : Int) ^ k = m at *
  cases hsg : tt.signed
  · refine ⟨by simp; omega, by simp; omega, fun t => ?_⟩
    simp only [IntType.canRepresent, inBounds, hsg, h2, decide_eq_true_eq, if_true]
    omega
  · refine ⟨by simp, by simp; omega, fun t => ?_⟩
    simp only [IntType.canRepresent, inBounds, hsg, h2, decide_eq_true_eq, reduceCtorEq, if_false]
    omega

theorem emod_window {m a : Int} (h1 : -m < a) (h2 : a < m) : a % m = if 0 ≤ a then a else a + m := by
  split
  · exact Int.emod_eq_of_lt (by omega) h2
  · rw [← Int.add_emod_right, Int.emod_eq_of_lt (by omega) (by omega)]

theorem wrapContains_iff {tt : IntType} (hp : isPowerOfTwo tt.size = true) {lo hi : Nat} {t : Int}
    (ht : tt.canRepresent t = true) :
    WrapContains tt.size lo hi t ↔
      if tt.bringInBounds lo ≤ tt.bringInBounds hi then tt.bringInBounds lo ≤ t ∧ t ≤ tt.bringInBounds hi
      else t ≤ tt.bringInBounds hi ∨ tt.bringInBounds lo ≤ t := by
  obtain ⟨mn, mx, _, _, h1, _, h2⟩ := window hp
  have hs : mn ≤ tt.bringInBounds lo ∧ tt.bringInBounds lo ≤ mx := (h2 _).1 (bringInBounds_inBounds tt.signed tt.size lo)
  have he : mn ≤ tt.bringInBounds hi ∧ tt.bringInBounds hi ≤ mx := (h2 _).1 (bringInBounds_inBounds tt.signed tt.size hi)
  have htb := (h2 _).1 ht
  have a1 : 2 ^ (8 * tt.size) ∣ tt.bringInBounds lo - lo := bringInBounds_cong tt.signed tt.size lo
  have a2 : 2 ^ (8 * tt.size) ∣ tt.bringInBounds hi - hi := bringInBounds_cong tt.signed tt.size hi
  rw [WrapContains]
  generalize tt.bringInBounds lo = s at *
  generalize tt.bringInBounds hi = e at *
  have e1 : (t - lo) % 2 ^ (8 * tt.size) = (t - s) % 2 ^ (8 * tt.size) := by
    rw [Int.emod_eq_emod_iff_emod_sub_eq_zero, show t - lo - (t - s) = s - lo by ring]
    exact Int.emod_eq_zero_of_dvd a1
  have e2 : ((hi : Int) - lo) % 2 ^ (8 * tt.size) = (e - s) % 2 ^ (8 * tt.size) := by
    rw [Int.emod_eq_emod_iff_emod_sub_eq_zero, show (hi : Int) - lo - (e - s) = (s - lo) - (e - hi) by ring]
    exact Int.emod_eq_zero_of_dvd (Int.dvd_sub a1 a2)
  rw [e1, e2]
  generalize (2 : Int) ^ (8 * tt.size) = m at *
  rw [emod_window (by omega) (by omega), emod_window (by omega) (by omega)]
  split_ifs <;> omega

theorem rangeChildren_iff {n : Niche} (hp : isPowerOfTwo n.tagTy.size = true) {lo hi : Nat}
    (hv : n.validRange = (n.tagTy.bringInBounds lo, n.tagTy.bringInBounds hi)) {t : Int}
    (ht : n.tagTy.canRepresent t = true) :
    (∀ c ∈ n.rangeChildren, ¬ (c.1.1 ≤ t ∧ t < c.1.2)) ↔ WrapContains n.tagTy.size lo hi t := by
  rw [wrapContains_iff hp ht]
  obtain ⟨mn, mx, hmn, hmx, h1, _, h2⟩ := window hp
  have hs : mn ≤ n.tagTy.bringInBounds lo ∧ n.tagTy.bringInBounds lo ≤ mx := (h2 _).1 (bringInBounds_inBounds _ _ _)
  have he : mn ≤ n.tagTy.bringInBounds hi ∧ n.tagTy.bringInBounds hi ≤ mx := (h2 _).1 (bringInBounds_inBounds _ _ _)
  have htb := (h2 _).1 ht
  unfold Niche.rangeChildren
  simp only [hv, ← hmn, ← hmx]
  generalize n.tagTy.bringInBounds lo = s at *
  generalize n.tagTy.bringInBounds hi = e at *
  split
  · rename_i hse
    constructor
    · intro h
      constructor
      · by_contra hc
        have := h ((mn, s), .invalid) (List.mem_append_right _ (by rw [if_pos (by omega)]; simp))
        simp only at this; omega
      · by_contra hc
        have := h ((e + 1, mx + 1), .invalid) (List.mem_append_left _ (by rw [if_pos (by omega)]; simp))
        simp only at this; omega
    · intro h c hc
      rcases List.mem_append.1 hc with hc | hc <;> split at hc
      all_goals first | (simp only [List.mem_singleton] at hc; subst hc; simp only; omega) | cases hc
  · rename_i hse
    split
    · simp only [List.mem_singleton, forall_eq]
      omega
    · simp only [List.not_mem_nil, false_imp_iff, implies_true, true_iff]
      omega

theorem rangeChildren_good {n : Niche} (hp : isPowerOfTwo n.tagTy.size = true)
    (h1 : n.tagTy.canRepresent n.validRange.1 = true) (h2 : n.tagTy.canRepresent n.validRange.2 = true) :
    (n.rangeChildren.Pairwise fun c c' => RangeDisj c.1 c'.1) ∧
    ∀ c ∈ n.rangeChildren, n.tagTy.canRepresent c.1.1 = true ∧ n.tagTy.canRepresent (c.1.2 - 1) = true ∧ c.1.1 < c.1.2 ∧
      c.2 = .invalid := by
  obtain ⟨mn, mx, hmn, hmx, g1, _, g2⟩ := window hp
  rw [g2] at h1 h2
  unfold Niche.rangeChildren
  simp only [← hmn, ← hmx]
  split
  · rename_i hse
    constructor
    · rw [List.pairwise_append]
      refine ⟨by split <;> simp, by split <;> simp, fun a ha b hb => ?_⟩
      split at ha
      · split at hb
        · simp only [List.mem_singleton] at ha hb
          subst ha; subst hb; right; simp only; omega
        · cases hb
      · cases ha
    · intro c hc
      rcases List.mem_append.1 hc with hc | hc <;> split at hc
      all_goals first | (simp only [List.mem_singleton] at hc; subst hc; simp only [g2]; exact ⟨by omega, by omega, by omega, trivial⟩) | cases hc
  · split
    · refine ⟨by simp, fun c hc => ?_⟩
      simp only [List.mem_singleton] at hc; subst hc; simp only [g2]; exact ⟨by omega, by omega, by omega, trivial⟩
    · simp

/-! ### Well-formed enums -/
section
variable [T : Target]

theorem checkVariants_of {prog : Program} {dt : IntType} {size : Nat} {align : Align} : ∀ {vs : Variants},
    (∀ v ∈ vs, dt.canRepresent v.1 = true ∧ v.2.1.checkWf prog = .ok () ∧ v.2.1.layout = .ok (.sized size align) ∧
      checkTagger size v.2.2 = .ok ()) →
    Ty.checkVariants prog dt size align vs = .ok ()
  | [], _ => by simp [Ty.checkVariants]
  | (d, (ty, tg)) :: vs, h => by
    obtain ⟨h1, h2, h3, h4⟩ := h _ (List.mem_cons_self ..)
    simp only at h1 h2 h3 h4
    have ih := checkVariants_of (prog := prog) (dt := dt) (size := size) (align := align) (vs := vs)
      fun v hv => h v (List.mem_cons_of_mem _ hv)
    simp only [Ty.checkVariants, h1, h2, h3, h4, ih, ensureWf, if_true, Res.bind_ok, beq_self_eq_true, Align.ble, le_refl,
      decide_true]

theorem enum_checkWf {prog : Program} {vs : Variants} {dt : IntType} {disc : Discriminator} {size : Nat} {align : Align}
    (hsz : T.validSize size = true) (hal : align.bytes ∣ size)
    (hvs : ∀ v ∈ vs, dt.canRepresent v.1 = true ∧ v.2.1.checkWf prog = .ok () ∧ v.2.1.layout = .ok (.sized size align) ∧
      checkTagger size v.2.2 = .ok ())
    (hd : disc.checkWf size (fun d => (Map.get? vs d).isSome) = .ok ()) :
    (Ty.enum vs dt disc size align).checkWf prog = .ok () := by
  have hm : size % align.bytes = 0 := Nat.mod_eq_zero_of_dvd hal
  simp only [Ty.checkWf, checkVariants_of hvs, hd, Res.bind_ok, checkLayout, Ty.layout, LayoutStrategy.checkWf, hsz,
    LayoutStrategy.checkAligned, hm, LayoutStrategy.metaKind, Ty.metaKind, ensureWf, beq_self_eq_true, if_true, rassert_true]

theorem RsEnum.Laid.variant_layout {prog : Program} {e : RsEnum} (h : e.Laid prog) (v : RsVariant) :
    (e.variantTy v).layout = .ok (.sized e.size e.align) := by
  simp only [RsEnum.variantTy, tupleTy, Ty.layout, TupleHeadLayout.headSizeAndAlign, alignTo_of_dvd h.aligned]

theorem RsEnum.canRepresent_discr (e : RsEnum) (v : RsVariant) : e.discriminantTy.canRepresent (e.discr v) = true :=
  bringInBounds_inBounds _ _ _

theorem coherent_of_enum {env : ValEnv P} {vs : Variants} {dt : IntType} {disc : Discriminator} {size : Nat} {align : Align}
    (h : EnumCoherent env vs disc size) (hvs : ∀ v ∈ vs, v.2.1.Coherent env) :
    (Ty.enum vs dt disc size align).Coherent env := by
  intro vs' dt' disc' s' a' hc
  cases hc with
  | refl => exact h
  | variant hv hc => exact hvs _ hv _ _ _ _ _ hc

theorem coherent_tupleTy {env : ValEnv P} {fs : List (Nat × Ty)} {size : Nat} {align : Align}
    (h : ∀ f ∈ fs, f.2.Coherent env) : (tupleTy fs size align).Coherent env := by
  intro vs dt disc s a hc
  cases hc with
  | field hf hc => exact h _ hf _ _ _ _ _ hc

end
end MiniRust
