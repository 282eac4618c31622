import Verif.Lemmas.RsTypes
import Verif.Props.Enums
import Verif.Props.Chunks
/-
Lemmas about the translation of types: every type that is laid out well is translated to a well-formed type.
-/
set_option linter.unusedSectionVars false
namespace MiniRust
variable {P : Type} [DecidableEq P]
section
variable [T : Target]

/-- What is shown of the translation `ty` of a type. -/
structure RsTy.Good (prog : Program) (env : ValEnv P) (t : RsTy) (ty : Ty) : Prop where
  wf : ty.checkWf prog = .ok ()
  layout : ∃ s a, t.sizeAlign = some (s, a) ∧ ty.layout = .ok (.sized s a)
  coherent : ty.Coherent env

theorem RsTy.translateFields_ok {prog : Program} {env : ValEnv P} : ∀ {fs : List (Nat × RsTy)},
    (∀ f ∈ fs, ∃ ty, f.2.translate = .ok ty ∧ f.2.Good prog env ty) →
    ∃ tfs, RsTy.translateFields fs = .ok tfs ∧ List.Forall₂ (fun f g => f.1 = g.1 ∧ f.2.Good prog env g.2) fs tfs
  | [], _ => ⟨[], rfl, .nil⟩
  | (o, t) :: fs, h => by
    obtain ⟨ty, h1, h2⟩ := h _ (List.mem_cons_self ..)
    obtain ⟨tfs, h3, h4⟩ := RsTy.translateFields_ok (fun f hf => h f (List.mem_cons_of_mem _ hf))
    refine ⟨(o, ty) :: tfs, ?_, .cons ⟨rfl, h2⟩ h4⟩
    simp only at h1
    simp only [RsTy.translateFields, h1, h3, Res.bind_ok]

theorem RsTy.translateVariants_ok {prog : Program} {env : ValEnv P} : ∀ {vs : List (Nat × List (Nat × RsTy))},
    (∀ v ∈ vs, ∀ f ∈ v.2, ∃ ty, f.2.translate = .ok ty ∧ f.2.Good prog env ty) →
    ∃ tvs, RsTy.translateVariants vs = .ok tvs ∧ ∀ v ∈ tvs, ∀ f ∈ v.fields, f.2.Coherent env
  | [], _ => ⟨[], rfl, fun _ h => by cases h⟩
  | (d, fs) :: vs, h => by
    obtain ⟨tfs, h1, h2⟩ := RsTy.translateFields_ok (h _ (List.mem_cons_self ..))
    obtain ⟨tvs, h3, h4⟩ := RsTy.translateVariants_ok (fun v hv => h v (List.mem_cons_of_mem _ hv))
    refine ⟨⟨d, tfs⟩ :: tvs, ?_, fun v hv f hf => ?_⟩
    · simp only at h1
      simp only [RsTy.translateVariants, h1, h3, Res.bind_ok]
    · rcases List.mem_cons.1 hv with rfl | hv
      · obtain ⟨i, hi⟩ := List.getElem?_of_mem hf
        have hlt := (List.getElem?_eq_some_iff.1 hi).1
        have hl := h2.length_eq
        have := (List.forall₂_iff_get.1 h2).2 i (by simp only at hl hlt ⊢; omega) hlt
        simp only [List.get_eq_getElem, (List.getElem?_eq_some_iff.1 hi).2] at this
        exact this.2.coherent
      · exact h4 v hv f hf

/-- The size of a field in the list of checks. -/
def checkSize (c : Nat × (Res Unit × Res LayoutStrategy)) : Nat :=
  match c.2.2 with
  | .ok (.sized s _) => s
  | _ => 0

theorem checkSortedFields_of : ∀ {l : List (Nat × (Res Unit × Res LayoutStrategy))} {lo hi : Nat},
    l.Pairwise (fun x y => x.1 + checkSize x ≤ y.1) →
    (∀ c ∈ l, lo ≤ c.1 ∧ c.1 + checkSize c ≤ hi ∧ c.2.1 = .ok () ∧ ∃ s a, c.2.2 = .ok (.sized s a)) → lo ≤ hi →
    ∃ e, checkSortedFields l lo = .ok e ∧ e ≤ hi
  | [], lo, hi, _, _, h => ⟨lo, rfl, h⟩
  | (o, (w, l)) :: cs, lo, hi, hp, hb, h => by
    rw [List.pairwise_cons] at hp
    obtain ⟨h1, h2, h3, s, a, h4⟩ := hb _ (List.mem_cons_self ..)
    simp only at h1 h2 h3 h4
    subst h3 h4
    simp only [checkSize] at h2 hp
    obtain ⟨e, h5, h6⟩ := checkSortedFields_of (lo := o + s) (hi := hi) hp.2
      (fun d hd => ⟨hp.1 d hd, (hb d (List.mem_cons_of_mem _ hd)).2⟩) h2
    refine ⟨e, ?_, h6⟩
    simp only [checkSortedFields, ensureWf, ge_iff_le, h1, decide_true, if_true, Res.bind_ok, LayoutStrategy.isSized,
      LayoutStrategy.expectSize]
    exact h5

/-- A struct is well-formed if its fields are, and are laid out well. -/
theorem tuple_checkWf {prog : Program} {env : ValEnv P} {size : Nat} {align : Align} {fs : List (Nat × RsTy)}
    {tfs : List (Nat × Ty)} (hf : List.Forall₂ (fun f g => f.1 = g.1 ∧ f.2.Good prog env g.2) fs tfs)
    (hl : FieldsLaid size fs) (hz : fs.Pairwise fun f g => f.1 = g.1 → ∃ a, f.2.sizeAlign = some (0, a))
    (hv : T.validSize size = true) (ha : align.bytes ∣ size) : (tupleTy tfs size align).checkWf prog = .ok () := by
  have hpw : (Ty.fieldChecks prog tfs).Pairwise fun f g =>
      RangesApart f.1 (checkSize f) g.1 (checkSize g) ∧ (f.1 = g.1 → checkSize f = 0) := by
    rw [fieldChecks_eq, List.pairwise_map]
    rw [List.pairwise_iff_getElem]
    intro i j hi hj hij
    have hlen := hf.length_eq
    obtain ⟨o1, g1⟩ := (List.forall₂_iff_get.1 hf).2 i (by omega) hi
    obtain ⟨o2, g2⟩ := (List.forall₂_iff_get.1 hf).2 j (by omega) hj
    simp only [List.get_eq_getElem] at o1 o2 g1 g2
    obtain ⟨s1, a1, k1, k2⟩ := g1.layout
    obtain ⟨s2, a2, k3, k4⟩ := g2.layout
    have hap := (List.pairwise_iff_getElem.1 hl.apart) i j (by omega) (by omega) hij s1 a1 s2 a2 k1 k3
    have hzz := (List.pairwise_iff_getElem.1 hz) i j (by omega) (by omega) hij
    simp only [checkSize, k2, k4, ← o1, ← o2]
    refine ⟨hap, fun he => ?_⟩
    obtain ⟨a, ha⟩ := hzz he
    rw [k1] at ha
    cases ha
    rfl
  have hall : ∀ c ∈ sortByOffset (Ty.fieldChecks prog tfs), 0 ≤ c.1 ∧ c.1 + checkSize c ≤ size ∧ c.2.1 = .ok () ∧
      ∃ s a, c.2.2 = .ok (.sized s a) := by
    intro c hc
    rw [(sortByOffset_perm _).mem_iff, fieldChecks_eq] at hc
    obtain ⟨g, hg, rfl⟩ := List.mem_map.1 hc
    obtain ⟨i, hi⟩ := List.getElem?_of_mem hg
    have hlt := (List.getElem?_eq_some_iff.1 hi).1
    have hlen := hf.length_eq
    obtain ⟨o1, g1⟩ := (List.forall₂_iff_get.1 hf).2 i (by omega) hlt
    simp only [List.get_eq_getElem, (List.getElem?_eq_some_iff.1 hi).2] at o1 g1
    obtain ⟨s1, a1, k1, k2⟩ := g1.layout
    obtain ⟨s, a, k3, k4⟩ := hl.inside _ (List.getElem_mem (by omega : i < fs.length))
    rw [k1] at k3
    cases k3
    refine ⟨Nat.zero_le _, ?_, g1.wf, s1, a1, k2⟩
    simp only [checkSize, k2, ← o1]
    exact k4
  obtain ⟨e, h1, h2⟩ := checkSortedFields_of (sortByOffset_ascending hpw) hall (Nat.zero_le size)
  have hm : size % align.bytes = 0 := Nat.mod_eq_zero_of_dvd ha
  simp only [tupleTy, Ty.checkWf, h1, Res.bind_ok, TupleHeadLayout.checkWf, ensureWf, hv, if_true, ge_iff_le, h2,
    decide_true, Option.isNone_none, checkLayout, Ty.layout, LayoutStrategy.checkWf, LayoutStrategy.checkAligned,
    TupleHeadLayout.headSizeAndAlign, alignTo_of_dvd ha, hm, beq_self_eq_true, LayoutStrategy.metaKind, Ty.metaKind, rassert_true]

theorem unionFields_checkWf {prog : Program} {env : ValEnv P} {size : Nat} : ∀ {fs : List (Nat × RsTy)} {tfs : List (Nat × Ty)},
    List.Forall₂ (fun f g => f.1 = g.1 ∧ f.2.Good prog env g.2) fs tfs →
    (∀ f ∈ fs, ∃ s a, f.2.sizeAlign = some (s, a) ∧ f.1 + s ≤ size) → Ty.checkUnionFields prog size tfs = .ok ()
  | _, _, .nil, _ => rfl
  | f :: fs, (o, t) :: tfs, .cons h hs, hl => by
    obtain ⟨ho, hg⟩ := h
    obtain ⟨s, a, k1, k2⟩ := hg.layout
    obtain ⟨s', a', k3, k4⟩ := hl f (List.mem_cons_self ..)
    rw [k1] at k3
    cases k3
    simp only at ho k2
    have hwf : t.checkWf prog = .ok () := hg.wf
    simp only [Ty.checkUnionFields, hwf, k2, Res.bind_ok, ensureWf, LayoutStrategy.isSized, if_true, LayoutStrategy.expectSize,
      ge_iff_le, ← ho, k4, decide_true]
    exact unionFields_checkWf hs fun f hf => hl f (List.mem_cons_of_mem _ hf)

theorem coherent_ptr {env : ValEnv P} {p : PtrType} : (Ty.ptr p).Coherent env := by
  intro vs dt disc s a hc
  cases hc

theorem coherent_int {env : ValEnv P} {i : IntType} : (Ty.int i).Coherent env := by
  intro vs dt disc s a hc
  cases hc

theorem coherent_bool {env : ValEnv P} : Ty.bool.Coherent env := by
  intro vs dt disc s a hc
  cases hc

theorem coherent_union {env : ValEnv P} {fs : List (Nat × Ty)} {cs : List (Nat × Nat)} {s : Nat} {a : Align} :
    (Ty.union fs cs s a).Coherent env := by
  intro vs dt disc s a hc
  cases hc

theorem coherent_array {env : ValEnv P} {e : Ty} {n : Int} (h : e.Coherent env) : (Ty.array e n).Coherent env := by
  intro vs dt disc s a hc
  cases hc with
  | elem hc => exact h _ _ _ _ _ hc

end
end MiniRust
