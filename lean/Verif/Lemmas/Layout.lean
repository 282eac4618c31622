import Verif.Lemmas.Good
import Verif.Spec.Layout
/-
Lemmas about layouts of well-formed types.
-/
set_option linter.unusedSectionVars false
namespace MiniRust

section
variable [T : Target]

theorem sizeMul_eq {n t : Nat} {c : Int} (h : sizeMul n c = .ok t) : (n : Int) * c = t := by
  simp only [sizeMul, sizeFromBytes] at h
  split at h
  · rename_i h0
    simp only [unwrap_some, Except.ok.injEq] at h
    omega
  · cases h

theorem Ty.checkLayout_of_checkWf {prog : Program} {ty : Ty} (h : ty.checkWf prog = .ok ()) :
    checkLayout prog ty = .ok () := by
  cases ty with
  | tuple fs hd tail =>
    cases tail <;> simp only [Ty.checkWf, Res.bind_eq_ok] at h
    · obtain ⟨_, _, _, _, _, _, _, _, h⟩ := h; exact h
    · obtain ⟨_, _, _, _, _, _, _, _, _, _, _, _, h⟩ := h; exact h
  | bool => simpa only [Ty.checkWf] using h
  | int i => simp only [Ty.checkWf, Res.bind_eq_ok] at h; obtain ⟨_, _, h⟩ := h; exact h
  | ptr i => simp only [Ty.checkWf, Res.bind_eq_ok] at h; obtain ⟨_, _, h⟩ := h; exact h
  | traitObject i => simp only [Ty.checkWf, Res.bind_eq_ok] at h; obtain ⟨_, _, h⟩ := h; exact h
  | array e n => simp only [Ty.checkWf, Res.bind_eq_ok] at h; obtain ⟨_, _, _, _, _, _, _, _, h⟩ := h; exact h
  | slice e => simp only [Ty.checkWf, Res.bind_eq_ok] at h; obtain ⟨_, _, _, _, _, _, h⟩ := h; exact h
  | union => simp only [Ty.checkWf, Res.bind_eq_ok] at h; obtain ⟨_, _, _, _, _, _, h⟩ := h; exact h
  | enum => simp only [Ty.checkWf, Res.bind_eq_ok] at h; obtain ⟨_, _, _, _, h⟩ := h; exact h

theorem Ty.layout_of_checkWf {prog : Program} {ty : Ty} (h : ty.checkWf prog = .ok ()) :
    ∃ l, ty.layout = .ok l ∧ l.checkWf prog = .ok () ∧ l.checkAligned = .ok () ∧
      l.metaKind = ty.metaKind := by
  have h := Ty.checkLayout_of_checkWf h
  simp only [checkLayout, Res.bind_eq_ok, rassert_eq_ok, beq_iff_eq] at h
  obtain ⟨l, h1, _, h2, _, h3, h4⟩ := h
  exact ⟨l, h1, h2, h3, h4⟩

theorem LayoutStrategy.sized_of_metaKind {prog : Program} {l : LayoutStrategy}
    (h2 : l.checkWf prog = .ok ()) (h : l.metaKind = .none) : l.isSized = true := by
  induction l with
  | sized => rfl
  | slice => cases h
  | traitObject => cases h
  | tuple hd tl ih =>
    simp only [LayoutStrategy.checkWf, Res.bind_eq_ok, ensureWf_eq_ok] at h2
    obtain ⟨_, _, _, h1, h2⟩ := h2
    have := ih h1 h
    simp [this] at h2

theorem C14_sized_aux {prog : Program} {ty : Ty} (h : ty.checkWf prog = .ok ()) :
    ∃ l, ty.layout = .ok l ∧ l.metaKind = ty.metaKind ∧ (ty.metaKind = .none → l.isSized = true) := by
  obtain ⟨l, h1, h2, _, h4⟩ := Ty.layout_of_checkWf h
  exact ⟨l, h1, h4, fun h => LayoutStrategy.sized_of_metaKind h2 (h4 ▸ h)⟩

theorem Align.dvd_of_log_le {a b : Align} (h : a.log ≤ b.log) : a.bytes ∣ b.bytes :=
  Nat.pow_dvd_pow 2 h

theorem Align.dvd_max_left (a b : Align) : a.bytes ∣ (a.max b).bytes := by
  unfold Align.max; split
  · exact Align.dvd_of_log_le ‹_›
  · exact Nat.dvd_refl _

theorem Align.dvd_max_right (a b : Align) : b.bytes ∣ (a.max b).bytes := by
  unfold Align.max; split
  · exact Nat.dvd_refl _
  · exact Align.dvd_of_log_le (by omega)

theorem LayoutStrategy.aligned_computed {P : Type} {vtables : ThinPtr P → Res VTable}
    (hvt : VTablesAligned vtables) :
    ∀ {l : LayoutStrategy} {m : Option (PtrMeta P)} {s : Nat} {a : Align},
      l.checkAligned = .ok () → l.computeSizeAndAlign vtables m = .ok (s, a) → a.bytes ∣ s := by
  intro l m s a h hc
  cases l with
  | sized s' a' =>
    simp only [LayoutStrategy.checkAligned, ensureWf_eq_ok, beq_iff_eq] at h
    cases m with
    | none =>
      simp only [LayoutStrategy.computeSizeAndAlign, Except.ok.injEq, Prod.mk.injEq] at hc
      obtain ⟨rfl, rfl⟩ := hc
      exact Nat.dvd_of_mod_eq_zero h
    | some m => simp [LayoutStrategy.computeSizeAndAlign, panic] at hc
  | slice s' a' =>
    simp only [LayoutStrategy.checkAligned, ensureWf_eq_ok, beq_iff_eq] at h
    rcases m with _ | ⟨n⟩ | ⟨p⟩
    · simp [LayoutStrategy.computeSizeAndAlign, panic] at hc
    · simp only [LayoutStrategy.computeSizeAndAlign, Res.bind_eq_ok, Except.ok.injEq,
        Prod.mk.injEq] at hc
      obtain ⟨t, ht, rfl, rfl⟩ := hc
      have ht := sizeMul_eq ht
      have hd : (a'.bytes : Int) ∣ (s' : Int) := by
        exact_mod_cast Nat.dvd_of_mod_eq_zero h
      have : (a'.bytes : Int) ∣ (t : Int) := by rw [← ht]; exact Dvd.dvd.mul_right hd n
      exact_mod_cast this
    · simp [LayoutStrategy.computeSizeAndAlign, panic] at hc
  | traitObject t =>
    rcases m with _ | ⟨n⟩ | ⟨p⟩
    · simp [LayoutStrategy.computeSizeAndAlign, panic] at hc
    · simp [LayoutStrategy.computeSizeAndAlign, panic] at hc
    · simp only [LayoutStrategy.computeSizeAndAlign, Res.bind_eq_ok, Except.ok.injEq,
        Prod.mk.injEq] at hc
      obtain ⟨vt, h1, rfl, rfl⟩ := hc
      exact hvt p vt h1
  | tuple hd tl =>
    cases m with
    | none => simp [LayoutStrategy.computeSizeAndAlign, panic] at hc
    | some m =>
      simp only [LayoutStrategy.computeSizeAndAlign, Res.bind_eq_ok, Except.ok.injEq,
        Prod.exists, TupleHeadLayout.fullSizeAndAlign, Prod.mk.injEq] at hc
      obtain ⟨_, _, _, rfl, rfl⟩ := hc
      exact alignTo_dvd _ _

theorem LayoutStrategy.computed_total {P : Type} {vtables : ThinPtr P → Res VTable}
    {prog : Program} : ∀ {l : LayoutStrategy} {m : Option (PtrMeta P)},
      l.checkWf prog = .ok () → MetaFor vtables l.metaKind m →
      ∃ s a, l.computeSizeAndAlign vtables m = .ok (s, a) := by
  intro l
  induction l with
  | sized s a =>
    intro m _ hm
    simp only [LayoutStrategy.metaKind, MetaFor] at hm
    subst hm; exact ⟨_, _, rfl⟩
  | slice s a =>
    intro m _ hm
    simp only [LayoutStrategy.metaKind, MetaFor] at hm
    obtain ⟨n, hn, rfl⟩ := hm
    exact ⟨s * n.toNat, a, by simp only [LayoutStrategy.computeSizeAndAlign, sizeMul_ok hn, Res.bind_ok]⟩
  | traitObject t =>
    intro m _ hm
    simp only [LayoutStrategy.metaKind, MetaFor] at hm
    obtain ⟨p, vt, rfl, h⟩ := hm
    exact ⟨vt.size, vt.align, by simp only [LayoutStrategy.computeSizeAndAlign, h, Res.bind_ok]⟩
  | tuple hd tl ih =>
    intro m hwf hm
    simp only [LayoutStrategy.checkWf, Res.bind_eq_ok, ensureWf_eq_ok] at hwf
    obtain ⟨_, _, _, h1, h2⟩ := hwf
    simp only [LayoutStrategy.metaKind] at hm
    have hsome : ∃ x, m = some x := by
      cases hk : tl.metaKind with
      | none =>
        exfalso
        have := LayoutStrategy.sized_of_metaKind h1 hk
        simp [this] at h2
      | elementCount => rw [hk] at hm; obtain ⟨n, _, rfl⟩ := hm; exact ⟨_, rfl⟩
      | vtablePointer => rw [hk] at hm; obtain ⟨p, _, rfl, _⟩ := hm; exact ⟨_, rfl⟩
    obtain ⟨x, rfl⟩ := hsome
    obtain ⟨s, a, h⟩ := ih h1 hm
    exact ⟨_, _, by simp only [LayoutStrategy.computeSizeAndAlign, h, Res.bind_ok]; rfl⟩

end

end MiniRust
