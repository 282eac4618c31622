import Verif.Lemmas.IntEnc
import Verif.WellFormedTypes
/-
A declarative consequence of `Type::check_wf` for sized types (`Ty.Good`), used as the induction
principle of the representation proofs. It is proved from `Ty.checkWf`, not assumed.
-/
namespace MiniRust

/-- Induction over types with hypotheses for all component types. -/
theorem Ty.induct {motive : Ty → Prop}
    (int : ∀ i, motive (.int i)) (bool : motive .bool) (ptr : ∀ p, motive (.ptr p))
    (tuple : ∀ fs h tail, (∀ f ∈ fs, motive f.2) → (∀ t, tail = some t → motive t) →
      motive (.tuple fs h tail))
    (array : ∀ e n, motive e → motive (.array e n))
    (slice : ∀ e, motive e → motive (.slice e))
    (union : ∀ fs c s a, (∀ f ∈ fs, motive f.2) → motive (.union fs c s a))
    (enum : ∀ vs dt d s a, (∀ v ∈ vs, motive v.2.1) → motive (.enum vs dt d s a))
    (traitObject : ∀ t, motive (.traitObject t)) : ∀ t, motive t
  | .int i => int i
  | .bool => bool
  | .ptr p => ptr p
  | .tuple fs h tail => tuple fs h tail (fields fs) (opt tail)
  | .array e n => array e n (Ty.induct int bool ptr tuple array slice union enum traitObject e)
  | .slice e => slice e (Ty.induct int bool ptr tuple array slice union enum traitObject e)
  | .union fs c s a => union fs c s a (fields fs)
  | .enum vs dt d s a => enum vs dt d s a (vars vs)
  | .traitObject t => traitObject t
where
  fields : (fs : List (Nat × Ty)) → ∀ f ∈ fs, motive f.2
    | [] => fun _ h => by cases h
    | (o, t) :: fs => fun f h => by
      have ht := Ty.induct int bool ptr tuple array slice union enum traitObject t
      have hfs := fields fs
      rcases List.mem_cons.1 h with rfl | h
      · exact ht
      · exact hfs f h
  vars : (vs : List (Int × (Ty × Tagger))) → ∀ v ∈ vs, motive v.2.1
    | [] => fun _ h => by cases h
    | (o, (t, g)) :: vs => fun f h => by
      have ht := Ty.induct int bool ptr tuple array slice union enum traitObject t
      have hvs := vars vs
      rcases List.mem_cons.1 h with rfl | h
      · exact ht
      · exact hvs f h
  opt : (o : Option Ty) → ∀ t, o = some t → motive t
    | none => fun _ h => by cases h
    | some t => fun t' h => by
      have ht := Ty.induct int bool ptr tuple array slice union enum traitObject t
      cases h; exact ht

/-- Two byte ranges `(offset, size)` do not overlap. -/
def Disj (a b : Nat × Nat) : Prop := a.1 + a.2 ≤ b.1 ∨ b.1 + b.2 ≤ a.1

theorem Disj.symm {a b : Nat × Nat} (h : Disj a b) : Disj b a := Or.symm h

/-- The size of a sized type as a total function. -/
def Ty.sz [T : Target] : Ty → Nat
  | .int i => i.size
  | .bool => 1
  | .ptr p => if p.metaKind = .none then T.ptrSize else 2 * T.ptrSize
  | .tuple _ h none => h.headSizeAndAlign.1
  | .array e n => e.sz * n.toNat
  | .union _ _ s _ => s
  | .enum _ _ _ s _ => s
  | _ => 0

/-- Well-formed tag entries of an enum variant. -/
def TaggerGood (size : Nat) (t : Tagger) : Prop :=
  ∀ e ∈ t, isPowerOfTwo e.2.1.size = true ∧ e.2.1.canRepresent e.2.2 = true ∧ e.1 + e.2.1.size ≤ size

/-- Well-formed sized types. -/
inductive Ty.Good [T : Target] : Ty → Prop
  | int {i} : isPowerOfTwo i.size = true → Ty.Good (.int i)
  | bool : Ty.Good .bool
  | ptr {p} : Ty.Good (.ptr p)
  | tuple {fs h} : (∀ f ∈ fs, Ty.Good f.2) →
      fs.Pairwise (fun a b => Disj (a.1, a.2.sz) (b.1, b.2.sz)) →
      (∀ f ∈ fs, f.1 + f.2.sz ≤ h.headSizeAndAlign.1) → Ty.Good (.tuple fs h none)
  | array {e n} : 0 ≤ n → Ty.Good e → Ty.Good (.array e n)
  | union {fs chunks s a} : (∀ f ∈ fs, Ty.Good f.2) → (∀ f ∈ fs, f.1 + f.2.sz ≤ s) →
      chunks.Pairwise Disj → (∀ c ∈ chunks, c.1 + c.2 ≤ s) → Ty.Good (.union fs chunks s a)
  | enum {vs dt d s a} : (∀ v ∈ vs, Ty.Good v.2.1) → (∀ v ∈ vs, v.2.1.sz = s) →
      (∀ v ∈ vs, TaggerGood s v.2.2) → (∀ v ∈ vs, dt.canRepresent v.1 = true) →
      d.checkWf s (fun d => (Map.get? vs d).isSome) = .ok () → Ty.Good (.enum vs dt d s a)

theorem isPowerOfTwo_pos {n : Nat} (h : isPowerOfTwo n = true) : 0 < n := by
  simp only [isPowerOfTwo, decide_eq_true_eq] at h
  rw [h]; exact Nat.two_pow_pos _

theorem IntType.align_ok [T : Target] {i : IntType} (h : isPowerOfTwo i.size = true) :
    i.align = .ok (Align.min ⟨Nat.log2 i.size⟩ T.intMaxAlign) := by
  simp [IntType.align, Align.fromBytes, h]

theorem LayoutStrategy.isSized_iff {l : LayoutStrategy} :
    l.isSized = true ↔ ∃ s a, l = .sized s a := by
  cases l <;> simp [isSized]

theorem sizeMul_ok {n : Nat} {c : Int} (h : 0 ≤ c) : sizeMul n c = .ok (n * c.toNat) := by
  have hnn : (0 : Int) ≤ (n : Int) * c := Int.mul_nonneg (Int.natCast_nonneg _) h
  simp only [sizeMul, sizeFromBytes, hnn, if_true, unwrap_some]
  congr 1
  rw [Int.toNat_mul (Int.natCast_nonneg _) h]; rfl

/-- Good types have a sized layout of the expected size. -/
theorem Ty.Good.layout [T : Target] {ty : Ty} (h : ty.Good) : ∃ a, ty.layout = .ok (.sized ty.sz a) := by
  induction h with
  | int hp => exact ⟨_, by simp [Ty.layout, IntType.align_ok hp, Ty.sz]; rfl⟩
  | bool => exact ⟨_, rfl⟩
  | @ptr p => by_cases hk : p.metaKind = .none <;> simp [Ty.layout, Ty.sz, hk]
  | tuple => exact ⟨_, rfl⟩
  | array hn _ ih =>
    obtain ⟨a, ih⟩ := ih
    exact ⟨a, by simp [Ty.layout, ih, LayoutStrategy.expectSize, LayoutStrategy.expectAlign,
      sizeMul_ok hn, Ty.sz]⟩
  | union => exact ⟨_, rfl⟩
  | enum => exact ⟨_, rfl⟩

theorem Ty.Good.size [T : Target] {ty : Ty} (h : ty.Good) : ty.size = .ok ty.sz := by
  obtain ⟨a, ha⟩ := h.layout
  simp [Ty.size, ha, LayoutStrategy.expectSize]

/-! ### From `checkWf` to `Good` -/

theorem checkRanges_ok {l : List (Nat × Nat)} {a b : Nat} (h : checkRanges l a = .ok b) :
    a ≤ b ∧ l.Pairwise (fun x y => x.1 + x.2 ≤ y.1) ∧ ∀ c ∈ l, a ≤ c.1 ∧ c.1 + c.2 ≤ b := by
  induction l generalizing a with
  | nil => simp [checkRanges] at h; simp [h]
  | cons c l ih =>
    obtain ⟨s, n⟩ := c
    simp only [checkRanges, Res.bind_eq_ok, ensureWf_eq_ok, decide_eq_true_eq] at h
    obtain ⟨_, h1, h2⟩ := h
    obtain ⟨i1, i2, i3⟩ := ih h2
    refine ⟨by omega, ?_, ?_⟩
    · rw [List.pairwise_cons]
      exact ⟨fun c hc => (i3 c hc).1, i2⟩
    · intro c hc
      rcases List.mem_cons.1 hc with rfl | hc
      · exact ⟨h1, i1⟩
      · have := i3 c hc; omega

theorem checkSortedFields_ok {l : List (Nat × (Res Unit × Res LayoutStrategy))} {a b : Nat}
    (h : checkSortedFields l a = .ok b) :
    ∃ sizes : List (Nat × Nat), a ≤ b ∧
      l.Forall₂ (fun f s => f.1 = s.1 ∧ f.2.1 = .ok () ∧ ∃ al, f.2.2 = .ok (.sized s.2 al)) sizes ∧
      sizes.Pairwise (fun x y => x.1 + x.2 ≤ y.1) ∧ ∀ c ∈ sizes, a ≤ c.1 ∧ c.1 + c.2 ≤ b := by
  induction l generalizing a with
  | nil => simp [checkSortedFields] at h; exact ⟨[], by simp [h]⟩
  | cons c l ih =>
    obtain ⟨off, wf, lay⟩ := c
    simp only [checkSortedFields, Res.bind_eq_ok, ensureWf_eq_ok, decide_eq_true_eq] at h
    obtain ⟨_, h0, _, h1, lay', h2, _, h3, n, h4, h5⟩ := h
    obtain ⟨s, al, rfl⟩ := LayoutStrategy.isSized_iff.1 h3
    cases h4
    obtain ⟨sizes, i1, i2, i3, i4⟩ := ih h5
    refine ⟨(off, n) :: sizes, by omega, ?_, ?_, ?_⟩
    · exact List.Forall₂.cons ⟨rfl, h0, al, h2⟩ i2
    · rw [List.pairwise_cons]; exact ⟨fun c hc => (i4 c hc).1, i3⟩
    · intro c hc
      rcases List.mem_cons.1 hc with rfl | hc
      · exact ⟨h1, i1⟩
      · have := i4 c hc; omega

theorem fieldChecks_eq [Target] (prog : Program) (fs : List (Nat × Ty)) :
    Ty.fieldChecks prog fs = fs.map fun f => (f.1, (f.2.checkWf prog, f.2.layout)) := by
  induction fs with
  | nil => rfl
  | cons f fs ih => obtain ⟨o, t⟩ := f; simp [Ty.fieldChecks, ih]

/-- The size recorded in a successful layout. -/
def laySize (r : Res LayoutStrategy) : Nat :=
  match r with
  | .ok (.sized s _) => s
  | _ => 0

/-- What the sorted field loop establishes about the (unsorted) fields. -/
theorem tupleFields_ok [Target] {prog : Program} {fs : List (Nat × Ty)} {b : Nat}
    (h : checkSortedFields (sortByOffset (Ty.fieldChecks prog fs)) 0 = .ok b) :
    (∀ f ∈ fs, f.2.checkWf prog = .ok () ∧ ∃ al, f.2.layout = .ok (.sized (laySize f.2.layout) al)) ∧
    (∀ f ∈ fs, f.1 + laySize f.2.layout ≤ b) ∧
    fs.Pairwise (fun x y => Disj (x.1, laySize x.2.layout) (y.1, laySize y.2.layout)) := by
  obtain ⟨sizes, _, h2, h3, h4⟩ := checkSortedFields_ok h
  have hperm : (sortByOffset (Ty.fieldChecks prog fs)).Perm (Ty.fieldChecks prog fs) :=
    List.perm_insertionSort _ _
  generalize hl : sortByOffset (Ty.fieldChecks prog fs) = l at *
  -- every entry of `l` is fine
  have hall : ∀ f ∈ l, f.2.1 = .ok () ∧ (∃ al, f.2.2 = .ok (.sized (laySize f.2.2) al)) ∧
      f.1 + laySize f.2.2 ≤ b := by
    clear hl hperm h h3
    induction h2 with
    | nil => simp
    | cons hab _ ih =>
      intro f hf
      rcases List.mem_cons.1 hf with rfl | hf
      · obtain ⟨e1, e2, al, e3⟩ := hab
        have := h4 _ List.mem_cons_self
        refine ⟨e2, ⟨al, ?_⟩, ?_⟩
        · rw [e3]; rfl
        · rw [e3, e1]; exact this.2
      · exact ih (fun c hc => h4 c (List.mem_cons_of_mem _ hc)) f hf
  have hpw : l.Pairwise (fun x y => Disj (x.1, laySize x.2.2) (y.1, laySize y.2.2)) := by
    clear hl hperm h hall h4
    induction h2 with
    | nil => exact List.Pairwise.nil
    | @cons f s l sizes hab hrest ih =>
      rw [List.pairwise_cons] at h3 ⊢
      refine ⟨?_, ih h3.2⟩
      intro g hg
      obtain ⟨e1, _, al, e3⟩ := hab
      have : ∀ (l : List (Nat × (Res Unit × Res LayoutStrategy))) (sizes : List (Nat × Nat)),
          l.Forall₂ (fun f s => f.1 = s.1 ∧ f.2.1 = .ok () ∧ ∃ al, f.2.2 = .ok (.sized s.2 al)) sizes →
          (∀ t ∈ sizes, s.1 + s.2 ≤ t.1) → ∀ g ∈ l, s.1 + s.2 ≤ g.1 := by
        intro l sizes h2
        induction h2 with
        | nil => simp
        | cons hab _ ih =>
          intro hs g hg
          rcases List.mem_cons.1 hg with rfl | hg
          · rw [hab.1]; exact hs _ List.mem_cons_self
          · exact ih (fun t ht => hs t (List.mem_cons_of_mem _ ht)) g hg
      left
      have h5 := this _ _ hrest h3.1 g hg
      simp only [e1, e3, laySize]; exact h5
  rw [fieldChecks_eq] at hperm
  have hmem : ∀ f ∈ fs, (f.1, (f.2.checkWf prog, f.2.layout)) ∈ l := fun f hf =>
    hperm.mem_iff.2 (List.mem_map.2 ⟨f, hf, rfl⟩)
  refine ⟨fun f hf => ?_, fun f hf => ?_, ?_⟩
  · have := hall _ (hmem f hf); exact ⟨this.1, this.2.1⟩
  · exact (hall _ (hmem f hf)).2.2
  · have := (hperm.pairwise_iff (fun hd => Disj.symm hd)).1 hpw
    rw [List.pairwise_map] at this
    exact this

theorem checkTagger_ok {size : Nat} {t : Tagger} (h : checkTagger size t = .ok ()) :
    TaggerGood size t := by
  induction t with
  | nil => intro e he; cases he
  | cons e t ih =>
    obtain ⟨o, vt, val⟩ := e
    simp only [checkTagger, IntType.checkWf, Res.bind_eq_ok, ensureWf_eq_ok, decide_eq_true_eq] at h
    obtain ⟨_, h1, _, h2, _, h3, h4⟩ := h
    intro e he
    rcases List.mem_cons.1 he with rfl | he
    · exact ⟨h1, h2, h3⟩
    · exact ih h4 e he

theorem checkVariants_ok [Target] {prog : Program} {dt : IntType} {s : Nat} {a : Align} {vs : Variants}
    (h : Ty.checkVariants prog dt s a vs = .ok ()) :
    ∀ v ∈ vs, dt.canRepresent v.1 = true ∧ v.2.1.checkWf prog = .ok () ∧
      (∃ al, v.2.1.layout = .ok (.sized s al) ∧ al.log ≤ a.log) ∧ TaggerGood s v.2.2 := by
  induction vs with
  | nil => intro v hv; cases hv
  | cons v vs ih =>
    obtain ⟨d, ty, tg⟩ := v
    simp only [Ty.checkVariants, Res.bind_eq_ok, ensureWf_eq_ok] at h
    obtain ⟨_, h1, _, h2, lay, h3, h4⟩ := h
    cases lay with
    | sized vs' va =>
      simp only [Res.bind_eq_ok, ensureWf_eq_ok, beq_iff_eq, Align.ble, decide_eq_true_eq] at h4
      obtain ⟨_, h4, _, h5, _, h6, h7⟩ := h4
      subst h4
      intro v hv
      rcases List.mem_cons.1 hv with rfl | hv
      · exact ⟨h1, h2, ⟨va, h3, h5⟩, checkTagger_ok h6⟩
      · exact ih h7 v hv
    | _ => simp at h4

theorem checkUnionFields_ok [Target] {prog : Program} {s : Nat} {fs : List (Nat × Ty)}
    (h : Ty.checkUnionFields prog s fs = .ok ()) :
    ∀ f ∈ fs, f.2.checkWf prog = .ok () ∧ ∃ n al, f.2.layout = .ok (.sized n al) ∧ f.1 + n ≤ s := by
  induction fs with
  | nil => intro f hf; cases hf
  | cons f fs ih =>
    obtain ⟨o, t⟩ := f
    simp only [Ty.checkUnionFields, Res.bind_eq_ok, ensureWf_eq_ok, decide_eq_true_eq] at h
    obtain ⟨_, h1, lay, h2, _, h3, n, h4, _, h5, h6⟩ := h
    obtain ⟨n', al, rfl⟩ := LayoutStrategy.isSized_iff.1 h3
    cases h4
    intro f hf
    rcases List.mem_cons.1 hf with rfl | hf
    · exact ⟨h1, n, al, h2, h5⟩
    · exact ih h6 f hf

/-- A type accepted by `check_wf` whose layout is sized is `Good`. -/
theorem Ty.good_of_checkWf [T : Target] (prog : Program) (ty : Ty) :
    ty.checkWf prog = .ok () → (∃ s a, ty.layout = .ok (.sized s a)) → ty.Good := by
  have szEq : ∀ {t : Ty} {s a}, t.Good → t.layout = .ok (.sized s a) → t.sz = s := by
    intro t s a hg hl
    obtain ⟨a', h'⟩ := hg.layout
    rw [hl] at h'; cases h'; rfl
  induction ty using Ty.induct with
  | int i =>
    intro h _
    simp only [Ty.checkWf, IntType.checkWf, Res.bind_eq_ok, ensureWf_eq_ok] at h
    obtain ⟨_, h, _⟩ := h
    exact .int h
  | bool => intros; exact .bool
  | ptr p => intros; exact .ptr
  | tuple fs h tail ihf iht =>
    intro hwf hsz
    cases tail with
    | none =>
      simp only [Ty.checkWf, Res.bind_eq_ok, ensureWf_eq_ok, decide_eq_true_eq] at hwf
      obtain ⟨b, h1, _, _, _, h3, _⟩ := hwf
      obtain ⟨g1, g2, g3⟩ := tupleFields_ok h1
      have hgood : ∀ f ∈ fs, f.2.Good := fun f hf =>
        ihf f hf (g1 f hf).1 ⟨_, (g1 f hf).2⟩
      have hsz : ∀ f ∈ fs, laySize f.2.layout = f.2.sz := fun f hf => by
        obtain ⟨al, hal⟩ := (g1 f hf).2
        exact (szEq (hgood f hf) hal).symm
      refine .tuple hgood ?_ ?_
      · refine List.Pairwise.imp_of_mem ?_ g3
        intro x y hx hy hd
        rw [hsz x hx, hsz y hy] at hd; exact hd
      · intro f hf
        have := g2 f hf
        rw [hsz f hf] at this
        have h5 := le_alignTo h.end h.align
        simp only [TupleHeadLayout.headSizeAndAlign]; omega
    | some t =>
      obtain ⟨s, a, hsz⟩ := hsz
      simp only [Ty.layout, Res.bind_eq_ok] at hsz
      obtain ⟨_, _, hsz⟩ := hsz
      cases hsz
  | array e n ih =>
    intro hwf _
    simp only [Ty.checkWf, Res.bind_eq_ok, ensureWf_eq_ok, decide_eq_true_eq] at hwf
    obtain ⟨_, h1, lay, h2, _, h3, _, h4, _⟩ := hwf
    obtain ⟨n', al, rfl⟩ := LayoutStrategy.isSized_iff.1 h3
    exact .array h1 (ih h4 ⟨_, _, h2⟩)
  | slice e ih =>
    intro _ hsz
    obtain ⟨s, a, hsz⟩ := hsz
    simp only [Ty.layout, Res.bind_eq_ok] at hsz
    obtain ⟨_, _, _, _, _, _, hsz⟩ := hsz
    cases hsz
  | union fs c s a ihf =>
    intro hwf _
    simp only [Ty.checkWf, Res.bind_eq_ok, ensureWf_eq_ok, decide_eq_true_eq] at hwf
    obtain ⟨_, h1, b, h2, _, h3, _⟩ := hwf
    have g1 := checkUnionFields_ok h1
    obtain ⟨_, g2, g3⟩ := checkRanges_ok h2
    have hgood : ∀ f ∈ fs, f.2.Good := fun f hf => by
      obtain ⟨hw, n, al, hl, _⟩ := g1 f hf
      exact ihf f hf hw ⟨n, al, hl⟩
    refine .union hgood ?_ ?_ ?_
    · intro f hf
      obtain ⟨hw, n, al, hl, hle⟩ := g1 f hf
      rw [szEq (hgood f hf) hl]; exact hle
    · exact g2.imp fun h => Or.inl h
    · intro c hc; have := g3 c hc; omega
  | enum vs dt d s a ih =>
    intro hwf _
    simp only [Ty.checkWf, Res.bind_eq_ok] at hwf
    obtain ⟨_, h1, _, h2, _⟩ := hwf
    have g := checkVariants_ok h1
    have hgood : ∀ v ∈ vs, v.2.1.Good := fun v hv => by
      obtain ⟨_, hw, ⟨al, hl, _⟩, _⟩ := g v hv
      exact ih v hv hw ⟨s, al, hl⟩
    refine .enum hgood ?_ ?_ ?_ h2
    · intro v hv
      obtain ⟨_, hw, ⟨al, hl, _⟩, _⟩ := g v hv
      exact szEq (hgood v hv) hl
    · intro v hv; exact (g v hv).2.2.2
    · intro v hv; exact (g v hv).1
  | traitObject t =>
    intro _ hsz
    obtain ⟨s, a, hsz⟩ := hsz
    simp [Ty.layout] at hsz

end MiniRust
