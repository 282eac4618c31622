import Verif.Lemmas.Layout
import Verif.Props.Representation
/-
C14: layouts are consistent. `Ty.layout`, `Ty.metaKind` and `LayoutStrategy.computeSizeAndAlign` are
the modelled API; the specification vocabulary is in `Spec/Layout.lean`.
-/
namespace MiniRust

section
variable [T : Target]

/-! ### The claims -/

/-- A well-formed type always has a layout (computing it never panics), and pointers to the type
carry exactly the kind of metadata that the layout needs. -/
theorem C14_layout_total (prog : Program) (ty : Ty) (h : ty.checkWf prog = .ok ()) :
    ∃ l, ty.layout = .ok l ∧ l.metaKind = ty.metaKind ∧
      (l.isSized = true ↔ ty.metaKind = .none) := by
  obtain ⟨l, h1, h2, h3, h4⟩ := Ty.layout_of_checkWf h
  refine ⟨l, h1, h4, ?_⟩
  rw [← h4]
  constructor
  · intro h; obtain ⟨s, a, rfl⟩ := LayoutStrategy.isSized_iff.1 h; rfl
  · exact LayoutStrategy.sized_of_metaKind h2

/-- A well-formed sized type has a size that is valid on the target and a multiple of its
alignment. -/
theorem C14_sized (prog : Program) (ty : Ty) (s : Nat) (a : Align)
    (h : ty.checkWf prog = .ok ()) (hl : ty.layout = .ok (.sized s a)) :
    T.validSize s = true ∧ a.bytes ∣ s := by
  obtain ⟨l, h1, h2, h3, _⟩ := Ty.layout_of_checkWf h
  rw [hl] at h1; cases h1
  simp only [LayoutStrategy.checkWf, ensureWf_eq_ok] at h2
  simp only [LayoutStrategy.checkAligned, ensureWf_eq_ok, beq_iff_eq] at h3
  exact ⟨h2, Nat.dvd_of_mod_eq_zero h3⟩

/-- The dynamic size and alignment of a value of a well-formed type are computable from every
metadata of the right kind (nothing panics), and the size is a multiple of the alignment. -/
theorem C14_dynamic_size {P : Type} (vtables : ThinPtr P → Res VTable) (prog : Program) (ty : Ty)
    (l : LayoutStrategy) (m : Option (PtrMeta P)) (h : ty.checkWf prog = .ok ())
    (hl : ty.layout = .ok l) (hvt : VTablesAligned vtables) (hm : MetaFor vtables ty.metaKind m) :
    ∃ s a, l.computeSizeAndAlign vtables m = .ok (s, a) ∧ a.bytes ∣ s := by
  obtain ⟨l, h1, h2, h3, h4⟩ := Ty.layout_of_checkWf h
  rw [hl] at h1; cases h1
  rw [← h4] at hm
  obtain ⟨s, a, hc⟩ := LayoutStrategy.computed_total h2 hm
  exact ⟨s, a, hc, LayoutStrategy.aligned_computed hvt h3 hc⟩

/-- An unsized tuple places its tail after all sized fields, at an offset that is a multiple of the
tail's alignment (or of the packing cap, if that is smaller), with the tail's bytes inside the
whole; the alignment of the whole is a multiple of the head's, and of the tail's unless capped. -/
theorem C14_tail_placement {P : Type} (vtables : ThinPtr P → Res VTable) (prog : Program)
    (fields : List (Nat × Ty)) (head : TupleHeadLayout) (tail : Ty) (l tl : LayoutStrategy)
    (m : Option (PtrMeta P)) (s ts : Nat) (a ta : Align)
    (h : (Ty.tuple fields head (some tail)).checkWf prog = .ok ())
    (hl : (Ty.tuple fields head (some tail)).layout = .ok l) (htl : tail.layout = .ok tl)
    (hc : l.computeSizeAndAlign vtables m = .ok (s, a))
    (htc : tl.computeSizeAndAlign vtables m = .ok (ts, ta)) :
    (∀ f ∈ fields, ∃ fs, f.2.size = .ok fs ∧ f.1 + fs ≤ head.tailOffset ta) ∧
    (head.packedAlign = none → ta.bytes ∣ head.tailOffset ta) ∧
    (∀ p, head.packedAlign = some p →
      (ta.bytes ∣ head.tailOffset ta ∨ p.bytes ∣ head.tailOffset ta)) ∧
    head.tailOffset ta < head.end + ta.bytes ∧
    head.tailOffset ta + ts ≤ s ∧
    head.align.bytes ∣ a.bytes ∧
    (head.packedAlign = none → ta.bytes ∣ a.bytes) ∧
    (∀ p, head.packedAlign = some p → a.bytes ∣ p.bytes) ∧
    a.bytes ∣ s := by
  simp only [Ty.checkWf, Res.bind_eq_ok, ensureWf_eq_ok, decide_eq_true_eq] at h
  obtain ⟨b, h1, _, _, tl', hl', _, _, _, hwf, _, h3, _⟩ := h
  simp only [Ty.layout, htl, Res.bind_ok, Except.ok.injEq] at hl
  subst hl
  have hc' : s = (head.fullSizeAndAlign ts ta).1 ∧ a = (head.fullSizeAndAlign ts ta).2 := by
    cases m with
    | none => simp [LayoutStrategy.computeSizeAndAlign, panic] at hc
    | some m =>
      simp only [LayoutStrategy.computeSizeAndAlign, htc, Res.bind_ok, Except.ok.injEq] at hc
      rw [hc]; exact ⟨rfl, rfl⟩
  obtain ⟨rfl, rfl⟩ := hc'
  have hend : head.end ≤ head.tailOffset ta := le_alignTo _ _
  obtain ⟨g1, g2, _⟩ := tupleFields_ok h1
  refine ⟨?_, ?_, ?_, ?_, ?_, ?_, ?_, ?_, ?_⟩
  · intro f hf
    obtain ⟨al, hal⟩ := (g1 f hf).2
    refine ⟨laySize f.2.layout, ?_, ?_⟩
    · have : f.2.size = (f.2.layout >>= fun l => l.expectSize) := rfl
      rw [this, hal]; rfl
    · have := g2 f hf; omega
  · intro hp
    have := alignTo_dvd head.end (head.cappedTailAlign ta)
    simpa only [TupleHeadLayout.tailOffset, TupleHeadLayout.cappedTailAlign, hp] using this
  · intro p hp
    have := alignTo_dvd head.end (head.cappedTailAlign ta)
    simp only [TupleHeadLayout.tailOffset, TupleHeadLayout.cappedTailAlign, hp] at this ⊢
    unfold Align.min at this ⊢
    split at this
    · left; simpa only [if_pos ‹ta.log ≤ p.log›] using this
    · right; simpa only [if_neg ‹¬ ta.log ≤ p.log›] using this
  · have := alignTo_lt head.end (head.cappedTailAlign ta)
    have hle : (head.cappedTailAlign ta).bytes ≤ ta.bytes := by
      unfold TupleHeadLayout.cappedTailAlign Align.min
      split
      · split
        · exact Nat.le_refl _
        · exact Nat.pow_le_pow_right (by decide) (by omega)
      · exact Nat.le_refl _
    unfold TupleHeadLayout.tailOffset; omega
  · exact le_alignTo _ _
  · exact Align.dvd_max_right _ _
  · intro hp
    have := Align.dvd_max_left (head.cappedTailAlign ta) head.align
    simpa only [TupleHeadLayout.fullSizeAndAlign, TupleHeadLayout.cappedTailAlign, hp] using this
  · intro p hp
    simp only [TupleHeadLayout.checkWf, Res.bind_eq_ok, hp, ensureWf_eq_ok, Align.ble,
      decide_eq_true_eq] at hwf
    obtain ⟨_, _, hwf⟩ := hwf
    apply Align.dvd_of_log_le
    simp only [TupleHeadLayout.fullSizeAndAlign, TupleHeadLayout.cappedTailAlign, hp, Align.max,
      Align.min]
    split <;> split <;> omega
  · exact alignTo_dvd _ _

/-- The sized fields of a well-formed tuple are inside the tuple (before its tail, if it has one)
and do not overlap. -/
theorem C14_fields_disjoint (prog : Program) (fields : List (Nat × Ty)) (head : TupleHeadLayout)
    (tail : Option Ty) (h : (Ty.tuple fields head tail).checkWf prog = .ok ()) :
    (∀ f ∈ fields, ∃ fs, f.2.size = .ok fs ∧ f.1 + fs ≤ head.end) ∧
    fields.Pairwise fun f g => ∀ fs gs, f.2.size = .ok fs → g.2.size = .ok gs →
      f.1 + fs ≤ g.1 ∨ g.1 + gs ≤ f.1 := by
  have key : ∃ b, checkSortedFields (sortByOffset (Ty.fieldChecks prog fields)) 0 = .ok b ∧
      b ≤ head.end := by
    cases tail with
    | none =>
      simp only [Ty.checkWf, Res.bind_eq_ok, ensureWf_eq_ok, decide_eq_true_eq] at h
      obtain ⟨b, h1, _, _, _, h3, _⟩ := h
      exact ⟨b, h1, h3⟩
    | some t =>
      simp only [Ty.checkWf, Res.bind_eq_ok, ensureWf_eq_ok, decide_eq_true_eq] at h
      obtain ⟨b, h1, _, _, tl', hl', _, _, _, hwf, _, h3, _⟩ := h
      exact ⟨b, h1, h3⟩
  obtain ⟨b, h1, h3⟩ := key
  obtain ⟨g1, g2, g3⟩ := tupleFields_ok h1
  have hsz : ∀ f ∈ fields, f.2.size = .ok (laySize f.2.layout) := by
    intro f hf
    obtain ⟨al, hal⟩ := (g1 f hf).2
    have : f.2.size = (f.2.layout >>= fun l => l.expectSize) := rfl
    rw [this, hal]; rfl
  refine ⟨fun f hf => ⟨_, hsz f hf, by have := g2 f hf; omega⟩, ?_⟩
  refine List.Pairwise.imp_of_mem ?_ g3
  intro f g hf hg hd fs gs hfs hgs
  rw [hsz f hf] at hfs; rw [hsz g hg] at hgs
  cases hfs; cases hgs
  exact hd

/-- Every element of a well-formed array is inside the array and keeps the alignment of the
element type. -/
theorem C14_array_elements (prog : Program) (elem : Ty) (count : Int)
    (h : (Ty.array elem count).checkWf prog = .ok ()) :
    ∃ s es a, (Ty.array elem count).layout = .ok (.sized s a) ∧
      elem.layout = .ok (.sized es a) ∧
      ∀ i : Nat, (i : Int) < count → i * es + es ≤ s ∧ a.bytes ∣ i * es := by
  have h0 := h
  simp only [Ty.checkWf, Res.bind_eq_ok, ensureWf_eq_ok, decide_eq_true_eq] at h
  obtain ⟨_, h1, lay, h2, _, h3, _, h4, _⟩ := h
  obtain ⟨es, a, rfl⟩ := LayoutStrategy.isSized_iff.1 h3
  obtain ⟨l, hl, _, _, _⟩ := Ty.layout_of_checkWf h0
  have hl' := hl
  simp only [Ty.layout, h2, Res.bind_ok, Res.bind_eq_ok, LayoutStrategy.expectSize,
    LayoutStrategy.expectAlign] at hl'
  obtain ⟨s, hs, hl'⟩ := hl'
  cases hl'
  refine ⟨s, es, a, hl, h2, fun i hi => ⟨?_, ?_⟩⟩
  · have hs := sizeMul_eq hs
    have h5 : (i : Int) + 1 ≤ count := by omega
    have h6 : (es : Int) * (i + 1) ≤ es * count := Int.mul_le_mul_of_nonneg_left h5 (by omega)
    have h7 : ((i * es + es : Nat) : Int) ≤ s := by
      push_cast; rw [← hs]; linarith [Int.mul_comm (i : Int) es]
    exact_mod_cast h7
  · exact Dvd.dvd.mul_left (C14_sized prog elem es a h4 h2).2 i
end

/-! ### Concrete cases -/
section
attribute [local instance] x86_64
open Ex

/-- `(u8, u32-aligned padding, [u16])`: a tuple with a slice tail. -/
def Ex.sliceTail : Ty :=
  .tuple [(0, .int ⟨.unsigned, 1⟩), (4, .int ⟨.unsigned, 4⟩)] ⟨9, ⟨2⟩, none⟩
    (some (.slice (.int ⟨.unsigned, 2⟩)))

def Ex.packedTail : Ty :=
  .tuple [(0, .int ⟨.unsigned, 1⟩)] ⟨1, ⟨0⟩, some ⟨0⟩⟩ (some (.slice (.int ⟨.unsigned, 2⟩)))

example : Ex.sliceTail.checkWf Ex.prog = .ok () := by decide +kernel
example : Ex.packedTail.checkWf Ex.prog = .ok () := by decide +kernel
example : (Ty.array (.int ⟨.unsigned, 2⟩) 7).checkWf Ex.prog = .ok () := by decide +kernel

/-- Three `u16` after the head: tail at 10, 16 bytes in total. -/
example : (LayoutStrategy.tuple ⟨9, ⟨2⟩, none⟩ (.slice 2 ⟨1⟩)).computeSizeAndAlign
    (P := Unit) (fun _ => panic) (some (.elementCount 3)) = .ok (16, ⟨2⟩) := by decide
example : MetaFor (P := Unit) (fun _ => panic) Ex.sliceTail.metaKind (some (.elementCount 3)) :=
  ⟨3, by decide, rfl⟩
example : VTablesAligned (P := Unit) (fun _ => .ok ⟨0, 8, ⟨2⟩, [], []⟩) := by
  intro p vt h; cases h; decide
end

end MiniRust
