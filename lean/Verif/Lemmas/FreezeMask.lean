import Verif.TreeBorrows
import Verif.Lemmas.Good
import Verif.Spec.TreeBorrows
/-
The freeze mask of a pointee.
-/
set_option linter.unusedSectionVars false
namespace MiniRust

theorem freezeMaskLoop_spec {size : Nat} : ∀ {cells : List (Nat × Nat)} {mask : List Bool} {cs cl b : Nat},
    checkRanges cells (cs + cl) = .ok b → b ≤ size → mask.length = cs → 
    ∃ mask', freezeMaskLoop mask (cs, cl) (cells ++ [(size, 0)]) = .ok mask' ∧ mask'.length = size ∧
      ∀ k, k < size → mask'[k]? = if k < cs then mask[k]?
        else some (!decide (InRanges ((cs, cl) :: cells) k)) := by
  intro cells
  induction cells with
  | nil =>
    intro mask cs cl b h hb hl
    simp only [checkRanges, Except.ok.injEq] at h
    subst h
    have h0 : (0 : Int) ≤ (size : Int) - ((cs + cl : Nat) : Int) := by omega
    refine ⟨_, by simp only [List.nil_append, freezeMaskLoop, replicateInt, if_pos h0, Res.bind_ok]; rfl, ?_, ?_⟩
    · simp; omega
    · intro k hk
      by_cases h1 : k < cs
      · rw [if_pos h1, List.append_assoc, List.getElem?_append_left (by omega)]
      · rw [if_neg h1]
        by_cases h2 : k < cs + cl
        · rw [List.getElem?_append_left (by simp; omega), List.getElem?_append_right (by omega),
            List.getElem?_replicate, if_pos (by omega)]
          have : InRanges [(cs, cl)] k := ⟨(cs, cl), by simp, by simp; omega, by simpa using h2⟩
          simp [this]
        · rw [List.getElem?_append_right (by simp; omega), List.getElem?_replicate, if_pos (by simp; omega)]
          have : ¬ InRanges [(cs, cl)] k := by
            rintro ⟨r, hr, h3, h4⟩
            simp at hr; subst hr; simp at h3 h4; omega
          simp [this]
  | cons c cells ih =>
    intro mask cs cl b h hb hl
    obtain ⟨s, l⟩ := c
    simp only [checkRanges, Res.bind_eq_ok, ensureWf_eq_ok, decide_eq_true_eq] at h
    obtain ⟨_, hge, h⟩ := h
    have h0 : (0 : Int) ≤ (s : Int) - ((cs + cl : Nat) : Int) := by omega
    have hlen : (mask ++ List.replicate cl false ++ List.replicate ((s : Int) - ((cs + cl : Nat) : Int)).toNat true).length = s := by
      simp; omega
    obtain ⟨mask', h1, h2, h3⟩ := ih h hb hlen
    refine ⟨mask', by simp only [List.cons_append, freezeMaskLoop, replicateInt, if_pos h0, Res.bind_ok]; exact h1, h2, ?_⟩
    intro k hk
    rw [h3 k hk]
    have hbounds := (checkRanges_ok h)
    by_cases hks : k < s
    · rw [if_pos hks]
      have hrest : ∀ r ∈ (s, l) :: cells, ¬ (r.1 ≤ k ∧ k < r.1 + r.2) := by
        intro r hr
        rcases List.mem_cons.1 hr with rfl | hr
        · simp; omega
        · have := hbounds.2.2 r hr
          omega
      by_cases h1 : k < cs
      · rw [if_pos h1, List.append_assoc, List.getElem?_append_left (by omega)]
      · rw [if_neg h1]
        by_cases h2 : k < cs + cl
        · rw [List.getElem?_append_left (by simp; omega), List.getElem?_append_right (by omega),
            List.getElem?_replicate, if_pos (by omega)]
          have : InRanges ((cs, cl) :: (s, l) :: cells) k := ⟨(cs, cl), by simp, by simp; omega, by simpa using h2⟩
          simp [this]
        · rw [List.getElem?_append_right (by simp; omega), List.getElem?_replicate, if_pos (by simp; omega)]
          have : ¬ InRanges ((cs, cl) :: (s, l) :: cells) k := by
            rintro ⟨r, hr, h3, h4⟩
            rcases List.mem_cons.1 hr with rfl | hr
            · simp at h3 h4; omega
            · exact hrest r hr ⟨h3, h4⟩
          simp [this]
    · rw [if_neg hks, if_neg (by omega)]
      have : InRanges ((cs, cl) :: (s, l) :: cells) k ↔ InRanges ((s, l) :: cells) k := by
        constructor
        · rintro ⟨r, hr, h3, h4⟩
          rcases List.mem_cons.1 hr with rfl | hr
          · simp at h3 h4; omega
          · exact ⟨r, hr, h3, h4⟩
        · rintro ⟨r, hr, h3, h4⟩
          exact ⟨r, List.mem_cons_of_mem _ hr, h3, h4⟩
      simp [this]

theorem cellsToFreezeMask_spec {cells : List (Nat × Nat)} {size : Nat} (h : checkCells cells size = .ok ()) :
    ∃ mask, cellsToFreezeMask cells size = .ok mask ∧ mask.length = size ∧
      ∀ k, k < size → mask[k]? = some (!decide (InRanges cells k)) := by
  simp only [checkCells, Res.bind_eq_ok, ensureWf_eq_ok, decide_eq_true_eq] at h
  obtain ⟨b, h, hb⟩ := h
  obtain ⟨mask, h1, h2, h3⟩ := freezeMaskLoop_spec (size := size) (mask := []) (cs := 0) (cl := 0) h hb rfl
  refine ⟨mask, by simp [cellsToFreezeMask, h1, h2], h2, ?_⟩
  intro k hk
  rw [h3 k hk, if_neg (by omega)]
  have : InRanges ((0, 0) :: cells) k ↔ InRanges cells k := by
    constructor
    · rintro ⟨r, hr, h3, h4⟩
      rcases List.mem_cons.1 hr with rfl | hr
      · simp at h4
      · exact ⟨r, hr, h3, h4⟩
    · rintro ⟨r, hr, h3, h4⟩
      exact ⟨r, List.mem_cons_of_mem _ hr, h3, h4⟩
  simp [this]

theorem repeatMask_length {m : List Bool} {n : Nat} : (repeatMask m n).length = n * m.length := by
  induction n with
  | zero => simp [repeatMask]
  | succ n ih => simp [repeatMask, ih, Nat.succ_mul]

theorem repeatMask_getElem? {m : List Bool} {n k : Nat} (h : k < n * m.length) :
    (repeatMask m n)[k]? = m[k % m.length]? := by
  induction n with
  | zero => simp at h
  | succ n ih =>
    rw [repeatMask]
    by_cases hk : k < n * m.length
    · rw [List.getElem?_append_left (by rw [repeatMask_length]; exact hk), ih hk]
    · rw [List.getElem?_append_right (by rw [repeatMask_length]; omega), repeatMask_length]
      rw [Nat.succ_mul] at h
      have hk2 : k - n * m.length < m.length := by omega
      have : k % m.length = k - n * m.length := by
        have e : k = (k - n * m.length) + m.length * n := by
          rw [Nat.mul_comm m.length n]; omega
        conv => lhs; rw [e]
        rw [Nat.add_mul_mod_self_left, Nat.mod_eq_of_lt hk2]
      rw [this]

end MiniRust
