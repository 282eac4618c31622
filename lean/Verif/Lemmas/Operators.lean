import Verif.Machine
import Verif.Spec.Operators
import Verif.Lemmas.IntEnc
/-
Auxiliary lemmas about integer operators.
-/
namespace MiniRust

theorem two_mul_pow_pred {t : IntType} (h : 0 < t.size) : (2 : Int) ^ t.bits = 2 * 2 ^ (t.bits - 1) := by
  have : t.bits = (t.bits - 1) + 1 := by simp only [IntType.bits]; omega
  conv => lhs; rw [this, pow_succ]
  ring

theorem inRange_iff {t : IntType} (h : 0 < t.size) (i : Int) :
    t.InRange i ↔ inBounds t.signed t.size i = true := by
  have h2 := two_mul_pow_pred h
  simp only [IntType.bits] at h2
  simp only [IntType.InRange, IntType.minVal, IntType.maxVal, IntType.bits]
  cases hs : t.signed <;> simp only [inBounds, decide_eq_true_eq] <;> omega

theorem canRepresent_iff {t : IntType} (h : 0 < t.size) (i : Int) :
    t.canRepresent i = true ↔ t.InRange i := (inRange_iff h i).symm

theorem isWrap_bring {t : IntType} (h : 0 < t.size) (x : Int) : t.IsWrap x (t.bringInBounds x) := by
  refine ⟨(inRange_iff h _).2 (bringInBounds_inBounds _ _ _), ?_⟩
  obtain ⟨k, hk⟩ := bringInBounds_cong t.signed t.size x
  exact ⟨k, by simp only [IntType.bringInBounds, IntType.bits]; linear_combination hk⟩

theorem isWrap_unique {t : IntType} (h : 0 < t.size) {x r r' : Int} (h1 : t.IsWrap x r)
    (h2 : t.IsWrap x r') : r = r' := by
  obtain ⟨a, k, hk⟩ := h1
  obtain ⟨b, k', hk'⟩ := h2
  refine inBounds_unique t.signed t.size _ _ ((inRange_iff h _).1 a) ((inRange_iff h _).1 b) ⟨k - k', ?_⟩
  subst hk hk'; simp only [IntType.bits]; ring

theorem bring_of_inRange {t : IntType} (h : 0 < t.size) {x : Int} (hx : t.InRange x) :
    t.bringInBounds x = x := bringInBounds_of_inBounds _ _ _ ((inRange_iff h _).1 hx)

theorem binDigit_zero (i : Int) : binDigit i 0 = decide (i % 2 = 1) := by simp [binDigit]

theorem binDigit_succ (i : Int) (n : Nat) : binDigit i (n + 1) = binDigit (i / 2) n := by
  simp only [binDigit, pow_succ']
  rw [Int.ediv_ediv_of_nonneg (by omega)]

theorem int_bit_eq (b : Bool) (n : Int) : Int.bit b n = 2 * n + (if b then 1 else 0) := by
  cases b <;> simp [Int.bit]

theorem int_testBit_eq (i : Int) (n : Nat) : i.testBit n = binDigit i n := by
  induction n generalizing i with
  | zero =>
    induction i using Int.bitCasesOn with
    | h b n =>
      rw [binDigit_zero, Int.testBit_bit_zero, int_bit_eq]
      cases b <;> simp
  | succ n ih =>
    rw [binDigit_succ, ← ih]
    induction i using Int.bitCasesOn with
    | h b m =>
      rw [Int.testBit_bit_succ, int_bit_eq]
      congr 1
      cases b <;> simp <;> omega

theorem binDigit_ext_aux (N : Nat) : ∀ i j : Int, i.natAbs ≤ N → j.natAbs ≤ N →
    (∀ n, binDigit i n = binDigit j n) → i = j := by
  induction N with
  | zero => intro i j hi hj _; omega
  | succ N ih =>
    intro i j hi hj h
    have h0 := h 0
    simp only [binDigit_zero, decide_eq_decide] at h0
    by_cases hs : (i = 0 ∨ i = -1) ∧ (j = 0 ∨ j = -1)
    · omega
    · have hd : ∀ n, binDigit (i / 2) n = binDigit (j / 2) n := fun n => by
        rw [← binDigit_succ, ← binDigit_succ, h]
      by_cases hN : N = 0
      · subst hN
        have h1 := h 1
        rw [binDigit_succ, binDigit_succ] at h1
        simp only [binDigit_zero, decide_eq_decide] at h1
        omega
      · have := ih (i / 2) (j / 2) (by omega) (by omega) hd
        omega

theorem binDigit_ext {i j : Int} (h : ∀ n, binDigit i n = binDigit j n) : i = j :=
  binDigit_ext_aux (max i.natAbs j.natAbs) i j (by omega) (by omega) h

theorem binDigit_add (i : Int) (k n : Nat) : binDigit i (k + n) = binDigit (i / 2 ^ k) n := by
  simp only [binDigit, pow_add]
  rw [Int.ediv_ediv_of_nonneg (by positivity)]

theorem binDigit_zero_left (n : Nat) : binDigit 0 n = false := by simp [binDigit]
theorem binDigit_neg_one (n : Nat) : binDigit (-1) n = true := by
  induction n with
  | zero => decide
  | succ n ih => rw [binDigit_succ]; exact ih

theorem binDigit_and (a b : Int) (n : Nat) :
    binDigit (intAnd a b) n = (binDigit a n && binDigit b n) := by
  simp only [← int_testBit_eq, intAnd, Int.testBit_land]
theorem binDigit_or (a b : Int) (n : Nat) :
    binDigit (intOr a b) n = (binDigit a n || binDigit b n) := by
  simp only [← int_testBit_eq, intOr, Int.testBit_lor]
theorem binDigit_xor (a b : Int) (n : Nat) :
    binDigit (intXor a b) n = (binDigit a n ^^ binDigit b n) := by
  simp only [← int_testBit_eq, intXor, Int.testBit_lxor]
theorem binDigit_not (a : Int) (n : Nat) : binDigit (intNot a) n = !binDigit a n := by
  simp only [← int_testBit_eq, intNot, Int.testBit_lnot]

theorem intNot_eq (a : Int) : intNot a = -a - 1 := by
  cases a <;> simp only [intNot, Int.lnot, Int.ofNat_eq_natCast] <;> omega

/-- The digits from `k` on. -/
theorem ediv_pow_eq_zero_iff (i : Int) (k : Nat) : i / 2 ^ k = 0 ↔ 0 ≤ i ∧ i < 2 ^ k := by
  have hp : (0 : Int) < 2 ^ k := by positivity
  have h1 := Int.emod_add_mul_ediv i (2 ^ k)
  have h2 := Int.emod_nonneg i (Int.ne_of_gt hp)
  have h3 := Int.emod_lt_of_pos i hp
  constructor
  · intro h; rw [h] at h1; omega
  · intro ⟨a, b⟩; exact Int.ediv_eq_zero_of_lt a b

theorem ediv_pow_eq_neg_one_iff (i : Int) (k : Nat) : i / 2 ^ k = -1 ↔ -(2 ^ k) ≤ i ∧ i < 0 := by
  have hp : (0 : Int) < 2 ^ k := by positivity
  have h1 := Int.emod_add_mul_ediv i (2 ^ k)
  have h2 := Int.emod_nonneg i (Int.ne_of_gt hp)
  have h3 := Int.emod_lt_of_pos i hp
  constructor
  · intro h; rw [h] at h1; omega
  · intro ⟨a, b⟩
    have := ediv_pow_eq_zero_iff (i + 1 * 2 ^ k) k
    rw [Int.add_mul_ediv_right _ _ (Int.ne_of_gt hp)] at this
    have := this.2 (by omega)
    omega

theorem inRange_iff_ediv {t : IntType} (i : Int) :
    t.InRange i ↔ (t.signed = .unsigned ∧ i / 2 ^ t.bits = 0) ∨
      (t.signed = .signed ∧ (i / 2 ^ (t.bits - 1) = 0 ∨ i / 2 ^ (t.bits - 1) = -1)) := by
  simp only [ediv_pow_eq_zero_iff, ediv_pow_eq_neg_one_iff, IntType.InRange, IntType.minVal, IntType.maxVal]
  have hp : (0 : Int) < 2 ^ (t.bits - 1) := by positivity
  cases t.signed <;> simp <;> omega

/-- Any digit-wise operation stays in range if it does so on the constants `0` and `-1`. -/
theorem bitop_inRange {t : IntType} (f : Int → Int → Int) (g : Bool → Bool → Bool)
    (hf : ∀ a b n, binDigit (f a b) n = g (binDigit a n) (binDigit b n)) (h0 : g false false = false)
    {a b : Int} (ha : t.InRange a) (hb : t.InRange b) : t.InRange (f a b) := by
  have hshift : ∀ k, f a b / 2 ^ k = f (a / 2 ^ k) (b / 2 ^ k) := by
    intro k
    apply binDigit_ext
    intro n
    rw [← binDigit_add, hf, hf, ← binDigit_add, ← binDigit_add]
  have hc : ∀ x y : Int, (x = 0 ∨ x = -1) → (y = 0 ∨ y = -1) → (f x y = 0 ∨ f x y = -1) := by
    intro x y hx hy
    cases hg : g (binDigit x 0) (binDigit y 0) with
    | false =>
      left; apply binDigit_ext; intro n
      rw [hf, binDigit_zero_left, ← hg]
      rcases hx with rfl | rfl <;> rcases hy with rfl | rfl <;> simp only [binDigit_zero_left, binDigit_neg_one]
    | true =>
      right; apply binDigit_ext; intro n
      rw [hf, binDigit_neg_one, ← hg]
      rcases hx with rfl | rfl <;> rcases hy with rfl | rfl <;> simp only [binDigit_zero_left, binDigit_neg_one]
  rw [inRange_iff_ediv] at *
  rw [hshift, hshift]
  rcases ha with ⟨hs, ha⟩ | ⟨hs, ha⟩
  · rcases hb with ⟨_, hb⟩ | ⟨hs', _⟩
    · left
      refine ⟨hs, ?_⟩
      rw [ha, hb]
      apply binDigit_ext; intro n
      rw [hf, binDigit_zero_left, h0]
    · rw [hs] at hs'; cases hs'
  · rcases hb with ⟨hs', _⟩ | ⟨_, hb⟩
    · rw [hs] at hs'; cases hs'
    · exact .inr ⟨hs, hc _ _ ha hb⟩

/-- Wrapping does not change the digits below the width. -/
theorem binDigit_wrap {t : IntType} {x r : Int} (h : t.IsWrap x r) {n : Nat} (hn : n < t.bits) :
    binDigit r n = binDigit x n := by
  obtain ⟨-, k, rfl⟩ := h
  have : t.bits = n + ((t.bits - n - 1) + 1) := by omega
  simp only [binDigit]
  have hp : (0 : Int) < 2 ^ n := by positivity
  have e : x + k * 2 ^ t.bits = x + (k * 2 ^ (t.bits - n - 1) * 2) * 2 ^ n := by
    conv => lhs; rw [this, pow_add, pow_succ]
    ring
  rw [e, Int.add_mul_ediv_right _ _ (Int.ne_of_gt hp), Int.add_mul_emod_self_right]

/-! ### Counting ones -/

theorem countOnesLoop_eq (n : Nat) (x ones : Int) :
    countOnesLoop n x ones = ones + ((List.range n).countP (binDigit x) : Nat) := by
  induction n generalizing x ones with
  | zero => simp [countOnesLoop]
  | succ n ih =>
    have h1 : intAnd x 1 = if binDigit x 0 then 1 else 0 := by
      apply binDigit_ext
      intro k
      rw [binDigit_and]
      cases k with
      | zero => cases binDigit x 0 <;> decide
      | succ k =>
        rw [binDigit_succ 1]
        have : (1 : Int) / 2 = 0 := by decide
        rw [this, binDigit_zero_left, Bool.and_false]
        split
        · rw [binDigit_succ, this, binDigit_zero_left]
        · rw [binDigit_zero_left]
    have h2 : intShr x 1 = x / 2 := by simp [intShr]
    rw [countOnesLoop, ih, h1, h2, List.range_succ_eq_map, List.countP_cons, List.countP_map]
    have h3 : (binDigit x ∘ Nat.succ) = binDigit (x / 2) := by
      funext n; exact binDigit_succ x n
    rw [h3]
    split <;> push_cast <;> ring

theorem evalCountOnes_eq (x : Int) (t : IntType) :
    evalCountOnes x t = ((List.range t.bits).countP (binDigit x) : Nat) := by
  rw [evalCountOnes, countOnesLoop_eq, IntType.bits]; simp

/-! ### Division -/

theorem truncDiv_tdiv (l : Int) {r : Int} (hr : r ≠ 0) : TruncDiv l r (l.tdiv r) (l.tmod r) := by
  refine ⟨?_, ?_, ?_, ?_⟩
  · rw [Int.mul_comm]; exact (Int.mul_tdiv_add_tmod l r).symm
  · have := Int.natAbs_tmod l r
    rw [this]
    exact Nat.mod_lt _ (by omega)
  · exact fun h => Int.tmod_nonneg _ h
  · intro h
    have := Int.tmod_nonneg (a := -l) r (by omega)
    rw [Int.neg_tmod] at this
    omega

theorem truncDiv_unique {l r q m q' m' : Int} (h : TruncDiv l r q m) (h' : TruncDiv l r q' m') :
    q = q' ∧ m = m' := by
  obtain ⟨h1, h2, h3, h4⟩ := h
  obtain ⟨h1', h2', h3', h4'⟩ := h'
  have hm : (m' - m).natAbs < r.natAbs := by
    rcases Int.le_total 0 l with hl | hl
    · have := h3 hl; have := h3' hl; omega
    · have := h4 hl; have := h4' hl; omega
  have hd : r ∣ m' - m := ⟨q - q', by linear_combination h1 - h1'⟩
  have h0 : m' - m = 0 := by
    by_contra hne
    have := Int.natAbs_le_of_dvd_ne_zero hd hne
    omega
  have hr : r ≠ 0 := by rintro rfl; simp at h2
  have : (q - q') * r = 0 := by linear_combination h1' - h1 + h0
  rcases mul_eq_zero.1 this with h | h
  · omega
  · exact absurd h hr

end MiniRust
