import Verif.Lemmas.Operators
import Verif.Lemmas.Good
import Verif.Step
/-
Properties C10-C13 (integer operators, casts and comparisons), about `Machine.evalUnOp` and
`Machine.evalBinOp` in every machine state, for every memory model and every integer type of at least
one byte (`check_wf` demands that the size is a power of two).
-/
set_option linter.unusedSectionVars false
namespace MiniRust

section
variable {M P F : Type} [Memory M P F] [DecidableEq P] [T : Target]

/-! ### C10: wrapping arithmetic -/

/-- Wrapping to a type is unambiguous. -/
theorem C10_wrapping_unique {t : IntType} (ht : 0 < t.size) {x r r' : Int} (h : t.IsWrap x r)
    (h' : t.IsWrap x r') : r = r' := isWrap_unique ht h h'

/-- Wrapping does not change numbers that are in range. -/
theorem C10_wrapping_in_range {t : IntType} {x : Int} (h : t.InRange x) : t.IsWrap x x :=
  ⟨h, 0, by ring⟩

/-- Addition, subtraction and multiplication return the exact result, wrapped. -/
theorem C10_arithmetic_wraps (s : Machine M P F) (t : IntType) (ht : 0 < t.size) (l r : Int) (rTy : Ty) :
    (∃ x, s.evalBinOp (.int .add) (.int l, .int t) (.int r, rTy) = .ok (.int x, .int t) ∧
      t.IsWrap (l + r) x) ∧
    (∃ x, s.evalBinOp (.int .sub) (.int l, .int t) (.int r, rTy) = .ok (.int x, .int t) ∧
      t.IsWrap (l - r) x) ∧
    (∃ x, s.evalBinOp (.int .mul) (.int l, .int t) (.int r, rTy) = .ok (.int x, .int t) ∧
      t.IsWrap (l * r) x) :=
  ⟨⟨_, rfl, isWrap_bring ht _⟩, ⟨_, rfl, isWrap_bring ht _⟩, ⟨_, rfl, isWrap_bring ht _⟩⟩

theorem checkInt_ok {env : ValEnv P} {t : IntType} {x : Int} (h : t.canRepresent x = true) :
    isOk (checkValue env (.int t) (.int x)) = .ok true := by
  simp [checkValue, ensureUb, h, isOk]

/-- Negation and casts between integer types return the exact result, wrapped. -/
theorem C10_unary_wraps (s : Machine M P F) (t : IntType) (ht : 0 < t.size) (i : Int) :
    (∃ x, s.evalUnOp (.int .neg) (.int i, .int t) = .ok (.int x, .int t) ∧ t.IsWrap (-i) x) ∧
    (∀ ty, ∃ x, s.evalUnOp (.cast (.intToInt t)) (.int i, ty) = .ok (.int x, .int t) ∧ t.IsWrap i x) := by
  refine ⟨⟨t.bringInBounds (-i), ?_, isWrap_bring ht _⟩, fun ty => ⟨_, rfl, isWrap_bring ht _⟩⟩
  have : t.canRepresent (t.bringInBounds (-i)) = true := bringInBounds_inBounds _ _ _
  simp only [Machine.evalUnOp, Machine.evalUnOpInt, evalIntUnOp, IntUnOp.retTy, checkInt_ok this,
    Res.bind_ok, rassert]
  rfl

/-- Bitwise negation flips every digit of the type. -/
theorem C10_not_flips_bits (s : Machine M P F) (t : IntType) (ht : 0 < t.size) (i : Int) :
    ∃ x, s.evalUnOp (.int .bitNot) (.int i, .int t) = .ok (.int x, .int t) ∧ t.InRange x ∧
      ∀ n < t.bits, binDigit x n = !binDigit i n := by
  have hw := isWrap_bring ht (intNot i)
  refine ⟨t.bringInBounds (intNot i), ?_, hw.1, fun n hn => ?_⟩
  · have : t.canRepresent (t.bringInBounds (intNot i)) = true := bringInBounds_inBounds _ _ _
    simp only [Machine.evalUnOp, Machine.evalUnOpInt, evalIntUnOp, IntUnOp.retTy, checkInt_ok this,
      Res.bind_ok, rassert]
    rfl
  · rw [binDigit_wrap hw hn, binDigit_not]

/-- The bitwise operators work digit by digit. -/
theorem C10_bitwise_digitwise (s : Machine M P F) (t : IntType) (ht : 0 < t.size) (l r : Int) (rTy : Ty) :
    (∃ x, s.evalBinOp (.int .bitAnd) (.int l, .int t) (.int r, rTy) = .ok (.int x, .int t) ∧
      t.InRange x ∧ ∀ n < t.bits, binDigit x n = (binDigit l n && binDigit r n)) ∧
    (∃ x, s.evalBinOp (.int .bitOr) (.int l, .int t) (.int r, rTy) = .ok (.int x, .int t) ∧
      t.InRange x ∧ ∀ n < t.bits, binDigit x n = (binDigit l n || binDigit r n)) ∧
    (∃ x, s.evalBinOp (.int .bitXor) (.int l, .int t) (.int r, rTy) = .ok (.int x, .int t) ∧
      t.InRange x ∧ ∀ n < t.bits, binDigit x n = (binDigit l n ^^ binDigit r n)) := by
  refine ⟨⟨_, rfl, (isWrap_bring ht _).1, fun n hn => ?_⟩, ⟨_, rfl, (isWrap_bring ht _).1, fun n hn => ?_⟩,
    ⟨_, rfl, (isWrap_bring ht _).1, fun n hn => ?_⟩⟩
  · rw [binDigit_wrap (isWrap_bring ht _) hn, binDigit_and]
  · rw [binDigit_wrap (isWrap_bring ht _) hn, binDigit_or]
  · rw [binDigit_wrap (isWrap_bring ht _) hn, binDigit_xor]

/-- A number is determined by its digits: in range, the digits below the width suffice. -/
theorem C10_digits_determine {t : IntType} (ht : 0 < t.size) {x y : Int} (hx : t.InRange x)
    (hy : t.InRange y) (h : ∀ n < t.bits, binDigit x n = binDigit y n) : x = y := by
  apply binDigit_ext
  intro n
  by_cases hn : n < t.bits
  · exact h n hn
  · have hb : 0 < t.bits := by simp only [IntType.bits]; omega
    rw [inRange_iff_ediv] at hx hy
    have key : ∀ {z : Int}, (z / 2 ^ (t.bits - 1) = 0 ∨ z / 2 ^ (t.bits - 1) = -1) →
        binDigit z n = binDigit z (t.bits - 1) := by
      intro z hz
      have e1 : n = (t.bits - 1) + (n - (t.bits - 1)) := by omega
      have e2 : t.bits - 1 = (t.bits - 1) + 0 := by omega
      rw [e1, binDigit_add]
      conv => rhs; rw [e2, binDigit_add]
      rcases hz with hz | hz <;> rw [hz]
      · rw [binDigit_zero_left, binDigit_zero_left]
      · rw [binDigit_neg_one, binDigit_neg_one]
    have key0 : ∀ {z : Int}, z / 2 ^ t.bits = 0 → binDigit z n = false := by
      intro z hz
      have e1 : n = t.bits + (n - t.bits) := by omega
      rw [e1, binDigit_add, hz, binDigit_zero_left]
    rcases hx with ⟨hs, hx⟩ | ⟨hs, hx⟩ <;> rcases hy with ⟨hs', hy⟩ | ⟨hs', hy⟩
    · rw [key0 hx, key0 hy]
    · rw [hs] at hs'; cases hs'
    · rw [hs] at hs'; cases hs'
    · rw [key hx, key hy, h _ (by omega)]

/-- Shifts use the shift amount modulo the width. Left shifts multiply and wrap; right shifts divide
by a power of two, rounding down. -/
theorem C10_shifts_wrap (s : Machine M P F) (t : IntType) (ht : 0 < t.size) (l r : Int) (rTy : Ty) :
    ∃ k : Nat, (k : Int) = r % (t.bits : Int) ∧
    (∃ x, s.evalBinOp (.int .shl) (.int l, .int t) (.int r, rTy) = .ok (.int x, .int t) ∧
      t.IsWrap (l * 2 ^ k) x) ∧
    (∃ x, s.evalBinOp (.int .shr) (.int l, .int t) (.int r, rTy) = .ok (.int x, .int t) ∧
      t.IsWrap (l / 2 ^ k) x ∧ (t.InRange l → x = l / 2 ^ k)) := by
  have hb : 0 < t.bits := by simp only [IntType.bits]; omega
  have hne : ¬ (8 * t.size = 0) := by omega
  have hk : (((r % (t.bits : Int)).toNat : Nat) : Int) = r % (t.bits : Int) :=
    Int.toNat_of_nonneg (Int.emod_nonneg _ (by omega))
  refine ⟨(r % (t.bits : Int)).toNat, hk, ⟨_, ?_, isWrap_bring ht _⟩, ⟨_, ?_, isWrap_bring ht _, ?_⟩⟩
  · simp only [Machine.evalBinOp, evalIntBinOpWrapped, evalIntBinOp, hne, if_false, Res.bind_ok]
    simp [intShl, IntType.bits]
  · simp only [Machine.evalBinOp, evalIntBinOpWrapped, evalIntBinOp, hne, if_false, Res.bind_ok]
    simp [intShr, IntType.bits]
  · intro hl
    apply bring_of_inRange ht
    generalize (r % (t.bits : Int)).toNat = k
    rw [inRange_iff_ediv] at hl ⊢
    have hz : ∀ m : Nat, l / 2 ^ m = 0 → l / 2 ^ k / 2 ^ m = 0 := by
      intro m hm
      rw [Int.ediv_ediv_of_nonneg (by positivity), ← pow_add, Nat.add_comm, pow_add,
        ← Int.ediv_ediv_of_nonneg (by positivity), hm, Int.zero_ediv]
    have ho : ∀ m : Nat, l / 2 ^ m = -1 → l / 2 ^ k / 2 ^ m = -1 := by
      intro m hm
      rw [Int.ediv_ediv_of_nonneg (by positivity), ← pow_add, Nat.add_comm, pow_add,
        ← Int.ediv_ediv_of_nonneg (by positivity), hm]
      rw [ediv_pow_eq_neg_one_iff]
      have : (0 : Int) < 2 ^ k := by positivity
      omega
    rcases hl with ⟨hs, hl⟩ | ⟨hs, hl | hl⟩
    · exact .inl ⟨hs, hz _ hl⟩
    · exact .inr ⟨hs, .inl (hz _ hl)⟩
    · exact .inr ⟨hs, .inr (ho _ hl)⟩

/-- `CountOnes` returns how many binary digits of the type are set, as a `u32`. (For types of `2^32`
or more bits it can panic.) -/
theorem C10_countOnes_counts (s : Machine M P F) (t : IntType) (ht : t.bits < 2 ^ 32) (i : Int) :
    s.evalUnOp (.int .countOnes) (.int i, .int t) =
      .ok (.int ((List.range t.bits).countP (binDigit i) : Nat), .int ⟨.unsigned, 4⟩) := by
  have hle : (List.range t.bits).countP (binDigit i) ≤ t.bits := by
    simpa using List.countP_le_length (p := binDigit i) (l := List.range t.bits)
  have : (⟨.unsigned, 4⟩ : IntType).canRepresent ((List.range t.bits).countP (binDigit i) : Nat) = true := by
    simp only [IntType.canRepresent, inBounds, decide_eq_true_eq]
    constructor
    · omega
    · have : (2 : Int) ^ (8 * 4) = 4294967296 := by norm_num
      rw [this]
      have : (2 : Nat) ^ 32 = 4294967296 := by norm_num
      omega
  simp only [Machine.evalUnOp, Machine.evalUnOpInt, evalIntUnOp, IntUnOp.retTy, evalCountOnes_eq,
    checkInt_ok this, Res.bind_ok, rassert]
  rfl

/-! ### C11: unchecked operations and division -/

/-- The unchecked operations are UB exactly when the exact result is out of range, and otherwise return
it. (They then agree with the wrapping ones by `C10_wrapping_in_range`.) -/
theorem C11_unchecked_ub_iff_overflow (s : Machine M P F) (t : IntType) (ht : 0 < t.size) (l r : Int) (rTy : Ty) :
    (t.InRange (l + r) →
      s.evalBinOp (.int .addUnchecked) (.int l, .int t) (.int r, rTy) = .ok (.int (l + r), .int t)) ∧
    (¬ t.InRange (l + r) →
      s.evalBinOp (.int .addUnchecked) (.int l, .int t) (.int r, rTy) = .error .ub) ∧
    (t.InRange (l - r) →
      s.evalBinOp (.int .subUnchecked) (.int l, .int t) (.int r, rTy) = .ok (.int (l - r), .int t)) ∧
    (¬ t.InRange (l - r) →
      s.evalBinOp (.int .subUnchecked) (.int l, .int t) (.int r, rTy) = .error .ub) ∧
    (t.InRange (l * r) →
      s.evalBinOp (.int .mulUnchecked) (.int l, .int t) (.int r, rTy) = .ok (.int (l * r), .int t)) ∧
    (¬ t.InRange (l * r) →
      s.evalBinOp (.int .mulUnchecked) (.int l, .int t) (.int r, rTy) = .error .ub) := by
  refine ⟨fun h => ?_, fun h => ?_, fun h => ?_, fun h => ?_, fun h => ?_, fun h => ?_⟩ <;>
    rw [← canRepresent_iff ht] at h <;>
    simp only [Machine.evalBinOp, evalIntBinOpWrapped, evalIntBinOp, h, Res.bind_ok, Bool.not_true,
      Bool.false_eq_true, if_false, Bool.not_eq_true, Bool.not_false, if_true] <;>
    first
      | rfl
      | (rw [bring_of_inRange ht ((canRepresent_iff ht _).1 h)])

/-- An unchecked shift is UB exactly when the amount is negative or not smaller than the width;
otherwise it agrees with the wrapping shift. -/
theorem C11_unchecked_shift_ub_iff (s : Machine M P F) (t : IntType) (l r : Int) (rTy : Ty) :
    (0 ≤ r ∧ r < t.bits →
      s.evalBinOp (.int .shlUnchecked) (.int l, .int t) (.int r, rTy) =
        s.evalBinOp (.int .shl) (.int l, .int t) (.int r, rTy) ∧
      s.evalBinOp (.int .shrUnchecked) (.int l, .int t) (.int r, rTy) =
        s.evalBinOp (.int .shr) (.int l, .int t) (.int r, rTy)) ∧
    (¬ (0 ≤ r ∧ r < t.bits) →
      s.evalBinOp (.int .shlUnchecked) (.int l, .int t) (.int r, rTy) = .error .ub ∧
      s.evalBinOp (.int .shrUnchecked) (.int l, .int t) (.int r, rTy) = .error .ub) := by
  constructor
  · rintro ⟨h1, h2⟩
    simp only [IntType.bits] at h2
    have hm : r % ((8 * t.size : Nat) : Int) = r := Int.emod_eq_of_lt h1 h2
    have hn : ¬ (r < 0 ∨ r ≥ ((8 * t.size : Nat) : Int)) := by omega
    have hz : ¬ (8 * t.size = 0) := by omega
    simp only [Machine.evalBinOp, evalIntBinOpWrapped, evalIntBinOp, hm, hn, hz, if_false, and_self]
  · intro h
    have hn : (r < 0 ∨ r ≥ ((8 * t.size : Nat) : Int)) := by simp only [IntType.bits] at h; omega
    simp only [Machine.evalBinOp, evalIntBinOpWrapped, evalIntBinOp, hn, if_true, ub, Res.bind_error, and_self]

/-- The quotient does not fit exactly when the smallest signed number is divided by `-1`. -/
theorem quotient_inRange_iff {t : IntType} (ht : 0 < t.size) {l r q m : Int} (hl : t.InRange l)
    (hr : t.InRange r) (hd : TruncDiv l r q m) :
    t.InRange q ↔ ¬ (t.signed = .signed ∧ l = t.minVal ∧ r = -1) := by
  have h2 := two_mul_pow_pred ht
  have hpos : (0 : Int) < 2 ^ (t.bits - 1) := by positivity
  obtain ⟨h1, hm, hp, hn⟩ := hd
  have hr0 : r ≠ 0 := by rintro rfl; simp at hm
  have hq : q.natAbs ≤ l.natAbs := by
    by_cases hq0 : q = 0
    · subst hq0; simp
    have hab : l.natAbs = (q * r).natAbs + m.natAbs := by
      rcases Int.le_total 0 l with h | h
      · have := hp h
        have : 0 ≤ q * r := by
          by_contra hneg
          have hlt : q * r ≤ -(r.natAbs : Int) := by
            have hqr : (r.natAbs : Int) ≤ ((q * r).natAbs : Int) := by
              rw [Int.natAbs_mul]
              have : 1 ≤ q.natAbs := by omega
              exact_mod_cast Nat.le_mul_of_pos_left _ this
            omega
          omega
        omega
      · have := hn h
        have : q * r ≤ 0 := by
          by_contra hneg
          have hlt : (r.natAbs : Int) ≤ q * r := by
            have hqr : (r.natAbs : Int) ≤ ((q * r).natAbs : Int) := by
              rw [Int.natAbs_mul]
              have : 1 ≤ q.natAbs := by omega
              exact_mod_cast Nat.le_mul_of_pos_left _ this
            omega
          omega
        omega
    rw [Int.natAbs_mul] at hab
    have : q.natAbs ≤ q.natAbs * r.natAbs := Nat.le_mul_of_pos_right _ (by omega)
    omega
  simp only [IntType.InRange, IntType.minVal, IntType.maxVal] at *
  cases hs : t.signed with
  | unsigned =>
    simp only [hs] at *
    simp only [reduceCtorEq, false_and, not_false_eq_true, iff_true]
    refine ⟨?_, by omega⟩
    by_contra hneg
    have hlt : q * r ≤ -r := by
      have : (q + 1) * r ≤ 0 := mul_nonpos_of_nonpos_of_nonneg (by omega) (by omega)
      linarith [add_mul q 1 r]
    omega
  | signed =>
    simp only [hs] at *
    constructor
    · rintro ⟨_, hq2⟩ ⟨_, hl1, hr1⟩
      subst hr1
      have : m = 0 := by omega
      subst this
      omega
    · intro h
      simp only [true_and] at h
      by_cases hql : q.natAbs = l.natAbs
      · by_cases hmin : l = -2 ^ (t.bits - 1)
        · have hr1 : r ≠ -1 := fun h' => h ⟨hmin, h'⟩
          have : q < 0 := by
            by_contra hq0
            have hq' : q = 2 ^ (t.bits - 1) := by omega
            rcases Int.lt_or_gt_of_ne hr0 with hneg | hpos'
            · have : q * (r + 2) ≤ 0 := mul_nonpos_of_nonneg_of_nonpos (by omega) (by omega)
              have h3 : q * r + 2 * q ≤ 0 := by linarith [mul_add q r 2]
              have := hn (by omega)
              omega
            · have : 0 ≤ q * r := mul_nonneg (by omega) (by omega)
              have := hn (by omega)
              omega
          omega
        · omega
      · omega

/-- Division, remainder and exact division. For operands in range they are UB when the divisor is
zero, and when the smallest signed number is divided by `-1`. Otherwise division rounds towards zero,
and the remainder has the sign of the dividend. Exact division also is UB if the remainder is not 0. -/
theorem C11_division (s : Machine M P F) (t : IntType) (ht : 0 < t.size) (l r : Int) (rTy : Ty)
    (hl : t.InRange l) (hr : t.InRange r) :
    (r = 0 ∨ (t.signed = .signed ∧ l = t.minVal ∧ r = -1) →
      s.evalBinOp (.int .div) (.int l, .int t) (.int r, rTy) = .error .ub ∧
      s.evalBinOp (.int .rem) (.int l, .int t) (.int r, rTy) = .error .ub ∧
      s.evalBinOp (.int .divExact) (.int l, .int t) (.int r, rTy) = .error .ub) ∧
    (¬ (r = 0 ∨ (t.signed = .signed ∧ l = t.minVal ∧ r = -1)) →
      ∃ q m, TruncDiv l r q m ∧
        s.evalBinOp (.int .div) (.int l, .int t) (.int r, rTy) = .ok (.int q, .int t) ∧
        s.evalBinOp (.int .rem) (.int l, .int t) (.int r, rTy) = .ok (.int m, .int t) ∧
        s.evalBinOp (.int .divExact) (.int l, .int t) (.int r, rTy) =
          if m = 0 then .ok (.int q, .int t) else .error .ub) := by
  constructor
  · intro h
    by_cases h0 : r = 0
    · subst h0
      simp [Machine.evalBinOp, evalIntBinOpWrapped, evalIntBinOp, ub, Res.bind_error]
    · have hbad : t.canRepresent (l.tdiv r) = false := by
        have := (quotient_inRange_iff ht hl hr (truncDiv_tdiv l h0)).not.2
          (by rw [not_not]; rcases h with h | h; exact absurd h h0; exact h)
        rw [← canRepresent_iff ht] at this
        simpa using this
      simp [Machine.evalBinOp, evalIntBinOpWrapped, evalIntBinOp, ub, Res.bind_error, h0, hbad]
  · intro h
    have h0 : r ≠ 0 := fun h' => h (.inl h')
    have hd := truncDiv_tdiv l h0
    have hin := (quotient_inRange_iff ht hl hr hd).2 (fun h' => h (.inr h'))
    have hgood := (canRepresent_iff ht _).2 hin
    have hm : t.InRange (l.tmod r) := by
      obtain ⟨_, h1, h2, h3⟩ := hd
      have hpos : (0 : Int) < 2 ^ (t.bits - 1) := by positivity
      simp only [IntType.InRange, IntType.minVal, IntType.maxVal] at *
      cases hs : t.signed <;> simp only [hs] at * <;> omega
    refine ⟨_, _, hd, ?_, ?_, ?_⟩
    · simp [Machine.evalBinOp, evalIntBinOpWrapped, evalIntBinOp, h0, hgood, Res.bind_ok, bring_of_inRange ht hin]
    · simp [Machine.evalBinOp, evalIntBinOpWrapped, evalIntBinOp, h0, hgood, Res.bind_ok, bring_of_inRange ht hm]
    · by_cases hz : l.tmod r = 0
      · simp [Machine.evalBinOp, evalIntBinOpWrapped, evalIntBinOp, h0, hgood, hz, Res.bind_ok, bring_of_inRange ht hin]
      · simp [Machine.evalBinOp, evalIntBinOpWrapped, evalIntBinOp, h0, hgood, hz, ub, Res.bind_error]

/-- Quotient and remainder rounding towards zero are unique. -/
theorem C11_division_unique {l r q m q' m' : Int} (h : TruncDiv l r q m) (h' : TruncDiv l r q' m') :
    q = q' ∧ m = m' := truncDiv_unique h h'

/-! ### C12: overflow flags -/

/-- The with-overflow operations return the wrapped result and whether the exact result is out of range. -/
theorem C12_overflow_flag_exact (s : Machine M P F) (t : IntType) (hwf : t.checkWf = .ok ())
    (op : IntBinOpWithOverflow) (l r : Int) (rTy : Ty) :
    ∃ ty x flag, s.evalBinOp (.intWithOverflow op) (.int l, .int t) (.int r, rTy) =
        .ok (.tuple [.int x, .bool flag], ty) ∧ t.withOverflow = .ok ty ∧
      t.IsWrap (match op with | .add => l + r | .sub => l - r | .mul => l * r) x ∧
      (flag = true ↔ ¬ t.InRange (match op with | .add => l + r | .sub => l - r | .mul => l * r)) := by
  simp only [IntType.checkWf, ensureWf_eq_ok] at hwf
  have ht := isPowerOfTwo_pos hwf
  have ha := IntType.align_ok (T := T) hwf
  obtain ⟨ty, hty⟩ : ∃ ty, t.withOverflow = .ok ty := by
    simp only [IntType.withOverflow, ha, Res.bind_ok]; exact ⟨_, rfl⟩
  refine ⟨ty, t.bringInBounds (op.exact l r), !t.canRepresent (op.exact l r), ?_, hty, ?_, ?_⟩
  · simp only [Machine.evalBinOp, evalIntWithOverflow, hty, Res.bind_ok]
  · cases op <;> exact isWrap_bring ht _
  · rw [← canRepresent_iff ht]
    cases op <;> simp [IntBinOpWithOverflow.exact]

/-! ### C13: comparisons -/

theorem cmpInt_eq (a b : Int) : cmpInt a b = compare a b := by
  unfold cmpInt
  rcases lt_trichotomy a b with h | h | h
  · rw [compare_lt_iff_lt.2 h]; simp [h]
  · subst h; simp
  · rw [compare_gt_iff_gt.2 h]; simp [h.ne', Int.not_lt.2 h.le]

theorem compareValues_key {ty : Ty} {l r : Value P} (hl : Comparable ty l) (hr : Comparable ty r) :
    ∃ o, compareValues ty l r = .ok o ∧ (o = .lt ↔ cmpKey l < cmpKey r) ∧
      (o = .eq ↔ cmpKey l = cmpKey r) ∧ (o = .gt ↔ cmpKey r < cmpKey l) := by
  have cmp : ∀ a b : Int, (cmpInt a b = .lt ↔ a < b) ∧ (cmpInt a b = .eq ↔ a = b) ∧ (cmpInt a b = .gt ↔ b < a) := by
    intro a b
    unfold cmpInt
    refine ⟨?_, ?_, ?_⟩ <;> split <;> (try split) <;> simp <;> omega
  cases ty with
  | int t =>
    obtain ⟨i, rfl⟩ := hl
    obtain ⟨j, rfl⟩ := hr
    refine ⟨_, rfl, ?_, ?_, ?_⟩ <;> simp [cmpKey, Prod.Lex.toLex_lt_toLex, cmp i j]
  | bool =>
    obtain ⟨i, rfl⟩ := hl
    obtain ⟨j, rfl⟩ := hr
    refine ⟨_, rfl, ?_, ?_, ?_⟩ <;> cases i <;> cases j <;> simp [cmpBool, cmpKey, Prod.Lex.toLex_lt_toLex]
  | ptr p =>
    obtain ⟨i, rfl, hi⟩ := hl
    obtain ⟨j, rfl, hj⟩ := hr
    have hm : ∃ o, compareMeta i.metadata j.metadata = .ok o ∧ (o = .lt ↔ metaKey i.metadata < metaKey j.metadata) ∧
        (o = .eq ↔ metaKey i.metadata = metaKey j.metadata) ∧
        (o = .gt ↔ metaKey j.metadata < metaKey i.metadata) := by
      cases hk : p.metaKind with
      | none =>
        simp only [hk, MetaKind.Has] at hi hj
        rw [hi, hj]
        exact ⟨_, rfl, by simp [metaKey]⟩
      | elementCount =>
        simp only [hk, MetaKind.Has] at hi hj
        obtain ⟨a, ha⟩ := hi
        obtain ⟨b, hb⟩ := hj
        rw [ha, hb]
        exact ⟨_, rfl, cmp a b⟩
      | vtablePointer t =>
        simp only [hk, MetaKind.Has] at hi hj
        obtain ⟨a, ha⟩ := hi
        obtain ⟨b, hb⟩ := hj
        rw [ha, hb]
        exact ⟨_, rfl, cmp a.addr b.addr⟩
    obtain ⟨o, ho, h1, h2, h3⟩ := hm
    refine ⟨ordThen (cmpInt i.thin.addr j.thin.addr) o, ?_, ?_, ?_, ?_⟩
    · simp only [compareValues, comparePtr, ho, Res.bind_ok]
    all_goals
      have ⟨c1, c2, c3⟩ := cmp i.thin.addr j.thin.addr
      simp only [cmpKey, Prod.Lex.toLex_lt_toLex, toLex_inj, Prod.mk.injEq]
      cases hc : cmpInt i.thin.addr j.thin.addr <;> simp only [hc, ordThen, h1, h2, h3, true_iff, iff_true,
        reduceCtorEq, false_iff] at c1 c2 c3 ⊢ <;> omega
  | _ => exact absurd hl id

/-- The comparison operators agree with one linear order on keys made from the number, the truth value,
or the address and metadata. Provenance plays no role. -/
theorem C13_comparisons_total_order (s : Machine M P F) (ty rTy : Ty) (l r : Value P)
    (hl : Comparable ty l) (hr : Comparable ty r) :
    s.evalBinOp (.rel .lt) (l, ty) (r, rTy) = .ok (.bool (decide (cmpKey l < cmpKey r)), .bool) ∧
    s.evalBinOp (.rel .le) (l, ty) (r, rTy) = .ok (.bool (decide (cmpKey l ≤ cmpKey r)), .bool) ∧
    s.evalBinOp (.rel .gt) (l, ty) (r, rTy) = .ok (.bool (decide (cmpKey r < cmpKey l)), .bool) ∧
    s.evalBinOp (.rel .ge) (l, ty) (r, rTy) = .ok (.bool (decide (cmpKey r ≤ cmpKey l)), .bool) ∧
    s.evalBinOp (.rel .eq) (l, ty) (r, rTy) = .ok (.bool (decide (cmpKey l = cmpKey r)), .bool) ∧
    s.evalBinOp (.rel .ne) (l, ty) (r, rTy) = .ok (.bool (decide (cmpKey l ≠ cmpKey r)), .bool) ∧
    s.evalBinOp (.rel .cmp) (l, ty) (r, rTy) = .ok (.int (if cmpKey l < cmpKey r then -1 else
      if cmpKey l = cmpKey r then 0 else 1), .int ⟨.signed, 1⟩) := by
  obtain ⟨o, ho, h1, h2, h3⟩ := compareValues_key hl hr
  simp only [Machine.evalBinOp, ho, Res.bind_ok, evalRelOp]
  have hle : cmpKey l ≤ cmpKey r ↔ ¬ cmpKey r < cmpKey l := not_lt.symm
  have hge : cmpKey r ≤ cmpKey l ↔ ¬ cmpKey l < cmpKey r := not_lt.symm
  have e1 : decide (cmpKey l < cmpKey r) = decide (o = .lt) := decide_eq_decide.2 h1.symm
  have e2 : decide (cmpKey r < cmpKey l) = decide (o = .gt) := decide_eq_decide.2 h3.symm
  have e3 : decide (cmpKey l = cmpKey r) = decide (o = .eq) := decide_eq_decide.2 h2.symm
  have e4 : decide (cmpKey l ≤ cmpKey r) = decide (¬ o = .gt) := decide_eq_decide.2 (hle.trans (not_congr h3.symm))
  have e5 : decide (cmpKey r ≤ cmpKey l) = decide (¬ o = .lt) := decide_eq_decide.2 (hge.trans (not_congr h1.symm))
  have e6 : decide (cmpKey l ≠ cmpKey r) = decide (¬ o = .eq) := decide_eq_decide.2 (not_congr h2.symm)
  simp only [e1, e2, e3, e4, e5, e6, IntType.i8]
  cases o <;> simp only [reduceCtorEq, true_iff, false_iff] at h1 h2 h3 <;> simp [h1, h2]

/-- Every value that passes the validity check at an integer, boolean or pointer type can be compared. -/
theorem C13_valid_values_comparable (s : Machine M P F) (ty : Ty) (v : Value P)
    (hty : (∃ t, ty = .int t) ∨ ty = .bool ∨ ∃ p, ty = .ptr p)
    (hv : checkValue s.valEnv ty v = .ok ()) : Comparable ty v := by
  rcases hty with ⟨t, rfl⟩ | rfl | ⟨p, rfl⟩
  · cases v <;> simp [checkValue, ub] at hv
    exact ⟨_, rfl⟩
  · cases v <;> simp [checkValue, ub] at hv
    exact ⟨_, rfl⟩
  · cases v <;> simp only [checkValue, ub, reduceCtorEq] at hv
    refine ⟨_, rfl, ?_⟩
    simp only [checkPtr, Res.bind_eq_ok] at hv
    obtain ⟨_, _, _, hm, _⟩ := hv
    revert hm
    generalize Pointer.metadata _ = md
    cases md with
    | none => cases p.metaKind <;> simp [checkPtrMetadata, MetaKind.Has, ub]
    | some m => cases m <;> cases p.metaKind <;> simp [checkPtrMetadata, MetaKind.Has, ub]
end

/-! ### Concrete cases -/
section
attribute [local instance] x86_64

/-- A machine that has just been created, without a program. -/
def Ex.machine0 : Machine (BasicMem Unit Unit) (Nat × Unit) Unit := Machine.empty ⟨[], 0, [], [], []⟩ []

def Ex.i8 : IntType := ⟨.signed, 1⟩

example : Ex.machine0.evalBinOp (.int .add) (.int 100, .int Ex.i8) (.int 100, .int Ex.i8) =
    .ok (.int (-56), .int Ex.i8) := by decide +kernel
example : Ex.i8.IsWrap 200 (-56) := ⟨by unfold IntType.InRange; decide, -1, by decide⟩
example : Ex.i8.InRange (-128) ∧ ¬ Ex.i8.InRange 128 := by unfold IntType.InRange; decide
example : Ex.machine0.evalBinOp (.int .addUnchecked) (.int 100, .int Ex.i8) (.int 100, .int Ex.i8) =
    .error .ub := by decide +kernel
example : Ex.machine0.evalBinOp (.int .div) (.int (-128), .int Ex.i8) (.int (-1), .int Ex.i8) =
    .error .ub := by decide +kernel
example : Ex.machine0.evalBinOp (.int .div) (.int (-7), .int Ex.i8) (.int 2, .int Ex.i8) =
    .ok (.int (-3), .int Ex.i8) := by decide +kernel
example : Ex.machine0.evalBinOp (.int .rem) (.int (-7), .int Ex.i8) (.int 2, .int Ex.i8) =
    .ok (.int (-1), .int Ex.i8) := by decide +kernel
example : TruncDiv (-7) 2 (-3) (-1) := by unfold TruncDiv; decide
example : Ex.machine0.evalBinOp (.int .shl) (.int 3, .int Ex.i8) (.int (-1), .int Ex.i8) =
    .ok (.int (-128), .int Ex.i8) := by decide +kernel
example : Ex.machine0.evalUnOp (.int .countOnes) (.int (-1), .int Ex.i8) =
    .ok (.int 8, .int ⟨.unsigned, 4⟩) := by decide +kernel
example : Ex.machine0.evalBinOp (.intWithOverflow .add) (.int 100, .int Ex.i8) (.int 100, .int Ex.i8) =
    .ok (.tuple [.int (-56), .bool true],
      .tuple [(0, .int Ex.i8), (1, .bool)] ⟨2, ⟨0⟩, none⟩ none) := by decide +kernel
example : Ex.i8.checkWf = .ok () := by decide
/-- Two slice pointers with different provenance, ordered by their element counts. -/
example : Comparable (P := Nat × Unit) (.ptr (.raw .elementCount))
      (.ptr ⟨⟨16, some (0, ())⟩, some (.elementCount 3)⟩) ∧
    Ex.machine0.evalBinOp (.rel .lt)
      (.ptr ⟨⟨16, some (0, ())⟩, some (.elementCount 3)⟩, .ptr (.raw .elementCount))
      (.ptr ⟨⟨16, none⟩, some (.elementCount 4)⟩, .ptr (.raw .elementCount)) = .ok (.bool true, .bool) :=
  ⟨⟨_, rfl, 3, rfl⟩, by decide +kernel⟩
end
end MiniRust
