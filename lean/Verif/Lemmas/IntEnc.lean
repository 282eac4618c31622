import Verif.Lemmas.Basic
import Mathlib.Tactic.Ring
import Mathlib.Tactic.Linarith
import Mathlib.Tactic.LinearCombination
/-
Auxiliary lemmas about integer bounds and byte encodings.
-/
namespace MiniRust

theorem leEncode_length (n x : Nat) : (leEncode n x).length = n := by
  induction n generalizing x with
  | zero => rfl
  | succ n ih => simp [leEncode, ih]

theorem leDecode_lt (bs : List UInt8) : leDecode bs < 256 ^ bs.length := by
  induction bs with
  | nil => simp [leDecode]
  | cons b bs ih =>
    have hb : b.toNat < 256 := b.toNat_lt
    simp only [leDecode, List.length_cons, Nat.pow_succ]
    omega

theorem leDecode_leEncode (n x : Nat) (h : x < 256 ^ n) : leDecode (leEncode n x) = x := by
  induction n generalizing x with
  | zero => simp [leEncode, leDecode] at *; omega
  | succ n ih =>
    have h1 : x / 256 < 256 ^ n := by
      rw [Nat.pow_succ] at h; omega
    simp only [leEncode, leDecode, ih _ h1]
    rw [UInt8.toNat_ofNat']
    omega

theorem leEncode_leDecode (bs : List UInt8) : leEncode bs.length (leDecode bs) = bs := by
  induction bs with
  | nil => rfl
  | cons b bs ih =>
    have hb : b.toNat < 256 := b.toNat_lt
    simp only [leDecode, List.length_cons, leEncode]
    have h1 : (b.toNat + 256 * leDecode bs) % 256 = b.toNat := by omega
    have h2 : (b.toNat + 256 * leDecode bs) / 256 = leDecode bs := by omega
    rw [h1, h2, ih, UInt8.ofNat_toNat]

theorem pow256 (n : Nat) : (256 : Nat) ^ n = 2 ^ (8 * n) := by
  rw [Nat.pow_mul]

theorem two_pow_pos' (n : Nat) : (0 : Int) < 2 ^ n := Int.pow_pos (by decide)

theorem bringInBounds_inBounds (s : Signedness) (n : Nat) (i : Int) :
    inBounds s n (bringInBounds s n i) = true := by
  have hp := two_pow_pos' (8 * n)
  have h1 := Int.emod_nonneg i (Int.ne_of_gt hp)
  have h2 := Int.emod_lt_of_pos i hp
  generalize hm : (2 : Int) ^ (8 * n) = m at *
  cases s <;> simp only [inBounds, bringInBounds, hm, decide_eq_true_eq]
  · split <;> omega
  · omega

theorem bringInBounds_cong (s : Signedness) (n : Nat) (i : Int) :
    (2 : Int) ^ (8 * n) ∣ (bringInBounds s n i - i) := by
  have h := Int.emod_add_mul_ediv i ((2 : Int) ^ (8 * n))
  cases s <;> simp only [bringInBounds]
  · split
    · exact ⟨-(i / 2 ^ (8 * n)) - 1, by linear_combination h⟩
    · exact ⟨-(i / 2 ^ (8 * n)), by linear_combination h⟩
  · exact ⟨-(i / 2 ^ (8 * n)), by linear_combination h⟩

/-- Within the range of an integer type, congruent integers are equal. -/
theorem inBounds_unique (s : Signedness) (n : Nat) (i j : Int)
    (hi : inBounds s n i = true) (hj : inBounds s n j = true)
    (h : (2 : Int) ^ (8 * n) ∣ (i - j)) : i = j := by
  have hp := two_pow_pos' (8 * n)
  obtain ⟨k, hk⟩ := h
  generalize hm : (2 : Int) ^ (8 * n) = m at *
  have hlt : i - j < m ∧ -m < i - j := by
    cases s <;> simp only [inBounds, hm, decide_eq_true_eq] at hi hj <;> omega
  have : k = 0 := by
    rcases lt_trichotomy k 0 with h0 | h0 | h0
    · have : m * k ≤ m * (-1) := by apply mul_le_mul_of_nonneg_left <;> omega
      omega
    · exact h0
    · have : m * 1 ≤ m * k := by apply mul_le_mul_of_nonneg_left <;> omega
      omega
  subst this; omega

theorem bringInBounds_of_inBounds (s : Signedness) (n : Nat) (i : Int)
    (hi : inBounds s n i = true) : bringInBounds s n i = i :=
  inBounds_unique s n _ _ (bringInBounds_inBounds s n i) hi (bringInBounds_cong s n i)

theorem bringInBounds_eq_of_dvd (s : Signedness) (n : Nat) (i j : Int)
    (h : (2 : Int) ^ (8 * n) ∣ (i - j)) : bringInBounds s n i = bringInBounds s n j := by
  apply inBounds_unique s n _ _ (bringInBounds_inBounds s n i) (bringInBounds_inBounds s n j)
  have h1 := bringInBounds_cong s n i
  have h2 := bringInBounds_cong s n j
  have : bringInBounds s n i - bringInBounds s n j =
    (bringInBounds s n i - i) + (i - j) - (bringInBounds s n j - j) := by ring
  rw [this]
  exact Int.dvd_sub (Int.dvd_add h1 h) h2

theorem int_pow256 (n : Nat) : (2 : Int) ^ (8 * n) = ((256 ^ n : Nat) : Int) := by
  rw [pow256]; push_cast; rfl

/-- The bytes in little-endian order. -/
def Endianness.order (e : Endianness) (bs : List UInt8) : List UInt8 :=
  match e with | .little => bs | .big => bs.reverse

theorem Endianness.order_length (e : Endianness) (bs : List UInt8) :
    (e.order bs).length = bs.length := by cases e <;> simp [order]

theorem Endianness.order_order (e : Endianness) (bs : List UInt8) :
    e.order (e.order bs) = bs := by cases e <;> simp [order]

theorem Endianness.encode_def (e : Endianness) (s : Signedness) (n : Nat) (i : Int) :
    e.encode s n i = if inBounds s n i then some (e.order (leEncode n (i % 2 ^ (8 * n)).toNat)) else none := by
  cases e <;> rfl

/-- Decoding is `bringInBounds` of the unsigned number. -/
theorem decode_eq (e : Endianness) (s : Signedness) (bs : List UInt8) :
    e.decode s bs = bringInBounds s bs.length
      (leDecode (e.order bs) : Int) := by
  have h : ((leDecode (e.order bs) : Nat) : Int)
      < 2 ^ (8 * bs.length) := by
    rw [int_pow256]
    have := leDecode_lt (e.order bs)
    rw [e.order_length] at this
    exact_mod_cast this
  have hd : e.decode s bs = match s with
      | .unsigned => (leDecode (e.order bs) : Int)
      | .signed => if 2 * (leDecode (e.order bs) : Int) ≥ 2 ^ (8 * bs.length) then
          (leDecode (e.order bs) : Int) - 2 ^ (8 * bs.length) else (leDecode (e.order bs) : Int) := by
    cases e <;> cases s <;> rfl
  rw [hd]
  unfold bringInBounds
  simp only [Int.emod_eq_of_lt (Int.natCast_nonneg _) h]
  cases s <;> rfl

theorem encode_isSome (e : Endianness) (s : Signedness) (n : Nat) (i : Int) :
    (e.encode s n i).isSome = inBounds s n i := by
  unfold Endianness.encode; split <;> simp_all

theorem encode_length {e : Endianness} {s : Signedness} {n : Nat} {i : Int} {bs : List UInt8}
    (h : e.encode s n i = some bs) : bs.length = n := by
  rw [e.encode_def] at h
  split at h
  · cases h; rw [e.order_length, leEncode_length]
  · cases h

theorem encode_inBounds {e : Endianness} {s : Signedness} {n : Nat} {i : Int} {bs : List UInt8}
    (h : e.encode s n i = some bs) : inBounds s n i = true := by
  rw [← encode_isSome e, h]; rfl

theorem decode_inBounds (e : Endianness) (s : Signedness) (bs : List UInt8) :
    inBounds s bs.length (e.decode s bs) = true := by
  rw [decode_eq]; exact bringInBounds_inBounds _ _ _

theorem decode_encode {e : Endianness} {s : Signedness} {n : Nat} {i : Int} {bs : List UInt8}
    (h : e.encode s n i = some bs) : e.decode s bs = i := by
  have hl := encode_length h
  have hi := encode_inBounds h
  rw [decode_eq, hl]
  rw [e.encode_def, if_pos hi] at h
  have hp := two_pow_pos' (8 * n)
  have h0 := Int.emod_nonneg i (Int.ne_of_gt hp)
  have hlt := Int.emod_lt_of_pos i hp
  have key : (e.order bs) =
      leEncode n (i % 2 ^ (8 * n)).toNat := by
    cases h; rw [e.order_order]
  rw [key, leDecode_leEncode, Int.toNat_of_nonneg h0]
  · rw [← bringInBounds_of_inBounds s n i hi]
    rw [bringInBounds_of_inBounds s n i hi]
    apply (bringInBounds_eq_of_dvd s n _ i _).trans (bringInBounds_of_inBounds s n i hi)
    exact ⟨-(i / 2 ^ (8 * n)), by linear_combination Int.emod_add_mul_ediv i (2 ^ (8 * n))⟩
  · have : (((i % 2 ^ (8 * n)).toNat : Nat) : Int) < ((256 ^ n : Nat) : Int) := by
      rw [Int.toNat_of_nonneg h0, ← int_pow256]; exact hlt
    exact_mod_cast this

theorem encode_decode (e : Endianness) (s : Signedness) (bs : List UInt8) :
    e.encode s bs.length (e.decode s bs) = some bs := by
  have hin := decode_inBounds e s bs
  rw [e.encode_def, if_pos hin]
  set u : Nat := leDecode (e.order bs) with hu
  have hult : u < 256 ^ bs.length := by
    have := leDecode_lt (e.order bs)
    rwa [e.order_length] at this
  have hmod : (e.decode s bs % 2 ^ (8 * bs.length)).toNat = u := by
    have h1 : e.decode s bs % 2 ^ (8 * bs.length) = (u : Int) := by
      rw [decode_eq, ← hu]
      have hd := bringInBounds_cong s bs.length (u : Int)
      rw [Int.emod_eq_emod_iff_emod_sub_eq_zero.2 (Int.emod_eq_zero_of_dvd hd)]
      apply Int.emod_eq_of_lt (Int.natCast_nonneg _)
      rw [int_pow256]; exact_mod_cast hult
    rw [h1]; rfl
  rw [hmod, hu]
  have := leEncode_leDecode (e.order bs)
  rw [e.order_length] at this
  rw [this, e.order_order]

end MiniRust
