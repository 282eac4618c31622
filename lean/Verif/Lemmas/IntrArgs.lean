import Verif.Lemmas.EM
import Verif.Lemmas.Good
import Verif.Spec.Heap
import Verif.Step
/-
The arguments of intrinsics.
-/
namespace MiniRust
section
variable {P : Type}

theorem intArg_cases (a : Value P × Ty) : (∃ i t, a = (.int i, t)) ∨ intArg a = .error .ub := by
  obtain ⟨v, t⟩ := a
  cases v with
  | int i => exact .inl ⟨i, t, rfl⟩
  | _ => exact .inr rfl
theorem intArg_eq_ok {a : Value P × Ty} {i : Int} : intArg a = .ok i ↔ ∃ t, a = (.int i, t) := by
  obtain ⟨v, t⟩ := a
  cases v <;> simp [intArg, ub]
theorem intArg_int {i : Int} {t : Ty} : intArg (P := P) (.int i, t) = .ok i := rfl

theorem boolArg_cases (a : Value P × Ty) : (∃ b t, a = (.bool b, t)) ∨ boolArg a = .error .ub := by
  obtain ⟨v, t⟩ := a
  cases v with
  | bool i => exact .inl ⟨i, t, rfl⟩
  | _ => exact .inr rfl

theorem thinPtrArg_cases (a : Value P × Ty) : (∃ p t, a = (.ptr ⟨p, none⟩, t)) ∨ thinPtrArg a = .error .ub := by
  obtain ⟨v, t⟩ := a
  cases v with
  | ptr p =>
    obtain ⟨p, m⟩ := p
    cases m with
    | none => exact .inl ⟨p, t, rfl⟩
    | some m => exact .inr rfl
  | _ => exact .inr rfl
theorem thinPtrArg_eq_ok {a : Value P × Ty} {p : ThinPtr P} : thinPtrArg a = .ok p ↔ ∃ t, a = (.ptr ⟨p, none⟩, t) := by
  rcases thinPtrArg_cases a with ⟨q, t, rfl⟩ | h
  · simp [thinPtrArg]
  · rw [h]
    constructor
    · intro h; cases h
    · rintro ⟨t, rfl⟩; cases h
theorem thinPtrArg_ptr {p : ThinPtr P} {t : Ty} : thinPtrArg (.ptr ⟨p, none⟩, t) = .ok p := rfl
end

theorem sizeArg_cases (i : Int) : (∃ n : Nat, i = n ∧ sizeArg i = .ok n) ∨ (i < 0 ∧ sizeArg i = .error .ub) := by
  unfold sizeArg sizeFromBytes
  by_cases h : 0 ≤ i
  · exact .inl ⟨i.toNat, by omega, by rw [if_pos h]⟩
  · exact .inr ⟨by omega, by rw [if_neg h]⟩
theorem sizeArg_nat {n : Nat} : sizeArg (n : Int) = .ok n := by
  rcases sizeArg_cases n with ⟨m, h, h'⟩ | ⟨h, _⟩
  · rw [h', Int.ofNat_inj.1 h]
  · omega
theorem sizeArg_eq_ok {i : Int} {n : Nat} : sizeArg i = .ok n ↔ i = n := by
  rcases sizeArg_cases i with ⟨m, rfl, h⟩ | ⟨h, h'⟩
  · rw [h]; simp [eq_comm]
  · rw [h']
    constructor
    · intro h; cases h
    · intro h; omega

theorem isPowerOfTwo_iff {n : Nat} : isPowerOfTwo n = true ↔ ∃ k, n = 2 ^ k := by
  simp only [isPowerOfTwo, decide_eq_true_eq]
  constructor
  · intro h; exact ⟨_, h⟩
  · rintro ⟨k, rfl⟩; rw [Nat.log2_two_pow]

theorem fromBytes_pow {k : Nat} : Align.fromBytes (2 ^ k) = some ⟨k⟩ := by
  unfold Align.fromBytes
  rw [if_pos (isPowerOfTwo_iff.2 ⟨k, rfl⟩), Nat.log2_two_pow]

theorem fromBytes_eq_some {n k : Nat} : Align.fromBytes n = some ⟨k⟩ ↔ n = 2 ^ k := by
  constructor
  · intro h
    unfold Align.fromBytes at h
    split at h
    · rename_i hp
      obtain ⟨j, rfl⟩ := isPowerOfTwo_iff.1 hp
      rw [Nat.log2_two_pow] at h
      cases h; rfl
    · cases h
  · rintro rfl; exact fromBytes_pow

theorem alignArg_pow {k : Nat} : alignArg (2 ^ k : Int) = .ok ⟨k⟩ := by
  unfold alignArg
  have h0 : ¬ ((2 : Int) ^ k < 0) := not_lt.2 (by positivity)
  have h : ((2 : Int) ^ k).toNat = 2 ^ k := by
    have : ((2 : Int) ^ k) = ((2 ^ k : Nat) : Int) := by push_cast; rfl
    rw [this, Int.toNat_natCast]
  rw [if_neg h0, h, fromBytes_pow]

theorem alignArg_cases (i : Int) : (∃ k : Nat, i = 2 ^ k) ∨ ((∀ k : Nat, i ≠ 2 ^ k) ∧ alignArg i = .error .ub) := by
  by_cases h : ∃ k : Nat, i = 2 ^ k
  · exact .inl h
  · refine .inr ⟨fun k hk => h ⟨k, hk⟩, ?_⟩
    unfold alignArg
    by_cases h0 : i < 0
    · rw [if_pos h0]
    · rw [if_neg h0]
      unfold Align.fromBytes
      rw [if_neg]
      rw [isPowerOfTwo_iff]
      rintro ⟨k, hk⟩
      exact h ⟨k, by have : i = (i.toNat : Int) := by omega
                     rw [this, hk]; push_cast; rfl⟩
theorem alignArg_eq_ok {i : Int} {a : Align} : alignArg i = .ok a ↔ i = 2 ^ a.log := by
  rcases alignArg_cases i with ⟨k, rfl⟩ | ⟨h, h'⟩
  · rw [alignArg_pow]
    constructor
    · intro h; cases h; rfl
    · intro h
      have : k = a.log := Nat.pow_right_injective (a := 2) (by omega) (by dsimp only; exact_mod_cast h)
      rw [this]
  · rw [h']
    constructor
    · intro h; cases h
    · intro h'; exact absurd h' (h _)

theorem isThinPtrTy_iff {ty : Ty} : isThinPtrTy ty = true ↔ ty.IsThinPtr := by
  unfold Ty.IsThinPtr
  cases ty <;> simp [isThinPtrTy]

section
variable {M P F : Type} {s s' : Machine M P F}

theorem requireUb_eq_ok {b : Bool} {u : Unit} : requireUb b s = .ok (u, s') ↔ b = true ∧ s' = s := by
  unfold requireUb; rw [EM.lift_eq_ok, ensureUb_eq_ok]
theorem requireUb_true : requireUb true s = .ok ((), s) := rfl
theorem requireUb_false : requireUb false s = .error .ub := rfl
end

end MiniRust
