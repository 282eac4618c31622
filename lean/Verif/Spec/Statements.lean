import Verif.Machine
/-
Vocabulary for C50: the effects of statements.
-/
namespace MiniRust

/-- Types whose values need every byte to be initialized. -/
inductive Ty.IsScalar : Ty → Prop
  | int {i} : Ty.IsScalar (.int i)
  | bool : Ty.IsScalar .bool
  | ptr {p} : Ty.IsScalar (.ptr p)

/-- `k` bytes at the first address and `n` bytes at the second have no byte in common. -/
def Ranges.Apart (a : Int) (k : Nat) (b : Int) (n : Nat) : Prop :=
  ¬ ∃ x : Int, (a ≤ x ∧ x < a + k) ∧ (b ≤ x ∧ x < b + n)

end MiniRust
