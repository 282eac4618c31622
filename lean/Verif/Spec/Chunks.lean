import Verif.Spec.Representation
import Verif.Spec.TreeBorrows
/-
A small specification used to state the properties of the chunks computed for unions.
-/
namespace MiniRust

/-- All pointers in the type (outside unions) are thin. -/
def OnlyThin (ty : Ty) : Prop := ∀ p, Component (.ptr p) ty → p.metaKind = .none

/-- Ranges `(offset, length)` that are not empty, lie between `lo` and `hi`, and are in ascending order
with at least one byte between any two of them. -/
def Separated : List (Nat × Nat) → Nat → Nat → Prop
  | [], _, _ => True
  | (off, len) :: rest, lo, hi => lo ≤ off ∧ 0 < len ∧ off + len ≤ hi ∧ Separated rest (off + len + 1) hi

/-- Byte `k` of a union holds data of one of its fields. -/
def FieldByte [Target] (fields : List (Nat × Ty)) (k : Nat) : Prop :=
  ∃ off ty i, (off, ty) ∈ fields ∧ UsesByte ty i ∧ k = off + i

end MiniRust
