import Verif.Types
import Mathlib.Data.Prod.Lex
/-
A small specification of machine integers used to state C10-C13: ranges, wrapping, binary digits,
rounding division and orders. Nothing here refers to how the interpreter computes.
-/
namespace MiniRust

/-- The number of bits of an integer type. -/
def IntType.bits (t : IntType) : Nat := 8 * t.size

/-- The smallest number of the type. -/
def IntType.minVal (t : IntType) : Int :=
  match t.signed with
  | .unsigned => 0
  | .signed => -(2 ^ (t.bits - 1))

/-- The largest number of the type. -/
def IntType.maxVal (t : IntType) : Int :=
  match t.signed with
  | .unsigned => 2 ^ t.bits - 1
  | .signed => 2 ^ (t.bits - 1) - 1

/-- `i` is one of the numbers of the type. -/
def IntType.InRange (t : IntType) (i : Int) : Prop := t.minVal ≤ i ∧ i ≤ t.maxVal

/-- `r` is the exact result `x` wrapped around to the type: it is in range and differs from `x` by a
multiple of `2^bits`. -/
def IntType.IsWrap (t : IntType) (x r : Int) : Prop :=
  t.InRange r ∧ ∃ k : Int, r = x + k * 2 ^ t.bits

/-- Binary digit `n` of the (infinite) two's complement expansion of `i`. -/
def binDigit (i : Int) (n : Nat) : Bool := decide ((i / 2 ^ n) % 2 = 1)

/-- `l` divided by `r` is `q` with remainder `m`, rounding towards zero: the remainder is smaller than
the divisor and is zero or has the sign of the dividend. -/
def TruncDiv (l r q m : Int) : Prop :=
  l = q * r + m ∧ m.natAbs < r.natAbs ∧ (0 ≤ l → 0 ≤ m) ∧ (l ≤ 0 → m ≤ 0)

/-! ### Comparing values -/

/-- The metadata has the given kind. -/
def MetaKind.Has {P : Type} : MetaKind → Option (PtrMeta P) → Prop
  | .none, m => m = Option.none
  | .elementCount, m => ∃ n, m = some (.elementCount n)
  | .vtablePointer _, m => ∃ p, m = some (.vtablePointer p)

/-- `v` is an integer, a boolean, or a pointer with the right kind of metadata, according to `ty`. -/
def Comparable {P : Type} : Ty → Value P → Prop
  | .int _, v => ∃ i, v = .int i
  | .bool, v => ∃ b, v = .bool b
  | .ptr p, v => ∃ q, v = .ptr q ∧ p.metaKind.Has q.metadata
  | _, _ => False

/-- What metadata counts for in comparisons: the element count, or the address of the vtable. -/
def metaKey {P : Type} : Option (PtrMeta P) → Int
  | none => 0
  | some (.elementCount n) => n
  | some (.vtablePointer p) => p.addr

/-- What a value counts for in comparisons: the number, `false` before `true`, the address and then
the metadata. Pairs are ordered lexicographically; provenance does not occur. -/
def cmpKey {P : Type} : Value P → Int ×ₗ Int
  | .int i => toLex (i, 0)
  | .bool b => toLex (if b then 1 else 0, 0)
  | .ptr p => toLex (p.thin.addr, metaKey p.metadata)
  | _ => toLex (0, 0)

end MiniRust
