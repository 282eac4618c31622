import Verif.Rvalue
import Verif.Machine
import Verif.Spec.Operators
/-
What the operators of Rust mean, to state C68. Nothing here refers to how operators are translated or evaluated.
-/
namespace MiniRust

/-- Dividing these numbers of the type is undefined: by zero, or the quotient does not fit. -/
def IntType.DivUb (t : IntType) (l r : Int) : Prop := r = 0 ∨ (t.signed = .signed ∧ l = t.minVal ∧ r = -1)

/-- The exact result of the operators that can overflow. -/
def RsBinOp.exact (l r : Int) : RsBinOp → Option Int
  | .add | .addUnchecked => some (l + r)
  | .sub | .subUnchecked => some (l - r)
  | .mul | .mulUnchecked => some (l * r)
  | _ => none

/-- The result of a Rust operator on two integers, the left one of type `t`; the result has this type too. It is a number or
undefined behavior. -/
inductive RustInt (t : IntType) (l r : Int) : RsBinOp → Res Int → Prop
  | wrap {op x y} : op = .add ∨ op = .sub ∨ op = .mul → op.exact l r = some y → t.IsWrap y x → RustInt t l r op (.ok x)
  | unchecked {op y} : op = .addUnchecked ∨ op = .subUnchecked ∨ op = .mulUnchecked → op.exact l r = some y →
      t.InRange y → RustInt t l r op (.ok y)
  | overflow {op y} : op = .addUnchecked ∨ op = .subUnchecked ∨ op = .mulUnchecked → op.exact l r = some y →
      ¬ t.InRange y → RustInt t l r op (.error .ub)
  | div {q m} : ¬ t.DivUb l r → TruncDiv l r q m → RustInt t l r .div (.ok q)
  | divUb : t.DivUb l r → RustInt t l r .div (.error .ub)
  | rem {q m} : ¬ t.DivUb l r → TruncDiv l r q m → RustInt t l r .rem (.ok m)
  | remUb : t.DivUb l r → RustInt t l r .rem (.error .ub)
  | bitAnd {x} : t.InRange x → (∀ n < t.bits, binDigit x n = (binDigit l n && binDigit r n)) → RustInt t l r .bitAnd (.ok x)
  | bitOr {x} : t.InRange x → (∀ n < t.bits, binDigit x n = (binDigit l n || binDigit r n)) → RustInt t l r .bitOr (.ok x)
  | bitXor {x} : t.InRange x → (∀ n < t.bits, binDigit x n = (binDigit l n ^^ binDigit r n)) → RustInt t l r .bitXor (.ok x)
  /-- Shift amounts are taken modulo the number of bits. -/
  | shl {k : Nat} {x} : (k : Int) = r % t.bits → t.IsWrap (l * 2 ^ k) x → RustInt t l r .shl (.ok x)
  | shr {k : Nat} : (k : Int) = r % t.bits → RustInt t l r .shr (.ok (l / 2 ^ k))
  | shlUnchecked {k : Nat} {x} : (k : Int) = r → r < t.bits → t.IsWrap (l * 2 ^ k) x → RustInt t l r .shlUnchecked (.ok x)
  | shrUnchecked {k : Nat} : (k : Int) = r → r < t.bits → RustInt t l r .shrUnchecked (.ok (l / 2 ^ k))
  | shlUb : ¬ (0 ≤ r ∧ r < t.bits) → RustInt t l r .shlUnchecked (.error .ub)
  | shrUb : ¬ (0 ≤ r ∧ r < t.bits) → RustInt t l r .shrUnchecked (.error .ub)

/-- The operators that take two integers and return one. -/
def RsBinOp.Arith (op : RsBinOp) : Prop :=
  op ∈ [.add, .addUnchecked, .sub, .subUnchecked, .mul, .mulUnchecked, .div, .rem, .bitXor, .bitAnd, .bitOr, .shl,
    .shlUnchecked, .shr, .shrUnchecked]

/-- The operators on booleans. -/
def RsBinOp.onBools : RsBinOp → Option (Bool → Bool → Bool)
  | .bitAnd => some (· && ·)
  | .bitOr => some (· || ·)
  | .bitXor => some (· ^^ ·)
  | _ => none

/-- The comparisons. -/
def RsBinOp.onOrder {α : Type} [LinearOrder α] (a b : α) : RsBinOp → Option Bool
  | .lt => some (decide (a < b))
  | .le => some (decide (a ≤ b))
  | .gt => some (decide (b < a))
  | .ge => some (decide (b ≤ a))
  | .eq => some (decide (a = b))
  | .ne => some (decide (a ≠ b))
  | _ => none

/-- The discriminant of the variant of `Ordering` that says how `a` compares to `b`. -/
def orderingOf {α : Type} [LinearOrder α] (a b : α) : Int := if a < b then -1 else if a = b then 0 else 1

section
variable {M P F : Type} [Memory M P F] [DecidableEq P] [T : Target]

/-- Evaluating the operand, translated for a function with `n` locals. -/
def RsOperand.run (n : Nat) (o : RsOperand) (s : Machine M P F) : Res ((Value P × Ty) × Machine M P F) :=
  match o.translate n with
  | .ok e => evalValue e s
  | .error e => .error e

/-- Evaluating the rvalue, translated for a function with `n` locals. -/
def RsRvalue.run (n : Nat) (rv : RsRvalue) (s : Machine M P F) : Res ((Value P × Ty) × Machine M P F) :=
  match rv.translate n with
  | .ok e => evalValue e s
  | .error e => .error e

/-- Evaluating the place, translated for a function with `n` locals. -/
def RsPlace.run (n : Nat) (p : RsPlace) (s : Machine M P F) : Res ((Place P × Ty) × Machine M P F) :=
  match p.translate n with
  | .ok e => evalPlace e s
  | .error e => .error e

/-- The place with another projection at its end. -/
def RsPlace.proj (p : RsPlace) (q : RsProj) : RsPlace := ⟨p.base, p.projections ++ [q]⟩

/-- The operands evaluate, one after the other, to these values. -/
inductive OperandsRun (n : Nat) : List RsOperand → Machine M P F → List (Value P × Ty) → Machine M P F → Prop
  | nil {s} : OperandsRun n [] s [] s
  | cons {o os v vs s s1 s2} : o.run n s = .ok (v, s1) → OperandsRun n os s1 vs s2 → OperandsRun n (o :: os) s (v :: vs) s2

/-- Evaluating an operand of a call of an intrinsic. -/
def MirOperand.run (o : MirOperand) (s : Machine M P F) : Res ((Value P × Ty) × Machine M P F) := evalValue o.translate s

/-- Evaluating the value of an intrinsic that only computes a value. -/
def RsIntrinsic.run (i : RsIntrinsic) (args : List MirOperand) (s : Machine M P F) : Res ((Value P × Ty) × Machine M P F) :=
  match i.value args with
  | some (.ok e) => evalValue e s
  | _ => .error .panic

/-- A value (or undefined behavior) together with the state after computing it. -/
def withState {α β : Type} (r : Res α) (s : β) : Res (α × β) := r.map (·, s)

end

end MiniRust
