import Verif.Representation
import Verif.Syntax
import Mathlib.Data.Int.Bitwise
/-
Model of the machine-independent part of `/repo/spec/lang/step/operators.md`: integer operators,
casts between integers, comparisons.
-/
namespace MiniRust

/-- libspecr `Int & Int`: bitwise and of infinite two's complement expansions. -/
def intAnd (a b : Int) : Int := Int.land a b
/-- libspecr `Int | Int`. -/
def intOr (a b : Int) : Int := Int.lor a b
/-- libspecr `Int ^ Int`. -/
def intXor (a b : Int) : Int := Int.xor a b
/-- libspecr `!Int`. -/
def intNot (a : Int) : Int := Int.lnot a
/-- libspecr `Int << n` (for `n ≥ 0`). -/
def intShl (a : Int) (n : Nat) : Int := a * 2 ^ n
/-- libspecr `Int >> n` (for `n ≥ 0`), rounding towards minus infinity. -/
def intShr (a : Int) (n : Nat) : Int := a / 2 ^ n

/-- The loop of `eval_count_ones`, `/repo/spec/lang/step/operators.md:63-67`; the first argument
is the number of iterations left. -/
def countOnesLoop : Nat → Int → Int → Int
  | 0, _, ones => ones
  | n + 1, remainingBits, ones =>
    countOnesLoop n (intShr remainingBits 1) (ones + intAnd remainingBits 1)

/-- `eval_count_ones`, `/repo/spec/lang/step/operators.md:59-69`. -/
def evalCountOnes (operand : Int) (ity : IntType) : Int := countOnesLoop (8 * ity.size) operand 0

/-- `eval_int_un_op`, `/repo/spec/lang/step/operators.md:20-31`. -/
def evalIntUnOp (op : IntUnOp) (operand : Int) (ity : IntType) : Int :=
  match op with
  | .neg => ity.bringInBounds (-operand)
  | .bitNot => ity.bringInBounds (intNot operand)
  | .countOnes => evalCountOnes operand ity

/-- The return type of an integer unary operator, `/repo/spec/lang/step/operators.md:36-39` and
`/repo/spec/lang/well-formed.md:419-422`. -/
def IntUnOp.retTy (op : IntUnOp) (ity : IntType) : IntType :=
  match op with
  | .countOnes => ⟨.unsigned, 4⟩
  | _ => ity

/-- `eval_int_bin_op`, `/repo/spec/lang/step/operators.md:187-272`. `/` and `%` truncate. The shift
operators panic if the type has no bits (`rem_euclid` by zero). -/
def evalIntBinOp (op : IntBinOp) (left right : Int) (leftTy : IntType) : Res Int :=
  match op with
  | .add => .ok (left + right)
  | .addUnchecked =>
    if !leftTy.canRepresent (left + right) then ub else .ok (left + right)
  | .sub => .ok (left - right)
  | .subUnchecked =>
    if !leftTy.canRepresent (left - right) then ub else .ok (left - right)
  | .mul => .ok (left * right)
  | .mulUnchecked =>
    if !leftTy.canRepresent (left * right) then ub else .ok (left * right)
  | .div =>
    if right = 0 then ub
    else if !leftTy.canRepresent (left.tdiv right) then ub
    else .ok (left.tdiv right)
  | .divExact =>
    if right = 0 then ub
    else if !leftTy.canRepresent (left.tdiv right) then ub
    else if left.tmod right ≠ 0 then ub
    else .ok (left.tdiv right)
  | .rem =>
    if right = 0 then ub
    else if !leftTy.canRepresent (left.tdiv right) then ub
    else .ok (left.tmod right)
  | .shl =>
    let bits := 8 * leftTy.size
    if bits = 0 then panic else .ok (intShl left (right % bits).toNat)
  | .shr =>
    let bits := 8 * leftTy.size
    if bits = 0 then panic else .ok (intShr left (right % bits).toNat)
  | .shlUnchecked =>
    let bits := 8 * leftTy.size
    if right < 0 ∨ right ≥ bits then ub else .ok (intShl left right.toNat)
  | .shrUnchecked =>
    let bits := 8 * leftTy.size
    if right < 0 ∨ right ≥ bits then ub else .ok (intShr left right.toNat)
  | .bitAnd => .ok (intAnd left right)
  | .bitOr => .ok (intOr left right)
  | .bitXor => .ok (intXor left right)

/-- `eval_bin_op` at `BinOp::Int`, `/repo/spec/lang/step/operators.md:273-288`, on the integers. -/
def evalIntBinOpWrapped (op : IntBinOp) (left right : Int) (ity : IntType) : Res Int := do
  let result ← evalIntBinOp op left right ity
  .ok (ity.bringInBounds result)

/-- The exact result of a with-overflow operator, `/repo/spec/lang/step/operators.md:301-305`. -/
def IntBinOpWithOverflow.exact (op : IntBinOpWithOverflow) (left right : Int) : Int :=
  match op with
  | .add => left + right
  | .sub => left - right
  | .mul => left * right

/-- `eval_bin_op` at `BinOp::IntWithOverflow`, `/repo/spec/lang/step/operators.md:290-313`, on the
integers: the wrapped result and the overflow flag. -/
def evalIntWithOverflow (op : IntBinOpWithOverflow) (left right : Int) (ity : IntType) : Int × Bool :=
  let result := op.exact left right
  let overflow := !ity.canRepresent result
  (ity.bringInBounds result, overflow)

/-- Rust's `Ord::cmp` on integers. -/
def cmpInt (a b : Int) : Ordering := if a < b then .lt else if a = b then .eq else .gt

/-- Rust's `Ord::cmp` on booleans (`false < true`). -/
def cmpBool (a b : Bool) : Ordering :=
  match a, b with
  | false, true => .lt
  | true, false => .gt
  | _, _ => .eq

variable {P : Type}

/-- `eval_rel_op`, `/repo/spec/lang/step/operators.md:322-340`. -/
def evalRelOp (rel : RelOp) (ord : Ordering) : Value P × Ty :=
  match rel with
  | .lt => (.bool (ord == .lt), .bool)
  | .gt => (.bool (ord == .gt), .bool)
  | .le => (.bool (ord != .gt), .bool)
  | .ge => (.bool (ord != .lt), .bool)
  | .eq => (.bool (ord == .eq), .bool)
  | .ne => (.bool (ord != .eq), .bool)
  | .cmp =>
    (.int (match ord with | .lt => -1 | .eq => 0 | .gt => 1), .int IntType.i8)

/-- Rust's `Ordering::then`. -/
def ordThen (a b : Ordering) : Ordering := match a with | .eq => b | _ => a

/-- The comparison of metadata in `compare_ptr`, `/repo/spec/lang/step/operators.md:344-350`. -/
def compareMeta (left right : Option (PtrMeta P)) : Res Ordering :=
  match left, right with
  | none, none => .ok .eq
  | some (.elementCount l), some (.elementCount r) => .ok (cmpInt l r)
  | some (.vtablePointer l), some (.vtablePointer r) => .ok (cmpInt l.addr r.addr)
  | _, _ => panic

/-- `compare_ptr`, `/repo/spec/lang/step/operators.md:342-352`. -/
def comparePtr (left right : Pointer P) : Res Ordering := do
  let thinCmp := cmpInt left.thin.addr right.thin.addr
  let metaCmp ← compareMeta left.metadata right.metadata
  .ok (ordThen thinCmp metaCmp)

/-- The comparison of `eval_bin_op` at `BinOp::Rel`, `/repo/spec/lang/step/operators.md:360-371`. -/
def compareValues (lTy : Ty) (left right : Value P) : Res Ordering :=
  match lTy, left, right with
  | .int _, .int l, .int r => .ok (cmpInt l r)
  | .bool, .bool l, .bool r => .ok (cmpBool l r)
  | .ptr _, .ptr l, .ptr r => comparePtr l r
  | _, _, _ => panic

end MiniRust
