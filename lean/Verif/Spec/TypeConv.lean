import Verif.TypeConv
/-
What Rust says about the types that miniutil converts, on the target `x86_64`.
-/
namespace MiniRust.ConvTy

/-- Does the Rust type implement `Sized`? -/
def Sized : ConvTy → Prop
  | slice _ => False
  | _ => True

/-- Does the type exist in Rust? Elements of arrays and slices must be `Sized`. -/
def Exists : ConvTy → Prop
  | array t _ => t.Exists ∧ t.Sized
  | slice t => t.Exists ∧ t.Sized
  | constPtr t => t.Exists
  | mutPtr t => t.Exists
  | ref t => t.Exists
  | refMut t => t.Exists
  | _ => True

/-- The size of a pointer to the type: wide pointers have two words. -/
def pointerSize : ConvTy → Nat
  | slice _ => 16
  | _ => 8

/-- `size_of` in Rust. -/
def rustSize : ConvTy → Nat
  | u8 => 1 | u16 => 2 | u32 => 4 | u64 => 8 | u128 => 16 | usize => 8
  | i8 => 1 | i16 => 2 | i32 => 4 | i64 => 8 | i128 => 16 | isize => 8
  | bool => 1 | unit => 0
  | constPtr t => t.pointerSize
  | mutPtr t => t.pointerSize
  | ref t => t.pointerSize
  | refMut t => t.pointerSize
  | array t n => n * t.rustSize
  | slice _ => 0

/-- `align_of` in Rust. -/
def rustAlign : ConvTy → Nat
  | u8 => 1 | u16 => 2 | u32 => 4 | u64 => 8 | u128 => 16 | usize => 8
  | i8 => 1 | i16 => 2 | i32 => 4 | i64 => 8 | i128 => 16 | isize => 8
  | bool => 1 | unit => 1
  | constPtr _ => 8
  | mutPtr _ => 8
  | ref _ => 8
  | refMut _ => 8
  | array t _ => t.rustAlign
  | slice t => t.rustAlign

/-- Rust rejects arrays larger than `isize::MAX`. -/
def Fits : ConvTy → Prop
  | array t n => t.Fits ∧ n * t.rustSize < 2 ^ 63
  | slice t => t.Fits
  | constPtr t => t.Fits
  | mutPtr t => t.Fits
  | ref t => t.Fits
  | refMut t => t.Fits
  | _ => True

/-- `MIN` and `MAX` of the integer types in Rust. -/
def rustRange : ConvTy → Option (Int × Int)
  | u8 => some (0, 255)
  | u16 => some (0, 65535)
  | u32 => some (0, 4294967295)
  | u64 | usize => some (0, 18446744073709551615)
  | u128 => some (0, 340282366920938463463374607431768211455)
  | i8 => some (-128, 127)
  | i16 => some (-32768, 32767)
  | i32 => some (-2147483648, 2147483647)
  | i64 | isize => some (-9223372036854775808, 9223372036854775807)
  | i128 => some (-170141183460469231731687303715884105728, 170141183460469231731687303715884105727)
  | _ => none

/-- Types without pointers and slices. -/
def Plain : ConvTy → Prop
  | constPtr _ | mutPtr _ | ref _ | refMut _ | slice _ => False
  | array t _ => t.Plain
  | _ => True

/-- The values of such a type in Rust. -/
def HasValue {P : Type} : ConvTy → Value P → Prop
  | bool, v => ∃ b, v = .bool b
  | unit, v => v = .tuple []
  | array t n, v => ∃ vs, v = .tuple vs ∧ vs.length = n ∧ ∀ x ∈ vs, t.HasValue x
  | t, v => ∃ i lo hi, v = .int i ∧ t.rustRange = some (lo, hi) ∧ lo ≤ i ∧ i ≤ hi

end MiniRust.ConvTy
