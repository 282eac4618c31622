/-
Model of `/repo/spec/prelude/main.md`, `/repo/spec/prelude/target.md`, and of the parts of
libspecr (integers, sizes, alignments, endianness, lists) that the specification uses.
-/
namespace MiniRust

/-- All ways a specification function can fail to return normally.

* `ub`, `machineStop`, `abort`, `illFormed`, `deadlock`, `memoryLeak`: the variants of
  `TerminationInfo`, `/repo/spec/prelude/main.md:21-34` (the message strings are dropped).
* `none`: `throw!()` in an `Option`-returning function, `/repo/spec/prelude/main.md:38-42`.
* `panic`: a Rust panic of the interpreter, i.e. a "spec bug"
  (`assert!`, `panic!`, `unwrap` on `None`, out-of-bounds indexing, absent map keys).
* `noBehavior`: a nondeterministic choice that the specification's predicate rejects
  (`pick`/`predict` of libspecr); this is not an execution of the program. -/
inductive Err
  | none | ub | machineStop | abort | illFormed | deadlock | memoryLeak | panic | noBehavior
  deriving DecidableEq, Repr

/-- `Result<T>` (`/repo/spec/prelude/main.md:19`), extended with the explicit error values of `Err`. -/
abbrev Res (α : Type) := Except Err α

/-- `panic!` -/
abbrev panic {α : Type} : Res α := .error .panic
/-- `throw_ub!` (`/repo/spec/prelude/main.md:43-47`). -/
abbrev ub {α : Type} : Res α := .error .ub

/-- `assert!(b)`: panics when `b` is false. -/
def rassert (b : Bool) : Res Unit := if b then .ok () else .error .panic

/-- `ensure_else_ub`, `/repo/spec/lang/representation.md:483-486`. -/
def ensureUb (b : Bool) : Res Unit := if b then .ok () else .error .ub

/-- `ensure_wf`, `/repo/spec/lang/well-formed.md:12-15`. -/
def ensureWf (b : Bool) : Res Unit := if b then .ok () else .error .illFormed

/-- Rust's `Option::unwrap`. -/
def unwrap {α : Type} : Option α → Res α
  | some a => .ok a
  | none => .error .panic

/-- Rust's `Result::is_ok` on a function that may also panic: a panic propagates. -/
def isOk {α : Type} : Res α → Res Bool
  | .ok _ => .ok true
  | .error .panic => .error .panic
  | .error .noBehavior => .error .noBehavior
  | .error _ => .ok false

/-! ### libspecr: signedness, endianness, integers -/

inductive Signedness | signed | unsigned
  deriving DecidableEq, Repr
inductive Endianness | little | big
  deriving DecidableEq, Repr
inductive Mutability | mut | imm
  deriving DecidableEq, Repr

/-- libspecr `Int::in_bounds(signed, size)`: is `i` representable with `size` bytes?
(`-2^(8*size-1) ≤ i < 2^(8*size-1)` is written without subtraction in the exponent.) -/
def inBounds (s : Signedness) (size : Nat) (i : Int) : Bool :=
  match s with
  | .unsigned => decide (0 ≤ i ∧ i < 2 ^ (8 * size))
  | .signed => decide (-(2 ^ (8 * size)) ≤ 2 * i ∧ 2 * i < 2 ^ (8 * size))

/-- libspecr `Int::bring_in_bounds(signed, size)`: wrap around to the range of the integer type. -/
def bringInBounds (s : Signedness) (size : Nat) (i : Int) : Int :=
  let m : Int := 2 ^ (8 * size)
  let r := i % m
  match s with
  | .unsigned => r
  | .signed => if 2 * r ≥ m then r - m else r

/-- `n` little-endian bytes of a natural number. -/
def leEncode : Nat → Nat → List UInt8
  | 0, _ => []
  | n + 1, x => UInt8.ofNat (x % 256) :: leEncode n (x / 256)

/-- The natural number denoted by little-endian bytes. -/
def leDecode : List UInt8 → Nat
  | [] => 0
  | b :: bs => b.toNat + 256 * leDecode bs

/-- libspecr `Endianness::encode`: `None` if the integer does not fit. -/
def Endianness.encode (e : Endianness) (s : Signedness) (size : Nat) (i : Int) : Option (List UInt8) :=
  if inBounds s size i then
    let le := leEncode size (i % 2 ^ (8 * size)).toNat
    some (match e with | .little => le | .big => le.reverse)
  else none

/-- libspecr `Endianness::decode`. -/
def Endianness.decode (e : Endianness) (s : Signedness) (bytes : List UInt8) : Int :=
  let u : Int := leDecode (match e with | .little => bytes | .big => bytes.reverse)
  let m : Int := 2 ^ (8 * bytes.length)
  match s with
  | .unsigned => u
  | .signed => if 2 * u ≥ m then u - m else u

/-- libspecr `Align`: a power of two by construction. -/
structure Align where
  log : Nat
  deriving DecidableEq, Repr

namespace Align
/-- `Align::bytes`. -/
def bytes (a : Align) : Nat := 2 ^ a.log
/-- `Align::ONE`. -/
def one : Align := ⟨0⟩
/-- `Ord::min` on alignments. -/
def min (a b : Align) : Align := if a.log ≤ b.log then a else b
/-- `Ord::max` on alignments. -/
def max (a b : Align) : Align := if a.log ≤ b.log then b else a
/-- `Align::is_aligned(addr)`. -/
def isAligned (a : Align) (addr : Int) : Bool := decide (addr % (a.bytes : Int) = 0)
end Align

/-- `Int::is_power_of_two`, on the non-negative `bytes` of a `Size`. -/
def isPowerOfTwo (n : Nat) : Bool := decide (n = 2 ^ Nat.log2 n)

/-- `Align::from_bytes`: `None` unless a power of two. -/
def Align.fromBytes (n : Nat) : Option Align :=
  if isPowerOfTwo n then some ⟨Nat.log2 n⟩ else none

/-- `Size::align_to`: round up to the next multiple of the alignment. -/
def alignTo (size : Nat) (a : Align) : Nat := (size + a.bytes - 1) / a.bytes * a.bytes

/-- `Size::from_bytes`: `None` if negative. -/
def sizeFromBytes (i : Int) : Option Nat := if 0 ≤ i then some i.toNat else none

/-- libspecr `Size * Int`: panics on negative results. -/
def sizeMul (size : Nat) (count : Int) : Res Nat := unwrap (sizeFromBytes (size * count))

/-! ### libspecr: lists and maps -/

/-- `List::subslice_with_length`: panics when out of bounds. -/
def subslice {α : Type} (l : List α) (off len : Nat) : Res (List α) :=
  if off + len ≤ l.length then .ok ((l.drop off).take len) else .error .panic

/-- `List::write_subslice_at_index`: panics when out of bounds. -/
def writeSubslice {α : Type} (l : List α) (off : Nat) (src : List α) : Res (List α) :=
  if off + src.length ≤ l.length then .ok (l.take off ++ src ++ l.drop (off + src.length))
  else .error .panic

/-- `List` indexing `l[i]`: panics when out of bounds. -/
def index {α : Type} (l : List α) (i : Nat) : Res α := unwrap l[i]?

/-- `List::try_map` for a function that may fail. -/
def tryMap {α β : Type} (f : α → Res β) : List α → Res (List β)
  | [] => .ok []
  | a :: as => do
    let b ← f a
    let bs ← tryMap f as
    .ok (b :: bs)

/-- libspecr `Map<K,V>` as an association list; keys are unique in every `Map`. -/
abbrev Map (K V : Type) := List (K × V)

namespace Map
variable {K V : Type} [DecidableEq K]
/-- `Map::get`. -/
def get? : Map K V → K → Option V
  | [], _ => none
  | (k, v) :: m, q => if k = q then some v else get? m q
/-- `map[k]`: panics when absent. -/
def get (m : Map K V) (k : K) : Res V := unwrap (get? m k)
/-- `Map::contains_key`. -/
def contains (m : Map K V) (k : K) : Bool := (get? m k).isSome
/-- `Map::insert`: replace the value of an existing key, else add the key. -/
def insert : Map K V → K → V → Map K V
  | [], k, v => [(k, v)]
  | (k', v') :: m, k, v => if k' = k then (k, v) :: m else (k', v') :: insert m k v
/-- `Map::remove`. -/
def erase : Map K V → K → Map K V
  | [], _ => []
  | (k', v') :: m, k => if k' = k then m else (k', v') :: erase m k
/-- `Map::keys`. -/
def keys (m : Map K V) : List K := m.map (·.1)
/-- `Map::values`. -/
def values (m : Map K V) : List V := m.map (·.2)
end Map

/-- libspecr `Set<T>` as a list; `insert` keeps it free of duplicates. -/
def setInsert {α : Type} [DecidableEq α] (l : List α) (a : α) : List α :=
  if a ∈ l then l else l ++ [a]

/-! ### Targets -/

/-- `trait Target`, `/repo/spec/prelude/target.md:9-26`. -/
class Target where
  ptrSize : Nat
  ptrAlign : Align
  intMaxAlign : Align
  endianness : Endianness
  maxAtomicSize : Nat
  validSize : Nat → Bool

/-- `struct x86_64`, `/repo/spec/prelude/target.md:32-46`. -/
@[reducible] def x86_64 : Target where
  ptrSize := 8
  ptrAlign := ⟨3⟩
  intMaxAlign := ⟨4⟩
  endianness := .little
  maxAtomicSize := 8
  validSize size := inBounds .signed 8 size

/-- What the specification assumes about targets (it is only implicit in `/repo/spec`):
pointers have power-of-two size, `usize` is laid out like a thin pointer
(asserted by `as_wide_pair`, `/repo/spec/lang/representation.md:162-163`), valid sizes fit
`isize` and are downward closed, and a wide pointer has a valid size. -/
class LawfulTarget (T : Target) : Prop where
  ptr_pow : isPowerOfTwo T.ptrSize = true
  ptr_align : Align.min ⟨Nat.log2 T.ptrSize⟩ T.intMaxAlign = T.ptrAlign
  valid_isize : ∀ n, T.validSize n = true → inBounds .signed T.ptrSize n = true
  valid_down : ∀ m n, m ≤ n → T.validSize n = true → T.validSize m = true
  valid_wide : T.validSize (2 * T.ptrSize) = true

theorem x86_64_lawful : LawfulTarget x86_64 where
  ptr_pow := by decide
  ptr_align := by decide
  valid_isize := fun n h => h
  valid_down := fun m n h hv => by
    have hv' : inBounds .signed 8 (n : Int) = true := hv
    show inBounds .signed 8 (m : Int) = true
    simp only [inBounds, decide_eq_true_eq] at *
    omega
  valid_wide := by decide

end MiniRust
