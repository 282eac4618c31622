import Verif.Examples.Calls
import Verif.Examples.Tame
/-
C37 is false of the specification: programs that pass the check of well-formedness and make the interpreter panic.
Each witness is excluded by `Program.Tame`, `Program.Simple` or `Machine.SafeNext`.
-/
namespace MiniRust

/-- Some execution of the program ends in a panic of the interpreter. -/
def CanPanic (prog : Program) : Prop := letI := x86_64; ∃ s : BMach, Reachable prog s ∧ step s = .error .panic

namespace Ex
attribute [local instance] x86_64

theorem canPanic {prog : Program} (oracle : List (Choice (Nat × Unit))) (n : Nat)
    (h : observe (M := BasicMem Unit Unit) (F := Unit) prog oracle n (fun s => .ok (decide (errOf (step s) = some .panic))) = .ok true) :
    CanPanic prog := by
  obtain ⟨s, h1, h2⟩ := exists_reachable oracle n (fun s => errOf (step s) = some .panic) h
  exact ⟨s, h1, errOf_eq_some h2⟩

/-- The type `u8`. -/
def u8Ty : Ty := .int ⟨.unsigned, 1⟩
/-- The type `i8`. -/
def i8Ty : Ty := .int ⟨.signed, 1⟩
/-- A reference to something of the given layout. -/
def refTy (size : Nat) (align : Align) : PtrType := .ref .mut ⟨.sized size align, true, .sized [], true, true⟩

/-- Adds 255 to a global that holds 1, atomically. -/
def fetchProg : Program := { mainProg [(1, u8Ty)] [
  (0, ⟨[.storageLive 1], .intrinsic (.atomicFetchAndOp .add) [global 0, .constant (.int 255) u8Ty] (.local 1) (some 1), .regular⟩),
  (1, ⟨[], .intrinsic .exit [] (.local 0) none, .regular⟩)] with
  globals := [(0, ⟨List.replicate 8 (some 1), [], ⟨3⟩⟩)] }

/-- A function without arguments, with the given locals and blocks. -/
def mainFn (locals : List (LocalName × Ty)) (blocks : List (BbName × BasicBlock)) (start : BbName) : Function where
  locals := (0, unitTy) :: locals
  args := []
  ret := 0
  callingConvention := .c
  blocks := blocks
  start := start

/-- A function whose first block does not exist. -/
def noStartProg : Program where
  functions := [(0, mainFn [] [(0, ⟨[], .intrinsic .exit [] (.local 0) none, .regular⟩)] 5)]
  start := 0
  globals := []
  traits := []
  vtables := []

/-- Stores a null reference. -/
def nullRefProg : Program := mainProg [(1, .ptr (refTy 1 ⟨0⟩))] [
  (0, ⟨[.storageLive 1, .assign (.local 1) (.constant (.pointerWithoutProvenance 0) (.ptr (refTy 1 ⟨0⟩)))],
    .intrinsic .exit [] (.local 0) none, .regular⟩)]

/-- Returns a reference to its own local. -/
def danglingFn : Function where
  locals := [(0, .ptr (refTy 1 ⟨0⟩)), (1, u8Ty)]
  args := []
  ret := 0
  callingConvention := .c
  blocks := [(0, ⟨[.storageLive 1, .assign (.local 0) (.addrOf (.local 1) (refTy 1 ⟨0⟩))], .return, .regular⟩)]
  start := 0

/-- Calls `danglingFn`. -/
def danglingProg : Program where
  functions := [(0, mainFn [(1, .ptr (refTy 1 ⟨0⟩))] [
      (0, ⟨[.storageLive 1], .call (fnPtr 1) .c [] (.local 1) (some 1) none, .regular⟩),
      (1, ⟨[], .intrinsic .exit [] (.local 0) none, .regular⟩)] 0), (1, danglingFn)]
  start := 0
  globals := []
  traits := []
  vtables := []

/-- Creates locks in an endless loop, numbering them in an `i8`. -/
def lockLoopProg : Program := mainProg [(1, i8Ty)] [
  (0, ⟨[.storageLive 1], .goto 1, .regular⟩),
  (1, ⟨[], .intrinsic (.lock .create) [] (.local 1) (some 1), .regular⟩)]

/-- Looks up a method that the vtable says is a function that does not exist. -/
def methodProg : Program where
  functions := [(0, mainFn [(1, .ptr .fnPtr)] [
    (0, ⟨[.storageLive 1, .assign (.local 1) (.unOp (.vtableMethodLookup 0) (.constant (.vtablePointer 0) (.ptr (.vtablePtr 0))))],
      .intrinsic .exit [] (.local 0) none, .regular⟩)] 0)]
  start := 0
  globals := []
  traits := [(0, [0])]
  vtables := [(0, ⟨0, 0, ⟨0⟩, [], [(0, 77)]⟩)]

/-- Turns the integer -1 into a pointer. -/
def exposedProg : Program := mainProg [(1, rawTy)] [
  (0, ⟨[.storageLive 1], .intrinsic .pointerWithExposedProvenance [.constant (.int (-1)) (.int ⟨.signed, 8⟩)] (.local 1) (some 1), .regular⟩),
  (1, ⟨[], .intrinsic .exit [] (.local 0) none, .regular⟩)]

/-- Allocates heap memory and calls it a reference to 2 bytes. -/
def allocRefProg : Program := mainProg [(1, .ptr (refTy 2 ⟨0⟩))] [
  (0, ⟨[.storageLive 1], .intrinsic .allocate [usz 1, usz 1] (.local 1) (some 1), .regular⟩),
  (1, ⟨[], .intrinsic .exit [] (.local 0) none, .regular⟩)]

/-- Moves a reference by one byte, out of what it may point to. -/
def offsetRefProg : Program := mainProg [(1, .ptr (refTy 8 ⟨3⟩))] [
  (0, ⟨[.storageLive 1, .assign (.local 1) (.binOp (.ptrOffset true) (.addrOf (.deref (global 0) (.int ⟨.unsigned, 8⟩)) (refTy 8 ⟨3⟩)) (usz 1))],
    .intrinsic .exit [] (.local 0) none, .regular⟩)]

/-- Declares a local whose type is an array of arrays of a negative length. -/
def badTypeProg : Program := mainProg [(1, .array (.array u8Ty (-1)) 1)] [
  (0, ⟨[], .intrinsic .exit [] (.local 0) none, .regular⟩)]

end Ex

open Ex

/-- C37 fails: an atomic addition that overflows. -/
theorem C37_fetch_and_op_panics : CanPanic fetchProg :=
  canPanic [.int 16, .int 32, .int 48, .int 0, .int 64, .int 0] 1 (by decide +kernel)
/-- C37 fails: a function whose first block does not exist. -/
theorem C37_missing_start_panics : CanPanic noStartProg := canPanic [.int 32, .int 48, .int 0] 0 (by decide +kernel)
/-- C37 fails: a constant that is not valid at its type. -/
theorem C37_constant_panics : CanPanic nullRefProg :=
  canPanic [.int 16, .int 32, .int 48, .int 0, .int 64, .int 0] 1 (by decide +kernel)
/-- C37 fails: returning a reference to a local. -/
theorem C37_dangling_return_panics : CanPanic danglingProg :=
  canPanic [.int 32, .int 33, .int 48, .int 0, .int 64, .int 0, .int 80, .int 0, .int 96, .int 0, .int 0] 4 (by decide +kernel)
/-- C37 fails: more locks than the type of their ids has values. -/
theorem C37_lock_ids_panic : CanPanic lockLoopProg :=
  canPanic ([.int 16, .int 32, .int 48, .int 0, .int 64] ++ List.replicate 131 (.int 0)) 130 (by decide +kernel)
/-- C37 fails: a vtable with a method that does not exist. -/
theorem C37_method_panics : CanPanic methodProg :=
  canPanic [.int 32, .int 33, .int 48, .int 0, .int 64, .int 0] 1 (by decide +kernel)
/-- C37 fails: a pointer made from an integer that is not an address. -/
theorem C37_exposed_panics : CanPanic exposedProg :=
  canPanic [.int 16, .int 32, .int 48, .int 0, .int 64, .int 0, .prov none] 1 (by decide +kernel)
/-- C37 fails: heap memory allocated as a reference that is not valid. -/
theorem C37_allocate_panics : CanPanic allocRefProg :=
  canPanic [.int 16, .int 32, .int 48, .int 0, .int 64, .int 0, .int 80] 1 (by decide +kernel)
/-- C37 fails: pointer arithmetic on references. -/
theorem C37_offset_panics : CanPanic offsetRefProg :=
  canPanic [.int 16, .int 32, .int 48, .int 0, .int 64, .int 0] 1 (by decide +kernel)
/-- C37 fails: the check of well-formedness itself panics. -/
theorem C37_check_panics : letI := x86_64; badTypeProg.checkWf = .error .panic :=
  letI := x86_64; errOf_eq_some (by decide +kernel)

end MiniRust
