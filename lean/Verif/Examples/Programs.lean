import Verif.Examples.Run
/-
Concrete programs, used to show that the hypotheses of theorems about executions are met and as
witnesses. They run with the basic memory model on a 64-bit target.
-/
namespace MiniRust

/-- A machine with the basic memory model. -/
abbrev BMach := Machine (BasicMem Unit Unit) (Nat × Unit) Unit

namespace Ex
attribute [local instance] x86_64

/-- The type `u32`. -/
def u32 : Ty := .int ⟨.unsigned, 4⟩
/-- A thin raw pointer. -/
def rawTy : Ty := .ptr (.raw .none)
/-- A pointer to a global. -/
def global (offset : Nat) : ValueExpr := .constant (.globalPointer ⟨0, offset⟩) rawTy
/-- A pointer to a function. -/
def fnPtr (f : FnName) : ValueExpr := .constant (.fnPointer f) (.ptr .fnPtr)

/-- A thread that writes 7 to where its argument points. -/
def writer : Function where
  locals := [(0, unitTy), (1, rawTy)]
  args := [1]
  ret := 0
  callingConvention := .c
  blocks := [(0, ⟨[.assign (.deref (.load (.local 1)) u32) (.constant (.int 7) u32)], .return, .regular⟩)]
  start := 0

/-- Spawns two threads, joins the second and exits. -/
def spawnTwo : Function where
  locals := [(0, unitTy), (1, u32)]
  args := []
  ret := 0
  callingConvention := .c
  blocks := [
    (0, ⟨[.storageLive 1], .intrinsic .spawn [fnPtr 1, global 0] (.local 1) (some 1), .regular⟩),
    (1, ⟨[], .intrinsic .spawn [fnPtr 1, global 0] (.local 1) (some 2), .regular⟩),
    (2, ⟨[], .intrinsic .join [.load (.local 1)] (.local 0) (some 3), .regular⟩),
    (3, ⟨[], .intrinsic .exit [] (.local 0) none, .regular⟩)]
  start := 0

/-- Two threads write the same global without any synchronisation. -/
def raceProg : Program where
  functions := [(0, spawnTwo), (1, writer)]
  start := 0
  globals := [(0, ⟨List.replicate 4 (some 0), [], ⟨2⟩⟩)]
  traits := []
  vtables := []

/-- A run of `raceProg`: both threads are spawned, the main thread blocks, then each thread writes. -/
def raceRun : List (Choice (Nat × Unit)) :=
  [.int 16, .int 32, .int 48, .int 64, .int 0, .int 80, .int 0, .int 96, .int 112, .int 0, .int 128, .int 144,
   .int 0, .int 1, .int 2, .int 2, .int 0]

/-- Spawns a thread writing a global, and itself makes an access of the given type at an offset of it. -/
def spawnAndWrite (offset : Nat) (ty : Ty) (v : ValueExpr) : Function where
  locals := [(0, unitTy), (1, u32)]
  args := []
  ret := 0
  callingConvention := .c
  blocks := [
    (0, ⟨[.storageLive 1], .intrinsic .spawn [fnPtr 1, global 0] (.local 1) (some 1), .regular⟩),
    (1, ⟨[.assign (.deref (global offset) ty) v], .intrinsic .join [.load (.local 1)] (.local 0) (some 2), .regular⟩),
    (2, ⟨[], .intrinsic .exit [] (.local 0) none, .regular⟩)]
  start := 0

/-- The main thread and a spawned one write the same global. -/
def mainRaceProg : Program where
  functions := [(0, spawnAndWrite 0 u32 (.constant (.int 3) u32)), (1, writer)]
  start := 0
  globals := [(0, ⟨List.replicate 4 (some 0), [], ⟨2⟩⟩)]
  traits := []
  vtables := []

/-- The main thread makes a zero-sized access inside what the other thread writes. -/
def emptyRaceProg : Program where
  functions := [(0, spawnAndWrite 2 unitTy (.tuple [] unitTy)), (1, writer)]
  start := 0
  globals := [(0, ⟨List.replicate 4 (some 0), [], ⟨2⟩⟩)]
  traits := []
  vtables := []

/-- A run of the two programs above: the spawned thread writes, then the main thread. -/
def mainRaceRun : List (Choice (Nat × Unit)) :=
  [.int 16, .int 32, .int 48, .int 64, .int 0, .int 80, .int 0, .int 96, .int 112, .int 1, .int 0, .int 0]

/-- A thread that acquires and releases the lock whose id its argument points to. -/
def locker : Function where
  locals := [(0, unitTy), (1, rawTy)]
  args := [1]
  ret := 0
  callingConvention := .c
  blocks := [
    (0, ⟨[], .intrinsic (.lock .acquire) [.load (.deref (.load (.local 1)) u32)] (.local 0) (some 1), .regular⟩),
    (1, ⟨[], .intrinsic (.lock .release) [.load (.deref (.load (.local 1)) u32)] (.local 0) (some 2), .regular⟩),
    (2, ⟨[], .return, .regular⟩)]
  start := 0

/-- Creates and acquires a lock, spawns two threads contending for it, releases it, joins one. -/
def lockMain : Function where
  locals := [(0, unitTy), (1, u32)]
  args := []
  ret := 0
  callingConvention := .c
  blocks := [
    (0, ⟨[.storageLive 1], .intrinsic (.lock .create) [] (.deref (global 0) u32) (some 1), .regular⟩),
    (1, ⟨[], .intrinsic (.lock .acquire) [.load (.deref (global 0) u32)] (.local 0) (some 2), .regular⟩),
    (2, ⟨[], .intrinsic .spawn [fnPtr 1, global 0] (.local 1) (some 3), .regular⟩),
    (3, ⟨[], .intrinsic .spawn [fnPtr 1, global 0] (.local 1) (some 4), .regular⟩),
    (4, ⟨[], .intrinsic (.lock .release) [.load (.deref (global 0) u32)] (.local 0) (some 5), .regular⟩),
    (5, ⟨[], .intrinsic .join [.load (.local 1)] (.local 0) (some 6), .regular⟩),
    (6, ⟨[], .intrinsic .exit [] (.local 0) none, .regular⟩)]
  start := 0

/-- Three threads contend for a lock. -/
def lockProg : Program where
  functions := [(0, lockMain), (1, locker)]
  start := 0
  globals := [(0, ⟨List.replicate 4 (some 0), [], ⟨2⟩⟩)]
  traits := []
  vtables := []

/-- A run of `lockProg`: the main thread acquires the lock and spawns threads 1 and 2 (steps 1 to 5), both
block (6, 7), the main thread hands the lock to thread 2 (8) and blocks on joining thread 2 (9), which
hands it to thread 1 (10) and terminates (11); the main thread exits (12). -/
def lockRun : List (Choice (Nat × Unit)) :=
  [.int 16, .int 32, .int 48, .int 64, .int 0, .int 80, .int 0, .int 0, .int 0, .int 96, .int 112,
   .int 0, .int 128, .int 144, .int 1, .int 2, .int 0, .int 2, .int 0, .int 2, .int 1, .int 2, .int 0]

/-- The type `usize`. -/
def usize : Ty := .int ⟨.unsigned, 8⟩
/-- An integer literal of type `usize`. -/
def usz (n : Int) : ValueExpr := .constant (.int n) usize

/-- A program with a single function without arguments, with the given locals and blocks. -/
def mainProg (locals : List (LocalName × Ty)) (blocks : List (BbName × BasicBlock)) : Program where
  functions := [(0, { locals := (0, unitTy) :: locals, args := [], ret := 0, callingConvention := .c, blocks, start := 0 })]
  start := 0
  globals := [(0, ⟨List.replicate 8 (some 0), [], ⟨3⟩⟩)]
  traits := []
  vtables := []

/-- Allocates 8 bytes on the heap and exits. -/
def leakProg : Program := mainProg [(1, rawTy)] [
  (0, ⟨[.storageLive 1], .intrinsic .allocate [usz 8, usz 8] (.local 1) (some 1), .regular⟩),
  (1, ⟨[], .intrinsic .exit [] (.local 0) none, .regular⟩)]

/-- Allocates 8 bytes on the heap, frees them and exits. -/
def freeProg : Program := mainProg [(1, rawTy)] [
  (0, ⟨[.storageLive 1], .intrinsic .allocate [usz 8, usz 8] (.local 1) (some 1), .regular⟩),
  (1, ⟨[], .intrinsic .deallocate [.load (.local 1), usz 8, usz 8] (.local 0) (some 2), .regular⟩),
  (2, ⟨[], .intrinsic .exit [] (.local 0) none, .regular⟩)]

/-- Allocates 8 bytes on the heap and aborts. -/
def abortProg : Program := mainProg [(1, rawTy)] [
  (0, ⟨[.storageLive 1], .intrinsic .allocate [usz 8, usz 8] (.local 1) (some 1), .regular⟩),
  (1, ⟨[], .intrinsic .abort [] (.local 0) none, .regular⟩)]

/-- Prints to both streams. -/
def printProg : Program := mainProg [] [
  (0, ⟨[], .intrinsic .printStdout [usz 1] (.local 0) (some 1), .regular⟩),
  (1, ⟨[], .intrinsic .printStderr [usz 2] (.local 0) (some 2), .regular⟩),
  (2, ⟨[], .intrinsic .printStdout [usz 3] (.local 0) (some 3), .regular⟩),
  (3, ⟨[], .intrinsic .exit [] (.local 0) none, .regular⟩)]

/-- Choices for the programs above. -/
def leakRun : List (Choice (Nat × Unit)) :=
  [.int 16, .int 32, .int 48, .int 0, .int 64, .int 0, .int 80, .int 0, .int 0, .int 0]
/-- Choices for `printProg`. -/
def printRun : List (Choice (Nat × Unit)) := [.int 16, .int 32, .int 48, .int 0, .int 0, .int 0, .int 0]

/-- A function that returns at once. -/
def nopFn : Function where
  locals := [(0, unitTy)]
  args := []
  ret := 0
  callingConvention := .c
  blocks := [(0, ⟨[], .return, .regular⟩)]
  start := 0

/-- Two globals, the second one with a pointer into the first and uninitialised bytes, two functions and
two vtables. -/
def staticsProg : Program := { mainProg [] [(0, ⟨[], .intrinsic .exit [] (.local 0) none, .regular⟩)] with
  globals := [(0, ⟨List.replicate 8 (some 0), [], ⟨3⟩⟩),
    (1, ⟨List.replicate 8 none ++ List.replicate 8 (some 7), [(8, ⟨0, 4⟩)], ⟨3⟩⟩)]
  functions := (mainProg [] [(0, ⟨[], .intrinsic .exit [] (.local 0) none, .regular⟩)]).functions ++ [(1, nopFn)]
  traits := [(0, [0])]
  vtables := [(0, ⟨0, 8, ⟨3⟩, [], [(0, 1)]⟩), (1, ⟨0, 0, ⟨0⟩, [], [(0, 1)]⟩)] }
/-- Choices for `staticsProg`. -/
def staticsRun : List (Choice (Nat × Unit)) :=
  [.int 16, .int 32, .int 56, .int 57, .int 58, .int 59, .int 64, .int 0]
end Ex
end MiniRust
