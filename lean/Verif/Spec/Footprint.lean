import Verif.Step
import Verif.Spec.Memory
import Mathlib.Data.List.Forall2
/-
What a step tells the data race detector, and memories that agree on some addresses.
-/
namespace MiniRust

/-- The access is to this address, among others. -/
def Access.Covers (a : Access) (x : Int) : Prop := a.addr ≤ x ∧ x < a.addr + a.len

/-- The address is read by one of the accesses. -/
def ReadAt (as : List Access) (x : Int) : Prop := ∃ a ∈ as, a.ty = .load ∧ a.Covers x

/-- The address is written by one of the accesses. -/
def WrittenAt (as : List Access) (x : Int) : Prop := ∃ a ∈ as, a.ty = .store ∧ a.Covers x

section
variable {PE AE : Type}

/-- Two versions of an allocation that differ at most in their bytes, and, while the allocation is live,
at most in those bytes whose address is not in `B`. -/
structure AllocAgree (B : Int → Prop) (a b : Alloc PE AE) : Prop where
  addr : b.addr = a.addr
  align : b.align = a.align
  kind : b.kind = a.kind
  live : b.live = a.live
  extra : b.extra = a.extra
  size : b.size = a.size
  bytes : a.live = true → ∀ i : Nat, B (a.addr + i) → b.data[i]? = a.data[i]?

/-- Two memories that differ at most in the bytes of live allocations whose address is not in `B`, and
in the bytes of allocations that are no longer live. -/
def MemAgree (B : Int → Prop) (m n : BasicMem PE AE) : Prop :=
  List.Forall₂ (AllocAgree B) m.allocations n.allocations

end

/-- Two machines that differ at most in the contents of the memory, and agree on the addresses in `B`. -/
structure MachineAgree [T : Target] {M PE AE F : Type} [Memory M (AllocId × PE) F] [K : BasicBacked M PE AE F]
    (B : Int → Prop) (s t : Machine M (AllocId × PE) F) : Prop where
  rest : t = { s with mem := { s.mem with memory := t.mem.memory } }
  mem : MemAgree B (K.mem s.mem.memory) (K.mem t.mem.memory)

/-! ### What a thread does on its own -/

/-- Statements that neither allocate nor deallocate. -/
def Statement.isLocal : Statement → Bool
  | .assign .. | .placeMention .. | .setDiscriminant .. | .validate .. | .deinit .. => true
  | .storageLive .. | .storageDead .. => false

/-- Intrinsics that involve nothing but the memory and the thread that executes them, and neither allocate
nor deallocate. -/
def IntrinsicOp.isLocal : IntrinsicOp → Bool
  | .assume | .rawEq | .atomicStore | .atomicLoad | .atomicCompareExchange | .atomicFetchAndOp _ | .getUnwindPayload => true
  | _ => false

/-- Terminators that involve nothing but the memory and the thread that executes them, and neither allocate
nor deallocate. -/
def Terminator.isLocal : Terminator → Bool
  | .goto .. | .switch .. | .unreachable | .startUnwind .. | .stopUnwind .. => true
  | .intrinsic op .. => op.isLocal
  | _ => false

/-- What thread `i` executes next is such a statement or terminator. -/
def Machine.NextLocal {M P F : Type} (s : Machine M P F) (i : Nat) : Prop :=
  ∃ thread frame rest block, s.threads[i]? = some thread ∧ thread.stack = frame :: rest ∧
    frame.func.blocks.get? frame.nextBlock = some block ∧
    ((frame.nextStmt = block.statements.length ∧ block.terminator.isLocal = true) ∨
      ∃ stmt, block.statements[frame.nextStmt]? = some stmt ∧ stmt.isLocal = true)

/-- The ranges of the accesses do not overlap. -/
def Access.Apart (a b : Access) : Prop := a.addr + a.len ≤ b.addr ∨ b.addr + b.len ≤ a.addr

/-- Nothing that one list of accesses writes is read or written by the other one. -/
def Independent (as bs : List Access) : Prop :=
  ∀ a ∈ as, ∀ b ∈ bs, a.ty = .store ∨ b.ty = .store → a.Apart b

end MiniRust
