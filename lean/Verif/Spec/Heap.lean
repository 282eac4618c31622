import Verif.Spec.Memory
import Verif.Types
/-
Vocabulary to state what the heap intrinsics do.
-/
namespace MiniRust

/-- A pointer type without metadata. -/
def Ty.IsThinPtr (ty : Ty) : Prop := ∃ p, ty = .ptr p ∧ p.metaKind = .none

/-- After history `h`, an allocation of this size and alignment may be placed at `addr`: the address is positive and aligned,
the end is in the address space, and nothing live is in the way. -/
structure FreeSpace {PE : Type} [T : Target] (h : MemHistory PE) (addr : Int) (size : Nat) (align : Align) : Prop where
  pos : 0 < addr
  aligned : Aligned align addr
  inSpace : addr + size < 2 ^ (8 * T.ptrSize)
  apart : ∀ id i, LiveIn h id i → i.addr ≠ addr ∧ (i.addr + i.size ≤ addr ∨ addr + size ≤ i.addr)

end MiniRust
