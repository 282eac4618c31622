import Verif.Spec.Pointers
/-
Vocabulary for C44: pointer arithmetic.
-/
namespace MiniRust
variable {PE F : Type}

/-- The pointer and the address at the given distance from it both lie in one live allocation, the one this pointer
has the provenance of, where the end of the allocation counts as part of it. -/
def Spans (h : MemHistory PE) (p : ThinPtr (AllocId × PE)) (d : Int) : Prop :=
  ∃ id i, p.HasId id ∧ LiveIn h id i ∧ (i.addr ≤ p.addr ∧ p.addr ≤ i.addr + i.size) ∧
    (i.addr ≤ p.addr + d ∧ p.addr + d ≤ i.addr + i.size)

/-- The type of pointer distances. -/
abbrev isize [T : Target] : IntType := ⟨.signed, T.ptrSize⟩

/-- The value that stands for this metadata in programs. -/
def MetaValue {P : Type} : Option (PtrMeta P) → Value P
  | none => .tuple []
  | some (.elementCount n) => .int n
  | some (.vtablePointer p) => .ptr ⟨p, none⟩

/-- The metadata has the shape that belongs to this kind. -/
def MetaShape {P : Type} : MetaKind → Option (PtrMeta P) → Prop
  | .none, none => True
  | .elementCount, some (.elementCount _) => True
  | .vtablePointer _, some (.vtablePointer _) => True
  | _, _ => False

end MiniRust
