import Verif.Types
/-
Specification vocabulary for C14 (layouts): which metadata fits a pointer kind, and what a sane
collection of vtables is.
-/
namespace MiniRust

/-- Metadata that a pointer with metadata kind `kind` can carry: nothing, a non-negative element
count, or a pointer to some vtable. -/
def MetaFor {P : Type} (vtables : ThinPtr P → Res VTable) : MetaKind → Option (PtrMeta P) → Prop
  | .none, m => m = Option.none
  | .elementCount, m => ∃ n : Int, 0 ≤ n ∧ m = some (.elementCount n)
  | .vtablePointer _, m => ∃ p vt, m = some (.vtablePointer p) ∧ vtables p = .ok vt

/-- All vtables record a size that is a multiple of the alignment. -/
def VTablesAligned {P : Type} (vtables : ThinPtr P → Res VTable) : Prop :=
  ∀ p vt, vtables p = .ok vt → vt.align.bytes ∣ vt.size

end MiniRust
