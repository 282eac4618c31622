import Verif.Spec.Representation
import Verif.Spec.Memory
/-
Specification vocabulary for C09: definedness of whole memories.
-/
namespace MiniRust

/-- `m` has the same allocations as `m'`, with the same bytes or less defined ones. -/
def MemBytesLe {PE AE : Type} (m m' : BasicMem PE AE) : Prop :=
  m.allocations.length = m'.allocations.length ∧
  ∀ (i : Nat) (a b : Alloc PE AE), m.allocations[i]? = some a → m'.allocations[i]? = some b →
    BytesLe a.data b.data ∧ a.addr = b.addr ∧ a.align = b.align ∧ a.kind = b.kind ∧ a.live = b.live

end MiniRust
