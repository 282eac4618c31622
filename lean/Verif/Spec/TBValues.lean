import Verif.Spec.TreeBorrows
/-
Vocabulary for the properties about the values behind references: executions with their events, and the bytes in memory.
-/
namespace MiniRust
section
variable [T : Target]

/-- Zero or more steps, with what happened in them. -/
inductive TBTrace : TBState → List TBEvent → TBState → Prop
  | nil {s} : TBTrace s [] s
  | snoc {s s' s'' es e} : TBTrace s es s' → TBStep s' e s'' → TBTrace s (es ++ [e]) s''

end

/-- The event is a store through the reference `(id, q)` or one derived from it. -/
def TBEvent.StoresVia (e : TBEvent) (id : AllocId) (q : Path) : Prop :=
  ∃ ptr bytes align p, e = .store ptr bytes align ∧ ptr.prov = some (id, p) ∧ AncestorOrSelf q p

/-- The byte of allocation `id` at address `addr`. -/
def TBMem.byteAt (m : TBMem) (id : AllocId) (addr : Int) : Option (AByte TBProv) :=
  (m.mem.allocations[id]?).bind fun a => if a.addr ≤ addr then a.data[(addr - a.addr).toNat]? else none

/-- The allocation exists and was not deallocated. -/
def TBMem.LiveAlloc (m : TBMem) (id : AllocId) : Prop := ∃ a, m.mem.allocations[id]? = some a ∧ a.live = true

/-- The reference may be written by others without being invalidated: the byte is inside an `UnsafeCell`, and nothing was
written through the reference yet. -/
def Permission.Shareable (X : Permission) : Prop := X = .unprot .cell ∨ X = .prot .cell ∨ X = .unprot .reservedIm

/-- The reference is read-only for this byte, or was invalidated. -/
def Permission.ReadOnly (X : Permission) : Prop :=
  X = .unprot .frozen ∨ (∃ used, X = .prot (.frozen used)) ∨ X = .unprot .disabled ∨ X = .prot .disabled

end MiniRust
