import Verif.Step
import Verif.Spec.Memory
import Verif.Spec.Representation
/-
Vocabulary for property C57: which allocations the program can get at. A root is a pointer the machine
keeps outside memory; from there one follows the provenance stored in live allocations, as a garbage
collector would.
-/
set_option linter.unusedSectionVars false
namespace MiniRust
section
variable {M PE AE F : Type} [T : Target] [Memory M (AllocId × PE) F] [B : BasicBacked M PE AE F]

/-- The machine holds a pointer with this provenance outside memory: in a local of some frame, as the
place a frame returns to, as an unwind payload, as the address of a global, function or vtable, or in
the set of exposed provenances. -/
inductive Root (s : Machine M (AllocId × PE) F) (p : AllocId × PE) : Prop
  | local (t fr l ptr) : t ∈ s.threads → fr ∈ t.stack → (l, ptr) ∈ fr.locals → ptr.prov = some p → Root s p
  | ret (t fr n u ptr) : t ∈ s.threads → fr ∈ t.stack → fr.stackPopAction = .backToCaller n u ptr →
      ptr.prov = some p → Root s p
  | payload (t ptr) : t ∈ s.threads → ptr ∈ t.unwindPayloads → ptr.prov = some p → Root s p
  | exposed : p ∈ s.intptrcast.exposed → Root s p
  | global (x ptr) : (x, ptr) ∈ s.globalPtrs → ptr.prov = some p → Root s p
  | fn (x ptr) : (x, ptr) ∈ s.fnPtrs → ptr.prov = some p → Root s p
  | vtable (x ptr) : (x, ptr) ∈ s.vtablePtrs → ptr.prov = some p → Root s p

/-- The allocations of the machine. -/
def Machine.allocs (s : Machine M (AllocId × PE) F) : List (Alloc PE AE) :=
  (BasicBacked.mem (F := F) s.mem.memory).allocations

/-- Some byte of the live allocation `id` carries this provenance. -/
def Stored (s : Machine M (AllocId × PE) F) (id : AllocId) (p : AllocId × PE) : Prop :=
  ∃ a, s.allocs[id]? = some a ∧ a.live = true ∧ ProvInBytes p a.data

/-- The program can get a pointer with provenance of allocation `id`. -/
inductive CanReach (s : Machine M (AllocId × PE) F) : AllocId → Prop
  | root (p) : Root s p → CanReach s p.1
  | stored (id p) : CanReach s id → Stored s id p → CanReach s p.1

end
end MiniRust
