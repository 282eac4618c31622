import Verif.Spec.Crate
import Verif.Spec.Mir
/-
Crates whose functions come from MIR.
-/
namespace MiniRust
variable {I A Y D : Type}

/-- The functions of the crate are translated from MIR: `mir i ns` is the MIR body of instance `i`, where what it refers to (the
functions, vtables, traits and allocations that its translation asks for) has the names `ns`. The bodies are valid, and
contain no panics that cannot unwind if panics unwind. -/
structure Crate.FromMir [Target] (K : Crate I A Y D) (unwinds : Bool) (mir : I → List Nat → MirBody) (order : I → List Nat) : Prop where
  valid : ∀ i ns, ns.length = (K.body i).requests.length → (mir i ns).Valid
  ordered : ∀ i ns, ns.length = (K.body i).requests.length → (mir i ns).Order (order i)
  unwind : ∀ i ns, ns.length = (K.body i).requests.length → unwinds = true → ∀ blk ∈ (mir i ns).blocks, ¬ blk.terminator.PanicsNounwind
  build : ∀ i ns, ns.length = (K.body i).requests.length → (K.body i).build ns = (mir i ns).translate unwinds (order i)

end MiniRust
