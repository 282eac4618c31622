import Verif.Lemmas.Abi
import Verif.Lemmas.Layout
import Verif.Props.Representation
/-
C15: ABI compatibility (`check_abi_compatibility`, modelled by `abiCompat`) is an equivalence relation
on well-formed sized types, it always has an answer there, and compatible types have the same layout.
`Ty.UniqueKeys` (in `Spec/Abi.lean`) is the invariant of the code's `Map` type.
-/
namespace MiniRust
section
variable [T : Target]

/-- For well-formed sized types the check never panics, and the order of the two types does not
matter. -/
theorem C15_total_symmetric (prog : Program) (a b : Ty) (ha : a.checkWf prog = .ok ())
    (hb : b.checkWf prog = .ok ()) (hsa : a.metaKind = .none) (hsb : b.metaKind = .none)
    (hua : a.UniqueKeys) (hub : b.UniqueKeys) :
    ∃ answer, abiCompat a b = .ok answer ∧ abiCompat b a = .ok answer := by
  have good : ∀ t : Ty, t.checkWf prog = .ok () → t.metaKind = .none → t.Good := by
    intro t h hk
    obtain ⟨l, h1, h2, h3⟩ := C14_sized_aux h
    exact Ty.good_of_checkWf prog t h (by
      obtain ⟨s, al, rfl⟩ := LayoutStrategy.isSized_iff.1 (h3 hk)
      exact ⟨s, al, h1⟩)
  obtain ⟨r, hr⟩ := abiCompat_total (good a ha hsa) (good b hb hsb)
  obtain ⟨r', hr'⟩ := abiCompat_total (good b hb hsb) (good a ha hsa)
  refine ⟨r, hr, ?_⟩
  cases r
  · cases r'
    · exact hr'
    · rw [abiCompat_symm hub hua hr'] at hr; cases hr
  · exact abiCompat_symm hua hub hr

/-- Every well-formed sized type is compatible with itself. -/
theorem C15_reflexive (prog : Program) (a : Ty) (ha : a.checkWf prog = .ok ())
    (hsa : a.metaKind = .none) (hua : a.UniqueKeys) : abiCompat a a = .ok true := by
  obtain ⟨l, h1, _, h3⟩ := C14_sized_aux ha
  obtain ⟨s, al, rfl⟩ := LayoutStrategy.isSized_iff.1 (h3 hsa)
  exact abiCompat_refl_of_good (Ty.good_of_checkWf prog a ha ⟨s, al, h1⟩) hua

/-- Compatibility is transitive. -/
theorem C15_transitive (a b c : Ty) (hab : abiCompat a b = .ok true)
    (hbc : abiCompat b c = .ok true) : abiCompat a c = .ok true :=
  abiCompat_trans hab hbc

/-- Compatible types have the same size and alignment. -/
theorem C15_same_layout (a b : Ty) (h : abiCompat a b = .ok true) : a.layout = b.layout :=
  abiCompat_layout h

end

/-! ### Concrete cases -/
section
attribute [local instance] x86_64

/-- An enum listing its variants in one order ... -/
def Ex.enumA : Ty :=
  .enum [(0, (.tuple [] ⟨1, ⟨0⟩, none⟩ none, [(0, (⟨.unsigned, 1⟩, 0))])),
         (1, (.tuple [] ⟨1, ⟨0⟩, none⟩ none, [(0, (⟨.unsigned, 1⟩, 1))]))]
    ⟨.unsigned, 1⟩ (.branch 0 ⟨.unsigned, 1⟩ .invalid [((0, 1), .known 0), ((1, 2), .known 1)]) 1 ⟨0⟩
/-- ... and in another: they are the same `Type` in the code. -/
def Ex.enumB : Ty :=
  .enum [(1, (.tuple [] ⟨1, ⟨0⟩, none⟩ none, [(0, (⟨.unsigned, 1⟩, 1))])),
         (0, (.tuple [] ⟨1, ⟨0⟩, none⟩ none, [(0, (⟨.unsigned, 1⟩, 0))]))]
    ⟨.unsigned, 1⟩ (.branch 0 ⟨.unsigned, 1⟩ .invalid [((0, 1), .known 0), ((1, 2), .known 1)]) 1 ⟨0⟩

example : Ex.enumA.checkWf Ex.prog = .ok () ∧ Ex.enumA.metaKind = .none := by decide +kernel
example : Ex.enumB.checkWf Ex.prog = .ok () ∧ Ex.enumB.metaKind = .none := by decide +kernel
example : Ex.enumA.UniqueKeys := by
  refine .enum _ _ _ _ _ (by decide) fun v hv => ?_
  simp only [List.mem_cons, List.not_mem_nil, or_false] at hv
  rcases hv with rfl | rfl <;> exact .tuple _ _ _ (fun f hf => nomatch hf) (fun _ h => nomatch h)
example : abiCompat Ex.enumA Ex.enumB = .ok true := by decide +kernel
/-- A shared reference and a raw pointer are compatible; a pair of different signedness is not. -/
example : abiCompat (.tuple [(0, .ptr (.raw .none))] ⟨8, ⟨3⟩, none⟩ none)
    (.tuple [(0, .ptr .fnPtr)] ⟨8, ⟨3⟩, none⟩ none) = .ok true := by decide +kernel
example : abiCompat (.array (.int ⟨.unsigned, 2⟩) 3) (.array (.int ⟨.signed, 2⟩) 3) = .ok false := by
  decide +kernel
end
end MiniRust
