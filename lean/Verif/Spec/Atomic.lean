import Verif.Machine
/-
Vocabulary for C52: what memory holds, observed by ordinary loads.
-/
namespace MiniRust
variable {M P F : Type} [Memory M P F] [DecidableEq P] [Target]

/-- An ordinary load of a value of type `ty` through the pointer. -/
def plainLoad (p : ThinPtr P) (ty : Ty) : EM M P F (Value P) := placeLoad ⟨⟨p, none⟩, true⟩ ty

/-- An ordinary load through the pointer cannot give another value than `v`. -/
def Machine.Holds (s : Machine M P F) (p : ThinPtr P) (ty : Ty) (v : Value P) : Prop :=
  ∀ w s1, plainLoad p ty s = .ok (w, s1) → w = v

/-- Ordinary loads outside of the `n` bytes at the address cannot tell the two states apart. -/
def Machine.SameApartFrom (s s' : Machine M P F) (addr : Int) (n : Nat) : Prop :=
  ∀ (q : ThinPtr P) (ty : Ty) (k : Nat) v w s1 s1', ty.size = .ok k → (q.addr + k ≤ addr ∨ addr + n ≤ q.addr) →
    plainLoad q ty s = .ok (v, s1) → plainLoad q ty s' = .ok (w, s1') → w = v

/-- Ordinary loads cannot tell the two states apart. -/
def Machine.SameContents (s s' : Machine M P F) : Prop :=
  ∀ (q : ThinPtr P) (ty : Ty) v w s1 s1', plainLoad q ty s = .ok (v, s1) → plainLoad q ty s' = .ok (w, s1') → w = v

end MiniRust
