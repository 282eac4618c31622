import Verif.Types
/-
Specification vocabulary for C15 (ABI compatibility).
-/
namespace MiniRust

/-- Every enum inside the type lists each discriminant once. In the code the variants are a `Map`,
so this holds of every `Type` by construction; the model keeps them in a list. -/
inductive Ty.UniqueKeys : Ty → Prop
  | int (i) : Ty.UniqueKeys (.int i)
  | bool : Ty.UniqueKeys .bool
  | ptr (p) : Ty.UniqueKeys (.ptr p)
  | tuple (fs h tail) : (∀ f ∈ fs, Ty.UniqueKeys f.2) → (∀ t, tail = some t → Ty.UniqueKeys t) →
      Ty.UniqueKeys (.tuple fs h tail)
  | array (e n) : Ty.UniqueKeys e → Ty.UniqueKeys (.array e n)
  | slice (e) : Ty.UniqueKeys e → Ty.UniqueKeys (.slice e)
  | union (fs cs s a) : (∀ f ∈ fs, Ty.UniqueKeys f.2) → Ty.UniqueKeys (.union fs cs s a)
  | enum (vs dt d s a) : (vs.map (·.1)).Nodup → (∀ v ∈ vs, Ty.UniqueKeys v.2.1) →
      Ty.UniqueKeys (.enum vs dt d s a)
  | traitObject (t) : Ty.UniqueKeys (.traitObject t)

end MiniRust
