import Verif.Machine
/-
Vocabulary to state what the intrinsics for printing and raw comparison do.
-/
namespace MiniRust
variable {P : Type}

/-- How a value is printed: integers and booleans as they are. Other values cannot be printed. -/
inductive Shows : Value P × Ty → Printed → Prop
  | int (i : Int) (ty : Ty) : Shows (.int i, ty) (.int i)
  | bool (b : Bool) (ty : Ty) : Shows (.bool b, ty) (.bool b)

/-- The bytes are all initialized, and `data` is what they contain apart from provenance. -/
def RawData (bytes : List (AByte P)) (data : List UInt8) : Prop :=
  List.Forall₂ (fun b d => ∃ frag, b = .init d frag) bytes data

end MiniRust
