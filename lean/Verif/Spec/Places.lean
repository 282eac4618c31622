import Verif.Spec.PtrOps
/-
Vocabulary for C45: the parts of a place.
-/
namespace MiniRust

/-- Field number `k` of a type is at the given offset and has the given type, for a place with metadata `md`. The field
inherits the metadata of the place if it is the unsized tail; all other fields have none. -/
inductive FieldAt [Target] {P : Type} (vt : ThinPtr P → VTable → Prop) (md : Option (PtrMeta P)) :
    Ty → Nat → Nat → Ty → Option (PtrMeta P) → Prop
  | tuple {fields head tail k off ty} : fields[k]? = some (off, ty) → FieldAt vt md (.tuple fields head tail) k off ty none
  | tail {fields head ty l size align} : ty.layout = .ok l → PointeeLayout vt l md size align →
      FieldAt vt md (.tuple fields head (some ty)) fields.length (head.tailOffset align) ty md
  | union {fields chunks size align k off ty} : fields[k]? = some (off, ty) →
      FieldAt vt md (.union fields chunks size align) k off ty none

/-- The number and type of the elements of an array or a slice, for a place with metadata `md`. -/
inductive Elements {P : Type} (md : Option (PtrMeta P)) : Ty → Int → Ty → Prop
  | array {ty n} : Elements md (.array ty n) n ty
  | slice {ty} {n : Int} : md = some (.elementCount n) → Elements md (.slice ty) n ty

/-- The pointer at the given distance, with the same provenance. -/
def ThinPtr.shift {P : Type} (p : ThinPtr P) (d : Int) : ThinPtr P := ⟨p.addr + d, p.prov⟩

end MiniRust
