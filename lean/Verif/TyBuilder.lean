import Verif.TypeConv
import Verif.Enums
/-
The functions of miniutil that build unions and enums (`/repo/tooling/miniutil/src/build/ty.rs`). Functions that only apply a constructor
(`int_ty`, `slice_ty`, `discriminator_known`, ..) are that constructor; `tuple_ty` is `tupleTy`.
-/
namespace MiniRust

/-- `collect` of pairs into a map, as used in `/repo/tooling/miniutil/src/build/ty.rs:103, 116, 143-147`: a pair replaces an earlier one with the
same key. -/
def collectMap {κ V : Type} [DecidableEq κ] (l : List (κ × V)) : Map κ V := l.foldl (fun m x => m.insert x.1 x.2) []

/-- `union_ty`, `/repo/tooling/miniutil/src/build/ty.rs:85-88`. -/
def mkUnionTy (fields : List (Nat × Ty)) (size : Nat) (align : Align) : Ty := .union fields [(0, size)] size align

/-- `enum_variant`, `/repo/tooling/miniutil/src/build/ty.rs:102-104`. -/
def mkEnumVariant (ty : Ty) (tagger : List (Nat × (IntType × Int))) : Ty × Tagger := (ty, collectMap tagger)

section
variable [T : Target]

/-- `enum_ty`, `/repo/tooling/miniutil/src/build/ty.rs:106-122`. -/
def mkEnumTy (discriminantTy : ConvTy) (variants : List (Int × (Ty × Tagger))) (discriminator : Discriminator) (size : Nat) (align : Align) :
    Res Ty := do
  match ← discriminantTy.getType with
  | .int dt => .ok (.enum (collectMap variants) dt discriminator size align)
  | _ => panic

/-- `discriminator_branch`, `/repo/tooling/miniutil/src/build/ty.rs:132-149`. -/
def mkDiscriminatorBranch (t : ConvTy) (offset : Nat) (fallback : Discriminator) (children : List ((Int × Int) × Discriminator)) :
    Res Discriminator := do
  match ← t.getType with
  | .int vt => .ok (.branch offset vt fallback (collectMap children))
  | _ => panic

end
end MiniRust
