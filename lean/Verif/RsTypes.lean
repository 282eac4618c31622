import Verif.Chunks
import Verif.Enums
/-
Model of `/repo/tooling/minimize/src/ty.rs`: translating Rust types to MiniRust types, and finding the parts of a type
that are inside an `UnsafeCell`.

The input is what rustc knows about a type: its kind and its layout. Simplifications: tuples, closures and structs are one
constructor, because they are treated alike; a pointer carries the `PointeeInfo` of its pointee, because the functions
never look further through a pointer (this is also how a recursive Rust type is a finite tree here); the cache
of translated types is left out, since the translation is a function of the type; types that are not supported
(`span_bug!`) are panics.
-/
namespace MiniRust

/-- A Rust type, with the layout that rustc computes for it. `/repo/tooling/minimize/src/ty.rs:99-155, 180-262`. -/
inductive RsTy
  | bool
  /-- `TyKind::Int`, `TyKind::Uint` -/
  | int (signed : Signedness) (size : Nat)
  | char
  /-- `TyKind::Pat` -/
  | pat (inner : RsTy)
  | ref (mutbl : Mutability) (pointee : PointeeInfo)
  | box (pointee : PointeeInfo)
  | raw (pointee : PointeeInfo)
  | fnPtr
  | fnDef
  | never
  /-- Tuples, closures and structs; `cell` says that it is `UnsafeCell`. -/
  | struct (cell : Bool) (size : Nat) (align : Align) (fields : List (Nat × RsTy))
  | union (size : Nat) (align : Align) (fields : List (Nat × RsTy))
  /-- Variants are given by the bits of their discriminant and their fields. -/
  | enum (size : Nat) (align : Align) (discriminantTy : IntType) (variants : List (Nat × List (Nat × RsTy)))
      (layout : RsVariants)
  | array (elem : RsTy) (count : Nat)
  | slice (elem : RsTy)
  | str
  | dyn (t : TraitName)

/-- `rs_layout_of(ty)`, the size and alignment; `none` for unsized types. ADTs have the layout that is given for them.
`DefaultTarget` is taken to describe the target of rustc. -/
def RsTy.sizeAlign [T : Target] : RsTy → Option (Nat × Align)
  | .bool => some (1, Align.one)
  | .int _ size => some (size, Align.min ⟨Nat.log2 size⟩ T.intMaxAlign)
  | .char => some (4, Align.min ⟨Nat.log2 4⟩ T.intMaxAlign)
  | .pat inner => inner.sizeAlign
  | .ref _ p => some (if p.layout.metaKind = .none then T.ptrSize else 2 * T.ptrSize, T.ptrAlign)
  | .box p => some (if p.layout.metaKind = .none then T.ptrSize else 2 * T.ptrSize, T.ptrAlign)
  | .raw p => some (if p.layout.metaKind = .none then T.ptrSize else 2 * T.ptrSize, T.ptrAlign)
  | .fnPtr => some (T.ptrSize, T.ptrAlign)
  | .fnDef => some (0, Align.one)
  | .never => some (0, Align.one)
  | .struct _ size align _ => some (size, align)
  | .union size align _ => some (size, align)
  | .enum size align _ _ _ => some (size, align)
  | .array elem count => elem.sizeAlign.map fun (s, a) => (s * count, a)
  | .slice _ => none
  | .str => none
  | .dyn _ => none

mutual
/-- rustc's `ty.is_freeze()`: there is no `UnsafeCell` in the type, except behind pointers. It is called at
`/repo/tooling/minimize/src/ty.rs:7, 126`. Of trait objects it is not known. -/
def RsTy.isFreeze : RsTy → Bool
  | .struct cell _ _ fields => !cell && RsTy.fieldsFreeze fields
  | .union _ _ fields => RsTy.fieldsFreeze fields
  | .enum _ _ _ variants _ => RsTy.variantsFreeze variants
  | .array elem _ => elem.isFreeze
  | .slice elem => elem.isFreeze
  | .pat inner => inner.isFreeze
  | .dyn _ => false
  | _ => true
/-- All fields. -/
def RsTy.fieldsFreeze : List (Nat × RsTy) → Bool
  | [] => true
  | (_, ty) :: rest => ty.isFreeze && RsTy.fieldsFreeze rest
/-- All fields of all variants. -/
def RsTy.variantsFreeze : List (Nat × List (Nat × RsTy)) → Bool
  | [] => true
  | (_, fields) :: rest => RsTy.fieldsFreeze fields && RsTy.variantsFreeze rest
end

mutual
/-- `cells_in_sized_ty`, `/repo/tooling/minimize/src/ty.rs:98-155`. -/
def RsTy.cells [T : Target] : RsTy → Res (List (Nat × Nat))
  | .bool => .ok []
  | .int _ _ => .ok []
  | .char => .ok []
  | .ref _ _ => .ok []
  | .box _ => .ok []
  | .raw _ => .ok []
  | .fnPtr => .ok []
  | .fnDef => .ok []
  | .never => .ok []
  | .struct cell size _ fields => if cell then .ok [(0, size)] else RsTy.fieldCells fields
  | .union size align fields =>
    .ok (if (RsTy.union size align fields).isFreeze then [] else [(0, size)])
  | .enum size align dt variants layout =>
    .ok (if (RsTy.enum size align dt variants layout).isFreeze then [] else [(0, size)])
  | .array elem count => do
    let range ← elem.cells
    if !range.isEmpty then
      let (size, _) ← unwrap elem.sizeAlign
      let ranges := [0, count]
      .ok (ranges.zipIdx.flatMap fun (_, i) => range.map fun (start, len) => (start + size * i, len))
    else .ok []
  | .pat _ => panic
  | .slice _ => panic
  | .str => panic
  | .dyn _ => panic
/-- `cells_from_layout`, `/repo/tooling/minimize/src/ty.rs:82-96`. -/
def RsTy.fieldCells [T : Target] : List (Nat × RsTy) → Res (List (Nat × Nat))
  | [] => .ok []
  | (offset, ty) :: rest => do
    let cells ← ty.cells
    let others ← RsTy.fieldCells rest
    .ok (cells.map (fun (start, len) => (start + offset, len)) ++ others)
end

/-- `pointee_info_of`, `/repo/tooling/minimize/src/ty.rs:4-72`. Whether the type is inhabited, and whether it is `Freeze`
and `Unpin`, comes from rustc. Other unsized types (structs with an unsized field) are not supported. -/
def RsTy.pointeeInfo [T : Target] (ty : RsTy) (inhabited freeze unpin : Bool) : Res PointeeInfo :=
  match ty.sizeAlign with
  | some (size, align) => do
    let cells ← ty.cells
    .ok ⟨.sized size align, inhabited, .sized (sortByOffset cells), freeze, unpin⟩
  | none =>
    match ty with
    | .slice elem => do
      let (size, align) ← unwrap elem.sizeAlign
      let cells ← elem.cells
      .ok ⟨.slice size align, inhabited, .slice (sortByOffset cells), freeze, unpin⟩
    | .str => .ok ⟨.slice 1 Align.one, inhabited, .slice [], freeze, unpin⟩
    | .dyn t => .ok ⟨.traitObject t, inhabited, .traitObject, freeze, unpin⟩
    | _ => panic

mutual
/-- `translate_ty`, `/repo/tooling/minimize/src/ty.rs:174-263`. -/
def RsTy.translate [T : Target] : RsTy → Res Ty
  | .bool => .ok .bool
  | .int signed size => .ok (.int ⟨signed, size⟩)
  | .char => .ok (.int ⟨.unsigned, 4⟩)
  | .pat inner => inner.translate
  | .ref mutbl p => .ok (.ptr (.ref mutbl p))
  | .box p => .ok (.ptr (.box p))
  | .raw p => .ok (.ptr (.raw p.layout.metaKind))
  | .fnPtr => .ok (.ptr .fnPtr)
  | .fnDef => .ok (tupleTy [] 0 Align.one)
  | .never => .ok (.enum [] ⟨.unsigned, 1⟩ .invalid 0 Align.one)
  | .struct _ size align fields => do
    let fields ← RsTy.translateFields fields
    .ok (tupleTy fields size align)
  | .union size align fields => do
    let fields ← RsTy.translateFields fields
    let chunks ← calcChunks fields size
    .ok (.union fields chunks size align)
  | .enum size align dt variants layout => do
    let variants ← RsTy.translateVariants variants
    translateEnum ⟨size, align, dt, variants, layout⟩
  | .array elem count => do
    let elem ← elem.translate
    .ok (.array elem count)
  | .slice elem => do
    let elem ← elem.translate
    .ok (.slice elem)
  | .str => .ok (.slice (.int ⟨.unsigned, 1⟩))
  | .dyn t => .ok (.traitObject t)
/-- `tuple_from_layout` and `translate_adt_variant_fields`, `/repo/tooling/minimize/src/ty.rs:157-172, 266-297`. -/
def RsTy.translateFields [T : Target] : List (Nat × RsTy) → Res (List (Nat × Ty))
  | [] => .ok []
  | (offset, ty) :: rest => do
    let ty ← ty.translate
    let rest ← RsTy.translateFields rest
    .ok ((offset, ty) :: rest)
/-- The fields of the variants of an enum, `/repo/tooling/minimize/src/enums.rs:34-40, 69-75`. -/
def RsTy.translateVariants [T : Target] : List (Nat × List (Nat × RsTy)) → Res (List RsVariant)
  | [] => .ok []
  | (discr, fields) :: rest => do
    let fields ← RsTy.translateFields fields
    let rest ← RsTy.translateVariants rest
    .ok (⟨discr, fields⟩ :: rest)
end

end MiniRust
