import Verif.Prelude
/-
Model of `/repo/spec/mem/pointer.md`, `/repo/spec/lang/types.md`, `/repo/spec/lang/values.md`
and the abstract bytes of `/repo/spec/mem/interface.md`.
-/
namespace MiniRust

/-! ### Names: opaque identifiers (`libspecr::Name`) -/
/-- `/repo/spec/mem/pointer.md:143` -/
abbrev TraitName := Nat
/-- `/repo/spec/lang/syntax.md:452` -/
abbrev FnName := Nat
/-- `/repo/spec/lang/syntax.md:453` -/
abbrev GlobalName := Nat
/-- `/repo/spec/lang/syntax.md:454` -/
abbrev VTableName := Nat
/-- `/repo/spec/lang/syntax.md:455` -/
abbrev TraitMethodName := Nat

/-! ### Abstract bytes -/

/-- `ProvenanceFrag`, `/repo/spec/mem/interface.md:23-26`.
`position` is an `Int` in the spec; it only ever is a list index, so it is a `Nat` here. -/
structure Frag (P : Type) where
  prov : P
  position : Nat
  deriving DecidableEq, Repr

/-- `AbstractByte`, `/repo/spec/mem/interface.md:28-33`. -/
inductive AByte (P : Type)
  | uninit
  | init (data : UInt8) (frag : Option (Frag P))
  deriving DecidableEq, Repr

namespace AByte
variable {P : Type}
/-- `AbstractByte::data`, `/repo/spec/mem/interface.md:36-41`. -/
def data : AByte P → Option UInt8
  | uninit => none
  | init d _ => some d
/-- `AbstractByte::provenance_frag`, `/repo/spec/mem/interface.md:43-48`. -/
def frag : AByte P → Option (Frag P)
  | uninit => none
  | init _ f => f
end AByte

/-! ### Pointers -/

/-- `ThinPointer`, `/repo/spec/mem/pointer.md:31-34`. -/
structure ThinPtr (P : Type) where
  addr : Int
  prov : Option P
  deriving DecidableEq, Repr

/-- `PointerMeta`, `/repo/spec/mem/pointer.md:37-43`. -/
inductive PtrMeta (P : Type)
  | elementCount (n : Int)
  | vtablePointer (p : ThinPtr P)
  deriving DecidableEq, Repr

/-- `Pointer`, `/repo/spec/mem/pointer.md:47-50`. -/
structure Pointer (P : Type) where
  thin : ThinPtr P
  metadata : Option (PtrMeta P)
  deriving DecidableEq, Repr

namespace ThinPtr
variable {P : Type}
/-- `ThinPointer::wrapping_offset`, `/repo/spec/mem/pointer.md:55-59`. -/
def wrappingOffset [T : Target] (p : ThinPtr P) (offset : Int) : ThinPtr P :=
  { p with addr := bringInBounds .unsigned T.ptrSize (p.addr + offset) }
/-- `ThinPointer::widen`, `/repo/spec/mem/pointer.md:61-66`. -/
def widen (p : ThinPtr P) (m : Option (PtrMeta P)) : Pointer P := ⟨p, m⟩
end ThinPtr

/-- `TupleHeadLayout`, `/repo/spec/mem/pointer.md:78-89`. -/
structure TupleHeadLayout where
  «end» : Nat
  align : Align
  packedAlign : Option Align
  deriving DecidableEq, Repr

/-- `LayoutStrategy`, `/repo/spec/mem/pointer.md:92-107`. -/
inductive LayoutStrategy
  | sized (size : Nat) (align : Align)
  | slice (elemSize : Nat) (align : Align)
  | traitObject (t : TraitName)
  | tuple (head : TupleHeadLayout) (tail : LayoutStrategy)
  deriving DecidableEq, Repr

/-- `UnsafeCellStrategy`, `/repo/spec/mem/pointer.md:113-127`. -/
inductive UnsafeCellStrategy
  | sized (cells : List (Nat × Nat))
  | slice (elementCells : List (Nat × Nat))
  | traitObject
  | tuple (headCells : List (Nat × Nat)) (tailCells : UnsafeCellStrategy)
  deriving DecidableEq, Repr

/-- `PointeeInfo`, `/repo/spec/mem/pointer.md:130-139`. -/
structure PointeeInfo where
  layout : LayoutStrategy
  inhabited : Bool
  unsafeCells : UnsafeCellStrategy
  freeze : Bool
  unpin : Bool
  deriving DecidableEq, Repr

/-- `PointerMetaKind`, `/repo/spec/mem/pointer.md:147-151`. -/
inductive MetaKind
  | none | elementCount | vtablePointer (t : TraitName)
  deriving DecidableEq, Repr

/-- `PtrType`, `/repo/spec/mem/pointer.md:154-171`. -/
inductive PtrType
  | ref (mutbl : Mutability) (pointee : PointeeInfo)
  | box (pointee : PointeeInfo)
  | raw (metaKind : MetaKind)
  | fnPtr
  | vtablePtr (t : TraitName)
  deriving DecidableEq, Repr

/-- `LayoutStrategy::meta_kind`, `/repo/spec/lang/types.md:281-288`. -/
def LayoutStrategy.metaKind : LayoutStrategy → MetaKind
  | .sized .. => .none
  | .slice .. => .elementCount
  | .traitObject t => .vtablePointer t
  | .tuple _ tail => tail.metaKind

/-- `PtrType::safe_pointee`, `/repo/spec/mem/pointer.md:178-183`. -/
def PtrType.safePointee : PtrType → Option PointeeInfo
  | .ref _ p => some p
  | .box p => some p
  | .raw _ => Option.none
  | .fnPtr => Option.none
  | .vtablePtr _ => Option.none

/-- `PtrType::meta_kind`, `/repo/spec/mem/pointer.md:185-191`. -/
def PtrType.metaKind : PtrType → MetaKind
  | .ref _ p => p.layout.metaKind
  | .box p => p.layout.metaKind
  | .raw k => k
  | .fnPtr => .none
  | .vtablePtr _ => .none

/-! ### Types -/

/-- `IntType`, `/repo/spec/lang/types.md:94-97`. -/
structure IntType where
  signed : Signedness
  size : Nat
  deriving DecidableEq, Repr

/-- The `tagger` of a `Variant`, `/repo/spec/lang/types.md:108`. -/
abbrev Tagger := Map Nat (IntType × Int)

/-- `Discriminator`, `/repo/spec/lang/types.md:113-127`. -/
inductive Discriminator
  | known (d : Int)
  | invalid
  | branch (offset : Nat) (valueType : IntType) (fallback : Discriminator)
      (children : List ((Int × Int) × Discriminator))
  deriving Repr

/-- `Type`, `/repo/spec/lang/types.md:21-92`. A `Variant` (lines 101-109) is the pair of its type
and its tagger; `Fields` (line 99) is `List (Nat × Ty)`. -/
inductive Ty
  | int (i : IntType)
  | bool
  | ptr (p : PtrType)
  | tuple (sizedFields : List (Nat × Ty)) (head : TupleHeadLayout) (unsizedField : Option Ty)
  | array (elem : Ty) (count : Int)
  | slice (elem : Ty)
  | union (fields : List (Nat × Ty)) (chunks : List (Nat × Nat)) (size : Nat) (align : Align)
  | enum (variants : List (Int × (Ty × Tagger))) (discriminantTy : IntType)
      (discriminator : Discriminator) (size : Nat) (align : Align)
  | traitObject (t : TraitName)
  deriving Repr

/-- The variants of an enum type. -/
abbrev Variants := List (Int × (Ty × Tagger))

/-! Equality tests on types are structural (`#[derive(PartialEq)]`). -/

mutual
def Discriminator.beq : Discriminator → Discriminator → Bool
  | .known a, .known b => a == b
  | .invalid, .invalid => true
  | .branch o v f c, .branch o' v' f' c' => o == o' && v == v' && f.beq f' && Discriminator.beqL c c'
  | _, _ => false
def Discriminator.beqL : List ((Int × Int) × Discriminator) → List ((Int × Int) × Discriminator) → Bool
  | [], [] => true
  | (k, d) :: r, (k', d') :: r' => k == k' && d.beq d' && Discriminator.beqL r r'
  | _, _ => false
end

mutual
theorem Discriminator.beq_iff : (a b : Discriminator) → (a.beq b = true ↔ a = b)
  | .known a, b => by cases b <;> simp [Discriminator.beq]
  | .invalid, b => by cases b <;> simp [Discriminator.beq]
  | .branch o v f c, b => by
    cases b with
    | branch o' v' f' c' =>
      simp [Discriminator.beq, Discriminator.beq_iff f f', Discriminator.beqL_iff c c', and_assoc]
    | _ => simp [Discriminator.beq]
theorem Discriminator.beqL_iff : (a b : List ((Int × Int) × Discriminator)) →
    (Discriminator.beqL a b = true ↔ a = b)
  | [], b => by cases b <;> simp [Discriminator.beqL]
  | (k, d) :: r, [] => by simp [Discriminator.beqL]
  | (k, d) :: r, (k', d') :: r' => by
    simp [Discriminator.beqL, Discriminator.beq_iff d d', Discriminator.beqL_iff r r']
end

instance : DecidableEq Discriminator := fun a b =>
  decidable_of_iff _ (Discriminator.beq_iff a b)

mutual
def Ty.beq : Ty → Ty → Bool
  | .int a, .int b => a == b
  | .bool, .bool => true
  | .ptr a, .ptr b => a == b
  | .tuple f h u, .tuple f' h' u' => Ty.beqF f f' && h == h' && Ty.beqO u u'
  | .array e n, .array e' n' => e.beq e' && n == n'
  | .slice e, .slice e' => e.beq e'
  | .union f c s a, .union f' c' s' a' => Ty.beqF f f' && c == c' && s == s' && a == a'
  | .enum v t d s a, .enum v' t' d' s' a' =>
    Ty.beqV v v' && t == t' && d == d' && s == s' && a == a'
  | .traitObject t, .traitObject t' => t == t'
  | _, _ => false
def Ty.beqO : Option Ty → Option Ty → Bool
  | none, none => true
  | some a, some b => a.beq b
  | _, _ => false
def Ty.beqF : List (Nat × Ty) → List (Nat × Ty) → Bool
  | [], [] => true
  | (o, t) :: r, (o', t') :: r' => o == o' && t.beq t' && Ty.beqF r r'
  | _, _ => false
def Ty.beqV : List (Int × (Ty × Tagger)) → List (Int × (Ty × Tagger)) → Bool
  | [], [] => true
  | (d, (t, g)) :: r, (d', (t', g')) :: r' => d == d' && t.beq t' && g == g' && Ty.beqV r r'
  | _, _ => false
end

mutual
theorem Ty.beq_iff : (a b : Ty) → (a.beq b = true ↔ a = b)
  | .int _, b => by cases b <;> simp [Ty.beq]
  | .bool, b => by cases b <;> simp [Ty.beq]
  | .ptr _, b => by cases b <;> simp [Ty.beq]
  | .tuple f h u, b => by
    cases b with
    | tuple f' h' u' => simp [Ty.beq, Ty.beqF_iff f f', Ty.beqO_iff u u', and_assoc]
    | _ => simp [Ty.beq]
  | .array e _, b => by
    cases b with
    | array e' n' => simp [Ty.beq, Ty.beq_iff e e']
    | _ => simp [Ty.beq]
  | .slice e, b => by
    cases b with
    | slice e' => simp [Ty.beq, Ty.beq_iff e e']
    | _ => simp [Ty.beq]
  | .union f c s a, b => by
    cases b with
    | union f' c' s' a' => simp [Ty.beq, Ty.beqF_iff f f', and_assoc]
    | _ => simp [Ty.beq]
  | .enum v t d s a, b => by
    cases b with
    | enum v' t' d' s' a' => simp [Ty.beq, Ty.beqV_iff v v', and_assoc]
    | _ => simp [Ty.beq]
  | .traitObject _, b => by cases b <;> simp [Ty.beq]
theorem Ty.beqO_iff : (a b : Option Ty) → (Ty.beqO a b = true ↔ a = b)
  | none, b => by cases b <;> simp [Ty.beqO]
  | some a, none => by simp [Ty.beqO]
  | some a, some b => by simp [Ty.beqO, Ty.beq_iff a b]
theorem Ty.beqF_iff : (a b : List (Nat × Ty)) → (Ty.beqF a b = true ↔ a = b)
  | [], b => by cases b <;> simp [Ty.beqF]
  | (_, _) :: _, [] => by simp [Ty.beqF]
  | (_, t) :: r, (_, t') :: r' => by simp [Ty.beqF, Ty.beq_iff t t', Ty.beqF_iff r r']
theorem Ty.beqV_iff : (a b : List (Int × (Ty × Tagger))) → (Ty.beqV a b = true ↔ a = b)
  | [], b => by cases b <;> simp [Ty.beqV]
  | (_, (_, _)) :: _, [] => by simp [Ty.beqV]
  | (_, (t, _)) :: r, (_, (t', _)) :: r' => by
    simp [Ty.beqV, Ty.beq_iff t t', Ty.beqV_iff r r', and_assoc]
end

instance : DecidableEq Ty := fun a b => decidable_of_iff _ (Ty.beq_iff a b)

/-! ### Layout -/

namespace IntType
/-- `IntType::align`, `/repo/spec/lang/types.md:139-145`; panics if the size is not a power of two. -/
def align [T : Target] (i : IntType) : Res Align := do
  let naturalAlign ← unwrap (Align.fromBytes i.size)
  .ok (naturalAlign.min T.intMaxAlign)

/-- `IntType::I8`, `/repo/spec/lang/types.md:296`. -/
def i8 : IntType := ⟨.signed, 1⟩
/-- `IntType::I32`, `/repo/spec/lang/types.md:297`. -/
def i32 : IntType := ⟨.signed, 4⟩
/-- `IntType::usize_ty`, `/repo/spec/lang/types.md:299-301`. -/
def usize [T : Target] : IntType := ⟨.unsigned, T.ptrSize⟩
/-- `IntType::can_represent`, `/repo/spec/lang/types.md:303-305`. -/
def canRepresent (t : IntType) (i : Int) : Bool := inBounds t.signed t.size i
/-- `IntType::bring_in_bounds`, `/repo/spec/lang/types.md:307-309`. -/
def bringInBounds (t : IntType) (i : Int) : Int := MiniRust.bringInBounds t.signed t.size i
end IntType

namespace TupleHeadLayout
/-- `TupleHeadLayout::capped_tail_align`, `/repo/spec/lang/types.md:202-207`. -/
def cappedTailAlign (h : TupleHeadLayout) (tailAlign : Align) : Align :=
  match h.packedAlign with
  | some p => tailAlign.min p
  | none => tailAlign
/-- `TupleHeadLayout::tail_offset`, `/repo/spec/lang/types.md:210-214`. -/
def tailOffset (h : TupleHeadLayout) (tailAlign : Align) : Nat :=
  alignTo h.end (h.cappedTailAlign tailAlign)
/-- `TupleHeadLayout::full_size_and_align`, `/repo/spec/lang/types.md:218-225`. -/
def fullSizeAndAlign (h : TupleHeadLayout) (tailSize : Nat) (tailAlign : Align) : Nat × Align :=
  let align := (h.cappedTailAlign tailAlign).max h.align
  let «end» := h.tailOffset tailAlign + tailSize
  (alignTo «end» align, align)
/-- `TupleHeadLayout::head_size_and_align`, `/repo/spec/lang/types.md:228-231`. -/
def headSizeAndAlign (h : TupleHeadLayout) : Nat × Align := (alignTo h.end h.align, h.align)
end TupleHeadLayout

namespace LayoutStrategy
/-- `LayoutStrategy::is_sized`, `/repo/spec/lang/types.md:235-237`. -/
def isSized : LayoutStrategy → Bool
  | .sized .. => true
  | _ => false
/-- `LayoutStrategy::expect_size`, `/repo/spec/lang/types.md:240-245`. -/
def expectSize : LayoutStrategy → Res Nat
  | .sized s _ => .ok s
  | _ => panic
/-- `LayoutStrategy::expect_align`, `/repo/spec/lang/types.md:248-253`. -/
def expectAlign : LayoutStrategy → Res Align
  | .sized _ a => .ok a
  | _ => panic
end LayoutStrategy

/-- `Type::layout`, `/repo/spec/lang/types.md:150-179`; panics for some ill-formed types. -/
def Ty.layout [T : Target] : Ty → Res LayoutStrategy
  | .int i => do .ok (.sized i.size (← i.align))
  | .bool => .ok (.sized 1 Align.one)
  | .ptr p =>
    if p.metaKind = .none then .ok (.sized T.ptrSize T.ptrAlign)
    else .ok (.sized (2 * T.ptrSize) T.ptrAlign)
  | .union _ _ size align => .ok (.sized size align)
  | .enum _ _ _ size align => .ok (.sized size align)
  | .tuple _ head none =>
    .ok (.sized head.headSizeAndAlign.1 head.headSizeAndAlign.2)
  | .tuple _ head (some tail) => do .ok (.tuple head (← tail.layout))
  | .array elem count => do
    let l ← elem.layout
    .ok (.sized (← sizeMul (← l.expectSize) count) (← l.expectAlign))
  | .slice elem => do
    let l ← elem.layout
    .ok (.slice (← l.expectSize) (← l.expectAlign))
  | .traitObject t => .ok (.traitObject t)

/-- The recurring `ty.layout::<T>().expect_size(..)`. -/
def Ty.size [Target] (ty : Ty) : Res Nat := do (← ty.layout).expectSize

/-- `Type::meta_kind`, `/repo/spec/lang/types.md:183-193`. -/
def Ty.metaKind : Ty → MetaKind
  | .slice _ => .elementCount
  | .traitObject t => .vtablePointer t
  | .tuple _ _ none => .none
  | .tuple _ _ (some t) => t.metaKind
  | _ => .none

/-- `IntType::with_overflow`, `/repo/spec/lang/types.md:312-329`. -/
def IntType.withOverflow [Target] (i : IntType) : Res Ty := do
  let align ← i.align
  let size := i.size + align.bytes
  .ok (.tuple [(0, .int i), (i.size, .bool)] ⟨size, align, none⟩ none)

/-- `unit_ty`, `/repo/spec/lang/types.md:337-345` (also called `unit_type` in the spec). -/
def unitTy : Ty := .tuple [] ⟨0, Align.one, none⟩ none

/-- `VTable`, `/repo/spec/lang/syntax.md:534-546`. -/
structure VTable where
  traitName : TraitName
  size : Nat
  align : Align
  cells : List (Nat × Nat)
  methods : Map TraitMethodName FnName
  deriving DecidableEq, Repr

/-- `LayoutStrategy::compute_size_and_align`, `/repo/spec/lang/types.md:259-277`.
`count * elem_size` panics on negative counts (libspecr `Size * Int`);
the vtable lookup panics for unknown vtables (`/repo/spec/lang/machine.md:372-381`). -/
def LayoutStrategy.computeSizeAndAlign {P : Type} (vtables : ThinPtr P → Res VTable) :
    LayoutStrategy → Option (PtrMeta P) → Res (Nat × Align)
  | .sized size align, none => .ok (size, align)
  | .slice elemSize align, some (.elementCount count) => do .ok (← sizeMul elemSize count, align)
  | .traitObject _, some (.vtablePointer p) => do
    let vt ← vtables p
    .ok (vt.size, vt.align)
  | .tuple head tail, some m => do
    let (tailSize, tailAlign) ← tail.computeSizeAndAlign vtables (some m)
    .ok (head.fullSizeAndAlign tailSize tailAlign)
  | _, _ => panic

/-! ### Values -/

/-- `Value`, `/repo/spec/lang/values.md:7-24`. -/
inductive Value (P : Type)
  | int (i : Int)
  | bool (b : Bool)
  | ptr (p : Pointer P)
  | tuple (vs : List (Value P))
  | variant (discriminant : Int) (data : Value P)
  | union (chunks : List (List (AByte P)))
  deriving Repr

/-- `Place`, `/repo/spec/lang/values.md:35-38`. -/
structure Place (P : Type) where
  ptr : Pointer P
  aligned : Bool
  deriving DecidableEq, Repr

/-- `unit_value`. -/
def unitValue {P : Type} : Value P := .tuple []

mutual
def Value.beq {P : Type} [DecidableEq P] : Value P → Value P → Bool
  | .int a, .int b => a == b
  | .bool a, .bool b => a == b
  | .ptr a, .ptr b => a == b
  | .tuple a, .tuple b => Value.beqL a b
  | .variant d a, .variant e b => d == e && a.beq b
  | .union a, .union b => a == b
  | _, _ => false
def Value.beqL {P : Type} [DecidableEq P] : List (Value P) → List (Value P) → Bool
  | [], [] => true
  | a :: as, b :: bs => a.beq b && Value.beqL as bs
  | _, _ => false
end

mutual
theorem Value.beq_iff {P : Type} [DecidableEq P] : (a b : Value P) → (a.beq b = true ↔ a = b)
  | .int _, b => by cases b <;> simp [Value.beq]
  | .bool _, b => by cases b <;> simp [Value.beq]
  | .ptr _, b => by cases b <;> simp [Value.beq]
  | .tuple a, b => by
    cases b with
    | tuple b => simp [Value.beq, Value.beqL_iff a b]
    | _ => simp [Value.beq]
  | .variant _ a, b => by
    cases b with
    | variant e b => simp [Value.beq, Value.beq_iff a b]
    | _ => simp [Value.beq]
  | .union _, b => by cases b <;> simp [Value.beq]
theorem Value.beqL_iff {P : Type} [DecidableEq P] : (a b : List (Value P)) →
    (Value.beqL a b = true ↔ a = b)
  | [], b => by cases b <;> simp [Value.beqL]
  | _ :: _, [] => by simp [Value.beqL]
  | a :: as, b :: bs => by simp [Value.beqL, Value.beq_iff a b, Value.beqL_iff as bs]
end

instance {P : Type} [DecidableEq P] : DecidableEq (Value P) := fun a b =>
  decidable_of_iff _ (Value.beq_iff a b)

end MiniRust
