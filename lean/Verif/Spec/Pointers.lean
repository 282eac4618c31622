import Verif.Spec.Init
/-
Vocabulary for C43: which values are valid at which type, in a given state.
-/
namespace MiniRust
variable {M PE F : Type}

/-- The function of the program that this value points to. -/
def Machine.FnAt (s : Machine M (AllocId × PE) F) (v : Value (AllocId × PE)) (f : Function) : Prop :=
  ∃ name p, v = .ptr ⟨p, none⟩ ∧ s.fnPtrs.get? name = some p ∧ s.prog.functions.get? name = some f

/-- The vtable of the program that this pointer points to. -/
def Machine.VTableAt (s : Machine M (AllocId × PE) F) (p : ThinPtr (AllocId × PE)) (v : VTable) : Prop :=
  ∃ name, s.vtablePtrs.get? name = some p ∧ s.prog.vtables.get? name = some v

/-- Size and alignment of what a pointer with the given metadata points to: fixed for sized types, a
multiple of the element size for slices, given by the vtable for trait objects, and that of the whole
including head and padding for tuples with an unsized tail. -/
inductive PointeeLayout {P : Type} (vt : ThinPtr P → VTable → Prop) :
    LayoutStrategy → Option (PtrMeta P) → Nat → Align → Prop
  | sized {size align} : PointeeLayout vt (.sized size align) none size align
  | slice {size align} {count : Nat} :
      PointeeLayout vt (.slice size align) (some (.elementCount count)) (size * count) align
  | traitObject {t p v} : vt p v → PointeeLayout vt (.traitObject t) (some (.vtablePointer p)) v.size v.align
  | tuple {head tail m size align} : PointeeLayout vt tail (some m) size align →
      PointeeLayout vt (.tuple head tail) (some m) (head.fullSizeAndAlign size align).1
        (head.fullSizeAndAlign size align).2

/-- The metadata has the given kind: none, an element count that fits `usize`, or a pointer to a vtable of
the trait. -/
def Machine.MetaOk [T : Target] (s : Machine M (AllocId × PE) F) :
    MetaKind → Option (PtrMeta (AllocId × PE)) → Prop
  | .none, m => m = Option.none
  | .elementCount, m => ∃ n : Nat, m = some (.elementCount n) ∧ n < 2 ^ (8 * T.ptrSize)
  | .vtablePointer t, m => ∃ p v, m = some (.vtablePointer p) ∧ s.VTableAt p v ∧ v.traitName = t

/-- What a reference or box needs in addition: it is not null, it is aligned, its pointee is inhabited, and
as many bytes as the pointee has (at most `isize::MAX`) can be accessed through it. -/
def Machine.SafePtr [T : Target] (s : Machine M (AllocId × PE) F) (h : MemHistory PE)
    (pointee : PointeeInfo) (ptr : Pointer (AllocId × PE)) : Prop :=
  ∃ size align, PointeeLayout s.VTableAt pointee.layout ptr.metadata size align ∧
    2 * size < 2 ^ (8 * T.ptrSize) ∧ ptr.thin.addr ≠ 0 ∧ Aligned align ptr.thin.addr ∧ pointee.inhabited = true ∧
    (size = 0 ∨ Accessible h ptr.thin size)

/-- The pointer is valid at the pointer type. -/
def Machine.ValidPtr [T : Target] (s : Machine M (AllocId × PE) F) (h : MemHistory PE)
    (ptr : Pointer (AllocId × PE)) (ty : PtrType) : Prop :=
  0 ≤ ptr.thin.addr ∧ ptr.thin.addr < 2 ^ (8 * T.ptrSize) ∧ s.MetaOk ty.metaKind ptr.metadata ∧
  match ty with
  | .ref _ pointee => s.SafePtr h pointee ptr
  | .box pointee => s.SafePtr h pointee ptr
  | .raw _ => True
  | .fnPtr => True
  | .vtablePtr t => ∃ v, s.VTableAt ptr.thin v ∧ v.traitName = t

/-- The integer fits the integer type. -/
def IntType.Fits (t : IntType) (i : Int) : Prop :=
  match t.signed with
  | .unsigned => 0 ≤ i ∧ i < 2 ^ (8 * t.size)
  | .signed => -(2 ^ (8 * t.size)) ≤ 2 * i ∧ 2 * i < 2 ^ (8 * t.size)

/-- The value is valid at the type. -/
inductive Machine.ValidValue [T : Target] (s : Machine M (AllocId × PE) F) (h : MemHistory PE) :
    Ty → Value (AllocId × PE) → Prop
  | int {t : IntType} {i : Int} : t.Fits i → ValidValue s h (.int t) (.int i)
  | bool {b : Bool} : ValidValue s h .bool (.bool b)
  | ptr {t ptr} : s.ValidPtr h ptr t → ValidValue s h (.ptr t) (.ptr ptr)
  | tuple {fields head} {vs : List (Value (AllocId × PE))} : vs.length = fields.length →
      (∀ (i : Nat) off ty v, fields[i]? = some (off, ty) → vs[i]? = some v → ValidValue s h ty v) →
      ValidValue s h (.tuple fields head none) (.tuple vs)
  | array {elem} {count : Int} {vs : List (Value (AllocId × PE))} : vs.length = count →
      (∀ v ∈ vs, ValidValue s h elem v) → ValidValue s h (.array elem count) (.tuple vs)
  | union {fields chunks size align} {data : List (List (AByte (AllocId × PE)))} :
      data.map (·.length) = chunks.map (·.2) → ValidValue s h (.union fields chunks size align) (.union data)
  | variant {variants dty disc size align d ty tagger} {v : Value (AllocId × PE)} :
      Map.get? variants d = some (ty, tagger) → ValidValue s h ty v →
      ValidValue s h (.enum variants dty disc size align) (.variant d v)

end MiniRust
