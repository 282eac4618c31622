import Verif.RsTypes
import Verif.Spec.Enums
/-
What rustc guarantees about the layout of types, and which bytes of a type are inside an `UnsafeCell`. Used to state
the properties of the translation of types.
-/
namespace MiniRust
variable {P : Type} [DecidableEq P]

/-- There is an `UnsafeCell` in the type. Trait objects may have one. -/
inductive RsTy.HasCell : RsTy → Prop
  | cell {size align fields} : HasCell (.struct true size align fields)
  | field {cell size align fields f} : f ∈ fields → HasCell f.2 → HasCell (.struct cell size align fields)
  | union {size align fields f} : f ∈ fields → HasCell f.2 → HasCell (.union size align fields)
  | enum {size align dt variants layout v f} : v ∈ variants → f ∈ v.2 → HasCell f.2 →
      HasCell (.enum size align dt variants layout)
  | elem {elem count} : HasCell elem → HasCell (.array elem count)
  | slice {elem} : HasCell elem → HasCell (.slice elem)
  | pat {inner} : HasCell inner → HasCell (.pat inner)
  | dyn {t} : HasCell (.dyn t)

/-- Byte `i` of a value of the type is inside an `UnsafeCell`. Unions and enums that have an `UnsafeCell` anywhere count
as a whole. -/
inductive RsTy.InCell [Target] : RsTy → Nat → Prop
  | cell {size align fields i} : i < size → InCell (.struct true size align fields) i
  | field {size align fields off ty i} : (off, ty) ∈ fields → InCell ty i → InCell (.struct false size align fields) (off + i)
  | union {size align fields i} : HasCell (.union size align fields) → i < size → InCell (.union size align fields) i
  | enum {size align dt variants layout i} : HasCell (.enum size align dt variants layout) → i < size →
      InCell (.enum size align dt variants layout) i
  | elem {elem count s a i} {k : Nat} : elem.sizeAlign = some (s, a) → k < count → InCell elem i →
      InCell (.array elem count) (k * s + i)

/-- `t` is `ty` or a part of it, not looking into `UnsafeCell`s, unions and enums. -/
inductive RsTy.Part : RsTy → RsTy → Prop
  | refl {t} : Part t t
  | field {t size align fields f} : f ∈ fields → Part t f.2 → Part t (.struct false size align fields)
  | elem {t elem count} : Part t elem → Part t (.array elem count)

/-- Arrays with `UnsafeCell`s have two elements. -/
def RsTy.PairedArrays (ty : RsTy) : Prop :=
  ∀ elem count, Part (.array elem count) ty → HasCell elem → count = 2

/-- No `UnsafeCell`, and no union or enum with an `UnsafeCell`, is zero-sized. -/
def RsTy.NoEmptyCell [Target] (ty : RsTy) : Prop :=
  ∀ t, Part t ty → (∃ size align fields, t = .struct true size align fields) ∨
      (∃ size align fields, t = .union size align fields) ∨
      (∃ size align dt variants layout, t = .enum size align dt variants layout) →
    HasCell t → ∃ size align, t.sizeAlign = some (size, align) ∧ 0 < size

/-- Two ranges of bytes do not overlap. -/
def RangesApart (o1 s1 o2 s2 : Nat) : Prop := o1 + s1 ≤ o2 ∨ o2 + s2 ≤ o1

/-- The fields are sized, inside the type, and do not overlap. -/
structure FieldsLaid [Target] (size : Nat) (fields : List (Nat × RsTy)) : Prop where
  inside : ∀ f ∈ fields, ∃ s a, f.2.sizeAlign = some (s, a) ∧ f.1 + s ≤ size
  apart : fields.Pairwise fun f g => ∀ s a s' a', f.2.sizeAlign = some (s, a) → g.2.sizeAlign = some (s', a') →
    RangesApart f.1 s g.1 s'

/-- All structs in the type, outside `UnsafeCell`s, have their fields in separate places. -/
def RsTy.PartsLaid [Target] (ty : RsTy) : Prop :=
  ∀ size align fields, Part (.struct false size align fields) ty → FieldsLaid size fields

/-- The bytes covered by a list of ranges. -/
def CellsCover (cells : List (Nat × Nat)) (i : Nat) : Prop := ∃ c ∈ cells, c.1 ≤ i ∧ i < c.1 + c.2

/-- What rustc guarantees about the layout of an enum, for each kind of layout. -/
inductive RsEnum.GoodLayout [T : Target] (prog : Program) (env : ValEnv P) (e : RsEnum) : Prop
  | empty : e.layout = .empty → e.variants = [] → e.Laid prog → GoodLayout prog env e
  | single {index} : e.layout = .single index → e.SingleLayout prog env index → GoodLayout prog env e
  | direct {tagTy valid off} : e.layout = .multiple tagTy valid .direct off → e.DirectLayout prog tagTy off →
      GoodLayout prog env e
  | niche {tagTy valid untagged first last start off} :
      e.layout = .multiple tagTy valid (.niche untagged (first, last) start) off →
      e.NicheLayout prog env tagTy valid untagged first last start off → GoodLayout prog env e

/-- The layout of a sized type, all the way down. -/
inductive RsTy.Laid [T : Target] (prog : Program) (env : ValEnv P) : RsTy → Prop
  | bool : Laid prog env .bool
  | int {signed size} : isPowerOfTwo size = true → T.validSize size = true → Laid prog env (.int signed size)
  | char : T.validSize 4 = true → Laid prog env .char
  | pat {inner} : Laid prog env inner → Laid prog env (.pat inner)
  | ref {mutbl p} : p.checkWf prog = .ok () → Laid prog env (.ref mutbl p)
  | box {p} : p.checkWf prog = .ok () → Laid prog env (.box p)
  | raw {p} : Laid prog env (.raw p)
  | fnPtr : Laid prog env .fnPtr
  | fnDef : Laid prog env .fnDef
  | never : Laid prog env .never
  /-- Fields of no size that start where another field starts are declared before it. This one is asked for by MiniRust's
  own check, and not a guarantee of rustc. -/
  | struct {cell size align fields} : (∀ f ∈ fields, Laid prog env f.2) → FieldsLaid size fields →
      (fields.Pairwise fun f g => f.1 = g.1 → ∃ a, f.2.sizeAlign = some (0, a)) →
      T.validSize size = true → align.bytes ∣ size → Laid prog env (.struct cell size align fields)
  | union {size align fields} : (∀ f ∈ fields, Laid prog env f.2) →
      (∀ f ∈ fields, ∃ s a, f.2.sizeAlign = some (s, a) ∧ f.1 + s ≤ size) →
      T.validSize size = true → align.bytes ∣ size → Laid prog env (.union size align fields)
  | enum {size align dt variants layout} : (∀ v ∈ variants, ∀ f ∈ v.2, Laid prog env f.2) →
      (∀ vs, RsTy.translateVariants variants = .ok vs → RsEnum.GoodLayout prog env ⟨size, align, dt, vs, layout⟩) →
      Laid prog env (.enum size align dt variants layout)
  | array {elem count s a} : Laid prog env elem → elem.sizeAlign = some (s, a) → T.validSize (s * count) = true →
      Laid prog env (.array elem count)

end MiniRust
