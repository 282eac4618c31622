import Verif.Crate
import Verif.Spec.Operators
import Verif.Spec.PtrOps
import Verif.Spec.Init
/-
Vocabulary for C69 and C70: what a crate needs, and what a program that represents it looks like.
-/
namespace MiniRust
variable {I A Y D : Type}

/-- What is needed to run a crate: the entry point, everything that a needed function mentions, the methods and the drop glue in
needed vtables and their traits, and the targets of the pointers in needed allocations. -/
inductive Crate.Needed (K : Crate I A Y D) : RsReq I A Y D → Prop
  | entry : Needed K (.fn K.entry)
  | request {i r} : Needed K (.fn i) → r ∈ (K.body i).requests → Needed K r
  | method {y d es f} : Needed K (.vtable y d) → (K.vtable y d).entries = some es → .method f ∈ es → Needed K (.fn f)
  | drop {y d es} : Needed K (.vtable y d) → (K.vtable y d).entries = some es → .dropInPlace ∈ es →
      Needed K (.fn (K.vtable y d).dropGlue)
  | traitOf {y d} : Needed K (.vtable y d) → Needed K (.trait d)
  | pointer {a al off a'} : Needed K (.alloc a) → K.alloc a = some al → (off, a') ∈ al.ptrs → Needed K (.alloc a')

/-- The number `off` is stored in the initialized bytes from `start` on. -/
structure RsAlloc.OffsetAt [T : Target] (al : RsAlloc A) (start off : Nat) : Prop where
  inside : start + T.ptrSize ≤ al.bytes.length
  init : ∀ i, start ≤ i → i < start + T.ptrSize → al.init i = true
  value : T.endianness.decode .unsigned ((al.bytes.drop start).take T.ptrSize) = off

/-- The global represents the allocation, when allocations have the given names. -/
structure GlobalFor [Target] (names : A → Option GlobalName) (al : RsAlloc A) (g : Global) : Prop where
  size : g.bytes.length = al.bytes.length
  byte : ∀ i b, al.bytes[i]? = some b → g.bytes[i]? = some (if al.init i = true then some b else none)
  align : g.align = al.align
  pointers : List.Forall₂ (fun p r => r.1 = p.1 ∧ names p.2 = some r.2.name ∧ al.OffsetAt p.1 r.2.offset) al.ptrs g.relocations

/-- The method of the trait: the drop glue, or one of the own entries of the principal trait. -/
def Crate.HasMethod (K : Crate I A Y D) (d : D) (m : TraitMethodName) : Prop :=
  ∃ base own, K.principal d = some (base, own) ∧ (m = 0 ∨ (base ≤ m ∧ m < base + own))

/-- Slot number `m` of the vtable is the instance. -/
def RsVTable.Slot (v : RsVTable I) (m : TraitMethodName) (i : I) : Prop :=
  ∃ es, v.entries = some es ∧ (es[m]? = some (.method i) ∨ (es[m]? = some .dropInPlace ∧ i = v.dropGlue))

/-- What rustc guarantees about vtables: the drop glue is at slot 0, and nowhere else. -/
def Crate.DropFirst (K : Crate I A Y D) : Prop :=
  ∀ y d es, (K.vtable y d).entries = some es → ∀ m : Nat, es[m]? = some .dropInPlace ↔ m = 0

/-- The vtable represents the vtable of `y` for `d`, when instances and traits have the given names. -/
structure VTableFor (fns : I → Option FnName) (traits : D → Option TraitName) (v : RsVTable I) (d : D) (vt : VTable) : Prop where
  layout : vt.size = v.size ∧ vt.align = v.align ∧ vt.cells = v.cells
  trait : traits d = some vt.traitName
  methods : ∀ m n, vt.methods.get? m = some n ↔ ∃ i, v.Slot m i ∧ fns i = some n

section
variable [DecidableEq I] [DecidableEq A] [DecidableEq Y] [DecidableEq D]

/-- The name of an item. -/
def Cx.nameOf (c : Cx I A Y D) : RsReq I A Y D → Option Nat
  | .fn i => c.fnNames.get? i
  | .vtable y d => c.vtableNames.get? (y, d)
  | .trait d => c.traitNames.get? d
  | .alloc a => c.allocNames.get? a

/-- Different keys have different names, and the names are the numbers from 0 to how many there are. -/
def GoodNames {K : Type} [DecidableEq K] (m : Map K Nat) : Prop :=
  (∀ k k' n, m.get? k = some n → m.get? k' = some n → k = k') ∧ ∀ n, n < m.length ↔ ∃ k, m.get? k = some n

/-- The value that a constant has when the allocations are at the given places. Integers are read from their bits by two's
complement; the bits are those of the type. Wide pointers have to be valid at their type. -/
inductive ConstValue [T : Target] {P : Type} (place : A → Option (ThinPtr P)) (valid : Pointer P → PtrType → Prop) :
    RsConst A → Value P → Prop
  | int {t bits i} : 0 < t.size → bits < 2 ^ (8 * t.size) → t.IsWrap bits i → ConstValue place valid (.scalar (.int t) bits) (.int i)
  | bool {b : Bool} : ConstValue place valid (.scalar .bool (if b then 1 else 0)) (.bool b)
  | address {pty} {off : Nat} {cnt} : pty.metaKind = .none → ConstValue place valid (.ptr (.ptr pty) none off cnt) (.ptr ⟨⟨off, none⟩, none⟩)
  | thin {pty a} {off : Nat} {cnt p} : pty.metaKind = .none → place a = some p → IntType.usize.InRange (p.addr + off) →
      ConstValue place valid (.ptr (.ptr pty) (some a) off cnt) (.ptr ⟨⟨p.addr + off, p.prov⟩, none⟩)
  | wideAddress {pty} {off cnt : Nat} : pty.metaKind = .elementCount → valid ⟨⟨off, none⟩, some (.elementCount cnt)⟩ pty →
      ConstValue place valid (.ptr (.ptr pty) none off (some cnt)) (.ptr ⟨⟨off, none⟩, some (.elementCount cnt)⟩)
  | wide {pty a} {off cnt : Nat} {p} : pty.metaKind = .elementCount → place a = some p → IntType.usize.InRange (p.addr + off) →
      valid ⟨⟨p.addr + off, p.prov⟩, some (.elementCount cnt)⟩ pty →
      ConstValue place valid (.ptr (.ptr pty) (some a) off (some cnt)) (.ptr ⟨⟨p.addr + off, p.prov⟩, some (.elementCount cnt)⟩)
  | fields {ty fs vs} : List.Forall₂ (ConstValue place valid) fs vs → ConstValue place valid (.fields ty fs) (.tuple vs)
  | variant {variants dt disc n al bits fs vs d} : 0 < dt.size → bits < 2 ^ (8 * dt.size) → dt.IsWrap bits d → List.Forall₂ (ConstValue place valid) fs vs →
      ConstValue place valid (.variant (.enum variants dt disc n al) bits fs) (.variant d (.tuple vs))

/-- The type of a constant. -/
def RsConst.ty : RsConst A → Option Ty
  | .scalar ty _ => some ty
  | .ptr ty _ _ _ => some ty
  | .fields ty _ => some ty
  | .variant ty _ _ => some ty
  | .unsupported => none

/-- Byte number `k` of the allocation, when allocations are at the given places: part of a pointer to where the target of the
pointer is, or data. -/
def RsAlloc.ByteIs [T : Target] {PE : Type} (al : RsAlloc A) (place : A → Option (ThinPtr (AllocId × PE))) (k : Nat)
    (b : AByte (AllocId × PE)) : Prop :=
  (∃ i a off p bytes, (i, a) ∈ al.ptrs ∧ Covers i k ∧ al.OffsetAt i off ∧ place a = some p ∧
    encodePtr (p.wrappingOffset off) = .ok bytes ∧ bytes[k - i]? = some b) ∨
  ((∀ i a, (i, a) ∈ al.ptrs → ¬ Covers i k) ∧ ∃ x, al.bytes[k]? = some x ∧ b = if al.init k = true then .init x none else .uninit)

end
end MiniRust
