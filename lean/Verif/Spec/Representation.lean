import Verif.Representation
/-
A small specification used to state the representation properties: which bytes a type uses, what it
means for the tags of an enum to be coherent, and definedness.
-/
namespace MiniRust
variable {P : Type} [DecidableEq P]

/-! ### Definedness, declaratively -/

/-- `a` is less (or equally) defined than `b`: it is uninitialized, or the same byte, or the same
data without provenance. -/
def ByteLe (a b : AByte P) : Prop :=
  a = .uninit ∨ a = b ∨ ∃ d f, a = .init d none ∧ b = .init d (some f)

/-- Byte-wise definedness of byte strings of the same length. -/
def BytesLe (a b : List (AByte P)) : Prop :=
  a.length = b.length ∧ ∀ (i : Nat) (x y : AByte P), a[i]? = some x → b[i]? = some y → ByteLe x y

/-- Same address, and either no provenance or the same provenance. -/
def ThinLe (p q : ThinPtr P) : Prop := p.addr = q.addr ∧ (p.prov = none ∨ p.prov = q.prov)

/-- Metadata is equal, except that a vtable pointer may lose its provenance. -/
inductive MetaLe : Option (PtrMeta P) → Option (PtrMeta P) → Prop
  | none (m) : MetaLe none m
  | count (n) : MetaLe (some (.elementCount n)) (some (.elementCount n))
  | vtable (p q) : ThinLe p q → MetaLe (some (.vtablePointer p)) (some (.vtablePointer q))

/-- `v` and `w` are the same value, except that bytes in unions and pointer provenance may be
less defined in `v`. -/
inductive ValueLe : Value P → Value P → Prop
  | int (i) : ValueLe (.int i) (.int i)
  | bool (b) : ValueLe (.bool b) (.bool b)
  | ptr (p q : Pointer P) : ThinLe p.thin q.thin → MetaLe p.metadata q.metadata →
      ValueLe (.ptr p) (.ptr q)
  | tuple (vs ws) : vs.length = ws.length →
      (∀ (i : Nat) v w, vs[i]? = some v → ws[i]? = some w → ValueLe v w) →
      ValueLe (.tuple vs) (.tuple ws)
  | variant (d v w) : ValueLe v w → ValueLe (.variant d v) (.variant d w)
  | union (a b : List (List (AByte P))) : a.length = b.length →
      (∀ (i : Nat) x y, a[i]? = some x → b[i]? = some y → BytesLe x y) →
      ValueLe (.union a) (.union b)

/-! ### Bytes used by a type -/

/-- The discriminator may inspect byte `i`. -/
inductive Discriminator.Reads : Discriminator → Nat → Prop
  | here {o vt f cs i} : o ≤ i → i < o + vt.size → Discriminator.Reads (.branch o vt f cs) i
  | fallback {o vt f cs i} : Discriminator.Reads f i → Discriminator.Reads (.branch o vt f cs) i
  | child {o vt f cs c i} : c ∈ cs → Discriminator.Reads c.2 i → Discriminator.Reads (.branch o vt f cs) i

/-- Byte `i` is not padding in type `ty`: it belongs to a scalar, a union chunk or an enum tag. -/
inductive UsesByte [T : Target] : Ty → Nat → Prop
  | int {it i} : i < it.size → UsesByte (.int it) i
  | bool : UsesByte .bool 0
  | thin {p i} : p.metaKind = .none → i < T.ptrSize → UsesByte (.ptr p) i
  | wide {p i} : p.metaKind ≠ .none → i < 2 * T.ptrSize → UsesByte (.ptr p) i
  | field {fs h t off ty i} : (off, ty) ∈ fs → UsesByte ty i → UsesByte (.tuple fs h t) (off + i)
  | elem {e count n i} {k : Nat} : e.size = .ok n → (k : Int) < count → UsesByte e i →
      UsesByte (.array e count) (k * n + i)
  | chunk {fs cs s a off n i} : (off, n) ∈ cs → off ≤ i → i < off + n →
      UsesByte (.union fs cs s a) i
  | variant {vs dt disc s a v i} : v ∈ vs → UsesByte v.2.1 i → UsesByte (.enum vs dt disc s a) i
  | tag {vs dt disc s a v e i} : v ∈ vs → e ∈ v.2.2 → e.1 ≤ i → i < e.1 + e.2.1.size →
      UsesByte (.enum vs dt disc s a) i
  | disc {vs dt disc s a i} : Discriminator.Reads disc i → UsesByte (.enum vs dt disc s a) i

/-! ### Coherent enums

`check_wf` leaves it to the producer of a type that taggers and discriminators fit together
(`/repo/spec/lang/types.md:101-127`, `/repo/spec/lang/well-formed.md:237`). -/

/-- The discriminant that the discriminator of an enum computes from its bytes. -/
def discriminantOf [Target] (disc : Discriminator) (bytes : List (AByte P)) : Res (Option Int) := do
  .ok (← decodeDiscriminant (sliceAccessor bytes) disc ()).1

/-- The taggers write disjoint ranges outside the variant data, and the discriminator is
inverse to tagging. -/
structure EnumCoherent [Target] (env : ValEnv P) (vs : Variants) (disc : Discriminator) (size : Nat) :
    Prop where
  /-- The tag entries of a variant do not overlap each other. -/
  tags_apart : ∀ v ∈ vs, v.2.2.Pairwise fun e f =>
    e.1 + e.2.1.size ≤ f.1 ∨ f.1 + f.2.1.size ≤ e.1
  /-- "The tagger MUST NOT touch any bytes written by the actual type of the variant". -/
  tag_not_data : ∀ v ∈ vs, ∀ e ∈ v.2.2, ∀ i, e.1 ≤ i → i < e.1 + e.2.1.size → ¬ UsesByte v.2.1 i
  /-- Encoding a valid variant gives bytes on which the discriminator answers that variant. -/
  disc_complete : ∀ v ∈ vs, ∀ data, checkValue env v.2.1 data = .ok () →
    ∀ bytes, encodeVariant vs v.1 data = .ok bytes → discriminantOf disc bytes = .ok (some v.1)
  /-- If the discriminator answers a variant, then that variant's tag is in the bytes. -/
  disc_sound : ∀ bytes : List (AByte P), bytes.length = size → ∀ v ∈ vs,
    discriminantOf disc bytes = .ok (some v.1) → ∀ e ∈ v.2.2,
      ∃ tag, subslice bytes e.1 e.2.1.size = .ok tag ∧ decodeInt e.2.1 tag = .ok e.2.2

/-- `t` is the type `ty` or a component of it. -/
inductive Component : Ty → Ty → Prop
  | refl {t} : Component t t
  | field {t fs h tl f} : f ∈ fs → Component t f.2 → Component t (.tuple fs h tl)
  | elem {t e n} : Component t e → Component t (.array e n)
  | variant {t vs dt disc s a v} : v ∈ vs → Component t v.2.1 → Component t (.enum vs dt disc s a)

/-- All enums inside `ty` are coherent. -/
def Ty.Coherent [Target] (env : ValEnv P) (ty : Ty) : Prop :=
  ∀ vs dt disc s a, Component (.enum vs dt disc s a) ty → EnumCoherent env vs disc s

end MiniRust

namespace MiniRust

/-- Two discriminators that differ only in the order in which the branches of their (nested)
`children` maps are enumerated. -/
inductive DiscReorder : Discriminator → Discriminator → Prop
  | refl (d) : DiscReorder d d
  | trans {a b c} : DiscReorder a b → DiscReorder b c → DiscReorder a c
  | perm {o vt f cs cs'} : cs.Perm cs' → DiscReorder (.branch o vt f cs) (.branch o vt f cs')
  | fallback {o vt f f' cs} : DiscReorder f f' → DiscReorder (.branch o vt f cs) (.branch o vt f' cs)
  | child {o vt f pre post k d d'} : DiscReorder d d' →
      DiscReorder (.branch o vt f (pre ++ (k, d) :: post)) (.branch o vt f (pre ++ (k, d') :: post))

/-- No pointer that needs a valid pointee or a vtable occurs in values of the type outside unions:
only raw pointers without vtable metadata, and function pointers. -/
def Ty.NoSafePtr (ty : Ty) : Prop :=
  ∀ p, Component (.ptr p) ty → p = .fnPtr ∨ p = .raw .none ∨ p = .raw .elementCount

/-- The provenance occurs in the value. -/
inductive ProvIn {P : Type} (p : P) : Value P → Prop
  | thin {ptr} : ptr.thin.prov = some p → ProvIn p (.ptr ptr)
  | vtable {ptr q} : ptr.metadata = some (.vtablePointer q) → q.prov = some p → ProvIn p (.ptr ptr)
  | elem {vs : List (Value P)} {v} : v ∈ vs → ProvIn p v → ProvIn p (.tuple vs)
  | chunk {data : List (List (AByte P))} {c b i} : c ∈ data → b ∈ c → b.frag = some ⟨p, i⟩ → ProvIn p (.union data)
  | variant {d v} : ProvIn p v → ProvIn p (.variant d v)

/-- The provenance occurs in the bytes. -/
def ProvInBytes {P : Type} (p : P) (bytes : List (AByte P)) : Prop :=
  ∃ b ∈ bytes, ∃ i, b.frag = some ⟨p, i⟩

end MiniRust
