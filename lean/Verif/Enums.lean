import Verif.Representation
/-
Model of the enum translation of `/repo/tooling/minimize/src/enums.rs`: how the compiler-facing tool
builds taggers and discriminators. The inputs that come from rustc (layouts, discriminants, already
translated field types) are parameters.
-/
namespace MiniRust

/-- A variant as delivered by rustc: its discriminant and its translated type
(the `tuple_ty` built in `enums.rs:83-87, 117-121, 131-135`). -/
abbrev RustVariant := Int × Ty

/-- The variants map of `TagEncoding::Direct`, `/repo/tooling/minimize/src/enums.rs:79-92`. -/
def directVariants (tagOffset : Nat) (tagTy : IntType) (vs : List RustVariant) : Variants :=
  vs.map fun v => (v.1, (v.2, [(tagOffset, (tagTy, v.1))]))

/-- The discriminator of `TagEncoding::Direct`, `/repo/tooling/minimize/src/enums.rs:93-96, 158, 200-205`. -/
def directDiscriminator (tagOffset : Nat) (tagTy : IntType) (vs : List RustVariant) : Discriminator :=
  .branch tagOffset tagTy .invalid (vs.map fun v => ((v.1, v.1 + 1), .known v.1))

/-- `Type::Enum` for direct tagging, `/repo/tooling/minimize/src/enums.rs:79-97, 158, 200-211`. -/
def directEnum (tagOffset : Nat) (tagTy discriminantTy : IntType) (vs : List RustVariant)
    (size : Nat) (align : Align) : Ty :=
  .enum (directVariants tagOffset tagTy vs) discriminantTy (directDiscriminator tagOffset tagTy vs)
    size align

/-- `Variants::Single`, `/repo/tooling/minimize/src/enums.rs:30-55`. -/
def singleEnum (discriminantTy : IntType) (single : Int) (vs : List RustVariant) (size : Nat)
    (align : Align) : Ty :=
  .enum (vs.map fun v => (v.1, (v.2, []))) discriminantTy (.known single) size align

/-- The rustc data of a niche-encoded enum: `TagEncoding::Niche` and the tag's `valid_range`. -/
structure Niche where
  tagOffset : Nat
  tagTy : IntType
  /-- `untagged_variant.as_usize()` -/
  untagged : Nat
  /-- `niche_variants.start()`, `.end()` -/
  nicheVariants : Nat × Nat
  /-- `niche_start` -/
  nicheStart : Int
  /-- `tag.valid_range`, through `int_from_bits`. -/
  validRange : Int × Int

/-- `tag_int`, `/repo/tooling/minimize/src/enums.rs:104-107`. -/
def Niche.tagInt (n : Niche) (discr : Int) : Int :=
  n.tagTy.bringInBounds (discr - n.nicheVariants.1 + n.nicheStart)

/-- The variants of a niche enum, `/repo/tooling/minimize/src/enums.rs:103-139`. Each variant is given
with its index. -/
def Niche.variants (n : Niche) (vs : List (Nat × RustVariant)) : Variants :=
  vs.map fun v => (v.2.1, (v.2.2,
    if n.untagged ≠ v.1 then [(n.tagOffset, (n.tagTy, n.tagInt v.2.1))] else []))

/-- Discriminator children from the variants, `/repo/tooling/minimize/src/enums.rs:108-149`. -/
def Niche.variantChildren (n : Niche) (vs : List (Nat × RustVariant)) :
    List ((Int × Int) × Discriminator) :=
  vs.filterMap fun v =>
    let tag := n.tagInt v.2.1
    if n.untagged ≠ v.1 then some ((tag, tag + 1), .known v.2.1)
    else if n.nicheVariants.1 ≤ v.1 ∧ v.1 ≤ n.nicheVariants.2 then some ((tag, tag + 1), .invalid)
    else none

/-- Discriminator children for tags outside the valid range,
`/repo/tooling/minimize/src/enums.rs:164-196`. `-(2^(8s))/2` is the minimum of a signed type. -/
def Niche.rangeChildren (n : Niche) : List ((Int × Int) × Discriminator) :=
  let start := n.validRange.1
  let stop := n.validRange.2
  if start ≤ stop then
    let min := if n.tagTy.signed = .signed then -(2 ^ (8 * n.tagTy.size)) / 2 else 0
    let max := if n.tagTy.signed = .signed then 2 ^ (8 * n.tagTy.size) / 2 - 1
      else 2 ^ (8 * n.tagTy.size) - 1
    (if stop < max then [((stop + 1, max + 1), .invalid)] else []) ++
      (if min < start then [((min, start), .invalid)] else [])
  else if stop + 1 < start then [((stop + 1, start), .invalid)]
  else []

/-- The discriminator of a niche enum, `/repo/tooling/minimize/src/enums.rs:197-205`. -/
def Niche.discriminator (n : Niche) (vs : List (Nat × RustVariant)) : Discriminator :=
  .branch n.tagOffset n.tagTy (.known n.untagged) (n.variantChildren vs ++ n.rangeChildren)

/-- `Type::Enum` for niche tagging, `/repo/tooling/minimize/src/enums.rs:98-211`. -/
def Niche.enum (n : Niche) (discriminantTy : IntType) (vs : List (Nat × RustVariant)) (size : Nat)
    (align : Align) : Ty :=
  .enum (n.variants vs) discriminantTy (n.discriminator vs) size align

/-! ### The translation as a whole

The definitions above give the result of the loops for distinct discriminants; `translateEnum` below has the loops
themselves, including the overwriting insertions into maps. -/

/-- What rustc says about a variant: the bits of its discriminant
(`adt_def.discriminant_for_variant(..).val`) and its translated fields
(`translate_adt_variant_fields`, `/repo/tooling/minimize/src/ty.rs:266-297`). -/
structure RsVariant where
  discr : Nat
  fields : List (Nat × Ty)

/-- `rs::TagEncoding`, matched at `/repo/tooling/minimize/src/enums.rs:78-102`. -/
inductive RsTagEncoding
  | direct
  | niche (untagged : Nat) (nicheVariants : Nat × Nat) (nicheStart : Nat)

/-- `rs::Variants`, matched at `/repo/tooling/minimize/src/enums.rs:22-56`. The tag is given by its integer type and the
bits of its valid range. -/
inductive RsVariants
  | empty
  | single (index : Nat)
  | multiple (tagTy : IntType) (validRange : Nat × Nat) (encoding : RsTagEncoding) (tagOffset : Nat)

/-- The data `translate_enum` gets from rustc: `/repo/tooling/minimize/src/enums.rs:13-22`. -/
structure RsEnum where
  size : Nat
  align : Align
  discriminantTy : IntType
  variants : List RsVariant
  layout : RsVariants

/-- `build::tuple_ty`, `/repo/tooling/miniutil/src/build/ty.rs:63-69`. -/
def tupleTy (fields : List (Nat × Ty)) (size : Nat) (align : Align) : Ty := .tuple fields ⟨size, align, none⟩ none

/-- `int_from_bits`, `/repo/tooling/minimize/src/enums.rs:246-254`. rustc's `truncate` and `sign_extend` work on 128
bits and panic for larger sizes. -/
def intFromBits (bits : Nat) (ity : IntType) : Res Int := do
  rassert (decide (ity.size ≤ 16))
  .ok (ity.bringInBounds bits)

/-- The loop of `Variants::Single`, `/repo/tooling/minimize/src/enums.rs:33-47`. -/
def singleLoop (e : RsEnum) : List RsVariant → Variants → Res Variants
  | [], acc => .ok acc
  | v :: rest, acc => do
    let d ← intFromBits v.discr e.discriminantTy
    singleLoop e rest (Map.insert acc d (tupleTy v.fields e.size e.align, []))

/-- The loop of `Variants::Multiple` with `TagEncoding::Direct`, `/repo/tooling/minimize/src/enums.rs:67-97`. -/
def directLoop (e : RsEnum) (tagTy : IntType) (tagOffset : Nat) :
    List RsVariant → Variants → Map (Int × Int) Discriminator → Res (Variants × Map (Int × Int) Discriminator)
  | [], acc, branches => .ok (acc, branches)
  | v :: rest, acc, branches => do
    let d ← intFromBits v.discr e.discriminantTy
    directLoop e tagTy tagOffset rest
      (Map.insert acc d (tupleTy v.fields e.size e.align, [(tagOffset, (tagTy, d))]))
      (Map.insert branches (d, d + 1) (.known d))

/-- The loop of `Variants::Multiple` with `TagEncoding::Niche`, `/repo/tooling/minimize/src/enums.rs:67-151`;
`i` is the index of the first variant of the list. -/
def nicheLoop (e : RsEnum) (tagTy : IntType) (tagOffset untagged : Nat) (nicheVariants : Nat × Nat) (nicheStart : Nat) :
    Nat → List RsVariant → Variants → Map (Int × Int) Discriminator → Res (Variants × Map (Int × Int) Discriminator)
  | _, [], acc, branches => .ok (acc, branches)
  | i, v :: rest, acc, branches => do
    let _ ← intFromBits v.discr e.discriminantTy
    let d ← intFromBits v.discr tagTy
    let tag := tagTy.bringInBounds (d - (nicheVariants.1 : Int) + (nicheStart : Int))
    let ty := tupleTy v.fields e.size e.align
    if untagged ≠ i then
      nicheLoop e tagTy tagOffset untagged nicheVariants nicheStart (i + 1) rest
        (Map.insert acc d (ty, [(tagOffset, (tagTy, tag))])) (Map.insert branches (tag, tag + 1) (.known d))
    else
      nicheLoop e tagTy tagOffset untagged nicheVariants nicheStart (i + 1) rest (Map.insert acc d (ty, []))
        (if nicheVariants.1 ≤ i ∧ i ≤ nicheVariants.2 then Map.insert branches (tag, tag + 1) .invalid else branches)

/-- The branches for tags outside the valid range, `/repo/tooling/minimize/src/enums.rs:164-196`. -/
def insertRange (tagTy : IntType) (start stop : Int) (branches : Map (Int × Int) Discriminator) :
    Map (Int × Int) Discriminator :=
  if start ≤ stop then
    let min := if tagTy.signed = .signed then -(2 ^ (8 * tagTy.size)) / 2 else 0
    let max := if tagTy.signed = .signed then 2 ^ (8 * tagTy.size) / 2 - 1 else 2 ^ (8 * tagTy.size) - 1
    let branches := if stop < max then Map.insert branches (stop + 1, max + 1) .invalid else branches
    if min < start then Map.insert branches (min, start) .invalid else branches
  else if stop + 1 < start then Map.insert branches (stop + 1, start) .invalid
  else branches

/-- `translate_enum`, `/repo/tooling/minimize/src/enums.rs:6-212`. -/
def translateEnum (e : RsEnum) : Res Ty :=
  match e.layout with
  | .empty => do
    rassert e.variants.isEmpty
    .ok (.enum [] e.discriminantTy .invalid e.size e.align)
  | .single index => do
    let variants ← singleLoop e e.variants []
    let v ← MiniRust.index e.variants index
    let d ← intFromBits v.discr e.discriminantTy
    .ok (.enum variants e.discriminantTy (.known d) e.size e.align)
  | .multiple tagTy _ .direct tagOffset => do
    let (variants, branches) ← directLoop e tagTy tagOffset e.variants [] []
    .ok (.enum variants e.discriminantTy (.branch tagOffset tagTy .invalid branches) e.size e.align)
  | .multiple tagTy validRange (.niche untagged nicheVariants nicheStart) tagOffset => do
    let (variants, branches) ← nicheLoop e tagTy tagOffset untagged nicheVariants nicheStart 0 e.variants [] []
    let start ← intFromBits validRange.1 tagTy
    let stop ← intFromBits validRange.2 tagTy
    .ok (.enum variants e.discriminantTy
      (.branch tagOffset tagTy (.known untagged) (insertRange tagTy start stop branches)) e.size e.align)

/-- `discriminant_for_variant`, `/repo/tooling/minimize/src/enums.rs:227-243`. -/
def discriminantForVariant (e : RsEnum) (index : Nat) : Res Int := do
  let v ← MiniRust.index e.variants index
  intFromBits v.discr e.discriminantTy

end MiniRust
