import Verif.Enums
import Verif.WellFormedTypes
import Verif.Spec.Representation
/-
What rustc guarantees about the layout of an enum. Used to state the properties of the translation of enums.
-/
namespace MiniRust
variable {P : Type} [DecidableEq P]

/-- The discriminant of a variant: the integer that its bits stand for in the discriminant type. -/
def RsEnum.discr (e : RsEnum) (v : RsVariant) : Int := e.discriminantTy.bringInBounds v.discr

/-- The translated type of a variant. -/
def RsEnum.variantTy (e : RsEnum) (v : RsVariant) : Ty := tupleTy v.fields e.size e.align

/-- What holds of the layout of every enum. -/
structure RsEnum.Laid [T : Target] (prog : Program) (e : RsEnum) : Prop where
  size_valid : T.validSize e.size = true
  aligned : e.align.bytes ∣ e.size
  /-- The discriminant type has at most 128 bits. -/
  discriminant_size : e.discriminantTy.size ≤ 16
  /-- Each variant, laid out in the size of the enum, is a well-formed type. -/
  variants_wf : ∀ v ∈ e.variants, (e.variantTy v).checkWf prog = .ok ()
  /-- Discriminants are distinct. -/
  distinct : (e.variants.map e.discr).Nodup

/-- What holds of a tag. -/
structure RsEnum.Tag (e : RsEnum) (tagTy : IntType) (tagOffset : Nat) : Prop where
  power : isPowerOfTwo tagTy.size = true
  size : tagTy.size ≤ 16
  inside : tagOffset + tagTy.size ≤ e.size

/-- Direct tagging: every variant leaves room for the tag, which can hold every discriminant. -/
structure RsEnum.DirectLayout [T : Target] (prog : Program) (e : RsEnum) (tagTy : IntType) (tagOffset : Nat) : Prop
    extends e.Laid prog, e.Tag tagTy tagOffset where
  fits : ∀ v ∈ e.variants, tagTy.canRepresent (e.discr v) = true
  apart : ∀ v ∈ e.variants, ∀ i, tagOffset ≤ i → i < tagOffset + tagTy.size → ¬ UsesByte (e.variantTy v) i

/-- `WrappingRange::contains` of rustc: `t` is reached when counting from `lo` up to `hi`, possibly wrapping around. -/
def WrapContains (size lo hi : Nat) (t : Int) : Prop :=
  (t - lo) % 2 ^ (8 * size) ≤ ((hi : Int) - lo) % 2 ^ (8 * size)

/-- The tag rustc uses for the variant with index `i`: count up from `nicheStart`, which is the tag of the first
variant of the niche. -/
def nicheTag (tagTy : IntType) (first nicheStart i : Nat) : Int :=
  tagTy.bringInBounds ((i : Int) - first + nicheStart)

/-- Niche tagging. One variant, `untagged`, has no tag. The tags are values its data cannot have. -/
structure RsEnum.NicheLayout [T : Target] (prog : Program) (env : ValEnv P) (e : RsEnum) (tagTy : IntType)
    (valid : Nat × Nat) (untagged first last nicheStart tagOffset : Nat) : Prop
    extends e.Laid prog, e.Tag tagTy tagOffset where
  /-- Niches are only used if discriminants are not given explicitly, so they are the indices of the variants. -/
  discr_eq : ∀ (i : Nat) v, e.variants[i]? = some v → v.discr = i
  /-- The indices fit the discriminant type and the tag type. -/
  index_fits : ∀ (i : Nat), i < e.variants.length →
    e.discriminantTy.canRepresent i = true ∧ tagTy.canRepresent i = true
  untagged_exists : untagged < e.variants.length
  /-- All other variants are in the range of niche variants. -/
  in_niche : ∀ i, i < e.variants.length → i ≠ untagged → first ≤ i ∧ i ≤ last
  /-- The tags of the niche variants are distinct. -/
  niche_size : (last : Int) - first < 2 ^ (8 * tagTy.size)
  /-- The tags of the niche variants are in the valid range of the tag. -/
  tags_valid : ∀ i, first ≤ i → i ≤ last → WrapContains tagTy.size valid.1 valid.2 (nicheTag tagTy first nicheStart i)
  /-- The data of the other variants leaves room for the tag. -/
  apart : ∀ (i : Nat) v, e.variants[i]? = some v → i ≠ untagged →
    ∀ k, tagOffset ≤ k → k < tagOffset + tagTy.size → ¬ UsesByte (e.variantTy v) k
  /-- Valid data of the untagged variant has at the place of the tag a value of the valid range that is the tag of no
  niche variant. -/
  niche : ∀ v, e.variants[untagged]? = some v → ∀ data, checkValue env (e.variantTy v) data = .ok () →
    ∀ bytes, encode (e.variantTy v) data = .ok bytes → ∃ tag val,
      subslice bytes tagOffset tagTy.size = .ok tag ∧ decodeInt tagTy tag = .ok val ∧
      WrapContains tagTy.size valid.1 valid.2 val ∧ ∀ i, first ≤ i → i ≤ last → val ≠ nicheTag tagTy first nicheStart i

/-- A single inhabited variant: the others have no valid values. -/
structure RsEnum.SingleLayout [T : Target] (prog : Program) (env : ValEnv P) (e : RsEnum) (index : Nat) : Prop
    extends e.Laid prog where
  index_exists : index < e.variants.length
  uninhabited : ∀ (i : Nat) v, e.variants[i]? = some v → i ≠ index → ∀ data, checkValue env (e.variantTy v) data ≠ .ok ()

/-- Values of the type survive being stored and loaded, and bytes survive being loaded and stored
(up to bytes that become less defined). -/
def RoundTrips [Target] (env : ValEnv P) (ty : Ty) : Prop :=
  (∀ v : Value P, checkValue env ty v = .ok () → (encode ty v >>= fun bytes => decode ty bytes) = .ok v) ∧
  ∀ (bytes : List (AByte P)) v, decode ty bytes = .ok v → ∃ bytes', encode ty v = .ok bytes' ∧ BytesLe bytes' bytes

/-- `ty` is a good translation of the enum: it is well-formed, has the size and alignment of the enum, and has exactly
the variants of the enum, each under the discriminant that the rest of the translation uses for it. -/
structure RsEnum.TranslatedTo [T : Target] (prog : Program) (e : RsEnum) (ty : Ty) : Prop where
  wf : ty.checkWf prog = .ok ()
  layout : ty.layout = .ok (.sized e.size e.align)
  variants : ∃ vs disc, ty = .enum vs e.discriminantTy disc e.size e.align ∧
    (∀ (i : Nat) v, e.variants[i]? = some v → ∃ d tagger, discriminantForVariant e i = .ok d ∧
      Map.get? vs d = some (e.variantTy v, tagger)) ∧
    ∀ x ∈ vs, ∃ i, i < e.variants.length ∧ discriminantForVariant e i = .ok x.1

end MiniRust
