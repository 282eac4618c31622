import Verif.WellFormedTypes
/-
Model of `/repo/tooling/minimize/src/chunks.rs`: computing the chunks of a union when Rust types are
translated to MiniRust types.

Simplifications: `try_to_usize().unwrap()` always succeeds (the host's `usize` is unbounded here);
`&mut [bool]` parameters become a list that is passed in and returned; the slice `&mut markers[offset..]`
is `markFrom`, which works on the tail of the list and puts it back.
-/
namespace MiniRust

/-- `f(&mut markers[offset..])`: slicing panics if `offset` is greater than the length.
Used at `/repo/tooling/minimize/src/chunks.rs:11, 53, 59, 68, 76, 99`. -/
def markFrom (offset : Nat) (f : List Bool → Res (List Bool)) (markers : List Bool) : Res (List Bool) :=
  if offset ≤ markers.length then do
    let tail ← f (markers.drop offset)
    .ok (markers.take offset ++ tail)
  else panic

/-- The loop of `mark_size`, `/repo/tooling/minimize/src/chunks.rs:88-91`, with `n` iterations left,
the next one for index `i`. Indexing panics out of bounds. -/
def markLoop : Nat → Nat → List Bool → Res (List Bool)
  | 0, _, markers => .ok markers
  | n + 1, i, markers =>
    if i < markers.length then markLoop n (i + 1) (markers.set i true) else panic

/-- `mark_size`, `/repo/tooling/minimize/src/chunks.rs:87-92`. -/
def markSize (size : Nat) (markers : List Bool) : Res (List Bool) := markLoop size 0 markers

mutual
/-- `mark_discriminator`, `/repo/tooling/minimize/src/chunks.rs:94-107`. -/
def markDiscriminator : Discriminator → List Bool → Res (List Bool)
  | .known _, markers => .ok markers
  | .invalid, markers => .ok markers
  | .branch offset vt fallback children, markers => do
    let markers ← markFrom offset (markSize vt.size) markers
    let markers ← markDiscriminator fallback markers
    markChildren children markers
/-- The loop over `children.values()`, `/repo/tooling/minimize/src/chunks.rs:102-104`. -/
def markChildren : List ((Int × Int) × Discriminator) → List Bool → Res (List Bool)
  | [], markers => .ok markers
  | (_, d) :: rest, markers => do markChildren rest (← markDiscriminator d markers)
end

/-- The chunk loop at `Type::Union`, `/repo/tooling/minimize/src/chunks.rs:57-60`. -/
def markChunks : List (Nat × Nat) → List Bool → Res (List Bool)
  | [], markers => .ok markers
  | (offset, len) :: rest, markers => do markChunks rest (← markFrom offset (markSize len) markers)

/-- The loop over a tagger, `/repo/tooling/minimize/src/chunks.rs:74-77`. -/
def markTagger : Tagger → List Bool → Res (List Bool)
  | [], markers => .ok markers
  | (offset, (ity, _)) :: rest, markers => do
    markTagger rest (← markFrom offset (markSize ity.size) markers)

/-- The loop at `Type::Array`, `/repo/tooling/minimize/src/chunks.rs:63-69`: `n` iterations left, the
next one for element `i`. The element size is computed in each iteration. -/
def markElems (size : Res Nat) (f : List Bool → Res (List Bool)) :
    Nat → Nat → List Bool → Res (List Bool)
  | 0, _, markers => .ok markers
  | n + 1, i, markers => do
    let s ← size
    markElems size f n (i + 1) (← markFrom (i * s) f markers)

mutual
/-- `mark_used_bytes`, `/repo/tooling/minimize/src/chunks.rs:44-84`. -/
def markUsedBytes [T : Target] : Ty → List Bool → Res (List Bool)
  | .int i, markers => markSize i.size markers
  | .bool, markers => markSize 1 markers
  | .ptr _, markers => markSize T.ptrSize markers
  | .tuple _ _ (some _), _ => panic
  | .tuple fields _ none, markers => markFields fields markers
  | .union _ chunks _ _, markers => markChunks chunks markers
  | .array elem count, markers =>
    markElems elem.size (fun m => markUsedBytes elem m) count.toNat 0 markers
  | .enum variants _ discriminator _ _, markers => do
    markDiscriminator discriminator (← markVariants variants markers)
  | .slice _, _ => panic
  | .traitObject _, _ => panic
/-- The field loops at `/repo/tooling/minimize/src/chunks.rs:9-12` and `:51-54`. -/
def markFields [Target] : List (Nat × Ty) → List Bool → Res (List Bool)
  | [], markers => .ok markers
  | (offset, ty) :: rest, markers => do
    markFields rest (← markFrom offset (fun m => markUsedBytes ty m) markers)
/-- The variant loop at `/repo/tooling/minimize/src/chunks.rs:72-78`. -/
def markVariants [Target] : List (Int × (Ty × Tagger)) → List Bool → Res (List Bool)
  | [], markers => .ok markers
  | (_, (ty, tagger)) :: rest, markers => do
    let markers ← markUsedBytes ty markers
    markVariants rest (← markTagger tagger markers)
end

/-- The scanning loop of `calc_chunks`, `/repo/tooling/minimize/src/chunks.rs:21-34`: `i` is the index of
the first marker of the list, `current` is `current_chunk_start`. -/
def scanChunks : List Bool → Nat → Option Nat → List (Nat × Nat)
  | [], _, _ => []
  | true :: rest, i, none => scanChunks rest (i + 1) (some i)
  | false :: rest, i, some s => (s, i - s) :: scanChunks rest (i + 1) none
  | _ :: rest, i, current => scanChunks rest (i + 1) current

/-- `calc_chunks`, `/repo/tooling/minimize/src/chunks.rs:6-37`. -/
def calcChunks [Target] (fields : List (Nat × Ty)) (size : Nat) : Res (List (Nat × Nat)) := do
  let markers ← markFields fields (List.replicate size false)
  .ok (scanChunks (markers ++ [false]) 0 none)

end MiniRust
