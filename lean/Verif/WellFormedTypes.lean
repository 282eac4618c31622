import Verif.Representation
import Verif.Syntax
import Mathlib.Data.List.Sort
/-
Model of the type part of `/repo/spec/lang/well-formed.md` (lines 18-287).
-/
namespace MiniRust

/-- `IntType::check_wf`, `/repo/spec/lang/well-formed.md:22-25`. -/
def IntType.checkWf (i : IntType) : Res Unit := ensureWf (isPowerOfTwo i.size)

/-- The order of alignments (`Align` derives `PartialOrd`). -/
def Align.ble (a b : Align) : Bool := decide (a.log ≤ b.log)

/-- `TupleHeadLayout::check_wf`, `/repo/spec/lang/well-formed.md:29-35`. -/
def TupleHeadLayout.checkWf [T : Target] (h : TupleHeadLayout) : Res Unit := do
  ensureWf (T.validSize h.end)
  match h.packedAlign with
  | some packed => ensureWf (h.align.ble packed)
  | none => .ok ()

/-- `LayoutStrategy::check_wf`, `/repo/spec/lang/well-formed.md:40-60`. Of the program only the
declared traits are used. -/
def LayoutStrategy.checkWf [T : Target] (prog : Program) : LayoutStrategy → Res Unit
  | .sized size _ => ensureWf (T.validSize size)
  | .slice size _ => ensureWf (T.validSize size)
  | .traitObject t => ensureWf (prog.traits.contains t)
  | .tuple head tail => do
    head.checkWf
    tail.checkWf prog
    ensureWf (!tail.isSized)

/-- `LayoutStrategy::check_aligned`, `/repo/spec/lang/well-formed.md:62-77`. -/
def LayoutStrategy.checkAligned : LayoutStrategy → Res Unit
  | .sized size align => ensureWf (size % align.bytes == 0)
  | .slice size align => ensureWf (size % align.bytes == 0)
  | .traitObject _ => .ok ()
  | .tuple _ tail => tail.checkAligned

/-- The loop shared by `UnsafeCellStrategy::check_cells` (`/repo/spec/lang/well-formed.md:82-86`) and
the chunk check of unions (`:204-211`): ranges must be ascending and disjoint.
Returns the end of the last range. -/
def checkRanges : List (Nat × Nat) → Nat → Res Nat
  | [], lastEnd => .ok lastEnd
  | (start, size) :: rest, lastEnd => do
    ensureWf (decide (start ≥ lastEnd))
    checkRanges rest (start + size)

/-- `UnsafeCellStrategy::check_cells`, `/repo/spec/lang/well-formed.md:81-89`. -/
def checkCells (cells : List (Nat × Nat)) (size : Nat) : Res Unit := do
  let lastEnd ← checkRanges cells 0
  ensureWf (decide (lastEnd ≤ size))

/-- `UnsafeCellStrategy::check_wf`, `/repo/spec/lang/well-formed.md:91-109`. -/
def UnsafeCellStrategy.checkWf : UnsafeCellStrategy → LayoutStrategy → Res Unit
  | .sized cells, .sized size _ => checkCells cells size
  | .slice cells, .slice size _ => checkCells cells size
  | .traitObject, .traitObject _ => .ok ()
  | .tuple headCells tailCells, .tuple head tail => do
    checkCells headCells head.end
    tailCells.checkWf tail
  | _, _ => .error .illFormed

/-- `PointeeInfo::check_wf`, `/repo/spec/lang/well-formed.md:113-119`. -/
def PointeeInfo.checkWf [Target] (prog : Program) (p : PointeeInfo) : Res Unit := do
  p.layout.checkWf prog
  p.unsafeCells.checkWf p.layout

/-- `PtrType::check_wf`, `/repo/spec/lang/well-formed.md:123-135`. -/
def PtrType.checkWf [Target] (prog : Program) : PtrType → Res Unit
  | .ref _ p => p.checkWf prog
  | .box p => p.checkWf prog
  | .raw _ => .ok ()
  | .fnPtr => .ok ()
  | .vtablePtr t => ensureWf (prog.traits.contains t)

/-- The tagger loop of `Type::check_wf`, `/repo/spec/lang/well-formed.md:232-236`. -/
def checkTagger (size : Nat) : Tagger → Res Unit
  | [] => .ok ()
  | (offset, (vt, value)) :: rest => do
    vt.checkWf
    ensureWf (vt.canRepresent value)
    ensureWf (decide (offset + vt.size ≤ size))
    checkTagger size rest

mutual
/-- `Discriminator::check_wf`, `/repo/spec/lang/well-formed.md:263-285`. Of the variants only
the set of discriminants (`has`) is used. -/
def Discriminator.checkWf (size : Nat) (has : Int → Bool) : Discriminator → Res Unit
  | .known d => ensureWf (has d)
  | .invalid => .ok ()
  | .branch offset vt fallback children => do
    vt.checkWf
    ensureWf (decide (offset + vt.size ≤ size))
    fallback.checkWf size has
    Discriminator.checkChildren size has vt (children.map (·.1)) children 0
/-- The loop over the children of a branch, `/repo/spec/lang/well-formed.md:272-281`;
`keys` are the ranges of all children, `idx` the index of the current one. -/
def Discriminator.checkChildren (size : Nat) (has : Int → Bool) (vt : IntType)
    (keys : List (Int × Int)) : List ((Int × Int) × Discriminator) → Nat → Res Unit
  | [], _ => .ok ()
  | ((start, stop), d) :: rest, idx => do
    ensureWf (vt.canRepresent start)
    ensureWf (vt.canRepresent (stop - 1))
    ensureWf (decide (start < stop))
    ensureWf (keys.zipIdx.all fun ((otherStart, otherEnd), otherIdx) =>
      decide (otherEnd ≤ start ∨ otherStart ≥ stop ∨ idx = otherIdx))
    d.checkWf size has
    Discriminator.checkChildren size has vt keys rest (idx + 1)
end

/-- The per-field checks of the tuple loop, `/repo/spec/lang/well-formed.md:155-162`, on fields
already sorted by offset. Each field is given by its offset, the result of checking its type
(`ty.check_wf(prog)`, evaluated first in the loop body), and its layout (evaluated next).
Returns the end of the last field. -/
def checkSortedFields : List (Nat × (Res Unit × Res LayoutStrategy)) → Nat → Res Nat
  | [], lastEnd => .ok lastEnd
  | (offset, (wf, layout)) :: rest, lastEnd => do
    wf
    ensureWf (decide (offset ≥ lastEnd))
    let l ← layout
    ensureWf l.isSized
    checkSortedFields rest (offset + (← l.expectSize))

/-- `sized_fields.sort_by_key(|(offset, _ty)| offset)`, `/repo/spec/lang/well-formed.md:153`
(a stable sort). -/
def sortByOffset {α : Type} (l : List (Nat × α)) : List (Nat × α) :=
  l.insertionSort fun a b => a.1 ≤ b.1

/-- The end of `Type::check_wf`, `/repo/spec/lang/well-formed.md:252-256`: the layout must be valid
and aligned, and the metadata kinds must agree (asserted). -/
def checkLayout [Target] (prog : Program) (ty : Ty) : Res Unit := do
  let layout ← ty.layout
  layout.checkWf prog
  layout.checkAligned
  rassert (layout.metaKind == ty.metaKind)

mutual
/-- `Type::check_wf`, `/repo/spec/lang/well-formed.md:139-259`. -/
def Ty.checkWf [Target] (prog : Program) : Ty → Res Unit
  | .int i => do
    i.checkWf
    checkLayout prog (.int i)
  | .bool => checkLayout prog .bool
  | .ptr p => do
    p.checkWf prog
    checkLayout prog (.ptr p)
  | .tuple fields head none => do
    let lastEnd ← checkSortedFields (sortByOffset (Ty.fieldChecks prog fields)) 0
    head.checkWf
    ensureWf (decide (head.end ≥ lastEnd))
    ensureWf head.packedAlign.isNone
    checkLayout prog (.tuple fields head none)
  | .tuple fields head (some tail) => do
    let lastEnd ← checkSortedFields (sortByOffset (Ty.fieldChecks prog fields)) 0
    tail.checkWf prog
    ensureWf (!(← tail.layout).isSized)
    head.checkWf
    ensureWf (decide (head.end ≥ lastEnd))
    checkLayout prog (.tuple fields head (some tail))
  | .array elem count => do
    ensureWf (decide (count ≥ 0))
    ensureWf (← elem.layout).isSized
    elem.checkWf prog
    checkLayout prog (.array elem count)
  | .slice elem => do
    ensureWf (← elem.layout).isSized
    elem.checkWf prog
    checkLayout prog (.slice elem)
  | .union fields chunks size align => do
    Ty.checkUnionFields prog size fields
    let lastEnd ← checkRanges chunks 0
    ensureWf (decide (size ≥ lastEnd))
    checkLayout prog (.union fields chunks size align)
  | .enum variants discriminantTy discriminator size align => do
    Ty.checkVariants prog discriminantTy size align variants
    discriminator.checkWf size fun d => (Map.get? variants d).isSome
    checkLayout prog (.enum variants discriminantTy discriminator size align)
  | .traitObject t => do
    ensureWf (prog.traits.contains t)
    checkLayout prog (.traitObject t)
/-- For each field its offset, the result of checking its type, and its layout; these are the
(pure) sub-computations of the loop at `/repo/spec/lang/well-formed.md:155-162`. -/
def Ty.fieldChecks [Target] (prog : Program) :
    List (Nat × Ty) → List (Nat × (Res Unit × Res LayoutStrategy))
  | [] => []
  | (off, ty) :: rest => (off, (ty.checkWf prog, ty.layout)) :: Ty.fieldChecks prog rest
/-- The field loop for unions, `/repo/spec/lang/well-formed.md:188-201`. -/
def Ty.checkUnionFields [Target] (prog : Program) (size : Nat) : List (Nat × Ty) → Res Unit
  | [] => .ok ()
  | (off, ty) :: rest => do
    ty.checkWf prog
    let l ← ty.layout
    ensureWf l.isSized
    ensureWf (decide (size ≥ off + (← l.expectSize)))
    Ty.checkUnionFields prog size rest
/-- The variant loop for enums, `/repo/spec/lang/well-formed.md:220-238`. -/
def Ty.checkVariants [Target] (prog : Program) (discriminantTy : IntType) (size : Nat) (align : Align) :
    List (Int × (Ty × Tagger)) → Res Unit
  | [] => .ok ()
  | (d, (ty, tagger)) :: rest => do
    ensureWf (discriminantTy.canRepresent d)
    ty.checkWf prog
    match ← ty.layout with
    | .sized varSize varAlign =>
      ensureWf (varSize == size)
      ensureWf (varAlign.ble align)
      checkTagger size tagger
      Ty.checkVariants prog discriminantTy size align rest
    | _ => .error .illFormed
end

end MiniRust
