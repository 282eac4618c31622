import Verif.WellFormedTypes
import Verif.TreeBorrows
/-
How miniutil builds MiniRust types, and converts Rust types to them (`/repo/tooling/miniutil/src/build/ty.rs`,
`/repo/tooling/miniutil/src/build/ty_conv.rs`).
-/
namespace MiniRust

/-- `ref_ty`, `/repo/tooling/miniutil/src/build/ty.rs:11-13`. -/
def refTyOf (pointee : PointeeInfo) : Ty := .ptr (.ref .imm pointee)

/-- `ref_mut_ty`, `/repo/tooling/miniutil/src/build/ty.rs:38-40`. -/
def refMutTyOf (pointee : PointeeInfo) : Ty := .ptr (.ref .mut pointee)

/-- `from_frozen_layout`, `/repo/tooling/miniutil/src/build/ty.rs:16-27`. -/
def fromFrozenLayout : LayoutStrategy → UnsafeCellStrategy
  | .sized .. => .sized []
  | .slice .. => .slice []
  | .traitObject _ => .traitObject
  | .tuple _ tail => .tuple [] (fromFrozenLayout tail)

/-- `ref_ty_default_markers_for`, `/repo/tooling/miniutil/src/build/ty.rs:31-36`. -/
def refTyDefaultMarkersFor [Target] (ty : Ty) : Res Ty := do
  let layout ← ty.layout
  let unsafeCells := fromFrozenLayout layout
  .ok (refTyOf ⟨layout, true, unsafeCells, true, true⟩)

/-- `ref_mut_ty_default_markers_for`, `/repo/tooling/miniutil/src/build/ty.rs:44-49`. -/
def refMutTyDefaultMarkersFor [Target] (ty : Ty) : Res Ty := do
  let layout ← ty.layout
  let unsafeCells := fromFrozenLayout layout
  .ok (refMutTyOf ⟨layout, true, unsafeCells, true, true⟩)

/-- The Rust types that implement `TypeConv`, `/repo/tooling/miniutil/src/build/ty_conv.rs:30-124`. -/
inductive ConvTy
  | u8 | u16 | u32 | u64 | u128 | i8 | i16 | i32 | i64 | i128 | usize | isize | bool | unit
  | constPtr (t : ConvTy)
  | mutPtr (t : ConvTy)
  | ref (t : ConvTy)
  | refMut (t : ConvTy)
  | array (t : ConvTy) (n : Nat)
  | slice (t : ConvTy)
  deriving DecidableEq, Repr

namespace ConvTy

/-- `TypeConv::FREEZE`, `/repo/tooling/miniutil/src/build/ty_conv.rs:26`; no implementation overrides it. -/
def freeze (_ : ConvTy) : Bool := true
/-- `TypeConv::UNPIN`, `/repo/tooling/miniutil/src/build/ty_conv.rs:27`; no implementation overrides it. -/
def unpin (_ : ConvTy) : Bool := true

/-- `TypeConv::get_type`, `/repo/tooling/miniutil/src/build/ty_conv.rs:30-124`. The target is the one of
`DefaultTarget` in the code and any here. -/
def getType [T : Target] : ConvTy → Res Ty
  | u8 => .ok (.int ⟨.unsigned, 1⟩)
  | u16 => .ok (.int ⟨.unsigned, 2⟩)
  | u32 => .ok (.int ⟨.unsigned, 4⟩)
  | u64 => .ok (.int ⟨.unsigned, 8⟩)
  | u128 => .ok (.int ⟨.unsigned, 16⟩)
  | i8 => .ok (.int ⟨.signed, 1⟩)
  | i16 => .ok (.int ⟨.signed, 2⟩)
  | i32 => .ok (.int ⟨.signed, 4⟩)
  | i64 => .ok (.int ⟨.signed, 8⟩)
  | i128 => .ok (.int ⟨.signed, 16⟩)
  | usize => .ok (.int ⟨.unsigned, T.ptrSize⟩)
  | isize => .ok (.int ⟨.signed, T.ptrSize⟩)
  | bool => .ok .bool
  | unit => .ok (.tuple [] ⟨0, Align.one, none⟩ none)
  | constPtr t => do .ok (.ptr (.raw (← t.getType).metaKind))
  | mutPtr t => do .ok (.ptr (.raw (← t.getType).metaKind))
  | ref t => do
    rassert t.freeze
    let layout ← (← t.getType).layout
    let unsafeCells := fromFrozenLayout layout
    .ok (refTyOf ⟨layout, true, unsafeCells, t.freeze, t.unpin⟩)
  | refMut t => do
    let layout ← (← t.getType).layout
    let unsafeCells := fromFrozenLayout layout
    .ok (refMutTyOf ⟨layout, true, unsafeCells, t.freeze, t.unpin⟩)
  | array t n => do .ok (.array (← t.getType) n)
  | slice t => do .ok (.slice (← t.getType))

/-- `TypeConv::get_layout`, `/repo/tooling/miniutil/src/build/ty_conv.rs:11-13`. -/
def getLayout [Target] (t : ConvTy) : Res LayoutStrategy := do (← t.getType).layout
/-- `TypeConv::get_size`, `/repo/tooling/miniutil/src/build/ty_conv.rs:14-19`. -/
def getSize [Target] (t : ConvTy) : Res Nat := do (← t.getLayout).expectSize
/-- `TypeConv::get_align`, `/repo/tooling/miniutil/src/build/ty_conv.rs:20-25`. -/
def getAlign [Target] (t : ConvTy) : Res Align := do (← t.getLayout).expectAlign

end ConvTy

/-- `global_int`, `/repo/tooling/miniutil/src/build/global.rs:15-19`. -/
def globalInt [Target] (t : ConvTy) : Res Global := do
  .ok ⟨List.replicate (← t.getSize) (some 0), [], ← t.getAlign⟩

/-- `global_ptr`, `/repo/tooling/miniutil/src/build/global.rs:22-27`. -/
def globalPtr [Target] (t : ConvTy) : Res Global := do
  .ok ⟨List.replicate (← (← (ConvTy.constPtr t).getLayout).expectSize) (some 0), [], ← (ConvTy.constPtr t).getAlign⟩

end MiniRust
