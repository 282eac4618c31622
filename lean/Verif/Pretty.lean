import Verif.Run
import Verif.Representation
import Mathlib.Data.List.Sort
/-
The pretty printer: `/repo/tooling/miniutil/src/pretty/*.rs`. Texts are lists of characters.
-/
namespace MiniRust

abbrev Text := List Char

/-- `format!` of a template without arguments. -/
def lit (s : String) : Text := s.toList

/-- `join(sep)`. -/
def joinText (sep : Text) : List Text → Text
  | [] => []
  | [t] => t
  | t :: ts => t ++ sep ++ joinText sep ts

/-- The parameter `comptypes` that the functions share: the composite types found so far. Panics are errors. -/
abbrev PM := StateT (List Ty) (Except Err)

/-- `panic!`. -/
def PM.panic {α : Type} : PM α := fun _ => .error .panic

/-- `FmtExpr`, `/repo/tooling/miniutil/src/pretty/expr.rs:5-13`. -/
inductive FmtExpr
  | nonAtomic (s : Text)
  | atomic (s : Text)
  deriving DecidableEq

/-- `FmtExpr::to_string`, `/repo/tooling/miniutil/src/pretty/expr.rs:18-23`. -/
def FmtExpr.toText : FmtExpr → Text
  | .nonAtomic s => s
  | .atomic s => s

/-- `FmtExpr::to_atomic_string`, `/repo/tooling/miniutil/src/pretty/expr.rs:27-33`. -/
def FmtExpr.toAtomic : FmtExpr → Text
  | .nonAtomic s => lit "(" ++ s ++ lit ")"
  | .atomic s => s

/-! ### Names -/

/-- `fmt_local_name`, `/repo/tooling/miniutil/src/pretty/expr.rs:68-71`. -/
def fmtLocalName (l : LocalName) : Text := lit "_" ++ natText l
/-- `fmt_global_name`, `/repo/tooling/miniutil/src/pretty/expr.rs:73-76`. -/
def fmtGlobalName (g : GlobalName) : Text := lit "global(" ++ natText g ++ lit ")"
/-- `fmt_bb_name`, `/repo/tooling/miniutil/src/pretty/function.rs:281-284`. -/
def fmtBbName (b : BbName) : Text := lit "bb" ++ natText b
/-- `fmt_fn_name`, `/repo/tooling/miniutil/src/pretty/function.rs:295-298`. -/
def fmtFnName (f : FnName) : Text := lit "f" ++ natText f
/-- `fmt_vtable_name`, `/repo/tooling/miniutil/src/pretty/vtables.rs:18-20`. -/
def fmtVTableName (v : VTableName) : Text := lit "vtable" ++ natText v
/-- `fmt_trait_name`, `/repo/tooling/miniutil/src/pretty/vtables.rs:53-55`. -/
def fmtTraitName (t : TraitName) : Text := lit "trait" ++ natText t
/-- `fmt_trait_method_name`, `/repo/tooling/miniutil/src/pretty/vtables.rs:71-73`. -/
def fmtTraitMethodName (m : TraitMethodName) : Text := lit "m" ++ natText m

/-! ### Types -/

/-- `fmt_int_type`, `/repo/tooling/miniutil/src/pretty/ty.rs:27-35`. -/
def fmtIntType (i : IntType) : Text :=
  (match i.signed with | .signed => lit "i" | .unsigned => lit "u") ++ natText (i.size * 8)

/-- `fmt_meta_kind`, `/repo/tooling/miniutil/src/pretty/ty.rs:60-67`. -/
def fmtMetaKind : MetaKind → Text
  | .none => lit "thin"
  | .elementCount => lit "meta=len"
  | .vtablePointer t => lit "meta=vtable<" ++ fmtTraitName t ++ lit ">"

/-- `fmt_layout_strategy`, `/repo/tooling/miniutil/src/pretty/ty.rs:69-91`. -/
def fmtLayoutStrategy : LayoutStrategy → Text
  | .sized size align => lit "size=" ++ natText size ++ lit ", align=" ++ natText align.bytes
  | .slice size align => lit "size=" ++ natText size ++ lit "*len, align=" ++ natText align.bytes
  | .traitObject _ => lit "size,align={unknown}"
  | .tuple head tail =>
    lit "head=(end=" ++ natText head.end ++ lit ", align=" ++ natText head.align.bytes ++ lit ")" ++
      (match head.packedAlign with | some packed => lit ", packed=" ++ natText packed.bytes | none => []) ++
      lit ", tail=(" ++ fmtLayoutStrategy tail ++ lit ")"

/-- `fmt_pointee_info`, `/repo/tooling/miniutil/src/pretty/ty.rs:93-109`. -/
def fmtPointeeInfo (p : PointeeInfo) : Text :=
  lit "pointee_info(" ++ fmtMetaKind p.layout.metaKind ++ lit ", " ++ fmtLayoutStrategy p.layout ++
    (if p.inhabited then [] else lit ", uninhabited") ++ (if p.freeze then [] else lit ", !Freeze") ++
    (if p.unpin then [] else lit ", !Unpin") ++ lit ")"

/-- `fmt_ptr_type`, `/repo/tooling/miniutil/src/pretty/ty.rs:37-58`. -/
def fmtPtrType : PtrType → FmtExpr
  | .ref .mut pointee => .nonAtomic (lit "&mut " ++ fmtPointeeInfo pointee)
  | .ref .imm pointee => .nonAtomic (lit "&" ++ fmtPointeeInfo pointee)
  | .box pointee => .atomic (lit "Box<" ++ fmtPointeeInfo pointee ++ lit ">")
  | .raw metaKind => .nonAtomic (lit "*raw(" ++ fmtMetaKind metaKind ++ lit ")")
  | .fnPtr => .atomic (lit "fn()")
  | .vtablePtr _ => .atomic (lit "{vtable}")

/-- `get_comptype_index`, `/repo/tooling/miniutil/src/pretty/ty.rs:128-139`. -/
def getComptypeIndex (ty : Ty) : PM Nat := fun comptypes =>
  if ty ∈ comptypes then .ok (comptypes.idxOf ty, comptypes) else .ok (comptypes.length, comptypes ++ [ty])

/-- `fmt_comptype_index`, `/repo/tooling/miniutil/src/pretty/ty.rs:141-144`. -/
def fmtComptypeIndex (i : Nat) : Text := lit "T" ++ natText i

/-- `fmt_type`, `/repo/tooling/miniutil/src/pretty/ty.rs:3-25`. -/
def fmtType : Ty → PM FmtExpr
  | .int i => pure (.atomic (fmtIntType i))
  | .ptr p => pure (fmtPtrType p)
  | .bool => pure (.atomic (lit "bool"))
  | .tuple sizedFields head unsizedField => do
    let i ← getComptypeIndex (.tuple sizedFields head unsizedField)
    return .atomic (fmtComptypeIndex i)
  | .union fields chunks size align => do
    let i ← getComptypeIndex (.union fields chunks size align)
    return .atomic (fmtComptypeIndex i)
  | .enum variants discriminantTy discriminator size align => do
    let i ← getComptypeIndex (.enum variants discriminantTy discriminator size align)
    return .atomic (fmtComptypeIndex i)
  | .array elem count => do
    let elem ← fmtType elem
    return .atomic (lit "[" ++ elem.toText ++ lit "; " ++ intText count ++ lit "]")
  | .slice elem => do
    let elem ← fmtType elem
    return .atomic (lit "[" ++ elem.toText ++ lit "]")
  | .traitObject t => pure (.atomic (lit "dyn " ++ fmtTraitName t))

/-- `fmt_comptype_fields`, `/repo/tooling/miniutil/src/pretty/ty.rs:202-210`. -/
def fmtComptypeFields : List (Nat × Ty) → PM Text
  | [] => pure []
  | (offset, f) :: fields => do
    let ty ← fmtType f
    let rest ← fmtComptypeFields fields
    return lit "  at byte " ++ natText offset ++ lit ": " ++ ty.toText ++ lit ",\n" ++ rest

/-- The loop over variants, `/repo/tooling/miniutil/src/pretty/ty.rs:191-194`. -/
def fmtComptypeVariants : Variants → PM Text
  | [] => pure []
  | (discriminant, (t, _)) :: variants => do
    let ty ← fmtType t
    let rest ← fmtComptypeVariants variants
    return lit "  Variant " ++ intText discriminant ++ lit ": " ++ ty.toText ++ lit "\n" ++ rest

/-- `fmt_comptype_chunks`, `/repo/tooling/miniutil/src/pretty/ty.rs:212-220`. -/
def fmtComptypeChunks (chunks : List (Nat × Nat)) : Text :=
  chunks.flatMap fun c => lit "  chunk(at=" ++ natText c.1 ++ lit ", size=" ++ natText c.2 ++ lit "),\n"

section
variable [Target]

/-- `fmt_comptype`, `/repo/tooling/miniutil/src/pretty/ty.rs:166-200`. -/
def fmtComptype (i : Nat) (t : Ty) : PM Text := do
  let keyword ← match t with
    | .tuple .. => pure (lit "tuple")
    | .union .. => pure (lit "union")
    | .enum .. => pure (lit "enum")
    | _ => PM.panic
  let layout ← (liftM t.layout : PM LayoutStrategy)
  let body ← match t with
    | .tuple sizedFields _ unsizedField => do
      let fields ← fmtComptypeFields sizedFields
      match unsizedField with
      | some unsizedTy => do
        let ty ← fmtType unsizedTy
        pure (fields ++ lit "  tail: " ++ ty.toText ++ lit ",\n")
      | none => pure fields
    | .union fields chunks _ _ => do
      let fields ← fmtComptypeFields fields
      pure (fields ++ fmtComptypeChunks chunks)
    | .enum variants discriminantTy _ _ _ => do
      let variants ← fmtComptypeVariants variants
      pure (lit "  Discriminant: " ++ fmtIntType discriminantTy ++ lit "\n" ++ variants)
    | _ => PM.panic
  return keyword ++ lit " " ++ fmtComptypeIndex i ++ lit " (" ++ fmtLayoutStrategy layout ++ lit ") {\n" ++ body ++ lit "}\n\n"

/-- `fmt_comptypes`, `/repo/tooling/miniutil/src/pretty/ty.rs:147-164`, from index `i`, with a bound on the number of iterations of the loop: `none` if
it has not ended. -/
def fmtComptypes : Nat → Nat → List Ty → Option (Res Text)
  | fuel, i, comptypes => match comptypes[i]? with
    | none => some (.ok [])
    | some c => match fuel with
      | 0 => none
      | fuel + 1 => match fmtComptype i c comptypes with
        | .error e => some (.error e)
        | .ok (s, comptypes) => match fmtComptypes fuel (i + 1) comptypes with
          | none => none
          | some (.error e) => some (.error e)
          | some (.ok out) => some (.ok (s ++ out))

end

/-! ### Expressions -/

/-- `fmt_relocation`, `/repo/tooling/miniutil/src/pretty/global.rs:17-26`. -/
def fmtRelocation (r : Relocation) : FmtExpr :=
  if r.offset = 0 then .atomic (fmtGlobalName r.name)
  else .nonAtomic (fmtGlobalName r.name ++ lit " + " ++ natText r.offset)

/-- `fmt_constant`, `/repo/tooling/miniutil/src/pretty/expr.rs:78-92`. -/
def fmtConstant : Constant → FmtExpr
  | .int i => .atomic (intText i)
  | .bool true => .atomic (lit "true")
  | .bool false => .atomic (lit "false")
  | .globalPointer r => fmtRelocation r
  | .fnPointer f => .atomic (fmtFnName f)
  | .vtablePointer v => .atomic (fmtVTableName v)
  | .pointerWithoutProvenance addr =>
    if addr = 0 then .atomic (lit "nullptr") else .atomic (lit "invalid_ptr(" ++ intText addr ++ lit ")")

/-- The operators of `/repo/tooling/miniutil/src/pretty/expr.rs:181-192`, or the names of lines 193-198. -/
def fmtIntBinOp : IntBinOp → Text ⊕ Text
  | .add => .inl (lit "+")
  | .sub => .inl (lit "-")
  | .mul => .inl (lit "*")
  | .div => .inl (lit "/")
  | .rem => .inl (lit "%")
  | .shl => .inl (lit "<<")
  | .shr => .inl (lit ">>")
  | .bitAnd => .inl (lit "&")
  | .bitOr => .inl (lit "|")
  | .bitXor => .inl (lit "^")
  | .addUnchecked => .inr (lit "AddUnchecked")
  | .subUnchecked => .inr (lit "SubUnchecked")
  | .mulUnchecked => .inr (lit "MulUnchecked")
  | .divExact => .inr (lit "DivExact")
  | .shlUnchecked => .inr (lit "ShlUnchecked")
  | .shrUnchecked => .inr (lit "ShrUnchecked")

/-- `/repo/tooling/miniutil/src/pretty/expr.rs:207-211`. -/
def fmtOverflowOp : IntBinOpWithOverflow → Text
  | .add => lit "Add"
  | .sub => lit "Sub"
  | .mul => lit "Mul"

/-- `/repo/tooling/miniutil/src/pretty/expr.rs:215-223`. -/
def fmtRelOp : RelOp → Text
  | .lt => lit "<"
  | .le => lit "<="
  | .gt => lit ">"
  | .ge => lit ">="
  | .eq => lit "=="
  | .ne => lit "!="
  | .cmp => lit "<=>"

mutual
/-- `fmt_place_expr`, `/repo/tooling/miniutil/src/pretty/expr.rs:36-66`. -/
def fmtPlaceExpr : PlaceExpr → PM FmtExpr
  | .local l => pure (.atomic (fmtLocalName l))
  | .deref operand ty => do
    let ptype ← fmtType ty
    let expr ← fmtValueExpr operand
    return .atomic (lit "deref<" ++ ptype.toText ++ lit ">(" ++ expr.toText ++ lit ")")
  | .field root field => do
    let root ← fmtPlaceExpr root
    return .atomic (root.toAtomic ++ lit "." ++ intText field)
  | .index root index => do
    let root ← fmtPlaceExpr root
    let index ← fmtValueExpr index
    return .atomic (root.toAtomic ++ lit "[" ++ index.toText ++ lit "]")
  | .downcast root discriminant => do
    let root ← fmtPlaceExpr root
    return .nonAtomic (root.toAtomic ++ lit " as variant " ++ intText discriminant)
/-- `fmt_value_expr`, `/repo/tooling/miniutil/src/pretty/expr.rs:94-252`. The missing parentheses in `BitNot` and `CountOnes` are those of lines 151-153. -/
def fmtValueExpr : ValueExpr → PM FmtExpr
  | .constant c _ => pure (fmtConstant c)
  | .tuple l t => match t with
    | .array .. => do
      let l ← fmtValueExprs l
      return .atomic (lit "[" ++ joinText (lit ", ") l ++ lit "]")
    | .tuple .. => do
      let l ← fmtValueExprs l
      return .atomic (lit "(" ++ joinText (lit ", ") l ++ lit ")")
    | _ => PM.panic
  | .union field expr unionTy => do
    let unionTy ← fmtType unionTy
    let expr ← fmtValueExpr expr
    return .nonAtomic (unionTy.toText ++ lit " { field" ++ intText field ++ lit ": " ++ expr.toText ++ lit " }")
  | .variant discriminant data enumTy => do
    let enumTy ← fmtType enumTy
    let expr ← fmtValueExpr data
    return .nonAtomic (enumTy.toText ++ lit "(variant " ++ intText discriminant ++ lit "): " ++ expr.toText)
  | .getDiscriminant place => do
    let place ← fmtPlaceExpr place
    return .atomic (lit "discriminant(" ++ place.toText ++ lit ")")
  | .load source => do
    let source ← fmtPlaceExpr source
    return .atomic (lit "load(" ++ source.toText ++ lit ")")
  | .addrOf target ptrTy => match ptrTy with
    | .raw _ => do
      let target ← fmtPlaceExpr target
      return .nonAtomic (lit "&raw " ++ target.toAtomic)
    | .ref .mut _ => do
      let target ← fmtPlaceExpr target
      return .nonAtomic (lit "&mut " ++ target.toAtomic)
    | .ref .imm _ => do
      let target ← fmtPlaceExpr target
      return .nonAtomic (lit "&" ++ target.toAtomic)
    | _ => PM.panic
  | .unOp op operand => do
    let operand ← fmtValueExpr operand
    match op with
    | .int .neg => return .nonAtomic (lit "-(" ++ operand.toText ++ lit ")")
    | .int .bitNot => return .nonAtomic (lit "!(" ++ operand.toText)
    | .int .countOnes => return .nonAtomic (lit "count_ones(" ++ operand.toText)
    | .cast (.intToInt ity) => return .atomic (lit "int2int<" ++ fmtIntType ity ++ lit ">(" ++ operand.toText ++ lit ")")
    | .cast (.transmute ty) => do
      let ty ← fmtType ty
      return .atomic (lit "transmute<" ++ ty.toText ++ lit ">(" ++ operand.toText ++ lit ")")
    | .getThinPointer => return .atomic (lit "get_thin_ptr(" ++ operand.toText ++ lit ")")
    | .getMetadata => return .atomic (lit "get_metadata(" ++ operand.toText ++ lit ")")
    | .computeSize ty => do
      let ty ← fmtType ty
      return .atomic (lit "compute_size<" ++ ty.toText ++ lit ">(" ++ operand.toText ++ lit ")")
    | .computeAlign ty => do
      let ty ← fmtType ty
      return .atomic (lit "compute_align<" ++ ty.toText ++ lit ">(" ++ operand.toText ++ lit ")")
    | .vtableMethodLookup m => return .nonAtomic (lit "vtable_lookup<" ++ fmtTraitMethodName m ++ lit ">(" ++ operand.toText ++ lit ")")
  | .binOp op left right => do
    let l ← fmtValueExpr left
    let r ← fmtValueExpr right
    match op with
    | .int op => match fmtIntBinOp op with
      | .inl op => return .nonAtomic (l.toAtomic ++ lit " " ++ op ++ lit " " ++ r.toAtomic)
      | .inr name => return .atomic (name ++ lit "(" ++ l.toAtomic ++ lit ", " ++ r.toAtomic ++ lit ")")
    | .intWithOverflow op => return .atomic (fmtOverflowOp op ++ lit "WithOverflow(" ++ l.toAtomic ++ lit ", " ++ r.toAtomic ++ lit ")")
    | .rel op => return .nonAtomic (l.toAtomic ++ lit " " ++ fmtRelOp op ++ lit " " ++ r.toAtomic)
    | .ptrOffset inbounds =>
      return .atomic ((if inbounds then lit "offset_inbounds" else lit "offset_wrapping") ++ lit "(" ++ l.toText ++ lit ", " ++ r.toText ++ lit ")")
    | .ptrOffsetFrom inbounds nonneg =>
      return .atomic (lit "offset_from_" ++ (if inbounds then lit "inbounds" else lit "wrapping") ++ (if nonneg then lit "_nonneg" else []) ++
        lit "(" ++ l.toText ++ lit ", " ++ r.toText ++ lit ")")
    | .constructWidePointer ptrTy =>
      return .atomic (lit "construct_ptr<" ++ (fmtPtrType ptrTy).toText ++ lit ">(" ++ l.toText ++ lit ", " ++ r.toText ++ lit ")")
/-- The expressions of a tuple, and other lists of expressions, as texts: `/repo/tooling/miniutil/src/pretty/expr.rs:103`. -/
def fmtValueExprs : List ValueExpr → PM (List Text)
  | [] => pure []
  | e :: es => do
    let t ← fmtValueExpr e
    let ts ← fmtValueExprs es
    return t.toText :: ts
end

/-! ### Functions -/

/-- `fmt_statement`, `/repo/tooling/miniutil/src/pretty/function.rs:88-121`. -/
def fmtStatement : Statement → PM Text
  | .assign destination source => do
    let left ← fmtPlaceExpr destination
    let right ← fmtValueExpr source
    return lit "    " ++ left.toText ++ lit " = " ++ right.toText ++ lit ";"
  | .placeMention place => do
    let place ← fmtPlaceExpr place
    return lit "    _ = " ++ place.toText ++ lit ";"
  | .setDiscriminant destination value => do
    let left ← fmtPlaceExpr destination
    return lit "    discriminant(" ++ left.toText ++ lit ") = " ++ intText value ++ lit ";"
  | .validate place fnEntry => do
    let place ← fmtPlaceExpr place
    return lit "    validate(" ++ place.toText ++ lit ", " ++ (if fnEntry then lit "true" else lit "false") ++ lit ");"
  | .deinit place => do
    let place ← fmtPlaceExpr place
    return lit "    deinit(" ++ place.toText ++ lit ");"
  | .storageLive l => return lit "    storage_live(" ++ fmtLocalName l ++ lit ");"
  | .storageDead l => return lit "    storage_dead(" ++ fmtLocalName l ++ lit ");"

/-- `fmt_call`, `/repo/tooling/miniutil/src/pretty/function.rs:124-170`. -/
def fmtCall (callee : Text) (conv : CallingConvention) (args : Text) (ret : PlaceExpr) (next unwind : Option BbName) : PM Text := do
  let r ← fmtPlaceExpr ret
  let nextStr := match next with | some b => lit "return: " ++ fmtBbName b | none => []
  let unwindStr := match unwind with | some b => lit "unwind: " ++ fmtBbName b | none => []
  let next := match next, unwind with
    | some _, some _ => lit " -> [" ++ nextStr ++ lit ", " ++ unwindStr ++ lit "]"
    | none, none => []
    | _, _ => lit " -> " ++ nextStr ++ unwindStr
  let conv := match conv with | .rust => [] | .c => lit "extern \"C\""
  return lit "    " ++ r.toText ++ lit " = " ++ conv ++ callee ++ lit "(" ++ args ++ lit ")" ++ next ++ lit ";"

/-- `fmt_fetch` and the names of intrinsics, `/repo/tooling/miniutil/src/pretty/function.rs:235-257, 272-279`. -/
def fmtIntrinsic : IntrinsicOp → Text
  | .abort => lit "abort"
  | .assume => lit "assume"
  | .exit => lit "exit"
  | .printStdout => lit "print"
  | .printStderr => lit "eprint"
  | .allocate => lit "allocate"
  | .deallocate => lit "deallocate"
  | .spawn => lit "spawn"
  | .join => lit "join"
  | .rawEq => lit "raw_eq"
  | .atomicStore => lit "atomic_store"
  | .atomicLoad => lit "atomic_load"
  | .atomicCompareExchange => lit "atomic_compare_exchange"
  | .atomicFetchAndOp .add => lit "atomic_fetch_add"
  | .atomicFetchAndOp .sub => lit "atomic_fetch_sub"
  | .atomicFetchAndOp _ => lit "atomic_fetch_ILL_FORMED"
  | .lock .acquire => lit "lock_acquire"
  | .lock .create => lit "lock_create"
  | .lock .release => lit "lock_release"
  | .pointerExposeProvenance => lit "pointer_expose_provenance"
  | .pointerWithExposedProvenance => lit "pointer_with_exposed_provenance"
  | .getUnwindPayload => lit "get_unwind_payload"

/-- The arguments of a call, `/repo/tooling/miniutil/src/pretty/function.rs:202-213`. -/
def fmtArguments : List ArgumentExpr → PM (List Text)
  | [] => pure []
  | .byValue v :: args => do
    let t ← fmtValueExpr v
    let ts ← fmtArguments args
    return (lit "by-value(" ++ t.toText ++ lit ")") :: ts
  | .inPlace p :: args => do
    let t ← fmtPlaceExpr p
    let ts ← fmtArguments args
    return (lit "in-place(" ++ t.toText ++ lit ")") :: ts

/-- `fmt_terminator`, `/repo/tooling/miniutil/src/pretty/function.rs:172-270`. -/
def fmtTerminator : Terminator → PM Text
  | .goto b => return lit "    goto -> " ++ fmtBbName b ++ lit ";"
  | .switch value cases fallback => do
    let branch ← fmtValueExpr value
    let caseStrs := cases.map (fun c => intText c.1 ++ lit ": " ++ fmtBbName c.2) ++ [lit "otherwise: " ++ fmtBbName fallback]
    return lit "    switch(" ++ branch.toText ++ lit ") -> [\n      " ++ joinText (lit ",\n      ") caseStrs ++ lit "\n    ];"
  | .unreachable => return lit "    unreachable;"
  | .call callee conv arguments ret next unwind => do
    let callee ← fmtValueExpr callee
    let args ← fmtArguments arguments
    fmtCall callee.toAtomic conv (joinText (lit ", ") args) ret next unwind
  | .return => return lit "    return;"
  | .startUnwind payload unwind => do
    let payload ← fmtValueExpr payload
    return lit "    start unwind(" ++ payload.toText ++ lit ") -> unwind: " ++ fmtBbName unwind ++ lit " "
  | .stopUnwind b => return lit "    start unwind -> unwind: " ++ fmtBbName b ++ lit " "
  | .resumeUnwind => return lit "    resume"
  | .intrinsic op arguments ret next => do
    let args ← fmtValueExprs arguments
    fmtCall (fmtIntrinsic op) .rust (joinText (lit ", ") args) ret next none

/-- `fmt_bb_kind`, `/repo/tooling/miniutil/src/pretty/function.rs:286-293`. -/
def fmtBbKind : BbKind → Text
  | .regular => []
  | .cleanup => lit " (Cleanup)"
  | .catch => lit " (Catch)"
  | .terminate => lit " (Terminate)"

/-- The loop over statements, `/repo/tooling/miniutil/src/pretty/function.rs:78-81`. -/
def fmtStatements : List Statement → PM Text
  | [] => pure []
  | st :: sts => do
    let t ← fmtStatement st
    let ts ← fmtStatements sts
    return t ++ lit "\n" ++ ts

/-- `fmt_bb`, `/repo/tooling/miniutil/src/pretty/function.rs:67-86`. -/
def fmtBb (name : BbName) (bb : BasicBlock) (start : Bool) : PM Text := do
  let statements ← fmtStatements bb.statements
  let terminator ← fmtTerminator bb.terminator
  return (if start then lit "  start bb" else lit "  bb") ++ natText name ++ fmtBbKind bb.kind ++ lit ":\n" ++ statements ++ terminator ++ lit "\n"

/-- `sort_by_key`, by name. The sort of the library is stable, and so is this one. -/
def sortByName {V : Type} (m : List (Nat × V)) : List (Nat × V) := m.insertionSort fun a b => a.1 ≤ b.1

/-- The loop over locals, `/repo/tooling/miniutil/src/pretty/function.rs:47-51`. -/
def fmtLocals : List (LocalName × Ty) → PM Text
  | [] => pure []
  | (l, ty) :: locals => do
    let ty ← fmtType ty
    let rest ← fmtLocals locals
    return lit "  let " ++ fmtLocalName l ++ lit ": " ++ ty.toText ++ lit ";\n" ++ rest

/-- The loop over blocks, `/repo/tooling/miniutil/src/pretty/function.rs:59-62`. -/
def fmtBlocks (start : BbName) : List (BbName × BasicBlock) → PM Text
  | [] => pure []
  | (name, bb) :: blocks => do
    let t ← fmtBb name bb (start = name)
    let rest ← fmtBlocks start blocks
    return t ++ rest

/-- `fmt_function`, `/repo/tooling/miniutil/src/pretty/function.rs:21-65`. -/
def fmtFunction (name : FnName) (f : Function) (start : Bool) : PM Text := do
  let args := joinText (lit ", ") (f.args.map fmtLocalName)
  let locals ← fmtLocals (sortByName f.locals)
  let blocks ← fmtBlocks f.start (sortByName f.blocks)
  return (if start then lit "start fn " else lit "fn ") ++ fmtFnName name ++ lit "(" ++ args ++ lit ") -> " ++ fmtLocalName f.ret ++ lit " {\n" ++
    locals ++ blocks ++ lit "}\n\n"

/-- The loop of `fmt_functions`, `/repo/tooling/miniutil/src/pretty/function.rs:12-16`. -/
def fmtFunctionList (start : FnName) : List (FnName × Function) → PM Text
  | [] => pure []
  | (name, f) :: fns => do
    let t ← fmtFunction name f (start = name)
    let rest ← fmtFunctionList start fns
    return t ++ rest

/-- `fmt_functions`, `/repo/tooling/miniutil/src/pretty/function.rs:5-19`. -/
def fmtFunctions (prog : Program) : PM Text := fmtFunctionList prog.start (sortByName prog.functions)

/-! ### Globals, traits and vtables -/

/-- A hexadecimal digit. -/
def hexDigit (n : Nat) : Char := Nat.digitChar n

/-- `fmt_bytes`, `/repo/tooling/miniutil/src/pretty/global.rs:46-58`. -/
def fmtBytes (bytes : List (Option UInt8)) : Text :=
  joinText (lit " ") (bytes.map fun
    | some u => [hexDigit (u.toNat / 16), hexDigit (u.toNat % 16)]
    | none => lit "__")

/-- `fmt_global`, `/repo/tooling/miniutil/src/pretty/global.rs:28-44`. -/
def fmtGlobal (name : GlobalName) (g : Global) : Text :=
  fmtGlobalName name ++ lit " {\n  bytes = [" ++ fmtBytes g.bytes ++ lit "],\n  align = " ++ natText g.align.bytes ++ lit " bytes,\n" ++
    (g.relocations.flatMap fun r => lit "  at byte " ++ natText r.1 ++ lit ": " ++ (fmtRelocation r.2).toText ++ lit ",\n") ++ lit "}\n\n"

/-- `fmt_globals`, `/repo/tooling/miniutil/src/pretty/global.rs:3-15`. -/
def fmtGlobals (globals : Map GlobalName Global) : Text := (sortByName globals).flatMap fun g => fmtGlobal g.1 g.2

/-- `fmt_vtable`, `/repo/tooling/miniutil/src/pretty/vtables.rs:22-41`. -/
def fmtVTable (name : VTableName) (v : VTable) : Text :=
  fmtVTableName name ++ lit " {\n" ++ lit "  trait = " ++ fmtTraitName v.traitName ++ lit ",\n" ++ lit "  size = " ++ natText v.size ++ lit ",\n" ++
    lit "  align = " ++ natText v.align.bytes ++ lit ",\n" ++
    (v.methods.flatMap fun m => lit "  " ++ fmtTraitMethodName m.1 ++ lit "() = " ++ fmtFnName m.2 ++ lit ",\n") ++ lit "}\n"

/-- `fmt_vtables`, `/repo/tooling/miniutil/src/pretty/vtables.rs:3-16`. -/
def fmtVTables (vtables : Map VTableName VTable) : Text := ((sortByName vtables).flatMap fun v => fmtVTable v.1 v.2) ++ lit "\n"

/-- `fmt_trait`, `/repo/tooling/miniutil/src/pretty/vtables.rs:57-69`. Sorting compares texts. -/
def fmtTrait (name : TraitName) (methods : List TraitMethodName) : Text :=
  fmtTraitName name ++ lit " { " ++ joinText (lit ", ") ((methods.map fmtTraitMethodName).insertionSort fun a b => a ≤ b) ++ lit " }\n"

/-- `fmt_traits`, `/repo/tooling/miniutil/src/pretty/vtables.rs:43-52`. -/
def fmtTraits (traits : Map TraitName (List TraitMethodName)) : Text := ((sortByName traits).flatMap fun t => fmtTrait t.1 t.2) ++ lit "\n"

/-- `fmt_program`, `/repo/tooling/miniutil/src/pretty/mod.rs:24-35`, with a bound on the number of iterations of the loop over composite types. -/
def fmtProgram [Target] (fuel : Nat) (prog : Program) : Option (Res Text) :=
  match fmtFunctions prog [] with
  | .error e => some (.error e)
  | .ok (functions, comptypes) => match fmtComptypes fuel 0 comptypes with
    | none => none
    | some (.error e) => some (.error e)
    | some (.ok comptypes) =>
      some (.ok (comptypes ++ fmtTraits prog.traits ++ fmtVTables prog.vtables ++ functions ++ fmtGlobals prog.globals))

end MiniRust
