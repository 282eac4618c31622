import Verif.Builder
import Verif.TypeConv
/-
The program builder of miniutil (`/repo/tooling/miniutil/src/build/mod.rs`, `/repo/tooling/miniutil/src/build/global.rs`,
`/repo/tooling/miniutil/src/build/function.rs`). Names are unbounded here; the code counts them with `u32`.
-/
namespace MiniRust

/-- `VTableBuilder`, `/repo/tooling/miniutil/src/build/mod.rs:339-346`. -/
structure VTableBuilder where
  traitName : TraitName
  name : VTableName
  size : Nat
  align : Align
  cells : List (Nat × Nat)
  methods : Map TraitMethodName FnName

/-- `add_method`, `/repo/tooling/miniutil/src/build/mod.rs:363-365`. -/
def VTableBuilder.addMethod (v : VTableBuilder) (index : TraitMethodName) (func : FnName) : VTableBuilder :=
  { v with methods := v.methods.insert index func }

/-- `VTableBuilder::finish_vtable`, `/repo/tooling/miniutil/src/build/mod.rs:367-376`. -/
def VTableBuilder.finishVtable (v : VTableBuilder) : VTable := ⟨v.traitName, v.size, v.align, v.cells, v.methods⟩

/-- `TraitBuilder`, `/repo/tooling/miniutil/src/build/mod.rs:379-383`. -/
structure TraitBuilder where
  name : TraitName
  nextMethod : Nat
  methodNames : List TraitMethodName

/-- `declare_method`, `/repo/tooling/miniutil/src/build/mod.rs:394-400`; the set of names is a list without duplicates. -/
def TraitBuilder.declareMethod (t : TraitBuilder) : TraitMethodName × TraitBuilder :=
  let name := t.nextMethod
  (name, { t with nextMethod := t.nextMethod + 1,
                  methodNames := if name ∈ t.methodNames then t.methodNames else t.methodNames ++ [name] })

/-- `TraitBuilder::finish_trait`, `/repo/tooling/miniutil/src/build/mod.rs:402-405`. -/
def TraitBuilder.finishTrait (t : TraitBuilder) : List TraitMethodName := t.methodNames

/-- `ProgramBuilder`, `/repo/tooling/miniutil/src/build/mod.rs:43-52`. -/
structure ProgBuilder where
  functions : Map FnName Function
  globals : Map GlobalName Global
  vtables : Map VTableName VTable
  traits : Map TraitName (List TraitMethodName)
  nextFn : Nat
  nextGlobal : Nat
  nextVtable : Nat
  nextTrait : Nat

namespace ProgBuilder

/-- `ProgramBuilder::new`, `/repo/tooling/miniutil/src/build/mod.rs:55-66`. -/
def new : ProgBuilder := ⟨[], [], [], [], 0, 0, 0, 0⟩

/-- `finish_program`, `/repo/tooling/miniutil/src/build/mod.rs:68-83`. -/
def finishProgram (p : ProgBuilder) (startFunction : FnName) : Res Program :=
  match p.functions.get? startFunction with
  | some f =>
    let functions := p.functions.insert startFunction { f with callingConvention := .c }
    .ok { functions, start := startFunction, globals := p.globals, traits := p.traits, vtables := p.vtables }
  | none => panic

/-- `declare_function`, `/repo/tooling/miniutil/src/build/mod.rs:85-89`; the name is beside the builder of the function. -/
def declareFunction (p : ProgBuilder) : Res ((FnName × FnBuilder) × ProgBuilder) := do
  let name := p.nextFn
  let fb ← FnBuilder.new
  .ok ((name, fb), { p with nextFn := p.nextFn + 1 })

/-- `finish_function`, `/repo/tooling/miniutil/src/build/mod.rs:91-97`. -/
def finishFunction (p : ProgBuilder) (name : FnName) (f : FnBuilder) : Res (FnName × ProgBuilder) := do
  let f ← f.finishFunction
  let functions ← p.functions.tryInsert name f
  .ok (name, { p with functions })

/-- `declare_vtable`, `/repo/tooling/miniutil/src/build/mod.rs:113-123`. -/
def declareVtable (p : ProgBuilder) (traitName : TraitName) (size : Nat) (align : Align) (cells : List (Nat × Nat)) :
    VTableBuilder × ProgBuilder :=
  let name := p.nextVtable
  (⟨traitName, name, size, align, cells, []⟩, { p with nextVtable := p.nextVtable + 1 })

/-- `declare_vtable_for_frozen_ty`, `/repo/tooling/miniutil/src/build/mod.rs:99-111`. -/
def declareVtableForFrozenTy [Target] (p : ProgBuilder) (traitName : TraitName) (ty : Ty) : Res (VTableBuilder × ProgBuilder) := do
  .ok (p.declareVtable traitName (← (← ty.layout).expectSize) (← (← ty.layout).expectAlign) [])

/-- `finish_vtable`, `/repo/tooling/miniutil/src/build/mod.rs:125-137`. -/
def finishVtable (p : ProgBuilder) (v : VTableBuilder) : Res (VTableName × ProgBuilder) := do
  let name := v.name
  let vtable := v.finishVtable
  let methods ← unwrap (p.traits.get? vtable.traitName)
  rassert (vtable.methods.keys.all (· ∈ methods) && methods.all (· ∈ vtable.methods.keys))
  let vtables ← p.vtables.tryInsert name vtable
  .ok (name, { p with vtables })

/-- `declare_trait`, `/repo/tooling/miniutil/src/build/mod.rs:139-143`. -/
def declareTrait (p : ProgBuilder) : TraitBuilder × ProgBuilder :=
  let name := p.nextTrait
  (⟨name, 0, []⟩, { p with nextTrait := p.nextTrait + 1 })

/-- `finish_trait`, `/repo/tooling/miniutil/src/build/mod.rs:145-151`. -/
def finishTrait (p : ProgBuilder) (t : TraitBuilder) : Res (TraitName × ProgBuilder) := do
  let name := t.name
  let methods := t.finishTrait
  let traits ← p.traits.tryInsert name methods
  .ok (name, { p with traits })

/-- `declare_global_zero_initialized`, `/repo/tooling/miniutil/src/build/global.rs:4-11`, and `global_by_name`,
`/repo/tooling/miniutil/src/build/expr.rs:296-300`. -/
def declareGlobalZeroInitialized [Target] (p : ProgBuilder) (t : ConvTy) : Res (PlaceExpr × ProgBuilder) := do
  let bytes := List.replicate (← t.getSize) (some 0)
  let global : Global := ⟨bytes, [], ← t.getAlign⟩
  let name := p.nextGlobal
  let globals ← p.globals.tryInsert name global
  .ok (.deref (.constant (.globalPointer ⟨name, 0⟩) (.ptr (.raw .none))) (← t.getType),
    { p with nextGlobal := p.nextGlobal + 1, globals })

end ProgBuilder

/-! ### Functions and programs from lists -/

/-- The maps that number the elements of a slice. -/
def numbered {α : Type} (l : List α) : Map Nat α := l.zipIdx.map fun (x, i) => (i, x)

/-- `function`, `/repo/tooling/miniutil/src/build/function.rs:29-86`; `returns` is `Ret::Yes`. -/
def functionOf (returns : Bool) (numArgs : Nat) (locals : List Ty) (bbs : List BasicBlock) : Res Function := do
  let localMap : Map LocalName Ty := numbered locals
  let args := (List.range numArgs).map fun x => if returns then x + 1 else x
  let (ret, localMap) ←
    if returns then do
      rassert (decide (localMap.length > 0))
      .ok (0, localMap)
    else do
      let name := localMap.length
      .ok (name, ← localMap.tryInsert name unitTy)
  .ok ⟨localMap, args, ret, .c, numbered bbs, 0⟩

/-- `program_with_globals`, `/repo/tooling/miniutil/src/build/mod.rs:439-465`, and `program`, `:468-470`. -/
def programOf (fns : List Function) (globals : List Global) : Program where
  functions := numbered fns
  start := 0
  globals := numbered globals
  traits := []
  vtables := []

end MiniRust
