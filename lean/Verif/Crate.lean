import Verif.Rvalue
/-
Model of `/repo/tooling/minimize/src/{program,vtable,constant}.rs`: translating a whole crate. What rustc knows about the crate
is the input (`Crate`): its entry point, its allocations, its vtables and traits, and for each instance of a function what
its translation asks the context for, and which function it makes of the answers.

Rust's `HashMap`s are association lists here. The order in which a `HashMap` is iterated matters in one place, the choice of
the next function to translate; it is left open (`Crate.Runs`).
-/
namespace MiniRust

/-! ### What rustc knows -/

/-- `rs::Allocation`, `/repo/tooling/minimize/src/constant.rs:155-196`: the bytes, which of them are initialized, and where there are
pointers to which allocations. The bytes of a pointer are its offset. -/
structure RsAlloc (A : Type) where
  bytes : List UInt8
  init : Nat → Bool
  ptrs : List (Nat × A)
  align : Align

/-- The constant, as `ecx` reads it, with translated types, `/repo/tooling/minimize/src/constant.rs:19-127`. -/
inductive RsConst (A : Type)
  /-- an integer, character or boolean: its bits -/
  | scalar (ty : Ty) (bits : Nat)
  /-- a pointer: its provenance, its offset (its address if there is no provenance), and the length if it is to a slice -/
  | ptr (ty : Ty) (prov : Option A) (offset : Nat) (count : Option Nat)
  /-- a tuple, struct or array -/
  | fields (ty : Ty) (fs : List (RsConst A))
  /-- an enum: the bits of the discriminant of its variant, and the fields -/
  | variant (ty : Ty) (discriminant : Nat) (fs : List (RsConst A))
  | unsupported

/-- `rs::VtblEntry`, `/repo/tooling/minimize/src/vtable.rs:56-79`. -/
inductive RsVtblEntry (I : Type)
  | method (func : I)
  | dropInPlace
  | other

/-- What rustc says about a type that implements a trait object type, `/repo/tooling/minimize/src/vtable.rs:37-61`: the size, alignment
and cells (sorted) of the type, its drop glue, and the entries of the vtable for the principal trait, if there is one. -/
structure RsVTable (I : Type) where
  size : Nat
  align : Align
  cells : List (Nat × Nat)
  dropGlue : I
  entries : Option (List (RsVtblEntry I))

/-- What the translation of a function asks the context for (`get_fn_name`, `get_vtable`, `get_trait_name`, `translate_alloc_id`). -/
inductive RsReq (I A Y D : Type)
  | fn (i : I)
  | vtable (y : Y) (d : D)
  | trait (d : D)
  | alloc (a : A)

/-- `FnCtxt::new(instance, cx).translate()`, as far as the context is concerned: requests, in this order, and the function that
is made of the names that are the answers. (The translation itself is in `Verif/Mir.lean` and `Verif/Rvalue.lean`. That it does not
look at the names is a simplification.) -/
structure RsBody (I A Y D : Type) where
  requests : List (RsReq I A Y D)
  build : List Nat → Res Function

/-- A crate: instances `I`, allocations `A`, types `Y`, trait object types `D`. -/
structure Crate (I A Y D : Type) where
  /-- `tcx.entry_fn(())` -/
  entry : I
  /-- `tcx.global_alloc`, `none` for what is not supported, `/repo/tooling/minimize/src/constant.rs:145-149` -/
  alloc : A → Option (RsAlloc A)
  vtable : Y → D → RsVTable I
  /-- the first slot and the number of the own entries of the principal trait, `/repo/tooling/minimize/src/vtable.rs:108-132` -/
  principal : D → Option (Nat × Nat)
  body : I → RsBody I A Y D

/-! ### The context -/

/-- `Ctxt`, `/repo/tooling/minimize/src/program.rs:5-27` (without the cache for types). -/
structure Cx (I A Y D : Type) where
  fnNames : Map I FnName := []
  traitNames : Map D TraitName := []
  traits : Map TraitName (List TraitMethodName) := []
  vtableNames : Map (Y × D) VTableName := []
  vtables : Map VTableName VTable := []
  allocNames : Map A GlobalName := []
  globals : Map GlobalName Global := []
  functions : Map FnName Function := []

variable {I A Y D : Type} [DecidableEq I] [DecidableEq A] [DecidableEq Y] [DecidableEq D]

namespace Cx

/-- `get_fn_name`, `/repo/tooling/minimize/src/program.rs:125-131`. -/
def getFnName (c : Cx I A Y D) (i : I) : FnName × Cx I A Y D :=
  match c.fnNames.get? i with
  | some n => (n, c)
  | none => (c.fnNames.length, { c with fnNames := c.fnNames.insert i c.fnNames.length })

/-- `fresh_global_name`, `/repo/tooling/minimize/src/constant.rs:198-208`. -/
def freshGlobal (c : Cx I A Y D) : GlobalName × Cx I A Y D :=
  (c.globals.length, { c with globals := c.globals.insert c.globals.length ⟨[], [], Align.one⟩ })

end Cx

namespace Crate
variable (K : Crate I A Y D)

/-! ### Constants and globals -/

/-- The bytes of the global, `/repo/tooling/minimize/src/constant.rs:162-172`. -/
def globalBytes (al : RsAlloc A) : List (Option UInt8) :=
  al.bytes.mapIdx fun i b => if al.init i then some b else none

/-- The offset that is stored in the bytes of a pointer, `/repo/tooling/minimize/src/constant.rs:180-186`. Panics if the bytes are out
of bounds or not initialized. -/
def innerOffset [T : Target] (bytes : List (Option UInt8)) (start : Nat) : Res Nat :=
  if start + T.ptrSize ≤ bytes.length then do
    let bs ← tryMap unwrap ((bytes.drop start).take T.ptrSize)
    .ok (T.endianness.decode .unsigned bs).toNat
  else panic

/-- The closure for the relocations, `/repo/tooling/minimize/src/constant.rs:173-191`, for all of them, and `translate_relocation`,
`:129-133`. The argument is `translate_alloc_id`, which calls this. -/
def translatePtrs [T : Target] (translateId : Cx I A Y D → A → Res (GlobalName × Cx I A Y D)) :
    Cx I A Y D → List (Option UInt8) → List (Nat × A) → Res (List (Nat × Relocation) × Cx I A Y D)
  | c, _, [] => .ok ([], c)
  | c, bytes, (offset, a) :: rest => do
    let inner ← innerOffset bytes offset
    let (name, c) ← translateId c a
    let (rs, c) ← translatePtrs translateId c bytes rest
    .ok ((offset, ⟨name, inner⟩) :: rs, c)

/-- `translate_alloc_id`, `/repo/tooling/minimize/src/constant.rs:135-152`. `fuel` bounds the depth of the recursion; running out of
it is the error `none`. -/
def translateAllocId [Target] : Nat → Cx I A Y D → A → Res (GlobalName × Cx I A Y D)
  | 0, _, _ => .error .none
  | fuel + 1, c, a =>
    match c.allocNames.get? a with
    | some n => .ok (n, c)
    | none => do
      let (name, c) := c.freshGlobal
      let c := { c with allocNames := c.allocNames.insert a name }
      match K.alloc a with
      | none => panic
      | some al => do
        let (rs, c) ← translatePtrs (translateAllocId fuel) c (globalBytes al) al.ptrs
        .ok (name, { c with globals := c.globals.insert name ⟨globalBytes al, rs, al.align⟩ })

/-! ### Constants -/

/-- `scalar.to_int(scalar.size())` and `scalar.to_uint(scalar.size())`, `/repo/tooling/minimize/src/constant.rs:30-33`, of a scalar with
these bits. -/
def scalarInt (t : IntType) (bits : Nat) : Int :=
  match t.signed with
  | .signed => if bits < 2 ^ (8 * t.size - 1) then bits else bits - 2 ^ (8 * t.size)
  | .unsigned => bits

/-- The metadata of a constant pointer, `/repo/tooling/minimize/src/constant.rs:40-56`, or nothing for a thin pointer. Function pointers and
trait objects are not supported. -/
def constMeta : Ty → Option Nat → Res (Option Nat)
  | .ptr .fnPtr, _ => panic
  | .ptr pty, count =>
    match pty.metaKind with
    | .none => .ok none
    | .elementCount => do
      let n ← unwrap count
      .ok (some n)
    | .vtablePointer _ => panic
  | _, _ => panic

/-- The constant for a thin pointer, `/repo/tooling/minimize/src/constant.rs:58-68`. -/
def constPtr [Target] (fuel : Nat) (c : Cx I A Y D) (prov : Option A) (offset : Nat) : Res (Constant × Cx I A Y D) :=
  match prov with
  | none => .ok (.pointerWithoutProvenance offset, c)
  | some a => do
    let (name, c) ← K.translateAllocId fuel c a
    .ok (.globalPointer ⟨name, offset⟩, c)

mutual
/-- `translate_const_val`, `/repo/tooling/minimize/src/constant.rs:19-127`. -/
def translateConst [Target] (fuel : Nat) (c : Cx I A Y D) : RsConst A → Res (ValueExpr × Cx I A Y D)
  | .scalar ty bits =>
    match ty with
    | .int t => .ok (.constant (.int (scalarInt t bits)) ty, c)
    | .bool =>
      if bits = 0 then .ok (.constant (.bool false) ty, c)
      else if bits = 1 then .ok (.constant (.bool true) ty, c)
      else panic
    | _ => panic
  | .ptr ty prov offset count => do
    let count ← constMeta ty count
    let (k, c) ← K.constPtr fuel c prov offset
    match count with
    | none => .ok (.constant k ty, c)
    | some n => do
      let e ← mkWide (.constant k (.ptr rawVoidPtr)) (mkUsize n) ty
      .ok (e, c)
  | .fields ty fs =>
    match ty with
    | .tuple _ _ unsizedField => do
      rassert unsizedField.isNone
      let (es, c) ← translateConsts fuel c fs
      .ok (.tuple es ty, c)
    | .array _ _ => do
      let (es, c) ← translateConsts fuel c fs
      .ok (.tuple es ty, c)
    | _ => panic
  | .variant ty discr fs =>
    match ty with
    | .enum variants dt _ _ _ => do
      let (es, c) ← translateConsts fuel c fs
      let (vty, _) ← unwrap (Map.get? variants (scalarInt dt discr))
      .ok (.variant (scalarInt dt discr) (.tuple es vty) ty, c)
    | _ => panic
  | .unsupported => panic
/-- The loops over the fields, `/repo/tooling/minimize/src/constant.rs:84-87, 96-100, 116-119`. -/
def translateConsts [Target] (fuel : Nat) (c : Cx I A Y D) : List (RsConst A) → Res (List ValueExpr × Cx I A Y D)
  | [] => .ok ([], c)
  | k :: ks => do
    let (e, c) ← translateConst fuel c k
    let (es, c) ← translateConsts fuel c ks
    .ok (e :: es, c)
end

/-! ### Traits and vtables -/

/-- `generate_trait`, `/repo/tooling/minimize/src/vtable.rs:108-143`. `COMMON_VTABLE_ENTRIES_DROPINPLACE` is 0. -/
def generateTrait (d : D) : List TraitMethodName :=
  match K.principal d with
  | none => []
  | some (base, own) =>
    let methods := (List.range own).map (base + ·)
    if 0 ∈ methods then methods else methods ++ [0]

/-- `get_trait_name`, `/repo/tooling/minimize/src/vtable.rs:91-105`. -/
def getTraitName (c : Cx I A Y D) (d : D) : Res (TraitName × Cx I A Y D) :=
  match c.traitNames.get? d with
  | some n => do
    rassert (c.traits.contains n)
    .ok (n, c)
  | none =>
    let n := c.traitNames.length
    .ok (n, { c with traits := c.traits.insert n (K.generateTrait d), traitNames := c.traitNames.insert d n })

/-- The methods of a vtable, `/repo/tooling/minimize/src/vtable.rs:56-80`; `idx` is the number of the first entry. -/
def vtableMethods (glue : I) : Nat → Cx I A Y D → List (RsVtblEntry I) → Map TraitMethodName FnName → Map TraitMethodName FnName × Cx I A Y D
  | _, c, [], m => (m, c)
  | idx, c, .method f :: es, m =>
    let (n, c) := c.getFnName f
    vtableMethods glue (idx + 1) c es (m.insert idx n)
  | idx, c, .dropInPlace :: es, m =>
    let (n, c) := c.getFnName glue
    vtableMethods glue (idx + 1) c es (m.insert 0 n)
  | idx, c, .other :: es, m => vtableMethods glue (idx + 1) c es m

/-- `generate_vtable`, `/repo/tooling/minimize/src/vtable.rs:28-88`. -/
def generateVTable (c : Cx I A Y D) (y : Y) (d : D) : Res (VTable × Cx I A Y D) := do
  let v := K.vtable y d
  let (methods, c) := match v.entries with
    | some es => vtableMethods v.dropGlue 0 c es []
    | none => ([], c)
  let (t, c) ← K.getTraitName c d
  .ok (⟨t, v.size, v.align, v.cells, methods⟩, c)

/-- `get_vtable`, `/repo/tooling/minimize/src/vtable.rs:6-25`. -/
def getVTable (c : Cx I A Y D) (y : Y) (d : D) : Res (VTableName × Cx I A Y D) :=
  match c.vtableNames.get? (y, d) with
  | some n => do
    rassert (c.vtables.contains n)
    .ok (n, c)
  | none => do
    let n := c.vtableNames.length
    let (v, c) ← K.generateVTable c y d
    .ok (n, { c with vtables := c.vtables.insert n v, vtableNames := c.vtableNames.insert (y, d) n })

/-! ### The program -/

/-- Answering a request of the translation of a function. -/
def answer [Target] (fuel : Nat) (c : Cx I A Y D) : RsReq I A Y D → Res (Nat × Cx I A Y D)
  | .fn i => .ok (c.getFnName i)
  | .vtable y d => K.getVTable c y d
  | .trait d => K.getTraitName c d
  | .alloc a => K.translateAllocId fuel c a

/-- Answering all requests, one after the other. -/
def answers [Target] (fuel : Nat) : Cx I A Y D → List (RsReq I A Y D) → Res (List Nat × Cx I A Y D)
  | c, [] => .ok ([], c)
  | c, r :: rs => do
    let (n, c) ← K.answer fuel c r
    let (ns, c) ← answers fuel c rs
    .ok (n :: ns, c)

/-- The body of the loop, `/repo/tooling/minimize/src/program.rs:94-107`: translate the instance and add the function under the name. -/
def implement [Target] (fuel : Nat) (c : Cx I A Y D) (i : I) (name : FnName) : Res (Cx I A Y D) := do
  let (ns, c) ← K.answers fuel c (K.body i).requests
  let f ← (K.body i).build ns
  .ok { c with functions := c.functions.insert name f }

/-- The context before the loop, `/repo/tooling/minimize/src/program.rs:81-86`. -/
def init : Cx I A Y D := { fnNames := [(K.entry, 0)] }

/-- The main loop, `/repo/tooling/minimize/src/program.rs:88-107`, after any number of iterations. Which function is next is not
determined. -/
inductive Runs [Target] : Nat → Cx I A Y D → Prop
  | init : Runs 0 K.init
  | step {k c c' i name fuel} : Runs k c → (i, name) ∈ c.fnNames → c.functions.get? name = none →
      K.implement fuel c i name = .ok c' → Runs (k + 1) c'

/-- The condition of the loop does not hold any more. -/
def Done (c : Cx I A Y D) : Prop := ∀ name ∈ c.fnNames.values, c.functions.get? name ≠ none

end Crate

/-- `mk_start_fn`, `/repo/tooling/minimize/src/program.rs:189-239`. -/
def mkStartFn [Target] (entry : FnName) : Function where
  locals := [(0, unitTy)]
  args := []
  ret := 0
  callingConvention := .c
  blocks := [
    (0, ⟨[], .call (mkFnPtr entry) .rust [] unitPlace (some 1) (some 2), .regular⟩),
    (1, ⟨[], .intrinsic .exit [] unitPlace none, .regular⟩),
    (2, ⟨[], mkAbort, .catch⟩)]
  start := 0

/-- The end of `translate`, `/repo/tooling/minimize/src/program.rs:110-122`. -/
def Cx.finish [Target] (c : Cx I A Y D) : Program where
  start := c.fnNames.length
  functions := c.functions.insert c.fnNames.length (mkStartFn 0)
  globals := c.globals
  vtables := c.vtables
  traits := c.traits

end MiniRust
