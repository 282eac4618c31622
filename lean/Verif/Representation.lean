import Verif.Types
/-
Model of `/repo/spec/lang/representation.md`: `encode`, `decode`, value validity, and the
definedness relation.
-/
namespace MiniRust
variable {P : Type} [DecidableEq P]

/-! ### Scalars -/

/-- `bytes.try_map(|b| b.data())?`: fails (with `None`) if any byte is uninitialized.
Used at `/repo/spec/lang/representation.md:78` and `:115`. -/
def bytesData : List (AByte P) → Res (List UInt8)
  | [] => .ok []
  | b :: bs =>
    match b.data with
    | none => .error .none
    | some d =>
      match bytesData bs with
      | .ok ds => .ok (d :: ds)
      | .error e => .error e

/-- `decode` at `Type::Int`, `/repo/spec/lang/representation.md:75-80` (returning the integer). -/
def decodeInt [T : Target] (i : IntType) (bytes : List (AByte P)) : Res Int := do
  rassert (bytes.length == i.size)
  let data ← bytesData bytes
  .ok (T.endianness.decode i.signed data)

/-- `encode` at `Type::Int`, `/repo/spec/lang/representation.md:81-86`. -/
def encodeInt [T : Target] (ity : IntType) (i : Int) : Res (List (AByte P)) := do
  let data ← unwrap (T.endianness.encode ity.signed ity.size i)
  .ok (data.map fun b => .init b none)

/-- `decode` at `Type::Bool`, `/repo/spec/lang/representation.md:54-61`. -/
def decodeBool : List (AByte P) → Res Bool
  | [.init 0 _] => .ok false
  | [.init 1 _] => .ok true
  | [_] => .error .none
  | _ => panic

/-- `encode` at `Type::Bool`, `/repo/spec/lang/representation.md:62-65`. -/
def encodeBool (b : Bool) : List (AByte P) := [.init (if b then 1 else 0) none]

/-! ### Pointers -/

/-- The closure folded over the bytes in `decode_ptr`, `/repo/spec/lang/representation.md:119-131`;
`idx` is the index of the first byte of the list. -/
def foldProv : List (AByte P) → Nat → Option P → Option P
  | [], _, acc => acc
  | b :: bs, idx, acc =>
    let acc' := match b.frag with
      | some f => if f.position = idx ∧ some f.prov = acc then acc else none
      | none => none
    foldProv bs (idx + 1) acc'

/-- `decode_ptr`, `/repo/spec/lang/representation.md:112-133`. -/
def decodePtr [T : Target] (bytes : List (AByte P)) : Res (ThinPtr P) := do
  rassert (bytes.length == T.ptrSize)
  let data ← bytesData bytes
  let addr := T.endianness.decode .unsigned data
  let b0 ← index bytes 0
  .ok ⟨addr, foldProv bytes 0 (b0.frag.map (·.prov))⟩

/-- `encode_ptr`, `/repo/spec/lang/representation.md:135-142`. -/
def encodePtr [T : Target] (ptr : ThinPtr P) : Res (List (AByte P)) := do
  let data ← unwrap (T.endianness.encode .unsigned T.ptrSize ptr.addr)
  .ok (data.mapIdx fun i b => .init b (ptr.prov.map fun p => ⟨p, i⟩))

/-- `PointerMetaKind::ty`, `/repo/spec/lang/representation.md:146-152`. -/
def MetaKind.ty [Target] : MetaKind → Ty
  | .none => unitTy
  | .elementCount => .int IntType.usize
  | .vtablePointer t => .ptr (.vtablePtr t)

/-- `PtrType::as_wide_pair`, `/repo/spec/lang/representation.md:157-175`. -/
def PtrType.asWidePair [T : Target] (p : PtrType) : Res (Option Ty) := do
  if p.metaKind = .none then .ok none
  else
    let metaTy := p.metaKind.ty
    let l ← metaTy.layout
    rassert ((← l.expectSize) == T.ptrSize)
    rassert ((← l.expectAlign) == T.ptrAlign)
    .ok (some (.tuple [(0, .ptr (.raw .none)), (T.ptrSize, metaTy)]
      ⟨2 * T.ptrSize, T.ptrAlign, none⟩ none))

/-- `PointerMetaKind::decode_value`, `/repo/spec/lang/representation.md:182-189`. -/
def MetaKind.decodeValue : MetaKind → Value P → Res (Option (PtrMeta P))
  | .none, .tuple [] => .ok Option.none
  | .elementCount, .int count => .ok (some (.elementCount count))
  | .vtablePointer _, .ptr ⟨thin, Option.none⟩ => .ok (some (.vtablePointer thin))
  | _, _ => panic

/-- `PointerMetaKind::encode_as_value`, `/repo/spec/lang/representation.md:193-200`. -/
def MetaKind.encodeAsValue : MetaKind → Option (PtrMeta P) → Res (Value P)
  | .none, Option.none => .ok unitValue
  | .elementCount, some (.elementCount count) => .ok (.int count)
  | .vtablePointer _, some (.vtablePointer p) => .ok (.ptr (p.widen Option.none))
  | _, _ => panic

/-- The metadata half of `pair_ty.decode`: decoding at `PointerMetaKind::ty`
(`/repo/spec/lang/representation.md:146-152, 207`). -/
def decodeMeta [Target] : MetaKind → List (AByte P) → Res (Value P)
  | .none, _ => panic
  | .elementCount, bytes => do .ok (.int (← decodeInt IntType.usize bytes))
  | .vtablePointer _, bytes => do .ok (.ptr ((← decodePtr bytes).widen none))

/-- `decode` at `Type::Ptr`, `/repo/spec/lang/representation.md:204-222`.
The recursive call at the pair type of `as_wide_pair` is unfolded: it decodes a thin pointer from
the first half and the metadata from the second. `decode_ptr_eq` (in `Lemmas/ReprLaws3`)
proves that this is the recursive call. -/
def decodePtrTy [T : Target] (p : PtrType) (bytes : List (AByte P)) : Res (Value P) := do
  match ← p.asWidePair with
  | some _ =>
    rassert (bytes.length == alignTo (2 * T.ptrSize) T.ptrAlign)
    let thin ← decodePtr (← subslice bytes 0 T.ptrSize)
    let metaVal ← decodeMeta p.metaKind (← subslice bytes T.ptrSize T.ptrSize)
    let m ← p.metaKind.decodeValue metaVal
    rassert m.isSome
    .ok (.ptr (thin.widen m))
  | none => do .ok (.ptr ((← decodePtr bytes).widen none))

/-- The metadata half of `pair_ty.encode`. -/
def encodeMeta [Target] : MetaKind → Value P → Res (List (AByte P))
  | .elementCount, .int i => encodeInt IntType.usize i
  | .vtablePointer _, .ptr ⟨thin, none⟩ => encodePtr thin
  | _, _ => panic

/-- `encode` at `Type::Ptr`, `/repo/spec/lang/representation.md:223-238`, with the recursive call at
the pair type unfolded (see `encode_ptr_eq` in `Lemmas/ReprLaws3`). -/
def encodePtrTy [T : Target] (p : PtrType) (v : Value P) : Res (List (AByte P)) := do
  match v with
  | .ptr ptr =>
    match ← p.asWidePair with
    | some _ =>
      let metaVal ← p.metaKind.encodeAsValue ptr.metadata
      let bytes := List.replicate (alignTo (2 * T.ptrSize) T.ptrAlign) .uninit
      let bytes ← writeSubslice bytes 0 (← encodePtr ptr.thin)
      writeSubslice bytes T.ptrSize (← encodeMeta p.metaKind metaVal)
    | none =>
      rassert ptr.metadata.isNone
      encodePtr ptr.thin
  | _ => panic

/-! ### Discriminants -/

section
variable {S : Type}
mutual
/-- `decode_discriminant`, `/repo/spec/lang/representation.md:361-375`. The accessor is a stateful
closure (it loads from memory in `GetDiscriminant`), so its state `S` is threaded through. -/
def decodeDiscriminant [Target] (acc : S → Nat → Nat → Res (List (AByte P) × S)) :
    Discriminator → S → Res (Option Int × S)
  | .known d, s => .ok (some d, s)
  | .invalid, s => .ok (none, s)
  | .branch offset vt fallback children, s =>
    match acc s offset vt.size with
    | .error e => .error e
    | .ok (bytes, s) =>
      match decodeInt vt bytes with
      | .error .none => .ok (none, s)
      | .error e => .error e
      | .ok val =>
        match decodeDiscriminantChildren acc children val s with
        | some r => r
        | none => decodeDiscriminant acc fallback s
/-- The `children.iter().find_map(..)` of `/repo/spec/lang/representation.md:369-372`, followed by the
recursive call on the child found. -/
def decodeDiscriminantChildren [Target] (acc : S → Nat → Nat → Res (List (AByte P) × S)) :
    List ((Int × Int) × Discriminator) → Int → S → Option (Res (Option Int × S))
  | [], _, _ => none
  | ((start, stop), d) :: rest, val, s =>
    if start ≤ val ∧ val < stop then some (decodeDiscriminant acc d s)
    else decodeDiscriminantChildren acc rest val s
end

/-- `encode_discriminant`, `/repo/spec/lang/representation.md:382-391`, with the state of the
accessor threaded through. -/
def encodeDiscriminant [Target] (acc : S → Nat → List (AByte P) → Res S) : Tagger → S → Res S
  | [], s => .ok s
  | (offset, (vt, value)) :: rest, s => do
    let bytes ← encodeInt vt value
    encodeDiscriminant acc rest (← acc s offset bytes)
end

/-- The accessor used by `decode` at `Type::Enum`, `/repo/spec/lang/representation.md:399`. -/
def sliceAccessor (bytes : List (AByte P)) (_ : Unit) (off size : Nat) : Res (List (AByte P) × Unit) := do
  .ok (← subslice bytes off size, ())

/-! ### `decode` and `encode` -/

/-- The chunk loop of `decode` at `Type::Union`, `/repo/spec/lang/representation.md:327-329`. -/
def decodeChunks (bytes : List (AByte P)) : List (Nat × Nat) → Res (List (List (AByte P)))
  | [] => .ok []
  | (off, size) :: rest => do
    let c ← subslice bytes off size
    let cs ← decodeChunks bytes rest
    .ok (c :: cs)

/-- The chunk loop of `encode` at `Type::Union`, `/repo/spec/lang/representation.md:337-340`. -/
def encodeChunks : List (Nat × Nat) → List (List (AByte P)) → List (AByte P) → Res (List (AByte P))
  | (off, size) :: chunks, d :: data, bytes => do
    rassert (size == d.length)
    encodeChunks chunks data (← writeSubslice bytes off d)
  | _, _, bytes => .ok bytes

/-- The element loop of `decode` at `Type::Array`, `/repo/spec/lang/representation.md:293-299`:
decode `n` consecutive elements of `size` bytes. -/
def decodeElems (dec : List (AByte P) → Res (Value P)) (size : Nat) :
    Nat → List (AByte P) → Res (List (Value P))
  | 0, _ => .ok []
  | n + 1, bytes => do
    let v ← dec (← subslice bytes 0 size)
    let vs ← decodeElems dec size n (bytes.drop size)
    .ok (v :: vs)

/-- The `flat_map` of `encode` at `Type::Array`, `/repo/spec/lang/representation.md:304-308`. -/
def encodeElems (enc : Value P → Res (List (AByte P))) (size : Nat) :
    List (Value P) → Res (List (AByte P))
  | [] => .ok []
  | v :: vs => do
    let bytes ← enc v
    rassert (bytes.length == size)
    let rest ← encodeElems enc size vs
    .ok (bytes ++ rest)

mutual
/-- `Type::decode`, `/repo/spec/lang/representation.md:40` and its cases
(`:54-61` bool, `:75-80` int, `:204-222` ptr, `:249-263` tuple, `:287-300` array, `:323-331` union,
`:394-409` enum, `:442-444`, `:451-453` unsized). -/
def decode [Target] : Ty → List (AByte P) → Res (Value P)
  | .int i, bytes => do .ok (.int (← decodeInt i bytes))
  | .bool, bytes => do .ok (.bool (← decodeBool bytes))
  | .ptr p, bytes => decodePtrTy p bytes
  | .tuple _ _ (some _), _ => panic
  | .tuple fields head none, bytes => do
    rassert (bytes.length == head.headSizeAndAlign.1)
    .ok (.tuple (← decodeFields fields bytes))
  | .array elem count, bytes => do
    let elemSize ← elem.size
    let fullSize ← sizeMul elemSize count
    rassert (bytes.length == fullSize)
    .ok (.tuple (← decodeElems (fun bs => decode elem bs) elemSize count.toNat bytes))
  | .union _ chunks size _, bytes => do
    rassert (bytes.length == size)
    .ok (.union (← decodeChunks bytes chunks))
  | .enum variants _ discriminator size _, bytes => do
    rassert (bytes.length == size)
    match ← decodeDiscriminant (sliceAccessor bytes) discriminator () with
    | (none, _) => .error .none
    | (some d, _) => .ok (.variant d (← decodeVariant variants d bytes))
  | .slice _, _ => panic
  | .traitObject _, _ => panic
/-- The field loop of `decode` at `Type::Tuple`, `/repo/spec/lang/representation.md:255-261`. -/
def decodeFields [Target] : List (Nat × Ty) → List (AByte P) → Res (List (Value P))
  | [], _ => .ok []
  | (off, ty) :: rest, bytes => do
    let v ← decode ty (← subslice bytes off (← ty.size))
    let vs ← decodeFields rest bytes
    .ok (v :: vs)
/-- `variants[discriminant].ty.decode(bytes)`, `/repo/spec/lang/representation.md:405`. -/
def decodeVariant [Target] : List (Int × (Ty × Tagger)) → Int → List (AByte P) → Res (Value P)
  | [], _, _ => panic
  | (d', (ty, _)) :: rest, d, bytes => if d' = d then decode ty bytes else decodeVariant rest d bytes
end

mutual
/-- `Type::encode`, `/repo/spec/lang/representation.md:46` and its cases
(`:62-65` bool, `:81-86` int, `:223-238` ptr, `:264-275` tuple, `:301-309` array, `:332-342` union,
`:411-432` enum, `:445-447`, `:454-456` unsized). -/
def encode [Target] : Ty → Value P → Res (List (AByte P))
  | .int i, .int n => encodeInt i n
  | .bool, .bool b => .ok (encodeBool b)
  | .ptr p, v => encodePtrTy p v
  | .tuple _ _ (some _), _ => panic
  | .tuple fields head none, .tuple vs => do
    rassert (vs.length == fields.length)
    encodeFields fields vs (List.replicate head.headSizeAndAlign.1 .uninit)
  | .array elem count, .tuple vs => do
    rassert ((vs.length : Int) == count)
    match vs with
    | [] => .ok []
    | _ => encodeElems (fun v => encode elem v) (← elem.size) vs
  | .union _ chunks size _, .union data => do
    rassert (data.length == chunks.length)
    encodeChunks chunks data (List.replicate size .uninit)
  | .enum variants _ _ _ _, .variant d data => encodeVariant variants d data
  | _, _ => panic
/-- The field loop of `encode` at `Type::Tuple`, `/repo/spec/lang/representation.md:271-273`. -/
def encodeFields [Target] : List (Nat × Ty) → List (Value P) → List (AByte P) → Res (List (AByte P))
  | (off, ty) :: fields, v :: vs, bytes => do
    encodeFields fields vs (← writeSubslice bytes off (← encode ty v))
  | _, _, bytes => .ok bytes
/-- `/repo/spec/lang/representation.md:420-431`: encode at the variant's type, then write the tag. -/
def encodeVariant [Target] : List (Int × (Ty × Tagger)) → Int → Value P → Res (List (AByte P))
  | [], _, _ => panic
  | (d', (ty, tagger)) :: rest, d, data =>
    if d' = d then do
      let bytes ← encode ty data
      encodeDiscriminant writeSubslice tagger bytes
    else encodeVariant rest d data
end

/-! ### Well-formed values -/

/-- The parts of the machine state that value validity depends on:
the vtables and the memory. -/
structure ValEnv (P : Type) where
  /-- `Machine::vtable_from_ptr`, `/repo/spec/lang/machine.md:347-352` (UB if unknown). -/
  vtableFromPtr : ThinPtr P → Res VTable
  /-- `Machine::vtable_lookup`, `/repo/spec/lang/machine.md:372-381` (panics if unknown). -/
  vtableLookup : ThinPtr P → Res VTable
  /-- `self.mem.dereferenceable`. -/
  dereferenceable : ThinPtr P → Nat → Res Unit

/-- `Machine::compute_size`, `/repo/spec/lang/machine.md:384-387`. -/
def ValEnv.computeSize (env : ValEnv P) (l : LayoutStrategy) (m : Option (PtrMeta P)) : Res Nat := do
  .ok (← l.computeSizeAndAlign env.vtableLookup m).1
/-- `Machine::compute_align`, `/repo/spec/lang/machine.md:390-393`. -/
def ValEnv.computeAlign (env : ValEnv P) (l : LayoutStrategy) (m : Option (PtrMeta P)) : Res Align := do
  .ok (← l.computeSizeAndAlign env.vtableLookup m).2

/-- The call `check_ptr(ptr.widen(None), PtrType::VTablePtr(trait_name))` of
`/repo/spec/lang/representation.md:496`, unfolded (see `checkPtr_vtablePtr` in `Lemmas/ReprLaws3`). -/
def checkVTablePtr [T : Target] (env : ValEnv P) (ptr : ThinPtr P) (t : TraitName) : Res Unit := do
  ensureUb (inBounds .unsigned T.ptrSize ptr.addr)
  let vt ← env.vtableFromPtr ptr
  ensureUb (vt.traitName == t)

/-- `Machine::check_ptr_metadata`, `/repo/spec/lang/representation.md:490-502`. -/
def checkPtrMetadata [Target] (env : ValEnv P) : Option (PtrMeta P) → MetaKind → Res Unit
  | none, .none => .ok ()
  | some (.elementCount n), .elementCount => ensureUb (IntType.usize.canRepresent n)
  | some (.vtablePointer p), .vtablePointer t => checkVTablePtr env p t
  | _, _ => ub

/-- `Machine::check_ptr`, `/repo/spec/lang/representation.md:505-537`. -/
def checkPtr [T : Target] (env : ValEnv P) (ptr : Pointer P) (ty : PtrType) : Res Unit := do
  ensureUb (inBounds .unsigned T.ptrSize ptr.thin.addr)
  checkPtrMetadata env ptr.metadata ty.metaKind
  match ty.safePointee with
  | some pointee =>
    let size ← env.computeSize pointee.layout ptr.metadata
    let align ← env.computeAlign pointee.layout ptr.metadata
    ensureUb (inBounds .signed T.ptrSize size)
    ensureUb (ptr.thin.addr != 0)
    ensureUb (align.isAligned ptr.thin.addr)
    ensureUb pointee.inhabited
    ensureUb (← isOk (env.dereferenceable ptr.thin size))
  | none =>
    match ty with
    | .vtablePtr t =>
      let vt ← env.vtableFromPtr ptr.thin
      ensureUb (vt.traitName == t)
    | _ => .ok ()

/-- The chunk loop of `check_value` at unions, `/repo/spec/lang/representation.md:563-565`. -/
def checkChunks : List (List (AByte P)) → List (Nat × Nat) → Res Unit
  | d :: data, (_, size) :: chunks => do
    ensureUb (d.length == size)
    checkChunks data chunks
  | _, _ => .ok ()

/-- The element loop of `check_value` at arrays, `/repo/spec/lang/representation.md:557-559`. -/
def checkElems (chk : Value P → Res Unit) : List (Value P) → Res Unit
  | [] => .ok ()
  | v :: vs => do
    chk v
    checkElems chk vs

mutual
/-- `Machine::check_value`, `/repo/spec/lang/representation.md:541-579`. -/
def checkValue [Target] (env : ValEnv P) : Ty → Value P → Res Unit
  | .int ity, .int i => ensureUb (ity.canRepresent i)
  | .bool, .bool _ => .ok ()
  | .ptr p, .ptr ptr => checkPtr env ptr p
  | .tuple fields _ unsizedField, .tuple vs => do
    rassert unsizedField.isNone
    ensureUb (vs.length == fields.length)
    checkFields env fields vs
  | .array elem count, .tuple vs => do
    ensureUb ((vs.length : Int) == count)
    checkElems (fun v => checkValue env elem v) vs
  | .union _ chunks _ _, .union data => do
    ensureUb (data.length == chunks.length)
    checkChunks data chunks
  | .enum variants _ _ _ _, .variant d data => checkVariant env variants d data
  | _, _ => panic
/-- The field loop of `check_value` at tuples, `/repo/spec/lang/representation.md:551-553`. -/
def checkFields [Target] (env : ValEnv P) : List (Nat × Ty) → List (Value P) → Res Unit
  | (_, ty) :: fields, v :: vs => do
    checkValue env ty v
    checkFields env fields vs
  | _, _ => .ok ()
/-- `/repo/spec/lang/representation.md:568-571`: an absent discriminant is UB. -/
def checkVariant [Target] (env : ValEnv P) : List (Int × (Ty × Tagger)) → Int → Value P → Res Unit
  | [], _, _ => ub
  | (d', (ty, _)) :: rest, d, data =>
    if d' = d then checkValue env ty data else checkVariant env rest d data
end

/-- `Machine::transmute`, `/repo/spec/lang/representation.md:790-802`. -/
def transmute [Target] (env : ValEnv P) (v : Value P) (ty1 ty2 : Ty) : Res (Value P) := do
  rassert ((← ty1.size) == (← ty2.size))
  let bytes ← encode ty1 v
  match decode ty2 bytes with
  | .ok raw =>
    checkValue env ty2 raw
    .ok raw
  | .error .none => ub
  | .error e => .error e

/-! ### The definedness relation -/

/-- `le_defined` on `AbstractByte`, `/repo/spec/lang/representation.md:653-668`. -/
def AByte.le : AByte P → AByte P → Bool
  | .uninit, _ => true
  | .init d1 none, .init d2 _ => d1 == d2
  | .init d1 (some p1), .init d2 (some p2) => d1 == d2 && p1 == p2
  | _, _ => false

/-- `le_defined` on `ThinPointer`, `/repo/spec/lang/representation.md:675-682`. -/
def ThinPtr.le (p q : ThinPtr P) : Bool :=
  p.addr == q.addr && match p.prov, q.prov with
    | none, _ => true
    | some a, some b => a == b
    | _, _ => false

/-- `le_defined` on `PointerMeta`, `/repo/spec/lang/representation.md:686-691`. -/
def PtrMeta.le : PtrMeta P → PtrMeta P → Bool
  | .vtablePointer p, .vtablePointer q => p.le q
  | a, b => a == b

/-- `le_defined` on `Option`, `/repo/spec/lang/representation.md:739-745`. -/
def optLe {α : Type} (le : α → α → Bool) : Option α → Option α → Bool
  | none, _ => true
  | some a, some b => le a b
  | _, _ => false

/-- `le_defined` on `Pointer`, `/repo/spec/lang/representation.md:695-698`. -/
def Pointer.le (p q : Pointer P) : Bool :=
  p.thin.le q.thin && optLe PtrMeta.le p.metadata q.metadata

/-- `le_defined` on `List`, `/repo/spec/lang/representation.md:706-709`. -/
def listLe {α : Type} (le : α → α → Bool) : List α → List α → Bool
  | [], [] => true
  | a :: as, b :: bs => le a b && listLe le as bs
  | _, _ => false

mutual
/-- `le_defined` on `Value`, `/repo/spec/lang/representation.md:716-732`. -/
def Value.le : Value P → Value P → Bool
  | .int a, .int b => a == b
  | .bool a, .bool b => a == b
  | .ptr a, .ptr b => a.le b
  | .tuple as, .tuple bs => Value.leL as bs
  | .variant d a, .variant e b => d == e && a.le b
  | .union as, .union bs => listLe (listLe AByte.le) as bs
  | _, _ => false
/-- `le_defined` on `List<Value>`, `/repo/spec/lang/representation.md:706-709`. -/
def Value.leL : List (Value P) → List (Value P) → Bool
  | [], [] => true
  | a :: as, b :: bs => a.le b && Value.leL as bs
  | _, _ => false
end

end MiniRust
