import Verif.Memory
/-
Model of `/repo/spec/mem/tree_borrows/*.md`: the Tree Borrows memory model.
-/
namespace MiniRust

/-! ### State machines -/

/-- `AccessKind`, `/repo/spec/mem/tree_borrows/tree.md:60-63`. -/
inductive AccessKind | read | write
  deriving DecidableEq, Repr

/-- `NodeRelation`, `/repo/spec/mem/tree_borrows/tree.md:51-54`. -/
inductive NodeRelation | localNode | foreign
  deriving DecidableEq, Repr

/-- `Protected`, `/repo/spec/mem/tree_borrows/tree.md:14-18`. -/
inductive Protected | strong | weak | no
  deriving DecidableEq, Repr

/-- `Protected::yes`, `/repo/spec/mem/tree_borrows/tree.md:22-24`. -/
def Protected.yes (p : Protected) : Bool := decide (p ≠ .no)

/-- `PermissionUnprot`, `/repo/spec/mem/tree_borrows/state_machine_unprotected.md:6-19`. -/
inductive PermissionUnprot | cell | reserved | reservedIm | unique | frozen | disabled
  deriving DecidableEq, Repr

namespace PermissionUnprot
/-- `/repo/spec/mem/tree_borrows/state_machine_unprotected.md:27-35` -/
def localRead : PermissionUnprot → Res PermissionUnprot
  | .disabled => .error .ub
  | perm => .ok perm
/-- `/repo/spec/mem/tree_borrows/state_machine_unprotected.md:37-44` -/
def localWrite : PermissionUnprot → Res PermissionUnprot
  | .frozen => .error .ub
  | .disabled => .error .ub
  | .cell => .ok .cell
  | _ => .ok .unique
/-- `/repo/spec/mem/tree_borrows/state_machine_unprotected.md:46-53` -/
def foreignRead : PermissionUnprot → Res PermissionUnprot
  | .reserved => .ok .reserved
  | .unique => .ok .frozen
  | perm => .ok perm
/-- `/repo/spec/mem/tree_borrows/state_machine_unprotected.md:55-62` -/
def foreignWrite : PermissionUnprot → Res PermissionUnprot
  | .cell => .ok .cell
  | .reservedIm => .ok .reservedIm
  | _ => .ok .disabled
/-- `/repo/spec/mem/tree_borrows/state_machine_unprotected.md:64-75` -/
def transition (p : PermissionUnprot) (kind : AccessKind) (rel : NodeRelation) : Res PermissionUnprot :=
  match rel, kind with
  | .localNode, .read => p.localRead
  | .localNode, .write => p.localWrite
  | .foreign, .read => p.foreignRead
  | .foreign, .write => p.foreignWrite
/-- `/repo/spec/mem/tree_borrows/state_machine_unprotected.md:81-85` -/
def preventsDeallocation (_ : PermissionUnprot) : Bool := false
/-- `/repo/spec/mem/tree_borrows/state_machine_unprotected.md:96-102` -/
def initAccess : PermissionUnprot → Option AccessKind
  | .cell => none
  | _ => some .read
end PermissionUnprot

/-- `PermissionProt`, `/repo/spec/mem/tree_borrows/state_machine_protected.md:7-21`. -/
inductive PermissionProt
  | cell
  | reserved (hadLocalRead hadForeignRead : Bool)
  | unique
  | frozen (hadLocalRead : Bool)
  | disabled
  deriving DecidableEq, Repr

namespace PermissionProt
/-- `/repo/spec/mem/tree_borrows/state_machine_protected.md:29-37` -/
def localRead : PermissionProt → Res PermissionProt
  | .cell => .ok .cell
  | .reserved _ hadForeignRead => .ok (.reserved true hadForeignRead)
  | .unique => .ok .unique
  | .frozen _ => .ok (.frozen true)
  | .disabled => .error .ub
/-- `/repo/spec/mem/tree_borrows/state_machine_protected.md:39-50` -/
def localWrite : PermissionProt → Res PermissionProt
  | .cell => .ok .cell
  | .unique => .ok .unique
  | .reserved _ false => .ok .unique
  | .reserved _ true => .error .ub
  | .frozen _ => .error .ub
  | .disabled => .error .ub
/-- `/repo/spec/mem/tree_borrows/state_machine_protected.md:52-61` -/
def foreignRead : PermissionProt → Res PermissionProt
  | .cell => .ok .cell
  | .unique => .error .ub
  | .reserved hadLocalRead _ => .ok (.reserved hadLocalRead true)
  | .frozen hadLocalRead => .ok (.frozen hadLocalRead)
  | .disabled => .ok .disabled
/-- `/repo/spec/mem/tree_borrows/state_machine_protected.md:63-75` -/
def foreignWrite : PermissionProt → Res PermissionProt
  | .cell => .ok .cell
  | .frozen true => .error .ub
  | .reserved true _ => .error .ub
  | .unique => .error .ub
  | .frozen false => .ok .disabled
  | .reserved false _ => .ok .disabled
  | .disabled => .ok .disabled
/-- `/repo/spec/mem/tree_borrows/state_machine_protected.md:77-88` -/
def transition (p : PermissionProt) (kind : AccessKind) (rel : NodeRelation) : Res PermissionProt :=
  match rel, kind with
  | .localNode, .read => p.localRead
  | .localNode, .write => p.localWrite
  | .foreign, .read => p.foreignRead
  | .foreign, .write => p.foreignWrite
/-- `/repo/spec/mem/tree_borrows/state_machine_protected.md:90-96` -/
def initAccess : PermissionProt → Option AccessKind
  | .cell => none
  | _ => some .read
/-- `/repo/spec/mem/tree_borrows/state_machine_protected.md:113-124` -/
def unprotect : PermissionProt → PermissionUnprot × Option AccessKind
  | .unique => (.unique, some .write)
  | .reserved true _ => (.reserved, some .read)
  | .reserved false _ => (.reserved, none)
  | .frozen true => (.frozen, some .read)
  | .frozen false => (.frozen, none)
  | .disabled => (.disabled, none)
  | .cell => (.cell, none)
/-- `/repo/spec/mem/tree_borrows/state_machine_protected.md:130-141` -/
def preventsDeallocation : PermissionProt → Bool
  | .unique => true
  | .reserved hadLocalRead _ => hadLocalRead
  | .frozen hadLocalRead => hadLocalRead
  | .disabled => false
  | .cell => false
end PermissionProt

/-- `Permission`, `/repo/spec/mem/tree_borrows/state_machine.md:11-14`. -/
inductive Permission
  | unprot (p : PermissionUnprot)
  | prot (p : PermissionProt)
  deriving DecidableEq, Repr

namespace Permission
/-- `Permission::transition`, `/repo/spec/mem/tree_borrows/state_machine.md:18-32`. -/
def transition (p : Permission) (kind : AccessKind) (rel : NodeRelation) : Res Permission :=
  match p with
  | .unprot p => do
    let p ← p.transition kind rel
    .ok (.unprot p)
  | .prot p => do
    let p ← p.transition kind rel
    .ok (.prot p)
/-- `Permission::init_access`, `/repo/spec/mem/tree_borrows/state_machine.md:34-39`. -/
def initAccess : Permission → Option AccessKind
  | .unprot p => p.initAccess
  | .prot p => p.initAccess
/-- `Permission::unprotect`, `/repo/spec/mem/tree_borrows/state_machine.md:46-55`. -/
def unprotect : Permission → Res (Permission × Option AccessKind)
  | .unprot _ => .error .panic
  | .prot p =>
    let (newPerm, access) := p.unprotect
    .ok (.unprot newPerm, access)
/-- `Permission::prevents_deallocation`, `/repo/spec/mem/tree_borrows/state_machine.md:62-67`. -/
def preventsDeallocation : Permission → Bool
  | .unprot p => p.preventsDeallocation
  | .prot p => p.preventsDeallocation
/-- `Permission::matches_protector`, `/repo/spec/mem/tree_borrows/state_machine.md:71-77`. -/
def matchesProtector (p : Permission) (protected_ : Protected) : Bool :=
  if protected_.yes then (match p with | .prot _ => true | .unprot _ => false)
  else (match p with | .unprot _ => true | .prot _ => false)
end Permission

/-! ### Trees -/

/-- `Path`, `/repo/spec/mem/tree_borrows/memory.md:37-39`. Child indices are `Int`s in the spec; they
are only ever list lengths. -/
abbrev Path := List Nat

/-- `Node`, `/repo/spec/mem/tree_borrows/tree.md:31-43`. -/
inductive Node
  | mk (children : List Node) (permissions : List Permission) (protected_ : Protected)
  deriving Repr

namespace Node
def children : Node → List Node | mk c _ _ => c
def permissions : Node → List Permission | mk _ p _ => p
def protected_ : Node → Protected | mk _ _ p => p

/-- The loop of `Node::transition`, `/repo/spec/mem/tree_borrows/tree.md:81-85`, over `n` offsets
starting at `offset`. -/
def transitionLoop (rel : NodeRelation) (kind : AccessKind) :
    (perms : List Permission) → (offset n : Nat) → Res (List Permission)
  | perms, _, 0 => .ok perms
  | perms, offset, n + 1 => do
    let p ← index perms offset
    let p ← p.transition kind rel
    transitionLoop rel kind (perms.set offset p) (offset + 1) n

/-- The `sub_path` of `/repo/spec/mem/tree_borrows/tree.md:116-119` and `210-213`. -/
def subPath (path : Option Path) (childId : Nat) : Option Path :=
  match path with
  | some (head :: tail) => if head = childId then some tail else none
  | _ => none

/-- `node_relation` of `/repo/spec/mem/tree_borrows/tree.md:106` and `188`. -/
def relation (path : Option Path) : NodeRelation := if path.isSome then .localNode else .foreign

mutual
/-- `Node::access`, `/repo/spec/mem/tree_borrows/tree.md:94-127`. -/
def access : Node → (path : Option Path) → AccessKind → (offset size : Nat) → Res Node
  | mk children permissions protected_, path, kind, offset, size => do
    let permissions ← transitionLoop (relation path) kind permissions offset size
    let children ← accessL children 0 path kind offset size
    .ok (mk children permissions protected_)
/-- The loop over the children, `/repo/spec/mem/tree_borrows/tree.md:113-124`. -/
def accessL : List Node → (childId : Nat) → (path : Option Path) → AccessKind → (offset size : Nat) →
    Res (List Node)
  | [], _, _, _, _, _ => .ok []
  | child :: rest, childId, path, kind, offset, size => do
    let child ← access child (subPath path childId) kind offset size
    let rest ← accessL rest (childId + 1) path kind offset size
    .ok (child :: rest)
end

/-- `Node::access_node`, `/repo/spec/mem/tree_borrows/tree.md:135-147`; `is_leaf`, lines 167-169. -/
def accessNode {O : Type} (f : Node → Res (Node × O)) : Node → Path → Res (Node × O)
  | n, [] => f n
  | mk children permissions protected_, subRootId :: subPath =>
    if children.length = 0 then .error .panic
    else do
      let child ← index children subRootId
      let (child, out) ← accessNode f child subPath
      .ok (mk (children.set subRootId child) permissions protected_, out)

/-- `Node::add_node`, `/repo/spec/mem/tree_borrows/tree.md:153-164`. -/
def addNode (n : Node) (parentPath : Path) (child : Node) : Res (Node × Path) := do
  let (n, childIdx) ← accessNode (fun
    | mk children permissions protected_ =>
      .ok (mk (children ++ [child]) permissions protected_, children.length)) n parentPath
  .ok (n, parentPath ++ [childIdx])

/-- The loop over `accesses` of `/repo/spec/mem/tree_borrows/tree.md:199-207`. -/
def releaseLoop (rel : NodeRelation) :
    (perms : List Permission) → (offset : Nat) → (accesses : List (Option AccessKind)) → Res (List Permission)
  | perms, _, [] => .ok perms
  | perms, offset, none :: rest => releaseLoop rel perms (offset + 1) rest
  | perms, offset, some acc :: rest => do
    let p ← index perms offset
    let p ← p.transition acc rel
    releaseLoop rel (perms.set offset p) (offset + 1) rest

mutual
/-- `Node::release_protector`, `/repo/spec/mem/tree_borrows/tree.md:181-219`. -/
def releaseProtector : Node → (path : Option Path) → (accesses : List (Option AccessKind)) → Res Node
  | mk children permissions protected_, path, accesses =>
    if path = some [] then .ok (mk children permissions .no)
    else do
      let permissions ← releaseLoop (relation path) permissions 0 accesses
      let children ← releaseProtectorL children 0 path accesses
      .ok (mk children permissions protected_)
/-- The loop over the children, `/repo/spec/mem/tree_borrows/tree.md:210-217`. -/
def releaseProtectorL : List Node → (childId : Nat) → (path : Option Path) →
    (accesses : List (Option AccessKind)) → Res (List Node)
  | [], _, _, _ => .ok []
  | child :: rest, childId, path, accesses => do
    let child ← releaseProtector child (subPath path childId) accesses
    let rest ← releaseProtectorL rest (childId + 1) path accesses
    .ok (child :: rest)
end

mutual
/-- `contains_strong_protector_preventing_deallocation`, `/repo/spec/mem/tree_borrows/tree.md:231-240`. -/
def containsStrongProtector : Node → Bool
  | mk children permissions protected_ =>
    (decide (protected_ = .strong) && permissions.any (fun st => st.preventsDeallocation))
      || containsStrongProtectorL children
/-- `self.children.any(…)`, `/repo/spec/mem/tree_borrows/tree.md:239`. -/
def containsStrongProtectorL : List Node → Bool
  | [] => false
  | child :: rest => containsStrongProtector child || containsStrongProtectorL rest
end
end Node

/-! ### Reborrow settings -/

/-- `TreeBorrowsProvenance`, `/repo/spec/mem/tree_borrows/memory.md:45`. -/
abbrev TBProv := AllocId × Path

/-- `ReborrowSettings`, `/repo/spec/mem/tree_borrows/reborrow_settings.md:7-15`. -/
structure ReborrowSettings where
  inside : List Permission
  outside : Permission
  protected_ : Protected
  deriving DecidableEq, Repr

/-- `list![x; n]` for an `Int` `n`: panics if `n` is negative. -/
def replicateInt {α : Type} (n : Int) (x : α) : Res (List α) :=
  if 0 ≤ n then .ok (List.replicate n.toNat x) else .error .panic

/-- The loop of `cells_to_freeze_mask`, `/repo/spec/mem/tree_borrows/reborrow_settings.md:38-45`:
`current` is the previous pair, the list are the remaining `next` pairs. -/
def freezeMaskLoop (mask : List Bool) (current : Nat × Nat) : (nexts : List (Nat × Nat)) → Res (List Bool)
  | [] => .ok mask
  | next :: rest => do
    let mask := mask ++ List.replicate current.2 false
    let noCellSize : Int := (next.1 : Int) - ((current.1 + current.2 : Nat) : Int)
    let frozen ← replicateInt noCellSize true
    freezeMaskLoop (mask ++ frozen) next rest

/-- `cells_to_freeze_mask`, `/repo/spec/mem/tree_borrows/reborrow_settings.md:23-48`. -/
def cellsToFreezeMask (cells : List (Nat × Nat)) (size : Nat) : Res (List Bool) := do
  let mask ← freezeMaskLoop [] (0, 0) (cells ++ [(size, 0)])
  rassert (decide (mask.length = size))
  .ok mask

/-- The loop `for _ in Int::ZERO..count { mask.append(element_mask) }`,
`/repo/spec/mem/tree_borrows/reborrow_settings.md:66-68`. -/
def repeatMask (elementMask : List Bool) : Nat → List Bool
  | 0 => []
  | n + 1 => repeatMask elementMask n ++ elementMask

/-- `UnsafeCellStrategy::freeze_mask`, `/repo/spec/mem/tree_borrows/reborrow_settings.md:53-83`. -/
def UnsafeCellStrategy.freezeMask {P : Type} (vtableLookup : ThinPtr P → Res VTable) :
    UnsafeCellStrategy → LayoutStrategy → Option (PtrMeta P) → Res (List Bool)
  | .sized cells, .sized size _, _ => cellsToFreezeMask cells size
  | .slice elementCells, .slice size _, some (.elementCount count) => do
    let elementMask ← cellsToFreezeMask elementCells size
    .ok (repeatMask elementMask count.toNat)
  | .traitObject, .traitObject _, some (.vtablePointer ptr) => do
    let vtable ← vtableLookup ptr
    cellsToFreezeMask vtable.cells vtable.size
  | .tuple headCells tailCells, .tuple head tail, m => do
    let mask ← cellsToFreezeMask headCells head.end
    let tailMask ← tailCells.freezeMask vtableLookup tail m
    .ok (mask ++ tailMask)
  | _, _, _ => .error .panic

/-- `ReborrowSettings::new`, `/repo/spec/mem/tree_borrows/reborrow_settings.md:92-141`. -/
def ReborrowSettings.new {P : Type} (ptr : Pointer P) (ptrType : PtrType) (fnEntry : Bool)
    (vtableLookup : ThinPtr P → Res VTable) : Res (Option ReborrowSettings) :=
  match ptrType.safePointee with
  | none => .ok none
  | some pointeeInfo =>
    let mutNotUnpin := match ptrType with
      | .ref .mut pointee => !pointee.unpin
      | _ => false
    if mutNotUnpin then .ok none
    else do
      let protected_ : Protected :=
        if fnEntry then (match ptrType with | .box _ => .weak | _ => .strong) else .no
      let mkPerm (unprot : PermissionUnprot) (prot : PermissionProt) : Permission :=
        if protected_.yes then .prot prot else .unprot unprot
      let noCellPerm := match ptrType with
        | .ref .imm _ => mkPerm .frozen (.frozen false)
        | _ => mkPerm .reserved (.reserved false false)
      let cellPerm := match ptrType with
        | .ref .imm _ => mkPerm .cell .cell
        | _ => mkPerm .reservedIm (.reserved false false)
      let mask ← pointeeInfo.unsafeCells.freezeMask vtableLookup pointeeInfo.layout ptr.metadata
      let inside := mask.map (fun freeze => if freeze then noCellPerm else cellPerm)
      let outside := if pointeeInfo.freeze then noCellPerm else cellPerm
      .ok (some { inside, outside, protected_ })

/-! ### The memory model -/

/-- `TreeBorrowsMemory`, `/repo/spec/mem/tree_borrows/memory.md:51-53`; the extra state of an allocation
(lines 13-15) is the root node of its tree. -/
structure TBMem where
  mem : BasicMem Path Node

/-- `TreeBorrowsFrameExtra`, `/repo/spec/mem/tree_borrows/memory.md:55-58`: the protectors. -/
abbrev TBFrame := List TBProv

namespace TBMem

/-- The initial access of `reborrow` for one byte, `/repo/spec/mem/tree_borrows/memory.md:120-122`. -/
def initAccess (childPath : Path) (root : Node) (pos : Nat) (perm : Permission) : Res Node :=
  match perm.initAccess with
  | some acc => root.access (some childPath) acc pos 1
  | none => .ok root

/-- The loop of `reborrow` doing the initial accesses, `/repo/spec/mem/tree_borrows/memory.md:117-123`. -/
def initAccesses (childPath : Path) (offset : Nat) : (root : Node) → (idx : Nat) → List Permission → Res Node
  | root, _, [] => .ok root
  | root, idx, perm :: rest => do
    let root ← initAccess childPath root (offset + idx) perm
    initAccesses childPath offset root (idx + 1) rest

/-- The permissions of the new node, `/repo/spec/mem/tree_borrows/memory.md:95-101`. -/
def newPermissions (allocSize offset : Nat) (settings : ReborrowSettings) : Res (List Permission) :=
  let permissions := List.replicate allocSize settings.outside
  if settings.inside.length > 0 then writeSubslice permissions offset settings.inside
  else .ok permissions

/-- `reborrow`, `/repo/spec/mem/tree_borrows/memory.md:70-136`. -/
def reborrow (m : TBMem) (ptr : ThinPtr TBProv) (settings : ReborrowSettings) (frame : TBFrame) :
    Res (ThinPtr TBProv × TBFrame × TBMem) := do
  let pointeeSize := settings.inside.length
  let _ ← m.mem.checkPtr ptr pointeeSize
  match ptr.prov with
  | none => do
    rassert (decide (pointeeSize = 0))
    .ok (ptr, frame, m)
  | some (allocId, parentPath) => do
    let allocation ← index m.mem.allocations allocId
    let offset ← unwrap (sizeFromBytes (ptr.addr - allocation.addr))
    let permissions ← newPermissions allocation.size offset settings
    let childNode := Node.mk [] permissions settings.protected_
    rassert (permissions.all (fun x => x.matchesProtector settings.protected_))
    let (root, childPath) ← allocation.extra.addNode parentPath childNode
    let root ← initAccesses childPath offset root 0 settings.inside
    let m := ⟨⟨m.mem.allocations.set allocId { allocation with extra := root }⟩⟩
    let frame := if settings.protected_.yes then frame ++ [(allocId, childPath)] else frame
    .ok ({ ptr with prov := some (allocId, childPath) }, frame, m)

/-- The closure passed to `access_node` in `release_protector`,
`/repo/spec/mem/tree_borrows/memory.md:144-152`. -/
def unprotectNode : Node → Res (Node × List (Option AccessKind))
  | .mk children permissions protected_ => do
    rassert protected_.yes
    let permsAndAccesses ← tryMap (fun (x : Permission) => x.unprotect) permissions
    .ok (.mk children (permsAndAccesses.map (·.1)) protected_, permsAndAccesses.map (·.2))

/-- `release_protector`, `/repo/spec/mem/tree_borrows/memory.md:141-165`. -/
def releaseProtector (m : TBMem) (provenance : TBProv) : Res TBMem := do
  let (allocId, path) := provenance
  let allocation ← index m.mem.allocations allocId
  let (root, protectorAccesses) ← allocation.extra.accessNode unprotectNode path
  if !allocation.live then
    .ok ⟨⟨m.mem.allocations.set allocId { allocation with extra := root }⟩⟩
  else do
    let root ← root.releaseProtector (some path) protectorAccesses
    .ok ⟨⟨m.mem.allocations.set allocId { allocation with extra := root }⟩⟩

/-- The loop of `end_call`, `/repo/spec/mem/tree_borrows/memory.md:245-248`. -/
def endCall (m : TBMem) : TBFrame → Res TBMem
  | [] => .ok m
  | p :: rest => do
    let m ← m.releaseProtector p
    endCall m rest

/-- The root node of a new allocation, `/repo/spec/mem/tree_borrows/memory.md:184-188`. -/
def newRoot (size : Nat) : Node := .mk [] (List.replicate size (.unprot .unique)) .no

/-- The handler of `deallocate`, `/repo/spec/mem/tree_borrows/memory.md:195-205`. -/
def deallocHandler (size : Nat) (root : Node) (path : Path) : Res Node := do
  let root ← root.access (some path) .write 0 size
  if root.containsStrongProtector then .error .ub else .ok root

/-- The handlers of `load` and `store`, `/repo/spec/mem/tree_borrows/memory.md:209-212,217-220`. -/
def accessHandler (kind : AccessKind) (len : Nat) (root : Node) (path : Path) (offset : Nat) : Res Node :=
  root.access (some path) kind offset len

/-- `retag_ptr`, `/repo/spec/mem/tree_borrows/memory.md:228-241`. -/
def retagPtr (m : TBMem) (frame : TBFrame) (ptr : Pointer TBProv) (ptrType : PtrType) (fnEntry : Bool)
    (vtableLookup : ThinPtr TBProv → Res VTable) : Res (Pointer TBProv × TBFrame × TBMem) := do
  match ← ReborrowSettings.new ptr ptrType fnEntry vtableLookup with
  | some perms => do
    let (thin, frame, m) ← m.reborrow ptr.thin perms frame
    .ok (thin.widen ptr.metadata, frame, m)
  | none => .ok (ptr, frame, m)

end TBMem

/-- `impl Memory for TreeBorrowsMemory`, `/repo/spec/mem/tree_borrows/memory.md:172-253`. -/
instance [T : Target] : Memory TBMem TBProv TBFrame where
  new := ⟨BasicMem.new⟩
  allocate m kind size align pick := do
    let (p, mem) ← m.mem.allocate kind size align [] (TBMem.newRoot size) pick
    .ok (p, ⟨mem⟩)
  deallocate m ptr kind size align := do
    let mem ← m.mem.deallocate ptr kind size align (TBMem.deallocHandler size)
    .ok ⟨mem⟩
  store m ptr bytes align := do
    let mem ← m.mem.store ptr bytes align (TBMem.accessHandler .write bytes.length)
    .ok ⟨mem⟩
  load m ptr len align := do
    let (bytes, mem) ← m.mem.load ptr len align (TBMem.accessHandler .read len)
    .ok (bytes, ⟨mem⟩)
  dereferenceable m ptr len := do
    let _ ← m.mem.checkPtr ptr len
    .ok ()
  retagPtr := TBMem.retagPtr
  newCall := []
  endCall := TBMem.endCall
  leakCheck m := m.mem.leakCheck

end MiniRust
