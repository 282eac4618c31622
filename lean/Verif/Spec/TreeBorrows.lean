import Verif.TreeBorrows
import Verif.Spec.Memory
/-
A small specification used to state the Tree Borrows properties: the contents of a tree at a path,
ancestors, and which accesses a permission allows.
-/
namespace MiniRust

/-- The subtree at a path. -/
def Node.get? : Node → Path → Option Node
  | n, [] => some n
  | .mk children _ _, i :: q => (children[i]?).bind (fun c => Node.get? c q)

/-- The permissions and protector of the node at a path. -/
def Node.data (n : Node) (q : Path) : Option (List Permission × Protected) :=
  (n.get? q).map (fun s => (s.permissions, s.protected_))

/-- The permission of the node at path `q` for the byte at offset `k`. -/
def Node.perm (n : Node) (q : Path) (k : Nat) : Option Permission :=
  (n.data q).bind (fun d => d.1[k]?)

/-- `q` is `p` or an ancestor of `p`. -/
def AncestorOrSelf (q p : Path) : Prop := q <+: p

instance (q p : Path) : Decidable (AncestorOrSelf q p) := inferInstanceAs (Decidable (q <+: p))

/-- How an access through the node at `p` looks from the node at `q`: local if `q` is `p` or one of its
ancestors, foreign otherwise. -/
def relationTo (p q : Path) : NodeRelation := if AncestorOrSelf q p then .localNode else .foreign

/-- Run a sequence of accesses, as seen by one node, on one permission. -/
def Permission.run (p : Permission) : List (AccessKind × NodeRelation) → Res Permission
  | [] => .ok p
  | (k, r) :: rest => do
    let p ← p.transition k r
    p.run rest

/-- The sequence of accesses is not UB for this permission. -/
def Permission.Allows (p : Permission) (s : List (AccessKind × NodeRelation)) : Prop :=
  ∃ p', p.run s = .ok p'

/-- The byte offset `k` lies in one of the ranges, given as offset and length. -/
def InRanges (ranges : List (Nat × Nat)) (k : Nat) : Prop := ∃ r ∈ ranges, r.1 ≤ k ∧ k < r.1 + r.2

instance (ranges k) : Decidable (InRanges ranges k) := inferInstanceAs (Decidable (∃ r ∈ ranges, _))

/-! ### Histories -/

/-- A Tree Borrows memory together with the bookkeeping of the calls that are in progress. -/
structure TBState where
  mem : TBMem
  frames : List TBFrame

/-- What happened in a step. -/
inductive TBEvent
  | alloc (kind : AllocKind) (size : Nat) (align : Align) (result : ThinPtr TBProv)
  | dealloc (ptr : ThinPtr TBProv) (kind : AllocKind) (size : Nat) (align : Align)
  | store (ptr : ThinPtr TBProv) (bytes : List (AByte TBProv)) (align : Align)
  | load (ptr : ThinPtr TBProv) (len : Nat) (align : Align) (result : List (AByte TBProv))
  | retag (ptr : Pointer TBProv) (pty : PtrType) (fnEntry : Bool) (result : Pointer TBProv)
  | newCall
  | endCall (frame : TBFrame)

section
variable [T : Target]

/-- One successful operation of the memory interface with any arguments and any choice; retagging
happens in one of the calls in progress, and any call in progress may end (calls of different threads
interleave). -/
inductive TBStep : TBState → TBEvent → TBState → Prop
  | alloc {m m' fs kind size align pick p} : Memory.allocate m kind size align pick = .ok (p, m') →
      TBStep ⟨m, fs⟩ (.alloc kind size align p) ⟨m', fs⟩
  | dealloc {m m' fs ptr kind size align} : Memory.deallocate m ptr kind size align = .ok m' →
      TBStep ⟨m, fs⟩ (.dealloc ptr kind size align) ⟨m', fs⟩
  | store {m m' fs ptr bytes align} : Memory.store m ptr bytes align = .ok m' →
      TBStep ⟨m, fs⟩ (.store ptr bytes align) ⟨m', fs⟩
  | load {m m' fs ptr len align bytes} : Memory.load m ptr len align = .ok (bytes, m') →
      TBStep ⟨m, fs⟩ (.load ptr len align bytes) ⟨m', fs⟩
  | retag {m m' fs f f' ptr ptr' pty entry vt} {i : Nat} : fs[i]? = some f →
      Memory.retagPtr m f ptr pty entry vt = .ok (ptr', f', m') →
      TBStep ⟨m, fs⟩ (.retag ptr pty entry ptr') ⟨m', fs.set i f'⟩
  | newCall {m fs} : TBStep ⟨m, fs⟩ .newCall ⟨m, fs ++ [Memory.newCall TBMem]⟩
  | endCall {m m' fs f} {i : Nat} : fs[i]? = some f → Memory.endCall m f = .ok m' →
      TBStep ⟨m, fs⟩ (.endCall f) ⟨m', fs.eraseIdx i⟩

/-- Zero or more steps. -/
inductive TBRun : TBState → TBState → Prop
  | refl {s} : TBRun s s
  | step {s s' s'' e} : TBRun s s' → TBStep s' e s'' → TBRun s s''

/-- The state is reachable from the empty memory. -/
def TBReach (s : TBState) : Prop := TBRun ⟨Memory.new, []⟩ s

end

/-- The tree of allocation `id`. -/
def TBMem.tree? (m : TBMem) (id : AllocId) : Option Node := (m.mem.allocations[id]?).map (·.extra)

/-- The node a provenance denotes exists. -/
def TBMem.HasNode (m : TBMem) (pv : TBProv) : Prop :=
  ∃ n, m.tree? pv.1 = some n ∧ (n.data pv.2).isSome = true

/-- The pointer has no provenance, or its provenance denotes an existing node. -/
def TBMem.ValidPtr (m : TBMem) (p : ThinPtr TBProv) : Prop := ∀ pv, p.prov = some pv → m.HasNode pv

/-- The permission that the reference `pv` has for the byte at address `addr`. -/
def TBMem.permAt (m : TBMem) (pv : TBProv) (addr : Int) : Option Permission :=
  (m.mem.allocations[pv.1]?).bind fun a =>
    if a.addr ≤ addr then a.extra.perm pv.2 (addr - a.addr).toNat else none

/-- The protector of the reference `pv`. -/
def TBMem.protectorOf (m : TBMem) (pv : TBProv) : Option Protected :=
  (m.tree? pv.1).bind fun n => (n.data pv.2).map (·.2)

/-! ### The end of protection -/

/-- The access that the end of its call implies for a byte of a protected reference: a write if the byte was
written through the reference, a read if it only was read, nothing otherwise (or if it is interior mutable). -/
def Permission.exitAccess : Permission → Option AccessKind
  | .prot .unique => some .write
  | .prot (.reserved true _) => some .read
  | .prot (.frozen true) => some .read
  | _ => none

/-- What remains of a protected permission after the end of its call. -/
def Permission.unprotected : Permission → Permission
  | .prot .unique => .unprot .unique
  | .prot (.reserved _ _) => .unprot .reserved
  | .prot (.frozen _) => .unprot .frozen
  | .prot .cell => .unprot .cell
  | .prot .disabled => .unprot .disabled
  | .unprot u => .unprot u

/-! ### Retagging -/

/-- The permission a new reference starts with, before the implicit read: `shared` for `&T` (else `&mut T`
or `Box<T>`), `entry` if this is a function argument or such, `frozen` if the byte is outside of all
`UnsafeCell`s. -/
def initialPermission : (shared entry frozen : Bool) → Permission
  | true, false, true => .unprot .frozen
  | true, true, true => .prot (.frozen false)
  | true, false, false => .unprot .cell
  | true, true, false => .prot .cell
  | false, false, true => .unprot .reserved
  | false, false, false => .unprot .reservedIm
  | false, true, _ => .prot (.reserved false false)

/-- The same after the implicit read. -/
def usedPermission : (shared entry frozen : Bool) → Permission
  | true, true, true => .prot (.frozen true)
  | false, true, _ => .prot (.reserved true false)
  | shared, entry, frozen => initialPermission shared entry frozen

/-- Is this the type of a shared reference? -/
def PtrType.isShared : PtrType → Bool
  | .ref .imm _ => true
  | _ => false

/-- The protector of a reference created at function entry. -/
def PtrType.entryProtector : PtrType → Protected
  | .box _ => .weak
  | _ => .strong

/-- Retagging at this type creates a new reference: it is a reference or box, but not a mutable reference
to something that is not `Unpin`. -/
def PtrType.Retags (pty : PtrType) : Prop :=
  (∃ info, pty.safePointee = some info) ∧ ∀ info, pty = .ref .mut info → info.unpin = true

/-- What retagging `ptr` at type `pty`, whose pointee is described by `info` and has the freeze mask `mask`,
should yield: a new child of the old reference with the documented permissions. -/
structure NewRef (m m' : TBMem) (ptr ptr' : Pointer TBProv) (pty : PtrType) (entry : Bool) (info : PointeeInfo)
    (mask : List Bool) (id : Nat) (parent child : Path) : Prop where
  prov : ptr.thin.prov = some (id, parent)
  prov' : ptr'.thin.prov = some (id, child)
  addr : ptr'.thin.addr = ptr.thin.addr
  metadata : ptr'.metadata = ptr.metadata
  isChild : ∃ i, child = parent ++ [i]
  fresh : ¬ m.HasNode (id, child)
  protector : m'.protectorOf (id, child) = some (if entry then pty.entryProtector else .no)
  inside : ∀ (k : Nat) b, mask[k]? = some b → m'.permAt (id, child) (ptr.thin.addr + (k : Nat)) = some (usedPermission pty.isShared entry b)
  outside : ∀ (addr : Int) X, m'.permAt (id, child) addr = some X → (addr < ptr.thin.addr ∨ ptr.thin.addr + (mask.length : Nat) ≤ addr) →
    X = initialPermission pty.isShared entry info.freeze

/-! ### Forgetting the borrow information -/

/-- Forget which node a provenance denotes; keep the allocation. -/
def TBProv.erase (pv : TBProv) : AllocId × Unit := (pv.1, ())

def ThinPtr.erase (p : ThinPtr TBProv) : ThinPtr (AllocId × Unit) := ⟨p.addr, p.prov.map TBProv.erase⟩

def PtrMeta.erase : PtrMeta TBProv → PtrMeta (AllocId × Unit)
  | .elementCount n => .elementCount n
  | .vtablePointer p => .vtablePointer p.erase

def Pointer.erase (p : Pointer TBProv) : Pointer (AllocId × Unit) := ⟨p.thin.erase, p.metadata.map PtrMeta.erase⟩

def AByte.erase : AByte TBProv → AByte (AllocId × Unit)
  | .uninit => .uninit
  | .init b frag => .init b (frag.map fun f => ⟨f.prov.erase, f.position⟩)

/-- Forget the trees, and the nodes in the stored pointers. -/
def TBMem.erase (m : TBMem) : BasicMem Unit Unit :=
  ⟨m.mem.allocations.map fun a =>
    { data := a.data.map AByte.erase, addr := a.addr, align := a.align, kind := a.kind, live := a.live, extra := () }⟩

def MemEvent.erase : MemEvent Path → MemEvent Unit
  | .alloc kind size align p => .alloc kind size align p.erase
  | .dealloc ptr kind size align => .dealloc ptr.erase kind size align
  | .store ptr bytes align => .store ptr.erase (bytes.map AByte.erase) align
  | .load ptr len align bytes => .load ptr.erase len align (bytes.map AByte.erase)
  | .bookkeeping => .bookkeeping

end MiniRust
