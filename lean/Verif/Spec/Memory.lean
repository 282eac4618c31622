import Verif.Memory
/-
A small specification used to state the memory properties: histories of memory operations through
the memory interface, and what can be read off a history without looking at the memory.
-/
namespace MiniRust

/-- A successful memory operation with its arguments and results. -/
inductive MemEvent (PE : Type)
  | alloc (kind : AllocKind) (size : Nat) (align : Align) (result : ThinPtr (AllocId × PE))
  | dealloc (ptr : ThinPtr (AllocId × PE)) (kind : AllocKind) (size : Nat) (align : Align)
  | store (ptr : ThinPtr (AllocId × PE)) (bytes : List (AByte (AllocId × PE))) (align : Align)
  | load (ptr : ThinPtr (AllocId × PE)) (len : Nat) (align : Align)
      (result : List (AByte (AllocId × PE)))
  /-- Retagging of a pointer, or the end of a call. -/
  | bookkeeping

/-- A history lists the successful operations, the most recent one first. -/
abbrev MemHistory (PE : Type) := List (MemEvent PE)

section
variable {M PE F : Type} [Memory M (AllocId × PE) F]

/-- One successful operation of the memory interface, with any arguments and any choice. -/
inductive MemStep : M → MemEvent PE → M → Prop
  | alloc {m m' kind size align pick p} : Memory.allocate m kind size align pick = .ok (p, m') →
      MemStep m (.alloc kind size align p) m'
  | dealloc {m m' ptr kind size align} : Memory.deallocate m ptr kind size align = .ok m' →
      MemStep m (.dealloc ptr kind size align) m'
  | store {m m' ptr bytes align} : Memory.store m ptr bytes align = .ok m' →
      MemStep m (.store ptr bytes align) m'
  | load {m m' ptr len align bytes} : Memory.load m ptr len align = .ok (bytes, m') →
      MemStep m (.load ptr len align bytes) m'
  | retag {m m' f f' ptr ptr' pty entry vt} :
      Memory.retagPtr m f ptr pty entry vt = .ok (ptr', f', m') → MemStep m .bookkeeping m'
  | endCall {m m'} {f : F} : Memory.endCall m f = .ok m' → MemStep m .bookkeeping m'

/-- `MemRun m h m'`: the operations of `h` lead from `m` to `m'`. -/
inductive MemRun : M → MemHistory PE → M → Prop
  | nil {m} : MemRun m [] m
  | cons {m m' m'' e h} : MemRun m h m' → MemStep m' e m'' → MemRun m (e :: h) m''

/-- `m` results from the history `h`, starting with the empty memory. -/
def MemReach (h : MemHistory PE) (m : M) : Prop := MemRun Memory.new h m

end

section
variable {PE : Type}

/-- The pointer carries provenance of allocation `id`. -/
def ThinPtr.HasId (p : ThinPtr (AllocId × PE)) (id : AllocId) : Prop := ∃ x, p.prov = some (id, x)

/-- What was requested for an allocation, and where it was placed. -/
structure AllocInfo where
  kind : AllocKind
  size : Nat
  align : Align
  addr : Int

/-- The history contains the creation of allocation `id`. -/
def WasAllocated (h : MemHistory PE) (id : AllocId) (i : AllocInfo) : Prop :=
  ∃ p, .alloc i.kind i.size i.align p ∈ h ∧ p.HasId id ∧ p.addr = i.addr

/-- The history contains the deallocation of allocation `id`. -/
def WasDeallocated (h : MemHistory PE) (id : AllocId) : Prop :=
  ∃ p kind size align, .dealloc p kind size align ∈ h ∧ p.HasId id

/-- Allocation `id` was created and not deallocated. -/
def LiveIn (h : MemHistory PE) (id : AllocId) (i : AllocInfo) : Prop :=
  WasAllocated h id i ∧ ¬ WasDeallocated h id

/-- The byte that the most recent store through a pointer to allocation `id` put at address `a`;
uninitialised if there is none. -/
def lastStored : MemHistory PE → AllocId → Int → AByte (AllocId × PE)
  | [], _, _ => .uninit
  | .store ⟨addr, some (id', _)⟩ bytes _ :: h, id, a =>
    if id' = id ∧ addr ≤ a then (bytes[(a - addr).toNat]?).getD (lastStored h id a)
    else lastStored h id a
  | _ :: h, id, a => lastStored h id a

/-- The `n` bytes at the address of `p` lie inside live allocation `id` of the history, and `p` has
provenance of that allocation. -/
def Accessible (h : MemHistory PE) (p : ThinPtr (AllocId × PE)) (n : Nat) : Prop :=
  ∃ id i, p.HasId id ∧ LiveIn h id i ∧ i.addr ≤ p.addr ∧ p.addr + n ≤ i.addr + i.size

/-- A pointer whose provenance, if any, comes from an allocation of the history ("`AllocId` cannot
be faked", `/repo/spec/mem/basic.md:155`). -/
def Genuine (h : MemHistory PE) (p : ThinPtr (AllocId × PE)) : Prop :=
  ∀ id, p.HasId id → ∃ i, WasAllocated h id i

/-- The address is a multiple of the alignment. -/
def Aligned (align : Align) (addr : Int) : Prop := ((2 ^ align.log : Nat) : Int) ∣ addr

end

/-! ### Memory models built on the basic memory -/

/-- The two memories differ at most in the extra state of allocations. -/
def SameData {PE AE : Type} (m m' : BasicMem PE AE) : Prop :=
  m.allocations.length = m'.allocations.length ∧
  ∀ (i : Nat) (a b : Alloc PE AE), m.allocations[i]? = some a → m'.allocations[i]? = some b →
    a.data = b.data ∧ a.addr = b.addr ∧ a.align = b.align ∧ a.kind = b.kind ∧ a.live = b.live

/-- A memory model that performs each operation on an underlying basic memory, with some handler for
the extra state. Both memory models of the specification are of this form. -/
class BasicBacked [T : Target] (M : Type) (PE AE F : outParam Type) [Memory M (AllocId × PE) F] where
  mem : M → BasicMem PE AE
  new : mem Memory.new = BasicMem.new
  allocate : ∀ m kind size align pick, ∃ pe ae,
    (fun (r : _ × M) => (r.1, mem r.2)) <$> Memory.allocate m kind size align pick =
      (mem m).allocate kind size align pe ae pick
  deallocate : ∀ m ptr kind size align, ∃ handler,
    mem <$> Memory.deallocate m ptr kind size align = (mem m).deallocate ptr kind size align handler
  store : ∀ m ptr bytes align, ∃ handler,
    mem <$> Memory.store m ptr bytes align = (mem m).store ptr bytes align handler
  load : ∀ m ptr len align, ∃ handler,
    (fun (r : _ × M) => (r.1, mem r.2)) <$> Memory.load m ptr len align =
      (mem m).load ptr len align handler
  dereferenceable : ∀ m ptr len,
    Memory.dereferenceable m ptr len = (fun _ => ()) <$> (mem m).checkPtr ptr len
  retag : ∀ (m m' : M) f f' ptr ptr' pty entry vt,
    Memory.retagPtr m f ptr pty entry vt = .ok (ptr', f', m') → SameData (mem m) (mem m')
  retagSame : ∀ (m m' : M) f f' ptr ptr' pty entry vt,
    Memory.retagPtr m f ptr pty entry vt = .ok (ptr', f', m') →
      ptr'.metadata = ptr.metadata ∧ ptr'.thin.addr = ptr.thin.addr ∧
        ∀ id, ptr'.thin.HasId id ↔ ptr.thin.HasId id
  endCall : ∀ (m m' : M) (f : F), Memory.endCall m f = .ok m' → SameData (mem m) (mem m')
  leakCheck : ∀ m, Memory.leakCheck m = (mem m).leakCheck

end MiniRust
