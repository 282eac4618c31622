import Verif.Types
/-
Model of `/repo/spec/mem/interface.md` (the memory interface), `/repo/spec/mem/basic.md`
(the basic memory model), `/repo/spec/mem/intptrcast.md` and `/repo/spec/mem/concurrent.md`.

`&mut self` functions return the new memory. The one nondeterministic choice of an operation
(`pick` of an address, `predict` of a provenance) is an explicit argument; a choice the
specification's predicate rejects gives `noBehavior`.
-/
namespace MiniRust

/-- `AllocationKind`, `/repo/spec/mem/interface.md:58-69`. -/
inductive AllocKind
  | stack | heap | global | function | vtable
  deriving DecidableEq, Repr

/-- `AllocId`, `/repo/spec/mem/basic.md:14`: the position in the list of allocations
(an `Int` in the spec, only ever produced from a list length). -/
macro "AllocId" : term => `(Nat)

/-- `trait Memory`, `/repo/spec/mem/interface.md:75-152`. `P` is `Provenance`, `F` is `FrameExtra`.
`allocate` additionally takes the address that the nondeterministic choice picks.
`vtable_lookup` may panic, so it returns `Res`. -/
class Memory (M : Type) (P F : outParam Type) where
  new : M
  allocate : M → AllocKind → (size : Nat) → Align → (pick : Int) → Res (ThinPtr P × M)
  deallocate : M → ThinPtr P → AllocKind → (size : Nat) → Align → Res M
  store : M → ThinPtr P → List (AByte P) → Align → Res M
  load : M → ThinPtr P → (len : Nat) → Align → Res (List (AByte P) × M)
  dereferenceable : M → ThinPtr P → (len : Nat) → Res Unit
  retagPtr : M → F → Pointer P → PtrType → (fnEntry : Bool) → (ThinPtr P → Res VTable) →
    Res (Pointer P × F × M)
  newCall : F
  endCall : M → F → Res M
  leakCheck : M → Res Unit

/-- `signed_dereferenceable`, `/repo/spec/mem/interface.md:110-119`. -/
def Memory.signedDereferenceable {M P F : Type} [Memory M P F] (m : M) (ptr : ThinPtr P) (len : Int) :
    Res Unit :=
  if len > 0 then do
    let len ← unwrap (sizeFromBytes len)
    Memory.dereferenceable m ptr len
  else do
    let beginPtr : ThinPtr P := { addr := ptr.addr + len, prov := ptr.prov }
    let len ← unwrap (sizeFromBytes (-len))
    Memory.dereferenceable m beginPtr len

/-- `Allocation`, `/repo/spec/mem/basic.md:26-41`. -/
structure Alloc (PE AE : Type) where
  data : List (AByte (AllocId × PE))
  addr : Int
  align : Align
  kind : AllocKind
  live : Bool
  extra : AE
  deriving DecidableEq, Repr

namespace Alloc
variable {PE AE : Type}

/-- `Allocation::size`, `/repo/spec/mem/basic.md:67-69`. -/
def size (a : Alloc PE AE) : Nat := a.data.length

/-- `Allocation::overlaps`, `/repo/spec/mem/basic.md:71-84`. -/
def overlaps (a : Alloc PE AE) (otherAddr : Int) (otherSize : Nat) : Bool :=
  let endAddr := a.addr + a.size
  let otherEndAddr := otherAddr + otherSize
  if endAddr ≤ otherAddr ∨ otherEndAddr ≤ a.addr then decide (a.addr = otherAddr) else true

end Alloc

/-- `BasicMemory`, `/repo/spec/mem/basic.md:47-52`. -/
structure BasicMem (PE AE : Type) where
  allocations : List (Alloc PE AE)
  deriving DecidableEq, Repr

namespace BasicMem
variable {PE AE : Type}

/-- `BasicMemory::new`, `/repo/spec/mem/basic.md:55-57`. -/
def new : BasicMem PE AE := ⟨[]⟩

/-- The predicate of the `pick` in `BasicMemory::allocate`, `/repo/spec/mem/basic.md:113-124`.
(The `IntDistribution` of lines 108-112 only guides random sampling.) -/
def pickable [T : Target] (m : BasicMem PE AE) (size : Nat) (align : Align) (addr : Int) : Bool :=
  if addr ≤ 0 then false
  else if !align.isAligned addr then false
  else if !inBounds .unsigned T.ptrSize (addr + size) then false
  else if m.allocations.any (fun a => a.live && a.overlaps addr size) then false
  else true

/-- `BasicMemory::allocate`, `/repo/spec/mem/basic.md:92-142`. -/
def allocate [T : Target] (m : BasicMem PE AE) (kind : AllocKind) (size : Nat) (align : Align)
    (provExtra : PE) (allocExtra : AE) (pick : Int) :
    Res (ThinPtr (AllocId × PE) × BasicMem PE AE) :=
  if !T.validSize size then .error .ub
  else if !m.pickable size align pick then .error .noBehavior
  else
    let allocation : Alloc PE AE :=
      { addr := pick, align, kind, live := true, data := List.replicate size .uninit, extra := allocExtra }
    let id : AllocId := m.allocations.length
    .ok ({ addr := pick, prov := some (id, provExtra) }, ⟨m.allocations ++ [allocation]⟩)

/-- `BasicMemory::deallocate`, `/repo/spec/mem/basic.md:144-185`. -/
def deallocate (m : BasicMem PE AE) (ptr : ThinPtr (AllocId × PE)) (kind : AllocKind) (size : Nat)
    (align : Align) (handleExtra : AE → PE → Res AE) : Res (BasicMem PE AE) :=
  match ptr.prov with
  | none => .error .ub
  | some (id, provExtra) => do
    let allocation ← index m.allocations id
    if !allocation.live then .error .ub
    else if ptr.addr ≠ allocation.addr then .error .ub
    else if kind ≠ allocation.kind then .error .ub
    else if size ≠ allocation.size then .error .ub
    else if align ≠ allocation.align then .error .ub
    else do
      let extra ← handleExtra allocation.extra provExtra
      .ok ⟨m.allocations.set id { allocation with extra := extra, live := false }⟩

/-- `BasicMemory::check_ptr`, `/repo/spec/mem/basic.md:197-225`. -/
def checkPtr (m : BasicMem PE AE) (ptr : ThinPtr (AllocId × PE)) (len : Nat) :
    Res (Option (AllocId × PE × Nat)) :=
  if len = 0 then .ok none
  else
    match ptr.prov with
    | none => .error .ub
    | some (id, provExtra) => do
      let allocation ← index m.allocations id
      if !allocation.live then .error .ub
      else
        let offsetInAlloc := ptr.addr - allocation.addr
        if offsetInAlloc < 0 ∨ offsetInAlloc + len > allocation.size then .error .ub
        else do
          let off ← unwrap (sizeFromBytes offsetInAlloc)
          .ok (some (id, provExtra, off))

/-- `BasicMemory::store`, `/repo/spec/mem/basic.md:227-251`. -/
def store (m : BasicMem PE AE) (ptr : ThinPtr (AllocId × PE)) (bytes : List (AByte (AllocId × PE)))
    (align : Align) (handleExtra : AE → PE → Nat → Res AE) : Res (BasicMem PE AE) :=
  if !align.isAligned ptr.addr then .error .ub
  else do
    match ← m.checkPtr ptr bytes.length with
    | none => .ok m
    | some (id, provExtra, offset) => do
      let allocation ← index m.allocations id
      let extra ← handleExtra allocation.extra provExtra offset
      let data ← writeSubslice allocation.data offset bytes
      .ok ⟨m.allocations.set id { allocation with extra := extra, data := data }⟩

/-- `BasicMemory::load`, `/repo/spec/mem/basic.md:253-274`. -/
def load (m : BasicMem PE AE) (ptr : ThinPtr (AllocId × PE)) (len : Nat)
    (align : Align) (handleExtra : AE → PE → Nat → Res AE) :
    Res (List (AByte (AllocId × PE)) × BasicMem PE AE) :=
  if !align.isAligned ptr.addr then .error .ub
  else do
    match ← m.checkPtr ptr len with
    | none => .ok ([], m)
    | some (id, provExtra, offset) => do
      let allocation ← index m.allocations id
      let extra ← handleExtra allocation.extra provExtra offset
      let data ← subslice allocation.data offset len
      .ok (data, ⟨m.allocations.set id { allocation with extra := extra }⟩)

/-- The loop of `BasicMemory::leak_check`, `/repo/spec/mem/basic.md:285-294`. -/
def leakLoop : List (Alloc PE AE) → Res Unit
  | [] => .ok ()
  | a :: as =>
    if a.live then
      match a.kind with
      | .heap => .error .memoryLeak
      | .global | .function | .stack | .vtable => leakLoop as
    else leakLoop as

/-- `BasicMemory::leak_check`, `/repo/spec/mem/basic.md:283-296`. -/
def leakCheck (m : BasicMem PE AE) : Res Unit := leakLoop m.allocations

end BasicMem

/-- `impl Memory for BasicMemory`, `/repo/spec/mem/basic.md:305-347`; `retag_ptr` and `end_call`
are the defaults of `/repo/spec/mem/interface.md:133-148`. -/
instance [T : Target] : Memory (BasicMem Unit Unit) (AllocId × Unit) Unit where
  new := BasicMem.new
  allocate m kind size align pick := m.allocate kind size align () () pick
  deallocate m ptr kind size align := m.deallocate ptr kind size align (fun _ _ => .ok ())
  store m ptr bytes align := m.store ptr bytes align (fun _ _ _ => .ok ())
  load m ptr len align := m.load ptr len align (fun _ _ _ => .ok ())
  dereferenceable m ptr len := do
    let _ ← m.checkPtr ptr len
    .ok ()
  retagPtr m f ptr _ _ _ := .ok (ptr, f, m)
  newCall := ()
  endCall m _ := .ok m
  leakCheck m := m.leakCheck

/-! ### Integer-pointer casts -/

/-- `IntPtrCast`, `/repo/spec/mem/intptrcast.md:13-16`. -/
structure IntPtrCast (P : Type) where
  exposed : List P
  deriving DecidableEq, Repr

namespace IntPtrCast
variable {P : Type} [DecidableEq P]

/-- `IntPtrCast::new`, `/repo/spec/mem/intptrcast.md:19-21`. -/
def new : IntPtrCast P := ⟨[]⟩

/-- `IntPtrCast::expose`, `/repo/spec/mem/intptrcast.md:23-28`. -/
def expose (c : IntPtrCast P) (ptr : ThinPtr P) : IntPtrCast P :=
  match ptr.prov with
  | some p => ⟨setInsert c.exposed p⟩
  | none => c

/-- `IntPtrCast::int2ptr`, `/repo/spec/mem/intptrcast.md:30-41`; `predict` is the provenance the
angelic choice yields. -/
def int2ptr (c : IntPtrCast P) (addr : Int) (predict : Option P) : Res (ThinPtr P) :=
  let allowed := match predict with
    | none => true
    | some p => decide (p ∈ c.exposed)
  if allowed then .ok { addr := addr, prov := predict } else .error .noBehavior

end IntPtrCast

/-! ### Concurrent memory -/

/-- `Atomicity`, `/repo/spec/mem/concurrent.md:15-21`. -/
inductive Atomicity | atomic | none
  deriving DecidableEq, Repr

/-- `AccessType`, `/repo/spec/mem/concurrent.md:24-27`. -/
inductive AccessType | store | load
  deriving DecidableEq, Repr

/-- `Access`, `/repo/spec/mem/concurrent.md:30-35`. -/
structure Access where
  ty : AccessType
  atomicity : Atomicity
  addr : Int
  len : Nat
  deriving DecidableEq, Repr

/-- `Access::races`, `/repo/spec/mem/concurrent.md:163-174`. -/
def Access.races (self other : Access) : Bool :=
  if self.ty = .load ∧ other.ty = .load then false
  else if self.atomicity = .atomic ∧ other.atomicity = .atomic then false
  else
    let endAddr := self.addr + self.len
    let otherEndAddr := other.addr + other.len
    decide (endAddr > other.addr) && decide (otherEndAddr > self.addr)

/-- `ThreadId`, `/repo/spec/mem/concurrent.md:131`: an index into the thread list. -/
macro "ThreadId" : term => `(Nat)

/-- `ConcurrentMemory`, `/repo/spec/mem/concurrent.md:7-12`. -/
structure ConcMem (M : Type) where
  memory : M
  accesses : List Access
  deriving DecidableEq, Repr

namespace ConcMem
variable {M P F : Type} [Memory M P F]

/-- `/repo/spec/mem/concurrent.md:45-50` -/
def new : ConcMem M := { memory := Memory.new, accesses := [] }

/-- `/repo/spec/mem/concurrent.md:54-56` -/
def allocate (m : ConcMem M) (kind : AllocKind) (size : Nat) (align : Align) (pick : Int) :
    Res (ThinPtr P × ConcMem M) := do
  let (p, mem) ← Memory.allocate m.memory kind size align pick
  .ok (p, { m with memory := mem })

/-- `/repo/spec/mem/concurrent.md:59-61` -/
def deallocate (m : ConcMem M) (ptr : ThinPtr P) (kind : AllocKind) (size : Nat) (align : Align) :
    Res (ConcMem M) := do
  let mem ← Memory.deallocate m.memory ptr kind size align
  .ok { m with memory := mem }

/-- `/repo/spec/mem/concurrent.md:64-74` -/
def store (m : ConcMem M) (ptr : ThinPtr P) (bytes : List (AByte P)) (align : Align)
    (atomicity : Atomicity) : Res (ConcMem M) := do
  let access : Access := { ty := .store, atomicity, addr := ptr.addr, len := bytes.length }
  let mem ← Memory.store m.memory ptr bytes align
  .ok { memory := mem, accesses := m.accesses ++ [access] }

/-- `/repo/spec/mem/concurrent.md:77-87` -/
def load (m : ConcMem M) (ptr : ThinPtr P) (len : Nat) (align : Align)
    (atomicity : Atomicity) : Res (List (AByte P) × ConcMem M) := do
  let access : Access := { ty := .load, atomicity, addr := ptr.addr, len := len }
  let (bytes, mem) ← Memory.load m.memory ptr len align
  .ok (bytes, { memory := mem, accesses := m.accesses ++ [access] })

/-- `/repo/spec/mem/concurrent.md:91-93` -/
def dereferenceable (m : ConcMem M) (ptr : ThinPtr P) (len : Nat) : Res Unit :=
  Memory.dereferenceable m.memory ptr len

/-- `/repo/spec/mem/concurrent.md:96-98` -/
def signedDereferenceable (m : ConcMem M) (ptr : ThinPtr P) (len : Int) : Res Unit :=
  Memory.signedDereferenceable m.memory ptr len

/-- `/repo/spec/mem/concurrent.md:101-110` -/
def retagPtr (m : ConcMem M) (f : F) (ptr : Pointer P) (ptrType : PtrType) (fnEntry : Bool)
    (vtableLookup : ThinPtr P → Res VTable) : Res (Pointer P × F × ConcMem M) := do
  let (p, f, mem) ← Memory.retagPtr m.memory f ptr ptrType fnEntry vtableLookup
  .ok (p, f, { m with memory := mem })

/-- `/repo/spec/mem/concurrent.md:113-115` -/
def endCall (m : ConcMem M) (f : F) : Res (ConcMem M) := do
  let mem ← Memory.endCall m.memory f
  .ok { m with memory := mem }

/-- `/repo/spec/mem/concurrent.md:118-120` -/
def leakCheck (m : ConcMem M) : Res Unit := Memory.leakCheck m.memory

end ConcMem

/-- The loop of `check_data_races`, `/repo/spec/mem/concurrent.md:142-146`. -/
def raceLoop (prevAccesses : List Access) : List Access → Res Unit
  | [] => .ok ()
  | a :: as => if prevAccesses.any (fun prev => a.races prev) then .error .ub else raceLoop prevAccesses as

/-- `ConcurrentMemory::check_data_races`, `/repo/spec/mem/concurrent.md:135-149`. -/
def ConcMem.checkDataRaces {M : Type} (m : ConcMem M) (currentThread : ThreadId)
    (prevSyncThreads : List ThreadId) (prevAccesses : List Access) : Res Unit :=
  if currentThread ∈ prevSyncThreads then .ok () else raceLoop prevAccesses m.accesses

/-- `ConcurrentMemory::reset_accesses`, `/repo/spec/mem/concurrent.md:153-157`. -/
def ConcMem.resetAccesses {M : Type} (m : ConcMem M) : List Access × ConcMem M :=
  (m.accesses, { m with accesses := [] })

end MiniRust
