import Verif.Step
import Verif.TreeBorrows
import Verif.Spec.TreeBorrows
import Verif.Spec.Representation
/-
Vocabulary for programs that run under Tree Borrows: which calls are in progress, and the memory model with the check
that `reborrow` lacks.
-/
namespace MiniRust

/-- The protectors of the calls in progress, for every frame of every thread. -/
def Machine.calls (s : Machine TBMem TBProv TBFrame) : List TBFrame :=
  s.threads.flatMap fun t => t.stack.map (·.extra)

/-- A call in progress protects the reference `q`. -/
def Machine.Protects (s : Machine TBMem TBProv TBFrame) (q : TBProv) : Prop :=
  ∃ t ∈ s.threads, ∃ fr ∈ t.stack, q ∈ fr.extra

/-- The machine holds a pointer with provenance `q`: in a byte of live memory, as the address of a global, function,
vtable or local variable, as a place to return to, as the payload of a panic, or as an exposed provenance. -/
inductive Machine.HoldsProv (s : Machine TBMem TBProv TBFrame) (q : TBProv) : Prop
  | memory {id : Nat} {a : Alloc Path Node} : s.mem.memory.mem.allocations[id]? = some a → a.live = true →
      ProvInBytes q a.data → s.HoldsProv q
  | global {name p} : (name, p) ∈ s.globalPtrs → p.prov = some q → s.HoldsProv q
  | function {name p} : (name, p) ∈ s.fnPtrs → p.prov = some q → s.HoldsProv q
  | vtable {name p} : (name, p) ∈ s.vtablePtrs → p.prov = some q → s.HoldsProv q
  | local {t fr l p} : t ∈ s.threads → fr ∈ t.stack → (l, p) ∈ fr.locals → p.prov = some q → s.HoldsProv q
  | returnPlace {t fr next unwind p} : t ∈ s.threads → fr ∈ t.stack → fr.stackPopAction = .backToCaller next unwind p →
      p.prov = some q → s.HoldsProv q
  | payload {t p} : t ∈ s.threads → p ∈ t.unwindPayloads → p.prov = some q → s.HoldsProv q
  | exposed : q ∈ s.intptrcast.exposed → s.HoldsProv q

/-- The pointer has provenance of an allocation that begins behind it. -/
def TBMem.before (m : TBMem) (p : ThinPtr TBProv) : Bool :=
  match p.prov with
  | none => false
  | some (id, _) =>
    match m.mem.allocations[id]? with
    | none => false
    | some a => decide (p.addr < a.addr)

/-- Retagging makes a reference to no byte at all, from a pointer in front of its allocation. -/
def TBMem.emptyBefore (m : TBMem) (ptr : Pointer TBProv) (ptrType : PtrType) (fnEntry : Bool)
    (vtableLookup : ThinPtr TBProv → Res VTable) : Bool :=
  match ReborrowSettings.new ptr ptrType fnEntry vtableLookup with
  | .ok (some settings) => settings.inside.isEmpty && m.before ptr.thin
  | _ => false

/-- Tree Borrows with one more check: making a reference to no byte at all from a pointer in front of its allocation
is undefined behavior. (In the specification the subtraction in `reborrow`,
`/repo/spec/mem/tree_borrows/memory.md:93`, panics in this case.) -/
@[reducible] def TBMem.guarded [T : Target] : Memory TBMem TBProv TBFrame :=
  { (inferInstance : Memory TBMem TBProv TBFrame) with
    retagPtr := fun m frame ptr ptrType fnEntry vtableLookup =>
      if m.emptyBefore ptr ptrType fnEntry vtableLookup then .error .ub
      else TBMem.retagPtr m frame ptr ptrType fnEntry vtableLookup }

end MiniRust
