import Verif.Step
import Verif.Spec.Memory
import Verif.TreeBorrows
import Mathlib.Data.List.Forall2
/-
What it means for one machine state to be a less defined version of another one, possibly in a
different memory model.

Both sides are machines over a memory model that keeps its data in a basic memory (such as Tree
Borrows, or the basic memory model itself); provenance is an allocation together with some extra
information. The left state may have uninitialized bytes where the right one has data, and may lack
provenance where the right one has it; nothing else may differ, except for the extra information. On
the right, that information is as it was when allocations and frames were made. In the basic memory
model it always is. Under Tree Borrows it is as long as nothing is ever reborrowed, which holds for
programs without references and boxes; that restriction is part of the relation, too.
-/
namespace MiniRust
variable {PE AE F QE QA G : Type}

/-- The extra information that pointers to new allocations carry in a memory model, and the pointer
types that it does not treat in a special way. -/
class Plain (QE : Type) where
  root : QE
  quiet : PtrType → Prop
/-- The extra information of a new allocation of the given size. -/
class PlainAlloc (QA : Type) where
  fresh : Nat → QA
/-- The extra information of a new frame. -/
class PlainFrame (G : Type) where
  fresh : G

/-- In the basic memory model there is no extra information. -/
instance : Plain Unit := ⟨(), fun _ => True⟩
instance : PlainAlloc Unit := ⟨fun _ => ()⟩
instance : PlainFrame Unit := ⟨()⟩
/-- Under Tree Borrows, pointers to new allocations point to the root of the tree. Reborrowed are
boxes, shared references, and mutable references except those to types that are not `Unpin`. -/
instance : Plain Path where
  root := []
  quiet
    | .box _ => False
    | .ref .imm _ => False
    | .ref .mut pointee => pointee.unpin = false
    | _ => True
instance : PlainAlloc Node := ⟨TBMem.newRoot⟩
instance : PlainFrame TBFrame := ⟨[]⟩

/-! The pointer types in a program that may be the type of a pointer that is reborrowed: those at which
pointers are created, and those in the types of places. -/

mutual
/-- Each pointer type in the type satisfies `q`. -/
def Ty.AllPtr (q : PtrType → Prop) : Ty → Prop
  | .ptr p => q p
  | .tuple fields _ none => Ty.AllPtrFields q fields
  | .tuple fields _ (some tail) => Ty.AllPtrFields q fields ∧ Ty.AllPtr q tail
  | .array elem _ => Ty.AllPtr q elem
  | .slice elem => Ty.AllPtr q elem
  | .union fields _ _ _ => Ty.AllPtrFields q fields
  | .enum variants _ _ _ _ => Ty.AllPtrVariants q variants
  | .int _ | .bool | .traitObject _ => True
/-- The fields of a tuple or union. -/
def Ty.AllPtrFields (q : PtrType → Prop) : List (Nat × Ty) → Prop
  | [] => True
  | (_, ty) :: rest => Ty.AllPtr q ty ∧ Ty.AllPtrFields q rest
/-- The variants of an enum. -/
def Ty.AllPtrVariants (q : PtrType → Prop) : Variants → Prop
  | [] => True
  | (_, (ty, _)) :: rest => Ty.AllPtr q ty ∧ Ty.AllPtrVariants q rest
end

mutual
/-- Those in a value expression. -/
def ValueExpr.AllPtr (q : PtrType → Prop) : ValueExpr → Prop
  | .constant _ _ => True
  | .tuple exprs _ => ValueExpr.AllPtrList q exprs
  | .union _ e _ => ValueExpr.AllPtr q e
  | .variant _ e _ => ValueExpr.AllPtr q e
  | .getDiscriminant p => PlaceExpr.AllPtr q p
  | .load p => PlaceExpr.AllPtr q p
  | .addrOf p ptrTy => PlaceExpr.AllPtr q p ∧ q ptrTy
  | .unOp _ e => ValueExpr.AllPtr q e
  | .binOp _ l r => ValueExpr.AllPtr q l ∧ ValueExpr.AllPtr q r
/-- Those in a list of value expressions. -/
def ValueExpr.AllPtrList (q : PtrType → Prop) : List ValueExpr → Prop
  | [] => True
  | e :: rest => ValueExpr.AllPtr q e ∧ ValueExpr.AllPtrList q rest
/-- Those in a place expression. -/
def PlaceExpr.AllPtr (q : PtrType → Prop) : PlaceExpr → Prop
  | .local _ => True
  | .deref e ty => ValueExpr.AllPtr q e ∧ ty.AllPtr q
  | .field root _ => PlaceExpr.AllPtr q root
  | .index root i => PlaceExpr.AllPtr q root ∧ ValueExpr.AllPtr q i
  | .downcast root _ => PlaceExpr.AllPtr q root
end

/-- Those in an argument. -/
def ArgumentExpr.AllPtr (q : PtrType → Prop) : ArgumentExpr → Prop
  | .byValue e => e.AllPtr q
  | .inPlace p => p.AllPtr q

/-- Those in a statement. -/
def Statement.AllPtr (q : PtrType → Prop) : Statement → Prop
  | .assign p e => p.AllPtr q ∧ e.AllPtr q
  | .placeMention p => p.AllPtr q
  | .setDiscriminant p _ => p.AllPtr q
  | .validate p _ => p.AllPtr q
  | .deinit p => p.AllPtr q
  | .storageLive _ | .storageDead _ => True

/-- Those in a terminator. -/
def Terminator.AllPtr (q : PtrType → Prop) : Terminator → Prop
  | .switch e _ _ => e.AllPtr q
  | .intrinsic _ args ret _ => (∀ e ∈ args, e.AllPtr q) ∧ ret.AllPtr q
  | .call callee _ args ret _ _ => callee.AllPtr q ∧ (∀ a ∈ args, a.AllPtr q) ∧ ret.AllPtr q
  | .startUnwind e _ => e.AllPtr q
  | .goto _ | .unreachable | .return | .stopUnwind _ | .resumeUnwind => True

/-- Those in a function. -/
structure Function.AllPtr (q : PtrType → Prop) (f : Function) : Prop where
  locals : ∀ x ∈ f.locals, x.2.AllPtr q
  statements : ∀ b ∈ f.blocks, ∀ s ∈ b.2.statements, s.AllPtr q
  terminators : ∀ b ∈ f.blocks, b.2.terminator.AllPtr q

/-- Those in a program. -/
def Program.AllPtr (q : PtrType → Prop) (prog : Program) : Prop := ∀ f ∈ prog.functions, f.2.AllPtr q

/-- The provenance, with the extra information that pointers to new allocations carry. -/
def dropExtra [Plain QE] (p : AllocId × PE) : AllocId × QE := (p.1, Plain.root)

/-- The left provenance is absent, or it is the right one up to the extra information. -/
def ProvBelow [Plain QE] (p : Option (AllocId × PE)) (q : Option (AllocId × QE)) : Prop :=
  p = none ∨ p.map dropExtra = q

/-- The same address; the left provenance may be absent. -/
def ThinBelow [Plain QE] (p : ThinPtr (AllocId × PE)) (q : ThinPtr (AllocId × QE)) : Prop :=
  p.addr = q.addr ∧ ProvBelow p.prov q.prov

/-- The left byte is uninitialized, or both hold the same data and the left provenance fragment is
absent or the same. -/
def ByteBelow [Plain QE] : AByte (AllocId × PE) → AByte (AllocId × QE) → Prop
  | .uninit, _ => True
  | .init d f, .init d' f' =>
    d = d' ∧ (f = none ∨ f.map (fun f => (⟨dropExtra f.prov, f.position⟩ : Frag (AllocId × QE))) = f')
  | .init _ _, .uninit => False

/-- Strings of bytes of the same length, byte by byte. -/
abbrev BytesBelow [Plain QE] (a : List (AByte (AllocId × PE))) (b : List (AByte (AllocId × QE))) : Prop :=
  List.Forall₂ ByteBelow a b

/-- The same kind of metadata. -/
def MetaBelow [Plain QE] : Option (PtrMeta (AllocId × PE)) → Option (PtrMeta (AllocId × QE)) → Prop
  | none, none => True
  | some (.elementCount n), some (.elementCount m) => n = m
  | some (.vtablePointer p), some (.vtablePointer q) => ThinBelow p q
  | _, _ => False

/-- Pointers, component by component. -/
def PtrBelow [Plain QE] (p : Pointer (AllocId × PE)) (q : Pointer (AllocId × QE)) : Prop :=
  ThinBelow p.thin q.thin ∧ MetaBelow p.metadata q.metadata

/-- Places: the same alignment flag. -/
def PlaceBelow [Plain QE] (p : Place (AllocId × PE)) (q : Place (AllocId × QE)) : Prop :=
  PtrBelow p.ptr q.ptr ∧ p.aligned = q.aligned

mutual
/-- Values of the same shape, with the same integers and booleans. -/
def ValueBelow [Plain QE] : Value (AllocId × PE) → Value (AllocId × QE) → Prop
  | .int a, .int b => a = b
  | .bool a, .bool b => a = b
  | .ptr p, .ptr q => PtrBelow p q
  | .tuple as, .tuple bs => ValuesBelow as bs
  | .variant d a, .variant e b => d = e ∧ ValueBelow a b
  | .union as, .union bs => List.Forall₂ BytesBelow as bs
  | _, _ => False
/-- Lists of values of the same length, value by value. -/
def ValuesBelow [Plain QE] : List (Value (AllocId × PE)) → List (Value (AllocId × QE)) → Prop
  | [], [] => True
  | a :: as, b :: bs => ValueBelow a b ∧ ValuesBelow as bs
  | _, _ => False
end

/-- Allocations at the same place with the same parameters. -/
structure AllocBelow [Plain QE] [PlainAlloc QA] (a : Alloc PE AE) (b : Alloc QE QA) : Prop where
  data : BytesBelow a.data b.data
  addr : a.addr = b.addr
  align : a.align = b.align
  kind : a.kind = b.kind
  live : a.live = b.live
  extra : b.extra = PlainAlloc.fresh b.size

/-- Memories with the same allocations. -/
def MemBelow [Plain QE] [PlainAlloc QA] (m : BasicMem PE AE) (n : BasicMem QE QA) : Prop :=
  List.Forall₂ AllocBelow m.allocations n.allocations

/-- Maps from the same names, in the same order, to related pointers. -/
def PtrsBelow [Plain QE] {K : Type} (m : Map K (ThinPtr (AllocId × PE))) (n : Map K (ThinPtr (AllocId × QE))) : Prop :=
  List.Forall₂ (fun x y => x.1 = y.1 ∧ ThinBelow x.2 y.2) m n

/-- Frames going back to the same place. -/
inductive ActionBelow [Plain QE] : StackPopAction (AllocId × PE) → StackPopAction (AllocId × QE) → Prop
  | bottom : ActionBelow .bottomOfStack .bottomOfStack
  | back (nb ub p q) : ThinBelow p q → ActionBelow (.backToCaller nb ub p) (.backToCaller nb ub q)

/-- Frames of the same function at the same point. -/
structure FrameBelow [Plain QE] [PlainFrame G] (f : StackFrame (AllocId × PE) F) (g : StackFrame (AllocId × QE) G) : Prop where
  func : f.func = g.func
  locals : PtrsBelow f.locals g.locals
  action : ActionBelow f.stackPopAction g.stackPopAction
  nextBlock : f.nextBlock = g.nextBlock
  nextStmt : f.nextStmt = g.nextStmt
  extra : g.extra = PlainFrame.fresh
  quiet : g.func.AllPtr (Plain.quiet QE)

/-- Threads in the same state with related stacks. -/
structure ThreadBelow [Plain QE] [PlainFrame G] (a : Thread (AllocId × PE) F) (b : Thread (AllocId × QE) G) : Prop where
  stack : List.Forall₂ FrameBelow a.stack b.stack
  state : a.state = b.state
  payloads : List.Forall₂ ThinBelow a.unwindPayloads b.unwindPayloads

/-- The same global, except that bytes may be uninitialized on the left. -/
structure GlobalBelow (g h : Global) : Prop where
  bytes : List.Forall₂ (fun a b => a = none ∨ a = b) g.bytes h.bytes
  relocations : g.relocations = h.relocations
  align : g.align = h.align

/-- The same program, except that bytes of globals may be uninitialized on the left. -/
structure ProgBelow (p q : Program) : Prop where
  functions : p.functions = q.functions
  start : p.start = q.start
  globals : List.Forall₂ (fun x y => x.1 = y.1 ∧ GlobalBelow x.2 y.2) p.globals q.globals
  traits : p.traits = q.traits
  vtables : p.vtables = q.vtables

/-- The same choice. -/
def Choice.dropExtra [Plain QE] : Choice (AllocId × PE) → Choice (AllocId × QE)
  | .int i => .int i
  | .prov p => .prov (p.map MiniRust.dropExtra)

/-- A memory model whose allocations all start with the same extra provenance (Tree Borrows: the
root of the tree). -/
class RootProv (M : Type) (PE F : outParam Type) [Memory M (AllocId × PE) F] where
  root : PE
  allocate : ∀ (m m' : M) kind size align pick (p : ThinPtr (AllocId × PE)),
    Memory.allocate m kind size align pick = .ok (p, m') → ∃ id, p.prov = some (id, root)

/-- A memory model that does not interfere as long as the extra information is as it was at the
beginning: it performs the operations of a basic memory, leaves the extra information alone, and does
not change pointers when they are retagged. -/
class QuietMem [T : Target] (N : Type) (QE QA G : outParam Type) [Memory N (AllocId × QE) G]
    [Plain QE] [PlainAlloc QA] [PlainFrame G] where
  mem : N → BasicMem QE QA
  new : mem Memory.new = BasicMem.new
  newCall : Memory.newCall N = (PlainFrame.fresh : G)
  allocate : ∀ n kind size align pick p m,
    (mem n).allocate kind size align Plain.root (PlainAlloc.fresh size) pick = .ok (p, m) →
      ∃ n', Memory.allocate n kind size align pick = .ok (p, n') ∧ mem n' = m
  deallocate : ∀ n ptr kind size align, ∃ handler,
    handler (PlainAlloc.fresh size) Plain.root = .ok (PlainAlloc.fresh size) ∧
      ∀ m, (mem n).deallocate ptr kind size align handler = .ok m →
        ∃ n', Memory.deallocate n ptr kind size align = .ok n' ∧ mem n' = m
  store : ∀ n ptr bytes align, ∃ handler,
    (∀ size off, off + bytes.length ≤ size →
      handler (PlainAlloc.fresh size) Plain.root off = .ok (PlainAlloc.fresh size)) ∧
      ∀ m, (mem n).store ptr bytes align handler = .ok m →
        ∃ n', Memory.store n ptr bytes align = .ok n' ∧ mem n' = m
  load : ∀ n ptr len align, ∃ handler,
    (∀ size off, off + len ≤ size →
      handler (PlainAlloc.fresh size) Plain.root off = .ok (PlainAlloc.fresh size)) ∧
      ∀ bytes m, (mem n).load ptr len align handler = .ok (bytes, m) →
        ∃ n', Memory.load n ptr len align = .ok (bytes, n') ∧ mem n' = m
  dereferenceable : ∀ n ptr len,
    Memory.dereferenceable n ptr len = (fun _ => ()) <$> (mem n).checkPtr ptr len
  retag : ∀ (n : N) ptr pty entry vt, Plain.quiet QE pty →
    Memory.retagPtr n PlainFrame.fresh ptr pty entry vt = .ok (ptr, PlainFrame.fresh, n)
  endCall : ∀ n : N, Memory.endCall n (PlainFrame.fresh : G) = .ok n
  leakCheck : ∀ n, Memory.leakCheck n = (mem n).leakCheck

section
variable {M : Type} [T : Target] [Memory M (AllocId × PE) F] [B : BasicBacked M PE AE F] [R : RootProv M PE F]
  {N : Type} [Memory N (AllocId × QE) G] [Plain QE] [PlainAlloc QA] [PlainFrame G] [C : QuietMem N QE QA G]

/-- All pointers of the map carry the provenance with which allocations start. -/
def Rooted (M : Type) {K PE F : Type} [Memory M (AllocId × PE) F] [R : RootProv M PE F]
    (m : Map K (ThinPtr (AllocId × PE))) : Prop :=
  ∀ x ∈ m, ∃ id, x.2.prov = some (id, R.root)

/-- The state `s` is the state `t`, except that bytes may be uninitialized and provenance may be
absent in `s` (and except for the extra state of the memory model). -/
structure StateBelow (s : Machine M (AllocId × PE) F)
    (t : Machine N (AllocId × QE) G) : Prop where
  prog : ProgBelow s.prog t.prog
  quiet : t.prog.AllPtr (Plain.quiet QE)
  mem : MemBelow (B.mem s.mem.memory) (C.mem t.mem.memory)
  accesses : s.mem.accesses = t.mem.accesses
  exposed : ∀ p ∈ s.intptrcast.exposed, dropExtra p ∈ t.intptrcast.exposed
  threads : List.Forall₂ ThreadBelow s.threads t.threads
  active : s.activeThread = t.activeThread
  sync : s.synchronizedThreads = t.synchronizedThreads
  locks : s.locks = t.locks
  globals : PtrsBelow s.globalPtrs t.globalPtrs
  fns : PtrsBelow s.fnPtrs t.fnPtrs
  fnsRooted : Rooted M s.fnPtrs
  vtables : PtrsBelow s.vtablePtrs t.vtablePtrs
  vtablesRooted : Rooted M s.vtablePtrs
  stdout : s.stdout = t.stdout
  stderr : s.stderr = t.stderr
  oracle : s.oracle.map Choice.dropExtra = t.oracle

end

/-- The ends of an execution that the claim excuses: undefined behavior, a panic of the
specification, and a choice that is none (`none` is only used inside decoding). -/
def Err.Excused (e : Err) : Prop := e = .ub ∨ e = .panic ∨ e = .noBehavior ∨ e = .none

/-- The ends of an execution that a program may have without undefined behavior. -/
def Err.Regular (e : Err) : Prop := e = .machineStop ∨ e = .abort ∨ e = .deadlock ∨ e = .memoryLeak

/-- Some execution of `prog` with these choices is in the state `s`. -/
def Exec [Target] {M P F : Type} [Memory M P F] [DecidableEq P] (prog : Program) (oracle : List (Choice P))
    (s : Machine M P F) : Prop := ∃ s₀, Machine.new prog oracle = .ok s₀ ∧ Steps s₀ s

/-! ### The same behavior in both memory models -/

section
variable [T : Target]

/-- A machine of the basic memory model. -/
abbrev BasicMachine := Machine (BasicMem Unit Unit) (AllocId × Unit) Unit
/-- A machine of Tree Borrows. -/
abbrev TreeMachine := Machine TBMem TBProv TBFrame

/-- The choices of an execution in the basic memory model, made under Tree Borrows: whenever a
provenance is chosen, the one with which its allocation started. -/
abbrev rootChoices (oracle : List (Choice (AllocId × Unit))) : List (Choice TBProv) := oracle.map Choice.dropExtra

/-- The two machines have printed the same, have the same threads in the same states, can go on in the
same cases, and end in the same way. -/
structure SameBehavior (t : BasicMachine) (s : TreeMachine) : Prop where
  stdout : t.stdout = s.stdout
  stderr : t.stderr = s.stderr
  threads : t.threads.map (·.state) = s.threads.map (·.state)
  goesOn : (∃ t', step t = .ok ((), t')) ↔ ∃ s', step s = .ok ((), s')
  ends : ∀ e : Err, e = .machineStop ∨ e = .abort ∨ e = .deadlock ∨ e = .memoryLeak →
    (step t = .error e ↔ step s = .error e)

end
end MiniRust
