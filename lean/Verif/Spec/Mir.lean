import Verif.Mir
import Verif.Spec.Builder
/-
What a MIR body does: its blocks as small programs, and their runs. The actions (`Act`) are those of MiniRust functions, so
that the runs can be compared with those of the translated function.
-/
namespace MiniRust

/-- What is left to do in a block of a MIR body. -/
inductive Todo
  /-- continue with a block of the body -/
  | goto (b : Nat)
  | stmt (s : Statement) (rest : Todo)
  /-- an intrinsic; if what follows is `absent`, it does not return -/
  | op (op : IntrinsicOp) (args : List ValueExpr) (ret : PlaceExpr) (next : Todo)
  | unreachable
  | ret
  | resume
  /-- a call; where it returns or unwinds to; `absent` if it must not -/
  | call (c : CallInfo) (next unwind : Todo)
  /-- a call that drops a place -/
  | drop (c : CallInfo) (next unwind : Todo)
  | startUnwind (payload : ValueExpr) (handler : Todo)
  | stopUnwind (next : Todo)
  /-- the cases are blocks of the body -/
  | switch (value : ValueExpr) (cases : List (Int × Nat)) (fallback : Todo)
  | absent

/-- The block of a case. -/
def caseOf : List (Int × Nat) → Int → Option Nat
  | [], _ => none
  | (v, b) :: rest, i => if v = i then some b else caseOf rest i

/-- Nothing, or what is left. -/
def Todo.opt : Todo → Option Todo
  | .absent => none
  | f => some f

/-- A step; `drops`: drops may unwind. -/
inductive Todo.Step (drops : Bool) : Todo → Act → Option Todo → Prop
  | stmt {s rest} : Step drops (.stmt s rest) (.stmt s) (some rest)
  | op {o a r next} : Step drops (.op o a r next) (.op o a r) next.opt
  | unreachable : Step drops .unreachable .unreachable none
  | ret : Step drops .ret .ret none
  | resume : Step drops .resume .resume none
  | callN {c n u} : Step drops (.call c n u) (.call c .neither) none
  | callR {c n u} : n ≠ .absent → Step drops (.call c n u) (.call c .returned) (some n)
  | callU {c n u} : u ≠ .absent → Step drops (.call c n u) (.call c .unwound) (some u)
  | dropN {c n u} : Step drops (.drop c n u) (.call c .neither) none
  | dropR {c n u} : Step drops (.drop c n u) (.call c .returned) (some n)
  | dropU {c n u} : drops = true → Step drops (.drop c n u) (.call c .unwound) (some u)
  | startUnwind {p h} : Step drops (.startUnwind p h) (.startUnwind p) (some h)
  | stopUnwind {n} : Step drops (.stopUnwind n) .stopUnwind (some n)
  | switchCase {v cs f i b} : caseOf cs i = some b → Step drops (.switch v cs f) (.switch v i) (some (.goto b))
  | switchFallback {v cs f i} : caseOf cs i = none → Step drops (.switch v cs f) (.switch v i) (some f)

/-- The runs of a body, given what its blocks mean. -/
inductive MirRun (drops : Bool) (m : Nat → Option Todo) : Todo → List Act → Option Todo → Prop
  | nil {f} : MirRun drops m f [] (some f)
  | last {f a} : Todo.Step drops f a none → MirRun drops m f [a] none
  | cons {f a f' as r} : Todo.Step drops f a (some f') → MirRun drops m f' as r → MirRun drops m f (a :: as) r
  | goto {b f as r} : m b = some f → MirRun drops m f as r → MirRun drops m (.goto b) as r

/-! ### What blocks mean -/

/-- The process is aborted. -/
def Todo.abort : Todo := .op .abort [] unitPlace .absent

/-- What happens when a call unwinds. -/
def UnwindAction.todo : UnwindAction → Todo
  | .continue => .resume
  | .unreachable => .unreachable
  | .terminate => .abort
  | .cleanup b => .goto b

/-- Panicking, with the given panic strategy. -/
def panicTodo (unwinds : Bool) (u : UnwindAction) : Todo := if unwinds then .startUnwind unitPtr u.todo else .abort

def gotoOpt : Option Nat → Todo
  | none => .absent
  | some b => .goto b

/-- First the statements. -/
def Todo.stmts : List Statement → Todo → Todo
  | [], f => f
  | s :: rest, f => .stmt s (Todo.stmts rest f)

/-- `ret = catch_unwind(try_fn, data, catch_fn)`, with local variables `tmp`, .., `tmp + 4`: calls `try_fn(data)`; if it
returns, the result is 0; if it unwinds, the result is 1, and `catch_fn(data, payload)` is called. -/
def catchUnwindTodo (tmp : Nat) (tryFn data catchFn : ValueExpr) (destination : PlaceExpr) (target : Nat) : Todo :=
  let i32 : Ty := .int ⟨.signed, 4⟩
  let result (n : Int) : Statement := .assign (.deref (.load (.local tmp)) i32) (.constant (.int n) i32)
  let dead : List Statement := [.storageDead tmp, .storageDead (tmp + 1), .storageDead (tmp + 2), .storageDead (tmp + 3)]
  .stmts [.storageLive tmp, .storageLive (tmp + 1), .storageLive (tmp + 2), .storageLive (tmp + 3),
      .assign (.local tmp) (.addrOf destination rawVoidPtr), .assign (.local (tmp + 1)) tryFn,
      .assign (.local (tmp + 2)) data, .assign (.local (tmp + 3)) catchFn] <|
    .call ⟨.load (.local (tmp + 1)), .rust, [.byValue (.load (.local (tmp + 2)))], unitPlace⟩
      (.stmts (result 0 :: dead) (.goto target))
      (.stmt (.storageLive (tmp + 4)) <| .op .getUnwindPayload [] (.local (tmp + 4)) <| .stmt (result 1) <|
        .call ⟨.load (.local (tmp + 3)), .rust, [.byValue (.load (.local (tmp + 2))), .byValue (.load (.local (tmp + 4)))], unitPlace⟩
          (.stmts dead (.stopUnwind (.goto target))) .absent)

/-- The value of an operand: places are read, whether they are moved or copied. -/
def MirOperand.value : MirOperand → ValueExpr
  | .move p | .copy p => .load p
  | .const v => v

/-- Passing an operand: operands that are moved are passed in place, the others by value. -/
def MirOperand.passed : MirOperand → ArgumentExpr
  | .move p => .inPlace p
  | .copy p => .byValue (.load p)
  | .const v => .byValue v

/-- The arguments that a function gets: operands that are moved are passed in place; with the "rust-call" ABI the fields of the
last argument are passed instead of it. -/
def passedArgs (args : List MirOperand) : Option Nat → List ArgumentExpr
  | none => args.map (·.passed)
  | some n => args.dropLast.map (·.passed) ++ match args.getLast? with
    | some (.move p) | some (.copy p) => (List.range n).map fun (i : Nat) => .inPlace (.field p (i : Int))
    | _ => []

/-- A Rust intrinsic. -/
def RsIntrinsic.todo [Target] (tmp : Nat) (i : RsIntrinsic) (args : List MirOperand) (destination : PlaceExpr)
    (target : Option Nat) : Todo :=
  match i.value args with
  | some (.ok v) => .stmt (.assign destination v) (gotoOpt target)
  | some (.error _) => .absent
  | none =>
    match i with
    | .assertValidity true => .abort
    | .assertValidity false => gotoOpt target
    | .rawEq => .op .rawEq (args.map (·.value)) destination (gotoOpt target)
    | .coldPath => gotoOpt target
    | .catchUnwind =>
      match args, target with
      | [f, d, c], some t => catchUnwindTodo tmp f.value d.value c.value destination t
      | _, _ => .absent
    | .abort => .abort
    | _ => .absent

/-- A call. Functions that panic start unwinding, or abort; those that must not unwind always abort. -/
def MirCallee.todo [Target] (unwinds : Bool) (tmp : Nat) (callee : MirCallee) (args : List MirOperand) (destination : PlaceExpr)
    (target : Option Nat) (unwind : UnwindAction) : Todo :=
  match callee with
  | .fnPtr func conv => .call ⟨func.value, conv, args.map (·.passed), destination⟩ (gotoOpt target) unwind.todo
  | .rsIntrinsic i => i.todo tmp args destination target
  | .intrinsic op => .op op (args.map (·.value)) destination (gotoOpt target)
  | .panicFn nounwind => if nounwind then .abort else panicTodo unwinds unwind
  | .foreign => .absent
  | .fn name conv rustCall => .call ⟨mkFnPtr name, conv, passedArgs args rustCall, destination⟩ (gotoOpt target) unwind.todo
  | .virtual method conv rustCall =>
    match args with
    | [] => .absent
    | self :: _ =>
      -- dispatch on the metadata of the receiver; the function gets a thin pointer
      .call ⟨.unOp (.vtableMethodLookup method) (.unOp .getMetadata self.value), conv,
        (passedArgs args rustCall).set 0 (.byValue (.unOp .getThinPointer self.value)), destination⟩
        (gotoOpt target) unwind.todo

/-- A terminator. -/
def MirTerm.todo [Target] (unwinds : Bool) (tmp : Nat) : MirTerm → Todo
  | .return => .ret
  | .goto b => .goto b
  | .call callee args destination target unwind => callee.todo unwinds tmp args destination target unwind
  | .switchInt discr ty targets otherwise =>
    match ty with
    | .bool => .switch (FnBuilder.boolToInt discr.value) (targets.map fun (bits, b) => ((bits : Int), b)) (.goto otherwise)
    | .int ity => .switch discr.value (targets.map fun (bits, b) => (ity.bringInBounds bits, b)) (.goto otherwise)
    | _ => .absent
  | .unreachable => .unreachable
  | .assert cond expected target unwind =>
    .switch (FnBuilder.boolToInt (if expected then cond.value else mkNot cond.value)) [(1, target)] (panicTodo unwinds unwind)
  | .drop how place target unwind =>
    .drop ⟨(FnCtxt.dropCall how place).1, .rust, [.byValue (FnCtxt.dropCall how place).2], unitPlace⟩ (.goto target) unwind.todo
  | .resume => .resume
  | .unsupported => .absent

/-- A statement, and what follows. -/
def MirStmt.todo (s : MirStmt) (rest : Todo) : Todo :=
  match s with
  | .assign d v => .stmt (.assign d v) rest
  | .assignExpose d o => .op .pointerExposeProvenance [o.value] d rest
  | .assignWithExposed d o => .op .pointerWithExposedProvenance [o.value] d rest
  | .storageLive l => .stmt (.storageLive l) rest
  | .storageDead l => .stmt (.storageDead l) rest
  | .retag fnEntry p => .stmt (.validate p fnEntry) rest
  | .setDiscriminant p v => .stmt (.setDiscriminant p v) rest
  | .assume o => .op .assume [o.value] unitPlace rest
  | .placeMention p => .stmt (.placeMention p) rest
  | .unsupported => .absent

/-- A block. -/
def MirBlock.todo [Target] (unwinds : Bool) (tmp : Nat) (b : MirBlock) : Todo :=
  b.statements.foldr MirStmt.todo (b.terminator.todo unwinds tmp)

/-- `catch_unwind` is called in this block. -/
def MirBlock.catches (b : MirBlock) : Bool :=
  match b.terminator with
  | .call (.rsIntrinsic .catchUnwind) _ _ _ _ => true
  | _ => false

def MirBody.catches (body : MirBody) (b : Nat) : Bool :=
  match body.blocks[b]? with
  | some blk => blk.catches
  | none => false

/-- The types of the fields of the spread argument. -/
def MirBody.spreadTys (body : MirBody) : List Ty :=
  match body.spread with
  | none => []
  | some (_, tys) => tys

/-- The first of the variables for `catch_unwind` in block `b`: behind the locals of the body and the fields of the spread argument,
there are five variables for each call of `catch_unwind`, in the order in which blocks are translated. -/
def MirBody.tmp (body : MirBody) (order : List Nat) (b : Nat) : Nat :=
  body.locals.length + body.spreadTys.length + 5 * (order.takeWhile (· ≠ b)).countP body.catches

/-- The types of these variables. -/
def catchTys : List Ty := [.ptr rawVoidPtr, .ptr .fnPtr, .ptr rawVoidPtr, .ptr .fnPtr, .ptr rawVoidPtr]

/-- The blocks of a body. -/
def MirBody.todo [Target] (unwinds : Bool) (order : List Nat) (body : MirBody) (b : Nat) : Option Todo :=
  body.blocks[b]?.map (·.todo unwinds (body.tmp order b))

/-- What happens before the first block: the spread argument is assembled from the values that were passed, and locals that are
always live (other than the return place and the arguments) become live. -/
def MirBody.entry (body : MirBody) : Todo :=
  .stmts (match body.spread with
    | none => []
    | some (s, fields) => .storageLive s :: (List.range fields.length).map fun (i : Nat) =>
      .assign (.field (.local s) (i : Int)) (.load (.local (body.locals.length + i : Nat)))) <|
  .stmts ((body.alwaysLive.filter (body.argCount < ·)).map .storageLive) <|
  .goto 0

/-! ### Valid MIR -/

/-- The body has a block `b`, and it is a cleanup block or not. -/
def MirBody.Block (body : MirBody) (isCleanup : Bool) (b : Nat) : Prop := ∃ blk, body.blocks[b]? = some blk ∧ blk.isCleanup = isCleanup

/-- Where unwinding may go: from a regular block to a cleanup block; cleanup code does not resume or catch. -/
def UnwindAction.Valid (body : MirBody) (isCleanup : Bool) : UnwindAction → Prop
  | .continue => isCleanup = false
  | .unreachable | .terminate => True
  | .cleanup b => isCleanup = false ∧ body.Block true b

/-- The intrinsics have the right number of arguments, and a target if they return. `catch_unwind` is not called while unwinding. -/
def RsIntrinsic.Valid (isCleanup : Bool) (args : List MirOperand) (target : Option Nat) : RsIntrinsic → Prop
  | .assertValidity true => True
  | .assertValidity false | .coldPath => target.isSome
  | .rawEq => True
  | .arithOffset _ _ | .ptrOffsetFrom _ _ | .exactDiv => args.length = 2 ∧ target.isSome
  | .ctpop | .sizeOfVal _ | .alignOfVal _ => args.length = 1 ∧ target.isSome
  | .catchUnwind => args.length = 3 ∧ target.isSome ∧ isCleanup = false
  | .abort => True
  | .unsupported => False

/-- The last argument of a function with the "rust-call" ABI is a place. -/
def RustCallOk (args : List MirOperand) : Option Nat → Prop
  | none => True
  | some _ => ∃ p, args.getLast? = some (.move p) ∨ args.getLast? = some (.copy p)

def MirCallee.Valid (body : MirBody) (isCleanup : Bool) (args : List MirOperand) (target : Option Nat) (unwind : UnwindAction) :
    MirCallee → Prop
  | .fnPtr _ _ => unwind.Valid body isCleanup
  | .rsIntrinsic i => i.Valid isCleanup args target
  | .intrinsic _ => True
  | .panicFn _ => unwind.Valid body isCleanup
  | .foreign => False
  | .fn _ _ rustCall => unwind.Valid body isCleanup ∧ RustCallOk args rustCall
  | .virtual _ _ rustCall => unwind.Valid body isCleanup ∧ RustCallOk args rustCall ∧ args ≠ []

/-- The values are bits of the type, without repetition. -/
def TargetsOk (size : Nat) (targets : List (Nat × Nat)) : Prop :=
  size ≤ 16 ∧ (targets.map (·.1)).Nodup ∧ ∀ t ∈ targets, t.1 < 2 ^ (8 * size)

/-- Terminators that are supported, and follow the rules of MIR: they stay in regular code or in cleanup code, except for
unwinding, and so on. -/
def MirTerm.Valid (body : MirBody) (isCleanup : Bool) : MirTerm → Prop
  | .return => isCleanup = false
  | .goto b => body.Block isCleanup b
  | .call callee args _ target unwind =>
    callee.Valid body isCleanup args target unwind ∧ ∀ b, target = some b → body.Block isCleanup b
  | .switchInt _ ty targets otherwise =>
    (match ty with
      | .bool => TargetsOk 1 targets
      | .int ity => TargetsOk ity.size targets
      | _ => False) ∧ (∀ t ∈ targets, body.Block isCleanup t.2) ∧ body.Block isCleanup otherwise
  | .unreachable => True
  | .assert _ _ target unwind => body.Block isCleanup target ∧ unwind.Valid body isCleanup
  | .drop _ _ target unwind => body.Block isCleanup target ∧ unwind.Valid body isCleanup
  | .resume => isCleanup = true
  | .unsupported => False

def MirStmt.Valid (body : MirBody) : MirStmt → Prop
  | .storageLive l | .storageDead l => l < body.locals.length
  | .unsupported => False
  | _ => True

/-- The body is valid. -/
structure MirBody.Valid (body : MirBody) : Prop where
  stmts : ∀ blk ∈ body.blocks, ∀ s ∈ blk.statements, s.Valid body
  terms : ∀ blk ∈ body.blocks, blk.terminator.Valid body blk.isCleanup
  /-- there is a first block, and it is a regular one -/
  start : body.Block false 0
  args : body.argCount < body.locals.length
  spread : ∀ s fields, body.spread = some (s, fields) → 1 ≤ s ∧ s ≤ body.argCount
  live : ∀ l ∈ body.alwaysLive, l < body.locals.length

/-- Every block is translated once. -/
def MirBody.Order (body : MirBody) (order : List Nat) : Prop := order.Nodup ∧ ∀ b, b ∈ order ↔ b < body.blocks.length

/-! ### Well-formed parts -/

/-- Statements, intrinsics, calls and switches are well-formed, apart from the blocks that they lead to. -/
def Todo.Checked [Target] (prog : Program) (f : Function) : Todo → Prop
  | .goto _ | .unreachable | .ret | .resume | .absent => True
  | .stmt s rest => s.checkWf prog f = .ok () ∧ rest.Checked prog f
  | .op o a r next => IntrinsicOk prog f o a r ∧ next.Checked prog f
  | .call c next unwind | .drop c next unwind => CallOk prog f c ∧ next.Checked prog f ∧ unwind.Checked prog f
  | .startUnwind e h => e.checkWf prog f.locals = .ok (.ptr (.raw .none)) ∧ h.Checked prog f
  | .stopUnwind next => next.Checked prog f
  | .switch v cs fallback =>
    (∃ ity : IntType, v.checkWf prog f.locals = .ok (.int ity) ∧ ∀ c ∈ cs, ity.canRepresent c.1 = true) ∧ fallback.Checked prog f

/-- Calls one of the functions that panic. -/
def MirTerm.Panics : MirTerm → Prop
  | .call (.panicFn _) _ _ _ _ => True
  | .assert _ _ _ _ => True
  | _ => False

/-- Calls a function that panics without unwinding. -/
def MirTerm.PanicsNounwind : MirTerm → Prop
  | .call (.panicFn true) _ _ _ _ => True
  | _ => False

end MiniRust
