import Verif.Builder
import Verif.WellFormed
/-
What it means to build a function with structured control flow: structured programs, how they run, and how the control
flow graphs of functions run.
-/
namespace MiniRust

/-! ### Structured programs -/

/-- A function call: callee, calling convention, arguments, return place. -/
structure CallInfo where
  callee : ValueExpr
  conv : CallingConvention
  args : List ArgumentExpr
  ret : PlaceExpr

mutual
/-- Structured programs: the calls that a user of the builder makes, one after the other. The last component of each
constructor is what follows. -/
inductive Code
  | nil
  /-- a statement -/
  | stmt (s : Statement) (rest : Code)
  /-- an intrinsic (`assume`, `print`, `allocate`, ..) -/
  | op (op : IntrinsicOp) (args : List ValueExpr) (ret : PlaceExpr) (rest : Code)
  /-- `exit`, `abort` -/
  | halt (op : IntrinsicOp) (args : List ValueExpr) (ret : PlaceExpr) (rest : Code)
  /-- `unreachable`, `return_`, `resume_unwind` -/
  | unreachable (rest : Code)
  | ret (rest : Code)
  | resume (rest : Code)
  /-- `call_noret` -/
  | callNoret (ret : PlaceExpr) (callee : ValueExpr) (args : List ArgumentExpr) (rest : Code)
  /-- `call_nounwind` -/
  | callNounwind (ret : PlaceExpr) (callee : ValueExpr) (args : List ArgumentExpr) (rest : Code)
  /-- `call_with_conv` with a new unwind block of the given kind -/
  | call (c : CallInfo) (kind : BbKind) (handler : Code) (rest : Code)
  /-- `call_with_conv` with a catch block after which execution continues as if the call had returned -/
  | tryCall (c : CallInfo) (handler : Code) (rest : Code)
  /-- `start_unwind` with a new unwind block of the given kind -/
  | startUnwind (payload : ValueExpr) (kind : BbKind) (handler : Code) (rest : Code)
  /-- `start_unwind` with a catch block, then what follows -/
  | tryUnwind (payload : ValueExpr) (handler : Code) (rest : Code)
  /-- the end of such a catch block (not a call of its own: only occurs while a program runs) -/
  | stop (rest : Code)
  /-- `switch_int` -/
  | switch (value : ValueExpr) (cases : Cases) (fallback : Code) (rest : Code)
  /-- `while_` -/
  | while_ (condition : ValueExpr) (body : Code) (rest : Code)
inductive Cases
  | nil
  | cons (value : Int) (body : Code) (rest : Cases)
end

/-- The body of a case. -/
def Cases.get? : Cases → Int → Option Code
  | .nil, _ => none
  | .cons v body rest, i => if v = i then some body else rest.get? i

def Cases.values : Cases → List Int
  | .nil => []
  | .cons v _ rest => v :: rest.values

/-- `if_` is a switch. -/
def Code.if_ (condition : ValueExpr) (thenBranch elseBranch rest : Code) : Code :=
  .switch (FnBuilder.boolToInt condition) (.cons 1 thenBranch .nil) elseBranch rest

/-- First `c`, then `d`. -/
def Code.append : Code → Code → Code
  | .nil, d => d
  | .stmt s rest, d => .stmt s (rest.append d)
  | .op o a r rest, d => .op o a r (rest.append d)
  | .halt o a r rest, d => .halt o a r (rest.append d)
  | .unreachable rest, d => .unreachable (rest.append d)
  | .ret rest, d => .ret (rest.append d)
  | .resume rest, d => .resume (rest.append d)
  | .callNoret r f a rest, d => .callNoret r f a (rest.append d)
  | .callNounwind r f a rest, d => .callNounwind r f a (rest.append d)
  | .call c k h rest, d => .call c k h (rest.append d)
  | .tryCall c h rest, d => .tryCall c h (rest.append d)
  | .startUnwind p k h rest, d => .startUnwind p k h (rest.append d)
  | .tryUnwind p h rest, d => .tryUnwind p h (rest.append d)
  | .stop rest, d => .stop (rest.append d)
  | .switch v cs f rest, d => .switch v cs f (rest.append d)
  | .while_ c b rest, d => .while_ c b (rest.append d)

/-! ### How they run -/

/-- How a call ends, as seen by the caller: it returns, unwinds, or neither of these. -/
inductive Outcome
  | returned | unwound | neither
  deriving DecidableEq

/-- What a function does: statements, and terminators without the names of blocks. -/
inductive Act
  | stmt (s : Statement)
  | op (op : IntrinsicOp) (args : List ValueExpr) (ret : PlaceExpr)
  | unreachable
  | ret
  | resume
  | call (c : CallInfo) (o : Outcome)
  | startUnwind (payload : ValueExpr)
  | stopUnwind
  | switch (value : ValueExpr) (i : Int)

/-- The step of a structured program. The state is what is left to do; `none`: the function is left. -/
inductive Code.Step : Code → Act → Option Code → Prop
  | stmt {s rest} : Step (.stmt s rest) (.stmt s) (some rest)
  | op {o a r rest} : Step (.op o a r rest) (.op o a r) (some rest)
  | halt {o a r rest} : Step (.halt o a r rest) (.op o a r) none
  | unreachable {rest} : Step (.unreachable rest) .unreachable none
  | ret {rest} : Step (.ret rest) .ret none
  | resume {rest} : Step (.resume rest) .resume none
  | callNoret {r f a rest} : Step (.callNoret r f a rest) (.call ⟨f, .rust, a, r⟩ .neither) none
  | callNounwindN {r f a rest} : Step (.callNounwind r f a rest) (.call ⟨f, .rust, a, r⟩ .neither) none
  | callNounwind {r f a rest} : Step (.callNounwind r f a rest) (.call ⟨f, .rust, a, r⟩ .returned) (some rest)
  | callN {c h handler rest} : Step (.call c h handler rest) (.call c .neither) none
  | callR {c h handler rest} : Step (.call c h handler rest) (.call c .returned) (some rest)
  | callU {c h handler rest} : Step (.call c h handler rest) (.call c .unwound) (some handler)
  | tryCallN {c handler rest} : Step (.tryCall c handler rest) (.call c .neither) none
  | tryCallR {c handler rest} : Step (.tryCall c handler rest) (.call c .returned) (some rest)
  | tryCallU {c handler rest} : Step (.tryCall c handler rest) (.call c .unwound) (some (handler.append (.stop rest)))
  | startUnwind {p h handler rest} : Step (.startUnwind p h handler rest) (.startUnwind p) (some handler)
  | tryUnwind {p handler rest} : Step (.tryUnwind p handler rest) (.startUnwind p) (some (handler.append (.stop rest)))
  | stop {rest} : Step (.stop rest) .stopUnwind (some rest)
  | switchCase {v cs f rest i body} : cs.get? i = some body → Step (.switch v cs f rest) (.switch v i) (some (body.append rest))
  | switchFallback {v cs f rest i} : cs.get? i = none → Step (.switch v cs f rest) (.switch v i) (some (f.append rest))
  | whileTrue {c body rest} :
      Step (.while_ c body rest) (.switch (FnBuilder.boolToInt c) 1) (some (body.append (.while_ c body rest)))
  | whileFalse {c body rest i} : i ≠ 1 → Step (.while_ c body rest) (.switch (FnBuilder.boolToInt c) i) (some rest)

/-- Runs of structured programs. -/
inductive Code.Run : Code → List Act → Option Code → Prop
  | nil {c} : Run c [] (some c)
  | last {c a} : Code.Step c a none → Run c [a] none
  | cons {c a c' as r} : Code.Step c a (some c') → Run c' as r → Run c (a :: as) r

/-! ### How control flow graphs run -/

/-- The statement `p.2` of the block `p.1` is `s`. -/
def StmtAt (bl : Map BbName BasicBlock) (p : BbName × Nat) (s : Statement) : Prop :=
  ∃ blk, bl.get? p.1 = some blk ∧ blk.statements[p.2]? = some s

/-- The block `p.1` has `p.2` statements, after which is the terminator `t`. -/
def TermAt (bl : Map BbName BasicBlock) (p : BbName × Nat) (t : Terminator) : Prop :=
  ∃ blk, bl.get? p.1 = some blk ∧ p.2 = blk.statements.length ∧ blk.terminator = t

/-- The step of a function from a position: a block, and how many of its statements were executed. -/
inductive CfgStep (bl : Map BbName BasicBlock) : BbName × Nat → Act → Option (BbName × Nat) → Prop
  | stmt {p s} : StmtAt bl p s → CfgStep bl p (.stmt s) (some (p.1, p.2 + 1))
  | op {p o a r next} : TermAt bl p (.intrinsic o a r next) → CfgStep bl p (.op o a r) (next.map fun n => (n, 0))
  | unreachable {p} : TermAt bl p .unreachable → CfgStep bl p .unreachable none
  | ret {p} : TermAt bl p .return → CfgStep bl p .ret none
  | resume {p} : TermAt bl p .resumeUnwind → CfgStep bl p .resume none
  | callN {p f c a r next unwind} : TermAt bl p (.call f c a r next unwind) →
      CfgStep bl p (.call ⟨f, c, a, r⟩ .neither) none
  | callR {p f c a r next unwind} : TermAt bl p (.call f c a r (some next) unwind) →
      CfgStep bl p (.call ⟨f, c, a, r⟩ .returned) (some (next, 0))
  | callU {p f c a r next unwind} : TermAt bl p (.call f c a r next (some unwind)) →
      CfgStep bl p (.call ⟨f, c, a, r⟩ .unwound) (some (unwind, 0))
  | startUnwind {p e n} : TermAt bl p (.startUnwind e n) → CfgStep bl p (.startUnwind e) (some (n, 0))
  | stopUnwind {p n} : TermAt bl p (.stopUnwind n) → CfgStep bl p .stopUnwind (some (n, 0))
  | switchCase {p v m f j n} : TermAt bl p (.switch v m f) → Map.get? m j = some n → CfgStep bl p (.switch v j) (some (n, 0))
  | switchFallback {p v m f j} : TermAt bl p (.switch v m f) → Map.get? m j = none → CfgStep bl p (.switch v j) (some (f, 0))

/-- Runs of functions; `goto` is invisible. -/
inductive CfgRun (bl : Map BbName BasicBlock) : BbName × Nat → List Act → Option (BbName × Nat) → Prop
  | nil {p} : CfgRun bl p [] (some p)
  | last {p a} : CfgStep bl p a none → CfgRun bl p [a] none
  | cons {p a p' as r} : CfgStep bl p a (some p') → CfgRun bl p' as r → CfgRun bl p (a :: as) r
  | goto {p n as r} : TermAt bl p (.goto n) → CfgRun bl (n, 0) as r → CfgRun bl p as r

/-! ### Building -/

mutual
/-- The calls of the builder that a structured program stands for. -/
def Code.build : Code → FnBuilder → Res FnBuilder
  | .nil, b => .ok b
  | .stmt s rest, b => do
    let b ← b.statement s
    rest.build b
  | .op o a r rest, b => do
    let b ← b.intrinsic o a r
    rest.build b
  | .halt o a r rest, b => do
    let b ← b.finishBlock (.intrinsic o a r none)
    rest.build b
  | .unreachable rest, b => do
    let b ← b.finishBlock .unreachable
    rest.build b
  | .ret rest, b => do
    let b ← b.finishBlock .return
    rest.build b
  | .resume rest, b => do
    let b ← b.finishBlock .resumeUnwind
    rest.build b
  | .callNoret r f a rest, b => do
    let b ← b.callNoret r f a
    rest.build b
  | .callNounwind r f a rest, b => do
    let b ← b.callNounwind r f a
    rest.build b
  | .call c k handler rest, b => do
    let (u, b) ← b.handlerBlock k handler.build
    let b ← b.callWithConv c.ret c.callee c.args c.conv u
    rest.build b
  | .tryCall c handler rest, b => do
    let (cont, b) := b.declareBlock
    let (u, b) ← b.handlerBlock .catch (fun b => do
      let b ← handler.build b
      if b.cur.isSome then b.stopUnwind cont else .ok b)
    let b ← b.callWithConv c.ret c.callee c.args c.conv u
    let b ← b.goto cont
    let b ← b.setCurBlock cont .regular
    rest.build b
  | .startUnwind p k handler rest, b => do
    let (u, b) ← b.handlerBlock k handler.build
    let b ← b.startUnwind p u
    rest.build b
  | .tryUnwind p handler rest, b => do
    let (cont, b) := b.declareBlock
    let (u, b) ← b.handlerBlock .catch (fun b => do
      let b ← handler.build b
      if b.cur.isSome then b.stopUnwind cont else .ok b)
    let b ← b.startUnwind p u
    let b ← b.setCurBlock cont .regular
    rest.build b
  | .stop _, _ => panic
  | .switch v cases fallback rest, b => do
    let b ← b.switchInt v cases.builders fallback.build
    rest.build b
  | .while_ c body rest, b => do
    let b ← b.while_ c body.build
    rest.build b
def Cases.builders : Cases → List (Int × (FnBuilder → Res FnBuilder))
  | .nil => []
  | .cons i body rest => (i, body.build) :: rest.builders
end

/-- A declaration of a local variable, an argument or the return place. -/
inductive Decl
  | var (ty : Ty) | arg (ty : Ty) | ret (ty : Ty)

def Decl.ty : Decl → Ty
  | .var ty | .arg ty | .ret ty => ty

def Decl.isArg : Decl → Bool
  | .arg _ => true
  | _ => false

def Decl.isRet : Decl → Bool
  | .ret _ => true
  | _ => false

def Decl.build (b : FnBuilder) : Decl → Res FnBuilder
  | .var ty => do let (_, b) ← b.declareLocal ty; .ok b
  | .arg ty => do let (_, b) ← b.declareArg ty; .ok b
  | .ret ty => do let (_, b) ← b.declareRet ty; .ok b

def buildDecls (b : FnBuilder) : List Decl → Res FnBuilder
  | [] => .ok b
  | d :: ds => do
    let b ← d.build b
    buildDecls b ds

/-- A whole function: declarations, then code. (The builder also allows declarations between the code; they do not
depend on each other.) -/
def buildFunction (decls : List Decl) (code : Code) : Res Function := do
  let b ← FnBuilder.new
  let b ← buildDecls b decls
  let b ← code.build b
  b.finishFunction

/-! ### Which programs can be built -/

mutual
/-- Can execution get past the end of the program? `none` if the program is not structured: something follows code that
does not end, or a handler does not end on its own, or a switch has two cases for the same value. -/
def Code.flow : Code → Option Bool
  | .nil => some true
  | .stmt _ rest | .op _ _ _ rest | .callNounwind _ _ _ rest => rest.flow
  | .halt _ _ _ rest | .unreachable rest | .ret rest | .resume rest | .callNoret _ _ _ rest =>
    if rest.isNil then some false else none
  | .call _ _ handler rest => if handler.flow = some false then rest.flow else none
  | .tryCall _ handler rest => if handler.flow.isSome then rest.flow else none
  | .startUnwind _ _ handler rest => if handler.flow = some false ∧ rest.isNil then some false else none
  | .tryUnwind _ handler rest => if handler.flow.isSome then rest.flow else none
  | .stop _ => none
  | .switch _ cases fallback rest =>
    match cases.flow, fallback.flow with
    | some a, some b => if cases.values.Nodup then (if a || b then rest.flow else if rest.isNil then some false else none) else none
    | _, _ => none
  | .while_ _ body rest => if body.flow.isSome then rest.flow else none
def Code.isNil : Code → Bool
  | .nil => true
  | _ => false
/-- Can execution get past the end of some case? -/
def Cases.flow : Cases → Option Bool
  | .nil => some false
  | .cons _ body rest =>
    match body.flow, rest.flow with
    | some a, some b => some (a || b)
    | _, _ => none
end

/-! ### Which programs are well-formed -/

/-- An intrinsic whose arguments and return place are well-formed (what `check_wf` asks of it, apart from blocks). -/
def IntrinsicOk [Target] (prog : Program) (f : Function) (o : IntrinsicOp) (a : List ValueExpr) (r : PlaceExpr) : Prop :=
  (Terminator.intrinsic o a r none).checkWf prog f .regular = .ok ()

/-- A call whose callee, arguments and return place are well-formed. -/
def CallOk [Target] (prog : Program) (f : Function) (c : CallInfo) : Prop :=
  (Terminator.call c.callee c.conv c.args c.ret none none).checkWf prog f .regular = .ok ()

/-- Code of kind `k` may have a handler of kind `h`: regular code cleans up or catches, code that cleans up or aborts can
only abort on another unwind, and code that catches must not unwind. -/
def HandlerOk (k h : BbKind) : Prop :=
  (k = .regular ∧ (h = .cleanup ∨ h = .catch)) ∨ ((k = .cleanup ∨ k = .terminate) ∧ h = .terminate)

mutual
/-- All statements and expressions are well-formed, functions return from regular code, unwinding starts in regular code
and resumes in cleanup code, and so on. -/
def Code.Checked [Target] (prog : Program) (f : Function) (k : BbKind) : Code → Prop
  | .nil => True
  | .stmt s rest => s.checkWf prog f = .ok () ∧ rest.Checked prog f k
  | .op o a r rest => IntrinsicOk prog f o a r ∧ rest.Checked prog f k
  | .halt o a r _ => IntrinsicOk prog f o a r
  | .unreachable _ => True
  | .ret _ => k = .regular
  | .resume _ => k = .cleanup
  | .callNoret r g a _ => CallOk prog f ⟨g, .rust, a, r⟩
  | .callNounwind r g a rest => CallOk prog f ⟨g, .rust, a, r⟩ ∧ rest.Checked prog f k
  | .call c h handler rest => CallOk prog f c ∧ HandlerOk k h ∧ handler.Checked prog f h ∧ rest.Checked prog f k
  | .tryCall c handler rest => CallOk prog f c ∧ k = .regular ∧ handler.Checked prog f .catch ∧ rest.Checked prog f .regular
  | .startUnwind e h handler _ =>
    e.checkWf prog f.locals = .ok (.ptr (.raw .none)) ∧ k = .regular ∧ HandlerOk k h ∧ handler.Checked prog f h
  | .tryUnwind e handler rest =>
    e.checkWf prog f.locals = .ok (.ptr (.raw .none)) ∧ k = .regular ∧ handler.Checked prog f .catch ∧
      rest.Checked prog f .regular
  | .stop _ => True
  | .switch v cases fallback rest =>
    (∃ ity : IntType, v.checkWf prog f.locals = .ok (.int ity) ∧ ∀ i ∈ cases.values, ity.canRepresent i = true) ∧
      cases.Checked prog f k ∧ fallback.Checked prog f k ∧ rest.Checked prog f k
  | .while_ c body rest =>
    (FnBuilder.boolToInt c).checkWf prog f.locals = .ok (.int ⟨.unsigned, 1⟩) ∧ body.Checked prog f k ∧ rest.Checked prog f k
def Cases.Checked [Target] (prog : Program) (f : Function) (k : BbKind) : Cases → Prop
  | .nil => True
  | .cons _ body rest => body.Checked prog f k ∧ rest.Checked prog f k
end

end MiniRust
