import Verif.Syntax
/-
The function and program builders of miniutil (`/repo/tooling/miniutil/src/build/`).

Panics are `.error .panic`. Names are unbounded here; the code counts them with `u32`. Closures given to the builder are
functions that return the changed builder or panic.
-/
namespace MiniRust

/-- `Map::try_insert(..).unwrap()`: panics if the key is present. -/
def Map.tryInsert {K V : Type} [DecidableEq K] (m : Map K V) (k : K) (v : V) : Res (Map K V) :=
  if m.contains k then panic else .ok (m.insert k v)

/-- `CurBlock`, `/repo/tooling/miniutil/src/build/mod.rs:408-418`. -/
structure CurBlock where
  statements : List Statement
  name : BbName
  kind : BbKind

/-- `FunctionBuilder`, `/repo/tooling/miniutil/src/build/mod.rs:154-169`; the name of the function is kept by the
program builder. -/
structure FnBuilder where
  locals : Map LocalName Ty
  args : List LocalName
  blocks : Map BbName BasicBlock
  start : BbName
  ret : Option LocalName
  conv : CallingConvention
  cur : Option CurBlock
  nextBlock : Nat
  nextLocal : Nat

namespace FnBuilder

/-- `declare_block`, `/repo/tooling/miniutil/src/build/mod.rs:192-196`. -/
def declareBlock (b : FnBuilder) : BbName × FnBuilder := (b.nextBlock, { b with nextBlock := b.nextBlock + 1 })

/-- `set_cur_block`, `/repo/tooling/miniutil/src/build/mod.rs:198-207`. -/
def setCurBlock (b : FnBuilder) (name : BbName) (kind : BbKind) : Res FnBuilder :=
  if b.blocks.contains name then panic
  else
    match b.cur with
    | none => .ok { b with cur := some ⟨[], name, kind⟩ }
    | some _ => panic

/-- `FunctionBuilder::new`, `/repo/tooling/miniutil/src/build/mod.rs:171-190`. -/
def new : Res FnBuilder := do
  let fb : FnBuilder := ⟨[], [], [], 0, none, .rust, none, 0, 0⟩
  let (startBlock, fb) := fb.declareBlock
  rassert (startBlock == fb.start)
  fb.setCurBlock startBlock .regular

/-- `cur_block`, `/repo/tooling/miniutil/src/build/mod.rs:209-213`. -/
def curBlock (b : FnBuilder) : Res CurBlock := unwrap b.cur

/-- The statement methods (`assign`, `place_mention`, ..) push a statement to the current block,
`/repo/tooling/miniutil/src/build/statement.rs:3-33`. -/
def statement (b : FnBuilder) (s : Statement) : Res FnBuilder := do
  let cb ← b.curBlock
  .ok { b with cur := some { cb with statements := cb.statements ++ [s] } }

/-- `finish_block`, `/repo/tooling/miniutil/src/build/terminator.rs:4-9`. -/
def finishBlock (b : FnBuilder) (terminator : Terminator) : Res FnBuilder := do
  let cb ← unwrap b.cur
  let bb : BasicBlock := ⟨cb.statements, terminator, cb.kind⟩
  let blocks ← b.blocks.tryInsert cb.name bb
  .ok { b with cur := none, blocks := blocks }

/-- `finish_with_next_block`, `/repo/tooling/miniutil/src/build/terminator.rs:11-22`. -/
def finishWithNextBlock (b : FnBuilder) (builder : BbName → Terminator) : Res FnBuilder := do
  let kind := (← b.curBlock).kind
  let (next, b) := b.declareBlock
  let b ← b.finishBlock (builder next)
  b.setCurBlock next kind

/-- The methods for intrinsics with a following block (`assume`, `print`, `allocate`, ..),
`/repo/tooling/miniutil/src/build/terminator.rs:126-228, 238-242`: all of them are `finish_with_next_block` with an
intrinsic terminator, `/repo/tooling/miniutil/src/build/terminator.rs:358-578`. -/
def intrinsic (b : FnBuilder) (op : IntrinsicOp) (args : List ValueExpr) (ret : PlaceExpr) : Res FnBuilder :=
  b.finishWithNextBlock fun next => .intrinsic op args ret (some next)

/-- `handle_call`, `/repo/tooling/miniutil/src/build/terminator.rs:47-69`. -/
def handleCall (b : FnBuilder) (ret : PlaceExpr) (f : ValueExpr) (args : List ArgumentExpr) (conv : CallingConvention)
    (next unwind : Option BbName) : Res FnBuilder := do
  let kind := (← b.curBlock).kind
  let b ← b.finishBlock (.call f conv args ret next unwind)
  match next with
  | some next => b.setCurBlock next kind
  | none => .ok b

/-- `call_noret`, `/repo/tooling/miniutil/src/build/terminator.rs:71-74`. -/
def callNoret (b : FnBuilder) (ret : PlaceExpr) (f : ValueExpr) (args : List ArgumentExpr) : Res FnBuilder :=
  b.handleCall ret f args .rust none none

/-- `call_nounwind` (and `call_ignoreret`, where `ret` is `unit_place()`),
`/repo/tooling/miniutil/src/build/terminator.rs:76-86`. -/
def callNounwind (b : FnBuilder) (ret : PlaceExpr) (f : ValueExpr) (args : List ArgumentExpr) : Res FnBuilder :=
  let (next, b) := b.declareBlock
  b.handleCall ret f args .rust (some next) none

/-- `call_with_conv` (and `call`, where `conv` is Rust), `/repo/tooling/miniutil/src/build/terminator.rs:88-118`. -/
def callWithConv (b : FnBuilder) (ret : PlaceExpr) (f : ValueExpr) (args : List ArgumentExpr) (conv : CallingConvention)
    (unwind : BbName) : Res FnBuilder :=
  let (next, b) := b.declareBlock
  b.handleCall ret f args conv (some next) (some unwind)

/-- `goto`, `/repo/tooling/miniutil/src/build/terminator.rs:122-124`. -/
def goto (b : FnBuilder) (dest : BbName) : Res FnBuilder := b.finishBlock (.goto dest)

/-- `start_unwind`, `/repo/tooling/miniutil/src/build/terminator.rs:230-232`. -/
def startUnwind (b : FnBuilder) (payload : ValueExpr) (cleanup : BbName) : Res FnBuilder :=
  b.finishBlock (.startUnwind payload cleanup)

/-- `stop_unwind`, `/repo/tooling/miniutil/src/build/terminator.rs:234-236`. -/
def stopUnwind (b : FnBuilder) (next : BbName) : Res FnBuilder := b.finishBlock (.stopUnwind next)

/-- `cleanup_block`, `terminating_block` and `catch_block`, `/repo/tooling/miniutil/src/build/mod.rs:287-337`: the three
differ only in the kind of the block. -/
def handlerBlock (b : FnBuilder) (kind : BbKind) (builder : FnBuilder → Res FnBuilder) : Res (BbName × FnBuilder) := do
  let oldCur := b.cur
  let b := { b with cur := none }
  let (name, b) := b.declareBlock
  let b ← b.setCurBlock name kind
  let b ← builder b
  if b.cur.isSome then panic else .ok (name, { b with cur := oldCur })

/-- The first loop of `switch_int`, `/repo/tooling/miniutil/src/build/terminator.rs:270-274`: declares a block for each
case. -/
def declareCases (b : FnBuilder) (branchMap : Map Int BbName) (branches : List ((FnBuilder → Res FnBuilder) × BbName)) :
    List (Int × (FnBuilder → Res FnBuilder)) → Res (FnBuilder × Map Int BbName × List ((FnBuilder → Res FnBuilder) × BbName))
  | [] => .ok (b, branchMap, branches)
  | (case, branch) :: rest => do
    let (newBlock, b) := b.declareBlock
    let branchMap ← branchMap.tryInsert case newBlock
    b.declareCases branchMap (branches ++ [(branch, newBlock)]) rest

/-- The second loop of `switch_int`, `/repo/tooling/miniutil/src/build/terminator.rs:286-293`: builds the branches. -/
def buildBranches (kind : BbKind) : (b : FnBuilder) → (after : Option BbName) →
    List ((FnBuilder → Res FnBuilder) × BbName) → Res (FnBuilder × Option BbName)
  | b, after, [] => .ok (b, after)
  | b, after, (branch, block) :: rest => do
    let b ← b.setCurBlock block kind
    let b ← branch b
    if b.cur.isSome then
      match after with
      | some jumpTo => do
        let b ← b.goto jumpTo
        buildBranches kind b after rest
      | none => do
        let (jumpTo, b) := b.declareBlock
        let b ← b.goto jumpTo
        buildBranches kind b (some jumpTo) rest
    else
      buildBranches kind b after rest

/-- `switch_int`, `/repo/tooling/miniutil/src/build/terminator.rs:254-298`. -/
def switchInt (b : FnBuilder) (value : ValueExpr) (cases : List (Int × (FnBuilder → Res FnBuilder)))
    (fallback : FnBuilder → Res FnBuilder) : Res FnBuilder := do
  let kind := (← b.curBlock).kind
  let (b, branchMap, branches) ← b.declareCases [] [] cases
  let (fallbackBlock, b) := b.declareBlock
  let b ← b.finishBlock (.switch value branchMap fallbackBlock)
  let (b, after) ← buildBranches kind b none (branches ++ [(fallback, fallbackBlock)])
  match after with
  | some after => b.setCurBlock after kind
  | none => .ok b

/-- `bool_to_int::<u8>`, `/repo/tooling/miniutil/src/build/expr.rs:101-107`. -/
def boolToInt (v : ValueExpr) : ValueExpr := .unOp (.cast (.transmute (.int ⟨.unsigned, 1⟩))) v

/-- `if_`, `/repo/tooling/miniutil/src/build/terminator.rs:246-252`. -/
def if_ (b : FnBuilder) (condition : ValueExpr) (thenBranch elseBranch : FnBuilder → Res FnBuilder) : Res FnBuilder :=
  b.switchInt (boolToInt condition) [(1, thenBranch)] elseBranch

/-- `while_`, `/repo/tooling/miniutil/src/build/terminator.rs:300-318`. -/
def while_ (b : FnBuilder) (condition : ValueExpr) (body : FnBuilder → Res FnBuilder) : Res FnBuilder := do
  let (cond, b) := b.declareBlock
  let kind := (← b.curBlock).kind
  let b ← b.goto cond
  let b ← b.setCurBlock cond kind
  b.if_ condition
    (fun f => do
      let f ← body f
      if f.cur.isSome then f.goto cond else .ok f)
    (fun f => .ok f)

/-- `fresh_local_name` and `declare_local_with_ty` (`declare_local` computes the type from a Rust type),
`/repo/tooling/miniutil/src/build/mod.rs:242-258`. -/
def declareLocal (b : FnBuilder) (ty : Ty) : Res (PlaceExpr × FnBuilder) := do
  let name := b.nextLocal
  let locals ← b.locals.tryInsert name ty
  .ok (.local name, { b with nextLocal := b.nextLocal + 1, locals := locals })

/-- `declare_ret`, `/repo/tooling/miniutil/src/build/mod.rs:260-269`. -/
def declareRet (b : FnBuilder) (ty : Ty) : Res (PlaceExpr × FnBuilder) := do
  if b.ret.isSome then panic
  else
    let name := b.nextLocal
    let locals ← b.locals.tryInsert name ty
    .ok (.local name, { b with nextLocal := b.nextLocal + 1, locals := locals, ret := some name })

/-- `declare_arg_with_ty` (and `declare_arg`), `/repo/tooling/miniutil/src/build/mod.rs:271-280`. -/
def declareArg (b : FnBuilder) (ty : Ty) : Res (PlaceExpr × FnBuilder) := do
  let name := b.nextLocal
  let locals ← b.locals.tryInsert name ty
  .ok (.local name, { b with nextLocal := b.nextLocal + 1, locals := locals, args := b.args ++ [name] })

/-- `finish_function`, `/repo/tooling/miniutil/src/build/mod.rs:215-236`. -/
def finishFunction (b : FnBuilder) : Res Function := do
  if b.cur.isSome then panic
  else
    let b ← if b.ret.isNone then (do let (_, b) ← b.declareRet unitTy; .ok b) else .ok b
    let ret ← unwrap b.ret
    .ok ⟨b.locals, b.args, ret, b.conv, b.blocks, b.start⟩

end FnBuilder
end MiniRust
