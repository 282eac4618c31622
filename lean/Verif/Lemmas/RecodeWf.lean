import Verif.Spec.Recode
import Verif.Lemmas.Basic
/-
Renaming the blocks of a program does not change whether it is well formed.
-/
set_option linter.unusedSectionVars false
namespace MiniRust

section
variable [T : Target]

/-- Programs that differ at most in the bodies of their functions. -/
structure SameItems (p p' : Program) : Prop where
  globals : p'.globals = p.globals
  traits : p'.traits = p.traits
  vtables : p'.vtables = p.vtables
  contains : ∀ f, p'.functions.contains f = p.functions.contains f

variable {p p' : Program} {σ : BbName → BbName}

namespace SameItems
variable (h : SameItems p p')
include h

theorem layoutStrategy : ∀ l : LayoutStrategy, l.checkWf p' = l.checkWf p
  | .sized _ _ => by simp only [LayoutStrategy.checkWf]
  | .slice _ _ => by simp only [LayoutStrategy.checkWf]
  | .traitObject _ => by simp only [LayoutStrategy.checkWf, h.traits]
  | .tuple _ t => by simp only [LayoutStrategy.checkWf, layoutStrategy t]

theorem ptrType : ∀ t : PtrType, t.checkWf p' = t.checkWf p
  | .ref _ _ => by simp only [PtrType.checkWf, PointeeInfo.checkWf, h.layoutStrategy]
  | .box _ => by simp only [PtrType.checkWf, PointeeInfo.checkWf, h.layoutStrategy]
  | .raw _ => rfl
  | .fnPtr => rfl
  | .vtablePtr _ => by simp only [PtrType.checkWf, h.traits]

theorem checkLayout (ty : Ty) : MiniRust.checkLayout p' ty = MiniRust.checkLayout p ty := by
  simp only [MiniRust.checkLayout, h.layoutStrategy]

mutual
theorem ty : ∀ t : Ty, t.checkWf p' = t.checkWf p
  | .int _ => by simp only [Ty.checkWf, h.checkLayout]
  | .bool => by simp only [Ty.checkWf, h.checkLayout]
  | .ptr _ => by simp only [Ty.checkWf, h.checkLayout, h.ptrType]
  | .tuple fs _ none => by simp only [Ty.checkWf, h.checkLayout, fieldChecks fs]
  | .tuple fs _ (some t) => by simp only [Ty.checkWf, h.checkLayout, fieldChecks fs, ty t]
  | .array e _ => by simp only [Ty.checkWf, h.checkLayout, ty e]
  | .slice e => by simp only [Ty.checkWf, h.checkLayout, ty e]
  | .union fs _ _ _ => by simp only [Ty.checkWf, h.checkLayout, unionFields _ fs]
  | .enum vs _ _ _ _ => by simp only [Ty.checkWf, h.checkLayout, variants _ _ _ vs]
  | .traitObject _ => by simp only [Ty.checkWf, h.checkLayout, h.traits]
theorem fieldChecks : ∀ fs, Ty.fieldChecks p' fs = Ty.fieldChecks p fs
  | [] => by simp only [Ty.fieldChecks]
  | (_, t) :: fs => by simp only [Ty.fieldChecks, ty t, fieldChecks fs]
theorem unionFields (n : Nat) : ∀ fs, Ty.checkUnionFields p' n fs = Ty.checkUnionFields p n fs
  | [] => by simp only [Ty.checkUnionFields]
  | (_, t) :: fs => by simp only [Ty.checkUnionFields, ty t, unionFields n fs]
theorem variants (i : IntType) (n : Nat) (a : Align) : ∀ vs, Ty.checkVariants p' i n a vs = Ty.checkVariants p i n a vs
  | [] => by simp only [Ty.checkVariants]
  | (_, (t, _)) :: vs => by simp only [Ty.checkVariants, ty t, variants i n a vs]
end

theorem constant (c : Constant) (t : Ty) : c.checkWf p' t = c.checkWf p t := by
  unfold Constant.checkWf
  split <;> simp only [h.globals, h.contains, h.vtables]

theorem unOp (t : Ty) (o : UnOp) : o.checkWf p' t = o.checkWf p t := by
  cases o <;> simp only [UnOp.checkWf, h.ty, h.traits]

variable {locals : Map LocalName Ty}

mutual
theorem valueExpr : ∀ e : ValueExpr, e.checkWf p' locals = e.checkWf p locals
  | .constant _ _ => by simp only [ValueExpr.checkWf, h.ty, h.constant]
  | .tuple es _ => by simp only [ValueExpr.checkWf, h.ty, fields es]
  | .union _ e _ => by simp only [ValueExpr.checkWf, h.ty, valueExpr e]
  | .variant _ e _ => by simp only [ValueExpr.checkWf, h.ty, valueExpr e]
  | .getDiscriminant q => by simp only [ValueExpr.checkWf, placeExpr q]
  | .load q => by simp only [ValueExpr.checkWf, placeExpr q]
  | .addrOf q _ => by simp only [ValueExpr.checkWf, h.ptrType, placeExpr q]
  | .unOp _ e => by simp only [ValueExpr.checkWf, h.unOp, valueExpr e]
  | .binOp _ a b => by simp only [ValueExpr.checkWf, valueExpr a, valueExpr b]
theorem fields : ∀ (es : List ValueExpr) tys, ValueExpr.checkFields p' locals es tys = ValueExpr.checkFields p locals es tys
  | [], _ => by simp only [ValueExpr.checkFields]
  | _ :: _, [] => by simp only [ValueExpr.checkFields]
  | e :: es, _ :: tys => by simp only [ValueExpr.checkFields, valueExpr e, fields es tys]
theorem placeExpr : ∀ e : PlaceExpr, e.checkWf p' locals = e.checkWf p locals
  | .local _ => by simp only [PlaceExpr.checkWf]
  | .deref e _ => by simp only [PlaceExpr.checkWf, h.ty, valueExpr e]
  | .field e _ => by simp only [PlaceExpr.checkWf, placeExpr e]
  | .index e i => by simp only [PlaceExpr.checkWf, placeExpr e, valueExpr i]
  | .downcast e _ => by simp only [PlaceExpr.checkWf, placeExpr e]
end

theorem statement {f f' : Function} (hl : f'.locals = f.locals) (ha : f'.args = f.args) (hr : f'.ret = f.ret) (st : Statement) :
    st.checkWf p' f' = st.checkWf p f := by
  cases st <;> simp only [Statement.checkWf, h.placeExpr, h.valueExpr, hl, ha, hr]

theorem statements {f f' : Function} (hl : f'.locals = f.locals) (ha : f'.args = f.args) (hr : f'.ret = f.ret) :
    ∀ sts, checkStatements p' f' sts = checkStatements p f sts
  | [] => by simp only [checkStatements]
  | _ :: sts => by simp only [checkStatements, h.statement hl ha hr, statements hl ha hr sts]

theorem intrinsicArgs : ∀ as, checkIntrinsicArgs p' locals as = checkIntrinsicArgs p locals as
  | [] => by simp only [checkIntrinsicArgs]
  | _ :: as => by simp only [checkIntrinsicArgs, h.valueExpr, intrinsicArgs as]

theorem callArgs : ∀ as, checkCallArgs p' locals as = checkCallArgs p locals as
  | [] => by simp only [checkCallArgs]
  | .byValue _ :: as => by simp only [checkCallArgs, ArgumentExpr.checkWf, h.valueExpr, callArgs as]
  | .inPlace _ :: as => by simp only [checkCallArgs, ArgumentExpr.checkWf, h.placeExpr, callArgs as]

theorem locals' : ∀ ts, checkLocals p' ts = checkLocals p ts
  | [] => by simp only [checkLocals]
  | _ :: ts => by simp only [checkLocals, h.ty, locals' ts]

theorem vtables' : ∀ vs, checkVTables p' vs = checkVTables p vs
  | [] => by simp only [checkVTables]
  | _ :: vs => by simp only [checkVTables, h.traits, vtables' vs]

theorem relocations (n : Nat) : ∀ rs, checkRelocations p' n rs = checkRelocations p n rs
  | [] => by simp only [checkRelocations]
  | _ :: rs => by simp only [checkRelocations, h.globals, relocations n rs]

theorem globals' : ∀ gs, checkGlobals p' gs = checkGlobals p gs
  | [] => by simp only [checkGlobals]
  | _ :: gs => by simp only [checkGlobals, h.relocations, globals' gs]
end SameItems

/-! ### Renaming -/

theorem get?_renameBlocks (hσ : Function.Injective σ) (m : Map BbName BasicBlock) (b : BbName) :
    Map.get? (m.map fun x => (σ x.1, { x.2 with terminator := x.2.terminator.rename σ })) (σ b) =
      (Map.get? m b).map fun bb => { bb with terminator := bb.terminator.rename σ } := by
  induction m with
  | nil => rfl
  | cons x m ih =>
    obtain ⟨k, bb⟩ := x
    rw [List.map_cons]
    unfold Map.get?
    dsimp only
    by_cases hk : k = b
    · rw [if_pos hk, if_pos (by rw [hk])]; rfl
    · rw [if_neg hk, if_neg fun e => hk (hσ e)]; exact ih

/-- `f'` is `f` with renamed targets; each target is a block of the same kind. -/
structure Renamed (σ : BbName → BbName) (f f' : Function) : Prop where
  locals : f'.locals = f.locals
  args : f'.args = f.args
  ret : f'.ret = f.ret
  cc : f'.callingConvention = f.callingConvention
  blocks : f'.blocks.values = f.blocks.values.map fun bb => { bb with terminator := bb.terminator.rename σ }
  kind : ∀ b, (f'.blocks.get? (σ b)).map (·.kind) = (f.blocks.get? b).map (·.kind)

section
variable {f f' : Function} {k : BbKind} (hf : Renamed σ f f')
include hf

theorem checkNextBlock_rename (b : BbName) : f'.checkNextBlock k (σ b) = f.checkNextBlock k b := by
  unfold Function.checkNextBlock
  have := hf.kind b
  cases h1 : f.blocks.get? b <;> cases h2 : f'.blocks.get? (σ b) <;> simp only [h1, h2] at this ⊢
  · cases this
  · cases this
  · have this := Option.some.inj this; dsimp only at this; rw [this]

theorem checkUnwindBlock_rename (b : BbName) : f'.checkUnwindBlock k (σ b) = f.checkUnwindBlock k b := by
  unfold Function.checkUnwindBlock
  have := hf.kind b
  cases h1 : f.blocks.get? b <;> cases h2 : f'.blocks.get? (σ b) <;> simp only [h1, h2] at this ⊢
  · cases this
  · cases this
  · have this := Option.some.inj this; dsimp only at this; rw [this]

theorem checkSwitchCases_rename (ity : IntType) : ∀ cases : List (Int × BbName),
    checkSwitchCases f' k ity (cases.map fun c => (c.1, σ c.2)) = checkSwitchCases f k ity cases
  | [] => rfl
  | (c, b) :: rest => by
    rw [List.map_cons]
    simp only [checkSwitchCases, checkNextBlock_rename hf, checkSwitchCases_rename ity rest]

variable (h : SameItems p p')
include h

theorem terminator_rename (tm : Terminator) : (tm.rename σ).checkWf p' f' k = tm.checkWf p f k := by
  have hl := hf.locals
  cases tm with
  | goto b => simp only [Terminator.rename, Terminator.checkWf, checkNextBlock_rename hf]
  | switch v cs b => simp only [Terminator.rename, Terminator.checkWf, checkNextBlock_rename hf, checkSwitchCases_rename hf, h.valueExpr, hl]
  | unreachable => rfl
  | intrinsic op as r n =>
    cases n <;> simp only [Terminator.rename, Terminator.checkWf, Option.map_some, Option.map_none, Function.checkNextOpt,
      checkNextBlock_rename hf, h.placeExpr, h.intrinsicArgs, hl]
  | call c cc as r n u =>
    cases n <;> cases u <;> simp only [Terminator.rename, Terminator.checkWf, Option.map_some, Option.map_none, Function.checkNextOpt,
      Function.checkUnwindOpt, checkNextBlock_rename hf, checkUnwindBlock_rename hf, h.placeExpr, h.valueExpr, h.callArgs, hl]
  | «return» => rfl
  | startUnwind v b => simp only [Terminator.rename, Terminator.checkWf, checkUnwindBlock_rename hf, h.valueExpr, hl]
  | stopUnwind b => simp only [Terminator.rename, Terminator.checkWf, checkNextBlock_rename hf]
  | resumeUnwind => rfl

theorem blocks_rename : ∀ bs : List BasicBlock,
    checkBlocks p' f' (bs.map fun bb => { bb with terminator := bb.terminator.rename σ }) = checkBlocks p f bs
  | [] => rfl
  | bb :: bs => by
    rw [List.map_cons]
    simp only [checkBlocks, terminator_rename hf h, blocks_rename bs, h.statements (f := f) (f' := f') hf.locals hf.args hf.ret]

theorem function_rename : f'.checkWf p' = f.checkWf p := by
  unfold Function.checkWf
  rw [hf.blocks]
  simp only [blocks_rename hf h]
  rw [hf.locals, hf.args, hf.ret, h.locals']

end

theorem renamed_renameBlocks (hσ : Function.Injective σ) (f : Function) : Renamed σ f (f.renameBlocks σ) := by
  refine ⟨rfl, rfl, rfl, rfl, ?_, fun b => ?_⟩
  · unfold Function.renameBlocks Map.values
    rw [List.map_map, List.map_map]; rfl
  · rw [show (f.renameBlocks σ).blocks.get? (σ b) = _ from get?_renameBlocks hσ f.blocks b]
    cases f.blocks.get? b <;> rfl

/-- Functions replaced by others with the same names. -/
def Program.mapFns (g : FnName → Function → Function) (p : Program) : Program :=
  { p with functions := p.functions.map fun x => (x.1, g x.1 x.2) }

theorem functions_rename (h : SameItems p p') {τ : FnName → BbName → BbName} {g : FnName → Function → Function} : ∀ fs : List (FnName × Function),
    (∀ n f, (n, f) ∈ fs → Renamed (τ n) f (g n f)) →
    checkFunctions p' (fs.map fun x => g x.1 x.2) = checkFunctions p (fs.map (·.2))
  | [], _ => rfl
  | f :: fs, hg => by
    rw [List.map_cons, List.map_cons]
    simp only [checkFunctions, function_rename (hg _ _ (List.mem_cons_self ..)) h,
      functions_rename h fs fun n f hf => hg n f (List.mem_cons_of_mem _ hf)]

theorem get?_mapFns (g : FnName → Function → Function) (m : Map FnName Function) (n : FnName) :
    Map.get? (m.map fun x => (x.1, g x.1 x.2)) n = (Map.get? m n).map (g n) := by
  induction m with
  | nil => rfl
  | cons x m ih =>
    obtain ⟨k, f⟩ := x
    rw [List.map_cons]
    unfold Map.get?
    dsimp only
    split
    · rename_i hk; cases hk; rfl
    · exact ih

theorem sameItems_mapFns {g : FnName → Function → Function} : SameItems p (p.mapFns g) := by
  refine ⟨rfl, rfl, rfl, fun f => ?_⟩
  show Map.contains (p.functions.map _) f = _
  unfold Map.contains
  rw [get?_mapFns]
  cases p.functions.get? f <;> rfl

/-- A program with renamed targets is well formed iff the program is. -/
theorem checkWf_mapFns {g : FnName → Function → Function} {τ : FnName → BbName → BbName} (hg : ∀ n f, (n, f) ∈ p.functions → Renamed (τ n) f (g n f)) :
    (p.mapFns g).checkWf = p.checkWf := by
  have h := sameItems_mapFns (p := p) (g := g)
  unfold Program.checkWf
  have hv : (p.mapFns g).functions.values = p.functions.map fun x => g x.1 x.2 := by
    unfold Program.mapFns Map.values
    rw [List.map_map]; rfl
  rw [hv, functions_rename h _ hg, show p.functions.map (·.2) = p.functions.values from rfl, h.vtables, h.vtables', h.globals,
    show (p.mapFns g).functions.get? (p.mapFns g).start = _ from get?_mapFns _ _ _]
  cases hs : p.functions.get? p.start with
  | none => rw [show Map.get? p.functions (p.mapFns g).start = none from hs]; rfl
  | some f =>
    have hr := hg p.start f (Map.get?_mem hs)
    rw [show Map.get? p.functions (p.mapFns g).start = some f from hs]
    simp only [Option.map_some, h.globals']
    rw [show (p.mapFns g).start = p.start from rfl, hr.args, hr.locals, hr.ret, hr.cc]

/-- A program with renamed blocks is well formed iff the program is. -/
theorem checkWf_rename {τ : FnName → BbName → BbName} (hσ : ∀ n, Function.Injective (τ n)) : (p.renameBlocks τ).checkWf = p.checkWf :=
  checkWf_mapFns (g := fun n f => f.renameBlocks (τ n)) fun n f _ => renamed_renameBlocks (hσ n) f

end
end MiniRust
