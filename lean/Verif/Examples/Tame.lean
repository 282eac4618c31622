import Verif.Examples.Calls
import Verif.Spec.Tame
/-
A computable check that implies `Program.Tame` and `Program.Simple`, and a program that passes it.
-/
set_option linter.unusedSectionVars false
set_option linter.unusedTactic false
set_option linter.unreachableTactic false
namespace MiniRust
variable [T : Target]

/-- Computable version of `PtrType.Plain`. -/
def PtrType.plainB : PtrType → Bool
  | .raw _ => true
  | .fnPtr => true
  | _ => false

theorem PtrType.plainB_eq {p : PtrType} (h : p.plainB = true) : p.Plain := by
  cases p <;> first | trivial | cases h

/-- Computable version of `Constant.Tame`. -/
def Constant.tameB : Constant → Ty → Bool
  | .globalPointer _, .ptr p => p.plainB && p.metaKind == .none
  | .pointerWithoutProvenance _, .ptr p => p.plainB && p.metaKind == .none
  | .globalPointer _, _ => false
  | .pointerWithoutProvenance _, _ => false
  | _, _ => true

theorem Constant.tameB_eq {c : Constant} {ty} (h : c.tameB ty = true) : c.Tame ty := by
  cases c with
  | globalPointer r =>
    cases ty with
    | ptr p => simp only [Constant.tameB, Bool.and_eq_true, beq_iff_eq] at h; exact ⟨p, rfl, PtrType.plainB_eq h.1, h.2⟩
    | _ => simp [Constant.tameB] at h
  | pointerWithoutProvenance a =>
    cases ty with
    | ptr p => simp only [Constant.tameB, Bool.and_eq_true, beq_iff_eq] at h; exact ⟨p, rfl, PtrType.plainB_eq h.1, h.2⟩
    | _ => simp [Constant.tameB] at h
  | _ => trivial

/-- Implies `UnOp.Tame`; sizes and alignments only of sized types. -/
def UnOp.tameB (operand : Ty) : UnOp → Bool
  | .int .countOnes => match operand with
    | .int ity => decide (8 * ity.size < 2 ^ 32)
    | _ => true
  | .computeSize ty => match ty.layout with
    | .ok (.sized size _) => decide (size < 2 ^ (8 * T.ptrSize))
    | _ => false
  | .computeAlign ty => match ty.layout with
    | .ok (.sized _ align) => decide (align.bytes < 2 ^ (8 * T.ptrSize))
    | _ => false
  | _ => true

theorem UnOp.tameB_eq {prog : Program} {op : UnOp} {ty} (h : op.tameB ty = true) : op.Tame prog ty := by
  unfold UnOp.tameB at h
  split at h
  · intro ity e; subst e; simpa using h
  · rename_i ty'
    intro l size align hl hp
    split at h
    · rename_i h1; rw [h1] at hl; cases hl; cases hp; simpa using h
    · cases h
  · rename_i ty'
    intro l size align hl hp
    split at h
    · rename_i h1; rw [h1] at hl; cases hl; cases hp; simpa using h
    · cases h
  · rename_i h1 h2 h3
    cases op with
    | int o => cases o <;> trivial
    | computeSize t => exact (h2 _ rfl).elim
    | computeAlign t => exact (h3 _ rfl).elim
    | _ => trivial

/-- Computable version of `BinOp.Tame`. -/
def BinOp.tameB (left : Ty) : BinOp → Bool
  | .ptrOffset _ => match left with
    | .ptr p => p.plainB
    | _ => true
  | _ => true

theorem BinOp.tameB_eq {op : BinOp} {ty} (h : op.tameB ty = true) : op.Tame ty := by
  cases op <;> try trivial
  intro p e; subst e; exact PtrType.plainB_eq h

/-- The result, if there is one, satisfies the predicate. -/
def okAll {α : Type} (r : Res α) (p : α → Bool) : Bool :=
  match r with
  | .ok a => p a
  | .error _ => true

theorem okAll_eq {α : Type} {r : Res α} {p : α → Bool} (h : okAll r p = true) {a} (ha : r = .ok a) : p a = true := by
  subst ha; exact h

/-- The type is well-formed. -/
def Ty.wfB (prog : Program) (ty : Ty) : Bool := match ty.checkWf prog with
  | .ok () => true
  | .error _ => false

theorem Ty.wfB_eq {prog : Program} {ty : Ty} (h : ty.wfB prog = true) : ty.checkWf prog = .ok () := by
  unfold Ty.wfB at h
  split at h
  · assumption
  · cases h

mutual
/-- Computable version of `ValueExpr.Tame`. -/
def ValueExpr.tameB (prog : Program) (locals : Map LocalName Ty) : ValueExpr → Bool
  | .constant c ty => c.tameB ty
  | .tuple es _ => ValueExpr.allTameB prog locals es
  | .union _ e _ => e.tameB prog locals
  | .variant _ e _ => e.tameB prog locals
  | .getDiscriminant p => p.tameB prog locals && okAll ((ValueExpr.getDiscriminant p).checkWf prog locals) (·.wfB prog)
  | .load p => p.tameB prog locals
  | .addrOf p _ => p.tameB prog locals
  | .unOp op e => e.tameB prog locals && okAll (e.checkWf prog locals) (fun ty => op.tameB ty) &&
      okAll ((ValueExpr.unOp op e).checkWf prog locals) (·.wfB prog)
  | .binOp op l r => l.tameB prog locals && r.tameB prog locals && okAll (l.checkWf prog locals) (fun ty => op.tameB ty) &&
      okAll ((ValueExpr.binOp op l r).checkWf prog locals) (·.wfB prog)
/-- Computable version of `ValueExpr.AllTame`. -/
def ValueExpr.allTameB (prog : Program) (locals : Map LocalName Ty) : List ValueExpr → Bool
  | [] => true
  | e :: es => e.tameB prog locals && ValueExpr.allTameB prog locals es
/-- Computable version of `PlaceExpr.Tame`. -/
def PlaceExpr.tameB (prog : Program) (locals : Map LocalName Ty) : PlaceExpr → Bool
  | .local _ => true
  | .deref e _ => e.tameB prog locals
  | .field p _ => p.tameB prog locals
  | .index p e => p.tameB prog locals && e.tameB prog locals
  | .downcast p _ => p.tameB prog locals
end

mutual
theorem ValueExpr.tameB_eq {prog : Program} {locals : Map LocalName Ty} : ∀ {e : ValueExpr}, e.tameB prog locals = true → e.Tame prog locals
  | .constant c ty, h => by unfold ValueExpr.tameB at h; unfold ValueExpr.Tame; exact Constant.tameB_eq h
  | .tuple es _, h => by unfold ValueExpr.tameB at h; unfold ValueExpr.Tame; exact ValueExpr.allTameB_eq h
  | .union _ e _, h => by unfold ValueExpr.tameB at h; unfold ValueExpr.Tame; exact ValueExpr.tameB_eq h
  | .variant _ e _, h => by unfold ValueExpr.tameB at h; unfold ValueExpr.Tame; exact ValueExpr.tameB_eq h
  | .getDiscriminant p, h => by
    unfold ValueExpr.tameB at h; unfold ValueExpr.Tame
    simp only [Bool.and_eq_true] at h
    exact ⟨PlaceExpr.tameB_eq h.1, fun ty hty => Ty.wfB_eq (okAll_eq h.2 hty)⟩
  | .load p, h => by unfold ValueExpr.tameB at h; unfold ValueExpr.Tame; exact PlaceExpr.tameB_eq h
  | .addrOf p _, h => by unfold ValueExpr.tameB at h; unfold ValueExpr.Tame; exact PlaceExpr.tameB_eq h
  | .unOp op e, h => by
    unfold ValueExpr.tameB at h; unfold ValueExpr.Tame
    simp only [Bool.and_eq_true] at h
    exact ⟨ValueExpr.tameB_eq h.1.1, fun ty hty => UnOp.tameB_eq (okAll_eq h.1.2 hty), fun ty hty => Ty.wfB_eq (okAll_eq h.2 hty)⟩
  | .binOp op l r, h => by
    unfold ValueExpr.tameB at h; unfold ValueExpr.Tame
    simp only [Bool.and_eq_true] at h
    exact ⟨ValueExpr.tameB_eq h.1.1.1, ValueExpr.tameB_eq h.1.1.2, fun ty hty => BinOp.tameB_eq (okAll_eq h.1.2 hty),
      fun ty hty => Ty.wfB_eq (okAll_eq h.2 hty)⟩
theorem ValueExpr.allTameB_eq {prog : Program} {locals : Map LocalName Ty} : ∀ {es : List ValueExpr}, ValueExpr.allTameB prog locals es = true → ValueExpr.AllTame prog locals es
  | [], _ => by unfold ValueExpr.AllTame; trivial
  | e :: es, h => by
    unfold ValueExpr.allTameB at h; unfold ValueExpr.AllTame
    simp only [Bool.and_eq_true] at h
    exact ⟨ValueExpr.tameB_eq h.1, ValueExpr.allTameB_eq h.2⟩
theorem PlaceExpr.tameB_eq {prog : Program} {locals : Map LocalName Ty} : ∀ {e : PlaceExpr}, e.tameB prog locals = true → e.Tame prog locals
  | .local _, _ => by unfold PlaceExpr.Tame; trivial
  | .deref e _, h => by unfold PlaceExpr.tameB at h; unfold PlaceExpr.Tame; exact ValueExpr.tameB_eq h
  | .field p _, h => by unfold PlaceExpr.tameB at h; unfold PlaceExpr.Tame; exact PlaceExpr.tameB_eq h
  | .index p e, h => by
    unfold PlaceExpr.tameB at h; unfold PlaceExpr.Tame
    simp only [Bool.and_eq_true] at h
    exact ⟨PlaceExpr.tameB_eq h.1, ValueExpr.tameB_eq h.2⟩
  | .downcast p _, h => by unfold PlaceExpr.tameB at h; unfold PlaceExpr.Tame; exact PlaceExpr.tameB_eq h
end

/-- Computable version of `Statement.Tame`. -/
def Statement.tameB (prog : Program) (locals : Map LocalName Ty) : Statement → Bool
  | .assign d e => d.tameB prog locals && e.tameB prog locals
  | .placeMention p => p.tameB prog locals
  | .setDiscriminant p _ => p.tameB prog locals
  | .validate p _ => p.tameB prog locals
  | .deinit p => p.tameB prog locals
  | .storageLive _ => true
  | .storageDead _ => true

theorem Statement.tameB_eq {prog : Program} {locals : Map LocalName Ty} {st : Statement} (h : st.tameB prog locals = true) : st.Tame prog locals := by
  cases st with
  | assign d e =>
    simp only [Statement.tameB, Bool.and_eq_true] at h
    exact ⟨PlaceExpr.tameB_eq h.1, ValueExpr.tameB_eq h.2⟩
  | storageLive l => trivial
  | storageDead l => trivial
  | _ => exact PlaceExpr.tameB_eq h

/-- Implies `IntrinsicOp.Tame` for a return place of the given type. -/
def IntrinsicOp.tameB (ret : Ty) : IntrinsicOp → Bool
  | .allocate => match ret with | .ptr p => p.plainB | _ => true
  | .getUnwindPayload => match ret with | .ptr p => p.plainB | _ => true
  | .pointerWithExposedProvenance => false
  | .spawn => match ret with | .int t => decide (t = ⟨.unsigned, T.ptrSize⟩) | _ => true
  | .lock .create => match ret with | .int t => decide (t = ⟨.unsigned, T.ptrSize⟩) | _ => true
  | _ => true

theorem IntrinsicOp.tameB_eq {op : IntrinsicOp} {args ret} (h : op.tameB ret = true) : op.Tame args ret := by
  unfold IntrinsicOp.tameB at h
  split at h
  · intro p e; subst e; exact PtrType.plainB_eq h
  · intro p e; subst e; exact PtrType.plainB_eq h
  · cases h
  · intro p e; subst e; simpa using h
  · intro p e; subst e; simpa using h
  · rename_i h1 h2 h3 h4 h5
    unfold IntrinsicOp.Tame
    split <;> first | trivial | exact absurd rfl h1 | exact absurd rfl h2 | exact absurd rfl h3 | exact absurd rfl h4 | exact absurd rfl h5

/-- Implies `Terminator.Tame`. -/
def Terminator.tameB (prog : Program) (locals : Map LocalName Ty) : Terminator → Bool
  | .switch value _ _ => value.tameB prog locals
  | .intrinsic op args ret _ => args.all (·.tameB prog locals) && ret.tameB prog locals && okAll (ret.checkWf prog locals) (fun ty => op.tameB ty)
  | .call callee _ args ret _ _ => callee.tameB prog locals && args.all (fun a => match a with
      | .byValue e => e.tameB prog locals
      | .inPlace p => p.tameB prog locals) && ret.tameB prog locals
  | .startUnwind payload _ => payload.tameB prog locals
  | _ => true

theorem Terminator.tameB_eq {prog : Program} {locals : Map LocalName Ty} {t : Terminator} (h : t.tameB prog locals = true) : t.Tame prog locals := by
  cases t with
  | switch v c f => exact ValueExpr.tameB_eq h
  | intrinsic op args ret n =>
    simp only [Terminator.tameB, Bool.and_eq_true, List.all_eq_true] at h
    exact ⟨fun e he => ValueExpr.tameB_eq (h.1.1 e he), PlaceExpr.tameB_eq h.1.2, fun tys ty _ hty => IntrinsicOp.tameB_eq (okAll_eq h.2 hty)⟩
  | call callee cc args ret n u =>
    simp only [Terminator.tameB, Bool.and_eq_true, List.all_eq_true] at h
    refine ⟨ValueExpr.tameB_eq h.1.1, fun a ha => ?_, PlaceExpr.tameB_eq h.2⟩
    have := h.1.2 a ha
    cases a with
    | byValue e => exact ValueExpr.tameB_eq this
    | inPlace p => exact PlaceExpr.tameB_eq this
  | startUnwind p b => exact ValueExpr.tameB_eq h
  | _ => trivial

omit T in
/-- Computable version of `Terminator.Simple`. -/
def Terminator.simpleB : Terminator → Bool
  | .intrinsic (.atomicFetchAndOp _) _ _ _ => false
  | _ => true

omit T in
theorem Terminator.simpleB_eq {t : Terminator} (h : t.simpleB = true) : t.Simple := by
  unfold Terminator.simpleB at h
  split at h
  · cases h
  · rename_i h1
    unfold Terminator.Simple
    split
    · exact h1 _ _ _ _ rfl
    · trivial

/-- Implies `Detached`. -/
def Ty.scalarB : Ty → Bool
  | .int _ => true
  | .bool => true
  | .ptr p => p.safePointee.isNone
  | .tuple [] _ _ => true
  | _ => false

omit T in
theorem Ty.scalarB_eq {ty : Ty} (h : ty.scalarB = true) : Detached ty := by
  intro p hp
  unfold Ty.scalarB at h
  split at h
  · cases hp
  · cases hp
  · cases hp; simpa using h
  · cases hp with
    | field hm _ => cases hm
  · cases h

/-- Implies that the program is tame. -/
def Program.tameB (prog : Program) : Bool :=
  decide prog.globals.keys.Nodup && decide prog.functions.keys.Nodup && decide prog.vtables.keys.Nodup && prog.startsOk &&
  prog.vtables.all (fun v => v.2.methods.all fun m => (prog.functions.get? m.2).isSome) &&
  prog.functions.all fun f => f.2.blocks.all fun b => b.2.statements.all (·.tameB prog f.2.locals) && b.2.terminator.tameB prog f.2.locals

/-- Implies that the program is simple. -/
def Program.simpleB (prog : Program) : Bool :=
  prog.functions.all fun f => (match f.2.locals.get? f.2.ret with | some ty => ty.scalarB | none => true) &&
    f.2.blocks.all fun b => b.2.terminator.simpleB

theorem Program.tameB_eq {prog : Program} (h : prog.tameB = true) : prog.Tame := by
  simp only [Program.tameB, Bool.and_eq_true, List.all_eq_true, decide_eq_true_eq, and_assoc] at h
  obtain ⟨h1, h2, h3, h4, h5, h6⟩ := h
  refine ⟨⟨h1, h2, h3⟩, Program.startsOk_eq h4, fun x v m f hv hm => ?_, fun name f hf bb b hb => ?_⟩
  · exact Option.isSome_iff_exists.1 (h5 _ (Map.get?_mem hv) _ (Map.get?_mem hm))
  · obtain ⟨k1, k2⟩ := h6 _ (Map.get?_mem hf) _ (Map.get?_mem hb)
    exact ⟨fun st hst => Statement.tameB_eq (k1 st hst), Terminator.tameB_eq k2⟩

omit T in
theorem Program.simpleB_eq {prog : Program} (h : prog.simpleB = true) : prog.Simple := by
  simp only [Program.simpleB, Bool.and_eq_true, List.all_eq_true] at h
  intro name f hf
  obtain ⟨k1, k2⟩ := h _ (Map.get?_mem hf)
  refine ⟨fun ty hty => ?_, fun bb b hb => Terminator.simpleB_eq (k2 _ (Map.get?_mem hb))⟩
  dsimp only at k1
  rw [hty] at k1
  exact Ty.scalarB_eq k1

end MiniRust
