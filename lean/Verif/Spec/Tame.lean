import Verif.WellFormed
import Verif.Spec.Representation
import Verif.Spec.Frames
import Verif.Spec.Init
/-
Vocabulary for C37: programs that stay clear of the cases in which the checks of the specification are
too weak and well-formed programs make the interpreter panic. The cases are listed in DESIGN.md.
-/
namespace MiniRust

/-- The sizes and alignments a value of the given layout can have in the program. -/
inductive PossibleLayout [T : Target] (prog : Program) : LayoutStrategy → Nat → Align → Prop
  | sized {size align} : PossibleLayout prog (.sized size align) size align
  | slice {size align} {count : Nat} : count < 2 ^ (8 * T.ptrSize) →
      PossibleLayout prog (.slice size align) (size * count) align
  | traitObject {t name v} : prog.vtables.get? name = some v → v.traitName = t →
      PossibleLayout prog (.traitObject t) v.size v.align
  | tuple {head tail size align} : PossibleLayout prog tail size align →
      PossibleLayout prog (.tuple head tail) (head.fullSizeAndAlign size align).1 (head.fullSizeAndAlign size align).2

/-- Pointer types without a validity requirement beyond that on the metadata. -/
def PtrType.Plain : PtrType → Prop
  | .raw _ => True
  | .fnPtr => True
  | _ => False

/-- Constants whose value is valid at the type. -/
def Constant.Tame : Constant → Ty → Prop
  | .globalPointer _, ty => ∃ p, ty = .ptr p ∧ p.Plain ∧ p.metaKind = .none
  | .pointerWithoutProvenance _, ty => ∃ p, ty = .ptr p ∧ p.Plain ∧ p.metaKind = .none
  | _, _ => True

/-- Unary operators whose result fits its type. -/
def UnOp.Tame [T : Target] (prog : Program) (operand : Ty) : UnOp → Prop
  | .int .countOnes => ∀ ity, operand = .int ity → 8 * ity.size < 2 ^ 32
  | .computeSize ty => ∀ l size align, ty.layout = .ok l → PossibleLayout prog l size align → size < 2 ^ (8 * T.ptrSize)
  | .computeAlign ty => ∀ l size align, ty.layout = .ok l → PossibleLayout prog l size align →
      align.bytes < 2 ^ (8 * T.ptrSize)
  | _ => True

/-- Binary operators whose result is valid at its type. -/
def BinOp.Tame (left : Ty) : BinOp → Prop
  | .ptrOffset _ => ∀ p, left = .ptr p → p.Plain
  | _ => True

mutual
/-- The type of the expression and of all its parts is well-formed, and the constants and operators in it
are tame. -/
def ValueExpr.Tame [Target] (prog : Program) (locals : Map LocalName Ty) : ValueExpr → Prop
  | .constant c ty => c.Tame ty
  | .tuple es _ => ValueExpr.AllTame prog locals es
  | .union _ e _ => e.Tame prog locals
  | .variant _ e _ => e.Tame prog locals
  | .getDiscriminant p => p.Tame prog locals ∧
      ∀ ty, (ValueExpr.getDiscriminant p).checkWf prog locals = .ok ty → ty.checkWf prog = .ok ()
  | .load p => p.Tame prog locals
  | .addrOf p _ => p.Tame prog locals
  | .unOp op e => e.Tame prog locals ∧ (∀ ty, e.checkWf prog locals = .ok ty → op.Tame prog ty) ∧
      ∀ ty, (ValueExpr.unOp op e).checkWf prog locals = .ok ty → ty.checkWf prog = .ok ()
  | .binOp op l r => l.Tame prog locals ∧ r.Tame prog locals ∧
      (∀ ty, l.checkWf prog locals = .ok ty → op.Tame ty) ∧
      ∀ ty, (ValueExpr.binOp op l r).checkWf prog locals = .ok ty → ty.checkWf prog = .ok ()
/-- All expressions are tame. -/
def ValueExpr.AllTame [Target] (prog : Program) (locals : Map LocalName Ty) : List ValueExpr → Prop
  | [] => True
  | e :: es => e.Tame prog locals ∧ ValueExpr.AllTame prog locals es
/-- The same for place expressions. -/
def PlaceExpr.Tame [Target] (prog : Program) (locals : Map LocalName Ty) : PlaceExpr → Prop
  | .local _ => True
  | .deref e _ => e.Tame prog locals
  | .field p _ => p.Tame prog locals
  | .index p e => p.Tame prog locals ∧ e.Tame prog locals
  | .downcast p _ => p.Tame prog locals
end

/-- All expressions of the statement are tame. -/
def Statement.Tame [Target] (prog : Program) (locals : Map LocalName Ty) : Statement → Prop
  | .assign d e => d.Tame prog locals ∧ e.Tame prog locals
  | .placeMention p => p.Tame prog locals
  | .setDiscriminant p _ => p.Tame prog locals
  | .validate p _ => p.Tame prog locals
  | .deinit p => p.Tame prog locals
  | .storageLive _ => True
  | .storageDead _ => True

/-- The expression in the argument is tame. -/
def ArgumentExpr.Tame [Target] (prog : Program) (locals : Map LocalName Ty) : ArgumentExpr → Prop
  | .byValue e => e.Tame prog locals
  | .inPlace p => p.Tame prog locals

/-- The type has no references or boxes. -/
def Detached (ty : Ty) : Prop := ∀ p, Component (.ptr p) ty → p.safePointee = none

/-- Intrinsics whose result is valid at the type of the return place, given the types of the arguments
and the type of the return place. -/
def IntrinsicOp.Tame [T : Target] (args : List Ty) (ret : Ty) : IntrinsicOp → Prop
  | .allocate => ∀ p, ret = .ptr p → p.Plain
  | .getUnwindPayload => ∀ p, ret = .ptr p → p.Plain
  | .pointerWithExposedProvenance => (∀ p, ret = .ptr p → p.Plain) ∧
      ∀ ity ∈ args, ∀ t, ity = .int t → t.signed = .unsigned ∧ t.size ≤ T.ptrSize
  | .spawn => ∀ t, ret = .int t → t = ⟨.unsigned, T.ptrSize⟩
  | .lock .create => ∀ t, ret = .int t → t = ⟨.unsigned, T.ptrSize⟩
  | _ => True

/-- All expressions of the terminator are tame, and so is the intrinsic it calls. -/
def Terminator.Tame [Target] (prog : Program) (locals : Map LocalName Ty) : Terminator → Prop
  | .switch value _ _ => value.Tame prog locals
  | .intrinsic op args ret _ => (∀ e ∈ args, e.Tame prog locals) ∧ ret.Tame prog locals ∧
      ∀ tys ty, List.Forall₂ (fun (e : ValueExpr) ty => e.checkWf prog locals = .ok ty) args tys →
        ret.checkWf prog locals = .ok ty → op.Tame tys ty
  | .call callee _ args ret _ _ => callee.Tame prog locals ∧ (∀ a ∈ args, a.Tame prog locals) ∧ ret.Tame prog locals
  | .startUnwind payload _ => payload.Tame prog locals
  | _ => True

/-- All statements and terminators are tame. -/
def Function.Tame [Target] (prog : Program) (f : Function) : Prop :=
  ∀ name b, f.blocks.get? name = some b →
    (∀ st ∈ b.statements, st.Tame prog f.locals) ∧ b.terminator.Tame prog f.locals

/-- The program has one entry per name, every function starts in a regular block that exists, the methods of
vtables exist, and all functions are tame. -/
structure Program.Tame [Target] (prog : Program) : Prop where
  keys : prog.KeysUnique
  starts : prog.StartsOk
  methods : ∀ x v m f, prog.vtables.get? x = some v → v.methods.get? m = some f → ∃ fn, prog.functions.get? f = some fn
  functions : ∀ name f, prog.functions.get? name = some f → f.Tame prog

/-- The terminator at the end of the block is none of those that can panic depending on the state: a return to the
caller of a value with references in it, a read-modify-write operation (which can overflow), the creation of a
thread or lock when there are too many to number. -/
def Terminator.Safe {M P F : Type} [T : Target] (s : Machine M P F) (frame : StackFrame P F) : Terminator → Prop
  | .return => frame.stackPopAction ≠ .bottomOfStack →
      ∀ ty, frame.func.locals.get? frame.func.ret = some ty → Detached ty
  | .intrinsic (.atomicFetchAndOp _) _ _ _ => False
  | .intrinsic .spawn _ _ _ => s.threads.length < 2 ^ (8 * T.ptrSize)
  | .intrinsic (.lock .create) _ _ _ => s.locks.length < 2 ^ (8 * T.ptrSize)
  | _ => True

/-- What thread `a` does next is safe in the sense above. -/
def Machine.SafeNext {M P F : Type} [T : Target] (s : Machine M P F) (a : ThreadId) : Prop :=
  ∀ t frame rest b, s.threads[a]? = some t → t.stack = frame :: rest → frame.func.blocks.get? frame.nextBlock = some b →
    frame.nextStmt = b.statements.length → b.terminator.Safe s frame

/-- The terminator is not a read-modify-write operation, which can overflow. -/
def Terminator.Simple : Terminator → Prop
  | .intrinsic (.atomicFetchAndOp _) _ _ _ => False
  | _ => True

/-- No function of the program returns references or performs read-modify-write operations. -/
def Program.Simple (prog : Program) : Prop :=
  ∀ name f, prog.functions.get? name = some f →
    (∀ ty, f.locals.get? f.ret = some ty → Detached ty) ∧ ∀ bb b, f.blocks.get? bb = some b → b.terminator.Simple

/-- The machine is about to evaluate an expression in the function `fn`: a thread whose innermost frame is one of `fn`
was scheduled in a reachable state, and then perhaps other expressions of `fn` were evaluated. -/
inductive Evaluating {M P F : Type} [Target] [DecidableEq P] [Memory M P F] (prog : Program) (fn : Function) :
    Machine M P F → Prop
  | start {s : Machine M P F} {a rest t f frames} : Reachable prog s → s.threads[a]? = some t → t.stack = f :: frames →
      f.func = fn → Evaluating prog fn (s.schedule a rest)
  | value {s s' : Machine M P F} {e r} : Evaluating prog fn s → evalValue e s = .ok (r, s') → Evaluating prog fn s'
  | place {s s' : Machine M P F} {e r} : Evaluating prog fn s → evalPlace e s = .ok (r, s') → Evaluating prog fn s'

end MiniRust
