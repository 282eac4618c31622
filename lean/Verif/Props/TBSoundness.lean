import Verif.Lemmas.TBGuard
import Verif.Props.Soundness
import Verif.Props.TBPrograms
import Verif.Props.TreeBorrows
/-
C37 and C59 for programs that run with Tree Borrows as their memory model. There is one more way to make the interpreter
panic: making a reference to no byte at all from a pointer in front of its allocation. `TBMem.guarded`
(in `Verif/Spec/TBMachine.lean`) is Tree Borrows with a check for this: there it is undefined behavior.
-/
set_option linter.unusedSectionVars false
namespace MiniRust

section
variable [T : Target] [LawfulTarget T] {prog : Program} {fn : Function} {s s' : TB.Mach}

theorem TB.Agree.panic {α : Type} {a g b : Res α} (h : TB.Agree a g b) (hb : b ≠ .error .panic) :
    (a = .error .panic → g = .error .ub) ∧ g ≠ .error .panic := by
  rcases h with ⟨rfl, h | h⟩ | ⟨rfl, rfl⟩
  · exact ⟨fun e => absurd (h.trans e) hb, h ▸ hb⟩
  · rw [h]; exact ⟨(fun e => nomatch e), (fun e => nomatch e)⟩
  · exact ⟨fun _ => rfl, fun e => nomatch e⟩

/-- C37: creating the machine for a program that passes the check does not panic, under Tree Borrows either. -/
theorem C37_tb_new (hu : prog.KeysUnique) (hw : prog.checkWf = .ok ()) (oracle : List (Choice TBProv)) :
    (Machine.new prog oracle : Res (Machine TBMem TBProv TBFrame)) ≠ .error .panic := by
  have h := @new_no_panic _ Path Node _ T _ TBMem.lax _ TBMem.laxSoft TBMem.laxRaw TBMem.laxBacked prog TBMem.laxPlain hu hw oracle
  rw [guarded_new]
  exact (TB.new_agree.panic h).2

theorem tb_step_panic (hT : prog.Tame) (hr : Reachable prog s)
    (hsafe : ∀ a rest, s.oracle = .int (a : Nat) :: rest → s.SafeNext a) :
    (step s = .error .panic → @step _ _ _ TBMem.guarded _ T s = .error .ub) ∧ @step _ _ _ TBMem.guarded _ T s ≠ .error .panic := by
  have h := @step_no_panic _ Path Node _ T _ TBMem.lax _ TBMem.laxSoft TBMem.laxRaw TBMem.laxBacked s prog TBMem.laxPlain hT hr.tbOther.2 hsafe
  exact (TB.step_agree hr.tbWf).panic h

/-- C37, in part, under Tree Borrows: a step of a tame program panics only when it makes a reference to no byte at all from
a pointer in front of its allocation, or when it is one of the few whose safety depends on the state. -/
theorem C37_tb_step_partial (hT : prog.Tame) (hr : Reachable prog s)
    (hsafe : ∀ a rest, s.oracle = .int (a : Nat) :: rest → s.SafeNext a) (hp : step s = .error .panic) :
    @step _ _ _ TBMem.guarded _ T s = .error .ub := (tb_step_panic hT hr hsafe).1 hp

/-- With the additional check such steps do not panic. -/
theorem C37_tb_guarded_step_partial (hT : prog.Tame) (hr : @Reachable _ _ _ TBMem.guarded _ T prog s)
    (hsafe : ∀ a rest, s.oracle = .int (a : Nat) :: rest → s.SafeNext a) :
    @step _ _ _ TBMem.guarded _ T s ≠ .error .panic := (tb_step_panic hT hr.ofGuarded hsafe).2

/-- C37, in part, under Tree Borrows: an execution of a tame and simple program panics only when it makes a reference to no
byte at all from a pointer in front of its allocation, as long as the threads and locks can be numbered. -/
theorem C37_tb_run_partial (hT : prog.Tame) (hS : prog.Simple) (hr : Reachable prog s)
    (hth : s.threads.length < 2 ^ (8 * T.ptrSize)) (hlo : s.locks.length < 2 ^ (8 * T.ptrSize)) (hp : step s = .error .panic) :
    @step _ _ _ TBMem.guarded _ T s = .error .ub :=
  C37_tb_step_partial hT hr (fun a _ _ => hr.safeNext hS hth hlo a) hp

/-- With the additional check no execution of such a program panics. -/
theorem C37_tb_guarded_run_partial (hT : prog.Tame) (hS : prog.Simple) (hr : @Reachable _ _ _ TBMem.guarded _ T prog s)
    (hth : s.threads.length < 2 ^ (8 * T.ptrSize)) (hlo : s.locks.length < 2 ^ (8 * T.ptrSize)) :
    @step _ _ _ TBMem.guarded _ T s ≠ .error .panic :=
  C37_tb_guarded_step_partial hT hr fun a _ _ => hr.ofGuarded.safeNext hS hth hlo a

/-- The additional check changes nothing else: either both memory models agree on the step, or it panics under Tree Borrows. -/
theorem C37_tb_guarded_agrees (hr : Reachable prog s) :
    @step _ _ _ TBMem.guarded _ T s = step s ∨ step s = .error .panic ∧ @step _ _ _ TBMem.guarded _ T s = .error .ub := by
  rcases TB.step_agree hr.tbWf with ⟨h, _⟩ | h
  · exact .inl h
  · exact .inr h

theorem Evaluating.tb (h : Evaluating prog fn s) : TB.Wf [] s ∧ @Evaluating _ _ _ T _ TBMem.lax prog fn s := by
  induction h with
  | start hr ht hs hf =>
    exact ⟨(TB.Grow.idle (s' := Machine.schedule _ _ _) hr.tbWf rfl rfl rfl rfl rfl rfl).wf, @Evaluating.start _ _ _ T _ TBMem.lax _ _ _ _ _ _ _ _ hr.tbOther.2 ht hs hf⟩
  | value _ he ih =>
    obtain ⟨h1, h2⟩ := TB.Kt.evalValue _ _ ih.1
    exact ⟨(h2 _ _ he).1.wf, @Evaluating.value _ _ _ T _ TBMem.lax _ _ _ _ _ _ ih.2 (h1.ok he).2⟩
  | place _ he ih =>
    obtain ⟨h1, h2⟩ := TB.Kt.evalPlace _ _ ih.1
    exact ⟨(h2 _ _ he).1.wf, @Evaluating.place _ _ _ T _ TBMem.lax _ _ _ _ _ _ ih.2 (h1.ok he).2⟩

/-- C59 under Tree Borrows: evaluating checked expressions goes wrong in another way than by UB (or a choice that is not
allowed) only when it makes a reference to no byte at all from a pointer in front of its allocation. -/
theorem C59_tb_evaluation_no_panic (hT : prog.Tame) (hs : Evaluating prog fn s) :
    (∀ {e : ValueExpr} {ty : Ty}, e.checkWf prog fn.locals = .ok ty → e.Tame prog fn.locals →
      (evalValue e s = .error .panic → @evalValue _ _ _ TBMem.guarded _ T e s = .error .ub) ∧
      @evalValue _ _ _ TBMem.guarded _ T e s ≠ .error .panic) ∧
    (∀ {e : PlaceExpr} {ty : Ty}, e.checkWf prog fn.locals = .ok ty → e.Tame prog fn.locals →
      (evalPlace e s = .error .panic → @evalPlace _ _ _ TBMem.guarded _ T e s = .error .ub) ∧
      @evalPlace _ _ _ TBMem.guarded _ T e s ≠ .error .panic) := by
  obtain ⟨hw, hl⟩ := hs.tb
  obtain ⟨h1, h2⟩ := @C59_evaluation_no_panic _ Path Node _ T _ TBMem.lax _ TBMem.laxSoft TBMem.laxRaw TBMem.laxBacked s prog fn TBMem.laxPlain hT hl
  exact ⟨fun hc ht => (TB.Kt.evalValue _ _ hw).1.panic (h1 hc ht), fun hc ht => (TB.Kt.evalPlace _ _ hw).1.panic (h2 hc ht)⟩

end

namespace Ex
attribute [local instance] x86_64

/-- `let x: u32; let p = (&raw x).wrapping_sub(1) as *const (); let r = &*p;` -/
def belowProg : Program := mainProg [(1, u32), (2, rawTy), (3, .ptr refUnit)] [
  (0, ⟨[.storageLive 1, .storageLive 2, .storageLive 3,
        .assign (.local 2) (.binOp (.ptrOffset false) (.addrOf (.local 1) (.raw .none)) (.constant (.int (-1)) (.int ⟨.signed, 8⟩))),
        .assign (.local 3) (.addrOf (.deref (.load (.local 2)) unitTy) refUnit)], .intrinsic .exit [] (.local 0) none, .regular⟩)]
/-- Choices for `belowProg`. -/
def belowRun {P : Type} : List (Choice P) :=
  [.int 16, .int 32, .int 48, .int 0, .int 80, .int 0, .int 96, .int 0, .int 112, .int 0, .int 0, .int 0, .int 0]

theorem belowProg_tame : belowProg.Tame := Program.tameB_eq (by decide +kernel)
theorem belowProg_simple : belowProg.Simple := Program.simpleB_eq (by decide +kernel)

/-- C37 is false of Tree Borrows even for tame and simple programs. -/
theorem C37_tb_retag_panics : belowProg.Tame ∧ belowProg.Simple ∧ ∃ s : Machine TBMem TBProv TBFrame, Reachable belowProg s ∧
    s.threads.length = 1 ∧ s.locks.length = 0 ∧ step s = .error .panic := by
  obtain ⟨s, h1, h2, h3, h4⟩ := exists_reachable (M := TBMem) (P := TBProv) (F := TBFrame) (prog := belowProg) belowRun 4
    (fun s => s.threads.length = 1 ∧ s.locks.length = 0 ∧ errOf (step s) = some .panic) (by decide +kernel)
  exact ⟨belowProg_tame, belowProg_simple, s, h1, h2, h3, errOf_eq_some h4⟩

-- Under the basic memory model the same program does what it would do in Rust: it makes the reference.
example : ∃ s : BMach, Reachable belowProg s ∧ s.oracle.length = 2 :=
  exists_reachable belowRun 5 _ (by decide +kernel)

-- The theorem about panics applies to it.
example : ∃ s : Machine TBMem TBProv TBFrame, Reachable belowProg s ∧ step s = .error .panic ∧
    @step _ _ _ TBMem.guarded _ x86_64 s = .error .ub := by
  obtain ⟨hT, hS, s, hr, h1, h2, hp⟩ := C37_tb_retag_panics
  exact ⟨s, hr, hp, C37_tb_run_partial hT hS hr (by rw [h1]; decide) (by rw [h2]; decide) hp⟩

-- A program that loops forever under Tree Borrows, and never panics.
example : ∃ s : Machine TBMem TBProv TBFrame, Reachable loopProg s ∧ s.threads.length = 1 ∧ s.locks.length = 0 ∧ step s ≠ .error .panic := by
  obtain ⟨s, h1, h2, h3, h4⟩ := exists_reachable (M := TBMem) (P := TBProv) (F := TBFrame) (prog := loopProg)
    [.int 32, .int 33, .int 48, .int 0, .int 64, .int 0, .int 80, .int 0, .int 96, .int 0, .int 0, .int 0, .int 0, .int 0, .int 0, .int 104, .int 108,
      .int 0, .int 0, .int 0] 10
    (fun s => s.threads.length = 1 ∧ s.locks.length = 0 ∧ errOf (step s) = none) (by decide +kernel)
  refine ⟨s, h1, h2, h3, fun h => ?_⟩
  rw [h] at h4; cases h4

end Ex
end MiniRust
