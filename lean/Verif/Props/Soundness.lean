import Verif.Lemmas.NoPanicStep
import Verif.Lemmas.NoPanicInit
import Verif.Lemmas.PlainMem
import Verif.Examples.Tame
/-
C59: the types the checks of well-formedness give to expressions are those their values have.
C37: well-formed programs do not make the interpreter panic. This is false of the specification; the witnesses are in
`Verif/Props/Panics.lean`. `Tame` (in `Verif/Spec/Tame.lean`) excludes them.
-/
set_option linter.unusedSectionVars false
namespace MiniRust

section
variable {M PE AE F : Type} [T : Target] [DecidableEq PE] [Memory M (AllocId × PE) F] [LawfulTarget T]
  [SoftMem M (AllocId × PE) F] [RawRetag M (AllocId × PE) F] [B : BasicBacked M PE AE F]
variable {s s' : Machine M (AllocId × PE) F} {prog : Program} {fn : Function}
include B

theorem Evaluating.ready (hT : prog.Tame) (h : Evaluating prog fn s) : Ready prog fn s ∧ WfTame prog fn := by
  induction h with
  | start hr ht hs hf =>
    subst hf
    refine ⟨hr.ready hT.keys ht hs, ?_⟩
    have hi := Reachable.frames (B := B) hr
    have hso := (hi.threads _ (List.mem_of_getElem? ht)).stack
    rw [hs] at hso
    obtain ⟨name, hn⟩ := hso.1.func
    rw [hi.eq] at hn
    exact hT.wfTame (B := B) hi.wf hn
  | value _ he ih => exact ⟨(ih.1.value he).1, ih.2⟩
  | place _ he ih => exact ⟨(ih.1.place he).1, ih.2⟩

/-- C59: if a value expression passes the check with some type, then evaluating it yields a value of this type, and the
value is valid at it. -/
theorem C59_value_sound (hT : prog.Tame) (hs : Evaluating prog fn s) {e : ValueExpr} {ty : Ty}
    (hc : e.checkWf prog fn.locals = .ok ty) (ht : e.Tame prog fn.locals) {v ty'} (he : evalValue e s = .ok ((v, ty'), s'))
    {h : MemHistory PE} (hm : MemReach (F := F) h s'.mem.memory) : ty' = ty ∧ s'.ValidValue h ty v := by
  obtain ⟨hr, hw⟩ := hs.ready hT
  have hv := (Np.value hw e s ty hr hc ht).2 _ _ he
  have hr' := (hr.value he).1
  exact ⟨hv.isTy, (checkValue_iff hr'.vt hm _ _).1 hv.valid⟩

/-- C59: the same for place expressions: the place has the type of the check, its address is in the address space, and
its metadata is of the kind that the type calls for. -/
theorem C59_place_sound (hT : prog.Tame) (hs : Evaluating prog fn s) {e : PlaceExpr} {ty : Ty}
    (hc : e.checkWf prog fn.locals = .ok ty) (ht : e.Tame prog fn.locals) {p ty'} (he : evalPlace e s = .ok ((p, ty'), s')) :
    ty' = ty ∧ 0 ≤ p.ptr.thin.addr ∧ p.ptr.thin.addr < 2 ^ (8 * T.ptrSize) ∧ s'.MetaOk ty.metaKind p.ptr.metadata := by
  obtain ⟨hr, hw⟩ := hs.ready hT
  have hv := (Np.place hw e s ty hr hc ht).2 _ _ he
  exact ⟨hv.isTy, hv.space.1, hv.space.2, hv.metadata⟩

/-- C59: evaluating checked expressions never goes wrong in any other way than by UB (or a choice that is not
allowed). -/
theorem C59_evaluation_no_panic (hpl : PlainMem M) (hT : prog.Tame) (hs : Evaluating prog fn s) :
    (∀ {e : ValueExpr} {ty : Ty}, e.checkWf prog fn.locals = .ok ty → e.Tame prog fn.locals → evalValue e s ≠ .error .panic) ∧
    (∀ {e : PlaceExpr} {ty : Ty}, e.checkWf prog fn.locals = .ok ty → e.Tame prog fn.locals → evalPlace e s ≠ .error .panic) := by
  obtain ⟨hr, hw⟩ := hs.ready hT
  exact ⟨fun hc ht => (Np.value hw _ s _ hr hc ht).1 hpl, fun hc ht => (Np.place hw _ s _ hr hc ht).1 hpl⟩

/-- C37: creating the machine for a program that passes the check does not panic. -/
theorem C37_new (hpl : PlainMem M) (hu : prog.KeysUnique) (hw : prog.checkWf = .ok ()) (oracle : List (Choice (AllocId × PE))) :
    (Machine.new prog oracle : Res (Machine M (AllocId × PE) F)) ≠ .error .panic := new_no_panic hpl hu hw oracle

/-- C37, in part: a step of a tame program does not panic, unless it is one of the few whose safety depends on the
state. -/
theorem C37_step_partial (hpl : PlainMem M) (hT : prog.Tame) (hr : Reachable prog s)
    (hsafe : ∀ a rest, s.oracle = .int (a : Nat) :: rest → s.SafeNext a) : step s ≠ .error .panic :=
  step_no_panic hpl hT hr hsafe

/-- The steps of simple programs are not among those whose safety depends on the state. -/
theorem Reachable.safeNext (hS : prog.Simple) (hr : Reachable prog s)
    (hth : s.threads.length < 2 ^ (8 * T.ptrSize)) (hlo : s.locks.length < 2 ^ (8 * T.ptrSize)) (a : Nat) : s.SafeNext a := by
  intro t frame frames b ht hst hb hn
  have hi := Reachable.frames (B := B) hr
  have hso := (hi.threads _ (List.mem_of_getElem? ht)).stack
  rw [hst] at hso
  obtain ⟨name, hf⟩ := hso.1.func
  rw [hi.eq] at hf
  obtain ⟨h1, h2⟩ := hS _ _ hf
  have h3 := h2 _ _ hb
  generalize b.terminator = term at h3
  unfold Terminator.Safe
  split
  · exact fun _ => h1
  · exact h3
  · exact hth
  · exact hlo
  · trivial

/-- C37, in part: no execution of a tame and simple program panics, as long as the threads and locks can be numbered. -/
theorem C37_run_partial (hpl : PlainMem M) (hT : prog.Tame) (hS : prog.Simple) (hr : Reachable prog s)
    (hth : s.threads.length < 2 ^ (8 * T.ptrSize)) (hlo : s.locks.length < 2 ^ (8 * T.ptrSize)) : step s ≠ .error .panic :=
  step_no_panic hpl hT hr fun a _ _ => hr.safeNext (B := B) hS hth hlo a

end
end MiniRust

namespace MiniRust.Ex
attribute [local instance] x86_64

/-- An array of four `u32`. -/
def arrTy : Ty := .array u32 4
/-- The result of an addition with overflow check. -/
def pairTy : Ty := .tuple [(0, u32), (4, .bool)] ⟨8, ⟨2⟩, none⟩ none
/-- A reference to a `u32`. -/
def refU32 : PtrType := .ref .mut ⟨.sized 4 ⟨2⟩, true, .sized [], true, true⟩
/-- An integer literal of type `u32`. -/
def lit (n : Int) : ValueExpr := .constant (.int n) u32

/-- Loops forever, storing sums in an array through a reference, after a call. -/
def loopProg : Program where
  functions := [
    (0, { locals := [(0, unitTy), (1, arrTy), (2, pairTy), (3, .ptr refU32)], args := [], ret := 0, callingConvention := .c, start := 0,
          blocks := [
            (0, ⟨[.storageLive 1, .storageLive 2, .storageLive 3, .assign (.local 1) (.tuple [lit 1, lit 2, lit 3, lit 4] arrTy)], .goto 1, .regular⟩),
            (1, ⟨[.assign (.local 2) (.binOp (.intWithOverflow .add) (.load (.index (.local 1) (lit 2))) (lit 4294967295)),
                  .assign (.local 3) (.addrOf (.index (.local 1) (.load (.field (.local 2) 0))) refU32),
                  .assign (.deref (.load (.local 3)) u32) (.load (.field (.local 2) 0))],
                 .call (fnPtr 1) .c [.byValue (.load (.deref (.load (.local 3)) u32))] (.field (.local 2) 0) (some 1) none, .regular⟩)] }),
    (1, idFn)]
  start := 0
  globals := []
  traits := []
  vtables := []

theorem loopProg_tame : loopProg.Tame := Program.tameB_eq (by decide +kernel)
theorem callProg_tame : callProg.Tame := Program.tameB_eq (by decide +kernel)
theorem loopProg_simple : loopProg.Simple := Program.simpleB_eq (by decide +kernel)
theorem callProg_simple : callProg.Simple := Program.simpleB_eq (by decide +kernel)

/-- A run of `loopProg`. -/
def loopRun : List (Choice (Nat × Unit)) :=
  [.int 32, .int 33, .int 48, .int 0, .int 64, .int 0, .int 80, .int 0, .int 96, .int 0, .int 0, .int 0, .int 0, .int 0, .int 0, .int 104, .int 108,
   .int 0, .int 0, .int 0]

/-- Creates locks in an endless loop. -/
def locksProg : Program := mainProg [(1, usize)] [
  (0, ⟨[.storageLive 1], .goto 1, .regular⟩),
  (1, ⟨[], .intrinsic (.lock .create) [] (.local 1) (some 1), .regular⟩)]

/-- The hypotheses of `C37_run_partial` are met, in a state in which a fourth lock is created. -/
example : locksProg.Tame ∧ locksProg.Simple ∧ ∃ s : BMach, Reachable locksProg s ∧ s.threads.length < 2 ^ (8 * x86_64.ptrSize) ∧
    s.locks.length < 2 ^ (8 * x86_64.ptrSize) ∧ s.locks.length = 3 ∧ s.atOp 0 = some (.lock .create) := by
  refine ⟨Program.tameB_eq (by decide +kernel), Program.simpleB_eq (by decide +kernel), ?_⟩
  exact exists_reachable ([.int 16, .int 32, .int 48, .int 0, .int 64] ++ List.replicate 6 (.int 0)) 5 _ (by decide +kernel)

/-- The same for a program with calls and unwinding. -/
example : ∃ s : BMach, Reachable callProg s ∧ s.threads.length < 2 ^ (8 * x86_64.ptrSize) ∧ s.locks.length < 2 ^ (8 * x86_64.ptrSize) ∧
    s.runsNext 0 (fun f rest => rest.length == 1 && f.nextStmt == 0) = true :=
  exists_reachable callRun 3 _ (by decide +kernel)

/-- The hypotheses of `C37_step_partial` are met: a call returns a `u32`. -/
example : ∃ s : BMach, Reachable callProg s ∧ ∀ a rest, s.oracle = .int (a : Nat) :: rest → s.SafeNext a := by
  obtain ⟨s, h1, h2⟩ := exists_reachable (M := BasicMem Unit Unit) (F := Unit) (prog := callProg) callRun 4
    (fun s => s.threads.length < 2 ^ (8 * x86_64.ptrSize) ∧ s.locks.length < 2 ^ (8 * x86_64.ptrSize) ∧
      s.runsNext 0 (fun f rest => rest.length == 1 && f.nextStmt == 1) = true) (by decide +kernel)
  refine ⟨s, h1, fun a rest ho t frame frames b ht hst hb hn => ?_⟩
  have hi := Reachable.frames h1
  have hso := (hi.threads _ (List.mem_of_getElem? ht)).stack
  rw [hst] at hso
  obtain ⟨name, hf⟩ := hso.1.func
  rw [hi.eq] at hf
  obtain ⟨k1, k2⟩ := callProg_simple _ _ hf
  have h3 := k2 _ _ hb
  generalize b.terminator = term at h3
  unfold Terminator.Safe
  split
  · exact fun _ => k1
  · exact h3
  · exact h2.1
  · exact h2.2.1
  · trivial

/-- The hypotheses of `C37_new` are met. -/
example : loopProg.KeysUnique ∧ loopProg.checkWf = .ok () := ⟨loopProg_tame.keys, by decide +kernel⟩

/-- Their executions are not empty: `loopProg` reaches the second round of its loop, where `arr[2]` has changed. -/
example : ∃ s : BMach, Reachable loopProg s ∧ s.runsNext 0 (fun f rest => f.nextBlock == 1 && f.nextStmt == 1 && rest.isEmpty) = true :=
  exists_reachable (loopRun ++ List.replicate 20 (.int 0)) 12 _ (by decide +kernel)

/-- The hypotheses of `C59_value_sound` are met: the sum with overflow check is about to be computed, has the type of the
pair, and its evaluation succeeds. -/
example : ∃ (s : BMach) (fn : Function) (e : ValueExpr) (r : _) (s' : BMach), Evaluating loopProg fn s ∧
    e.checkWf loopProg fn.locals = .ok pairTy ∧ e.Tame loopProg fn.locals ∧ evalValue e s = .ok (r, s') := by
  let e : ValueExpr := .binOp (.intWithOverflow .add) (.load (.index (.local 1) (lit 2))) (lit 4294967295)
  obtain ⟨s, h1, h2⟩ := exists_reachable (F := Unit) (M := BasicMem Unit Unit) (prog := loopProg) loopRun 5 (fun s => (s.runsNext 0 (fun f _ => okAll (e.checkWf loopProg f.func.locals)
      (fun ty => ty == pairTy) && (errOf (e.checkWf loopProg f.func.locals)).isNone && e.tameB loopProg f.func.locals)) = true ∧
      errOf (evalValue e (s.schedule 0 [])) = none) (by decide +kernel)
  obtain ⟨h2, h3⟩ := h2
  obtain ⟨r, t, f, rest, hr, hq⟩ := Machine.runsNext_eq h2
  simp only [Bool.and_eq_true] at hq
  obtain ⟨⟨q1, q2⟩, q3⟩ := hq
  cases hc : e.checkWf loopProg f.func.locals with
  | error x => rw [hc] at q2; simp [errOf] at q2
  | ok ty =>
    have := okAll_eq q1 hc
    simp only [beq_iff_eq] at this
    subst this
    cases he : evalValue e (s.schedule 0 []) with
    | error x => rw [he] at h3; simp [errOf] at h3
    | ok p => exact ⟨_, f.func, e, p.1, p.2, .start h1 hr.thread hr.stack rfl, hc, ValueExpr.tameB_eq q3, he⟩

end MiniRust.Ex
