import Verif.Spec.Expr
import Verif.Lemmas.Blind
import Verif.Lemmas.KnownReach
import Verif.Props.Assign
import Verif.Lemmas.NoProtect
/-
C53: evaluating expressions has no effects but to read memory.
-/
set_option linter.unusedSectionVars false
namespace MiniRust

section
variable {M PE AE F : Type} [T : Target] [DecidableEq PE] [Memory M (AllocId × PE) F] [LawfulTarget T]
  [SoftMem M (AllocId × PE) F] [B : BasicBacked M PE AE F]
variable {s s' : Machine M (AllocId × PE) F}
include B

/-- The accesses in between are loads. -/
def OnlyLoads (m m' : ConcMem M) : Prop := ∃ new, m'.accesses = m.accesses ++ new ∧ ∀ a ∈ new, a.ty = AccessType.load

omit B [LawfulTarget T] [SoftMem M (AllocId × PE) F] in
theorem onlyLoads_read : ReadRel (P := AllocId × PE) (F := F) (OnlyLoads (M := M)) where
  refl m := ⟨[], by simp, by simp⟩
  trans m m' m'' h1 h2 := by
    obtain ⟨n1, h1, k1⟩ := h1
    obtain ⟨n2, h2, k2⟩ := h2
    exact ⟨n1 ++ n2, by rw [h2, h1, List.append_assoc], fun a ha => (List.mem_append.1 ha).elim (k1 a) (k2 a)⟩
  load m m' p n al at' bytes h := by
    obtain ⟨mm, _, rfl⟩ := ConcMem.load_eq_ok.1 h
    exact ⟨_, rfl, by simp⟩
  retag m m' f f' p p' pty e vt h := by
    obtain ⟨⟨q, g, mm⟩, _, h3⟩ := Res.bind_eq_ok.1 h
    cases h3
    exact ⟨[], by simp, by simp⟩

theorem onlyReads_of {α : Type} {x : EM M (AllocId × PE) F α} (h1 : Tri Soft (ExprRel (SameAllocs (B := B))) x)
    (h2 : Tri Soft (ExprRel OnlyLoads) x) {a : α} (h : x s = .ok (a, s')) : OnlyReads s s' := by
  have k1 := h1.ok _ _ _ h
  have k2 := h2.ok _ _ _ h
  refine ⟨k1.rest, ?_, k1.mem, k2.mem⟩
  rcases k1.threads with h | ⟨t, f, f', rest, q1, q2, ⟨e, rfl⟩, q3⟩
  · exact .inl h
  · exact .inr ⟨t, f, rest, e, q1, q2, q3⟩

/-- C53: evaluating an expression only reads: nothing else about the machine changes, no choice is made, no output is
produced. -/
theorem C53_only_reads :
    (∀ (e : ValueExpr) r, evalValue e s = .ok (r, s') → OnlyReads s s') ∧
    (∀ (e : PlaceExpr) r, evalPlace e s = .ok (r, s') → OnlyReads s s') :=
  haveI := onlyLoads_read (M := M) (PE := PE) (F := F)
  ⟨fun e _ h => onlyReads_of (tri_evalValue e) (tri_evalValue e) h, fun e _ h => onlyReads_of (tri_evalPlace e) (tri_evalPlace e) h⟩

end

section
variable [T : Target] {α β : Type}

theorem Blind.independent {x : EM (BasicMem Unit Unit) (AllocId × Unit) Unit α} {y : EM (BasicMem Unit Unit) (AllocId × Unit) Unit β}
    (hx : Blind x) (hy : Blind y) {s s' : Machine (BasicMem Unit Unit) (AllocId × Unit) Unit} {a : α} (h : x s = .ok (a, s')) :
    (y s').map (·.1) = (y s).map (·.1) := by
  obtain ⟨r, hr⟩ := hx s
  obtain ⟨r', hr'⟩ := hy s
  have e : s.withAcc s.mem.accesses = s := rfl
  have h1 := hr s.mem.accesses
  rw [e, h] at h1
  cases r with
  | error e => cases h1
  | ok q =>
    obtain ⟨a', n⟩ := q
    simp only [Res.bind_ok, Except.ok.injEq, Prod.mk.injEq] at h1
    obtain ⟨_, rfl⟩ := h1
    have h2 := hr' s.mem.accesses
    rw [e] at h2
    rw [hr', h2]
    cases r' <;> rfl

/-- C53: in the basic memory model, evaluating an expression has no influence on the result of evaluating any other
expression (or the same expression again) afterwards, be it a value or an error. So expressions can be evaluated in any
order, and any number of times. -/
theorem C53_independent (e e' : ValueExpr) {s s' : Machine (BasicMem Unit Unit) (AllocId × Unit) Unit} {r}
    (h : evalValue e s = .ok (r, s')) : (evalValue e' s').map (·.1) = (evalValue e' s).map (·.1) :=
  (Blind.evalValue e).independent (Blind.evalValue e') h

/-- C53: the same for place expressions. -/
theorem C53_independent_place (e e' : PlaceExpr) (v : ValueExpr) {s s' : Machine (BasicMem Unit Unit) (AllocId × Unit) Unit} {r}
    (h : evalPlace e s = .ok (r, s')) : (evalPlace e' s').map (·.1) = (evalPlace e' s).map (·.1) ∧
      (evalValue v s').map (·.1) = (evalValue v s).map (·.1) :=
  ⟨(Blind.evalPlace e).independent (Blind.evalPlace e') h, (Blind.evalPlace e).independent (Blind.evalValue v) h⟩

end

/-- C40: evaluating an expression, even one that creates references, protects no reference: under Tree Borrows the
frames of all threads (and hence the references their calls protect) stay the same. -/
theorem C40_expressions_protect_nothing [Target] {s s' : Machine TBMem TBProv TBFrame} :
    (∀ (e : ValueExpr) r, evalValue e s = .ok (r, s') → s'.threads = s.threads) ∧
    (∀ (e : PlaceExpr) r, evalPlace e s = .ok (r, s') → s'.threads = s.threads) :=
  ⟨fun e _ h => (loose_evalValue e).ok _ _ _ h, fun e _ h => (loose_evalPlace e).ok _ _ _ h⟩

namespace Ex
attribute [local instance] x86_64

/-- Expressions that read memory are evaluated in reachable states, successfully and not. -/
example : ∃ s : BMach, Reachable loopProg s ∧ (errOf (evalValue (.load (.local 1)) (s.schedule 0 [])) = none ∧
    errOf (evalValue (.load (.index (.local 1) (.load (.field (.local 2) 0)))) (s.schedule 0 [])) = none ∧
    errOf (evalValue (.load (.index (.local 1) (lit 4))) (s.schedule 0 [])) = some .ub) :=
  exists_reachable loopRun 6 _ (by decide +kernel)

/-- `&mut` of four bytes. -/
def refTy4 : PtrType := .ref .mut ⟨.sized 4 ⟨2⟩, true, .sized [], true, true⟩
/-- A local of type `u32`, and a reference to it that is validated like a function argument. -/
def refProg : Program := mainProg [(1, u32), (2, .ptr refTy4)] [
  (0, ⟨[.storageLive 1, .storageLive 2, .assign (.local 2) (.addrOf (.local 1) refTy4), .validate (.local 2) true],
    .intrinsic .exit [] (.local 0) none, .regular⟩)]
/-- The references protected by the running calls. -/
def protectors (s : Machine TBMem TBProv TBFrame) : List TBFrame := s.threads.flatMap fun t => t.stack.map (·.extra)
-- `&mut` of a local creates a reference (a child of the root) without protecting it; validating it as a function argument
-- creates a child of that, and protects it.
example : ∃ s s' : Machine TBMem TBProv TBFrame, Reachable refProg s ∧ runSteps 2 s = .ok ((), s') ∧
    (errOf (evalValue (.addrOf (.local 1) refTy4) s) = none ∧
      protectors s = [[]] ∧ s'.mem.memory.protectorOf (3, [0, 0]) = some .strong ∧ protectors s' = [[(3, [0, 0])]]) :=
  exists_steps [.int 16, .int 32, .int 48, .int 0, .int 64, .int 0, .int 80, .int 0, .int 0, .int 0] 2 2 _ (by decide +kernel)
end Ex
end MiniRust
