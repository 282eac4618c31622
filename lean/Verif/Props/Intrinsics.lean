import Verif.Spec.Intrinsics
import Verif.Lemmas.IntrArgs
import Verif.Lemmas.Mute
import Verif.Props.Atomic
import Verif.Props.Panics
import Verif.Examples.Calls
/-
C60: assume, printing, raw comparison and the payload of an unwind.
-/
set_option linter.unusedSectionVars false
namespace MiniRust

section
variable {M P F : Type} [T : Target] [DecidableEq P] [Memory M P F]
variable {s s' : Machine M P F} {args : List (Value P × Ty)} {retTy : Ty} {v : Value P}

/-! ### Assume -/

/-- C60: `Assume` does nothing if its operand is `true`. -/
theorem C60_assume : evalIntrinsic .assume args retTy s = .ok (v, s') ↔
    ∃ ty, args = [(.bool true, ty)] ∧ retTy = unitTy ∧ v = unitValue ∧ s' = s := by
  unfold evalIntrinsic
  dsimp only
  unfold intrinsicAssume
  constructor
  · intro h
    split at h
    · simp only [EM.bind_eq_ok, EM.lift_eq_ok, requireUb_eq_ok, EM.pure_eq_ok, decide_eq_true_eq] at h
      obtain ⟨b, _, ⟨hb, rfl⟩, _, _, ⟨hr, rfl⟩, _, _, ⟨rfl, rfl⟩, rfl, rfl⟩ := h
      unfold boolArg at hb
      split at hb <;> cases hb
      exact ⟨_, rfl, hr, rfl, rfl⟩
    · cases h
  · rintro ⟨t, rfl, rfl, rfl, rfl⟩
    simp only [EM.bind_eq_ok, EM.lift_eq_ok, requireUb_eq_ok, EM.pure_eq_ok, decide_eq_true_eq]
    exact ⟨true, _, ⟨rfl, rfl⟩, (), _, ⟨by simp, rfl⟩, (), _, ⟨by simp, rfl⟩, trivial, rfl⟩

/-- C60: `Assume` is undefined behavior in all other cases. -/
theorem C60_assume_ub {e} (h : evalIntrinsic .assume args retTy s = .error e) : e = .ub := by
  unfold evalIntrinsic at h
  dsimp only at h
  unfold intrinsicAssume at h
  split at h
  · simp only [EM.bind_eq_error, EM.lift_eq_error, EM.pure_apply, reduceCtorEq, and_false, exists_false, or_false, requireUb,
      EM.lift_eq_ok] at h
    have hu : ∀ b, ensureUb b = .error e → e = .ub := by
      intro b; unfold ensureUb; split <;> intro h <;> cases h; rfl
    rcases h with h | ⟨_, _, _, h | ⟨_, _, _, h⟩⟩
    · unfold boolArg at h; split at h <;> cases h; rfl
    · exact hu _ h
    · exact hu _ h
  · cases h; rfl

/-! ### Printing -/

theorem evalPrint_eq_ok {out : List Printed} : evalPrint args = .ok out ↔ List.Forall₂ Shows args out := by
  induction args generalizing out with
  | nil =>
    unfold evalPrint
    constructor
    · intro h; cases h; exact .nil
    · intro h; cases h; rfl
  | cons a as ih =>
    obtain ⟨w, ty⟩ := a
    constructor
    · intro h
      cases w <;> unfold evalPrint at h <;> first
        | (cases h)
        | (simp only [Res.bind_eq_ok, Except.ok.injEq] at h
           obtain ⟨o, ho, rfl⟩ := h
           exact .cons (by constructor) (ih.1 ho))
    · intro h
      cases h with
      | @cons _ o _ os h1 h2 =>
        cases h1 <;> unfold evalPrint <;> rw [ih.2 h2] <;> rfl

theorem evalPrint_error {e} (h : evalPrint args = .error e) : e = .ub := by
  induction args with
  | nil => cases h
  | cons a as ih =>
    obtain ⟨w, ty⟩ := a
    cases w <;> unfold evalPrint at h <;> first
      | (cases h; rfl)
      | (simp only [Res.bind_eq_error, reduceCtorEq, and_false, exists_false, or_false] at h
         exact ih h)

/-- C60: `PrintStdout` appends its operands, in order, to the standard output, and changes nothing else. -/
theorem C60_print_stdout : evalIntrinsic .printStdout args retTy s = .ok (v, s') ↔
    retTy = unitTy ∧ v = unitValue ∧ ∃ out, List.Forall₂ Shows args out ∧ s' = { s with stdout := s.stdout ++ out } := by
  unfold evalIntrinsic
  dsimp only
  unfold intrinsicPrintStdout
  simp only [EM.bind_eq_ok, EM.lift_eq_ok, requireUb_eq_ok, EM.modify_eq_ok, EM.pure_eq_ok, decide_eq_true_eq, evalPrint_eq_ok]
  constructor
  · rintro ⟨_, _, ⟨hr, rfl⟩, out, _, ⟨ho, rfl⟩, _, _, rfl, rfl, rfl⟩
    exact ⟨hr, rfl, out, ho, rfl⟩
  · rintro ⟨hr, rfl, out, ho, rfl⟩
    exact ⟨(), s, ⟨hr, rfl⟩, out, s, ⟨ho, rfl⟩, (), _, rfl, rfl, rfl⟩

/-- C60: `PrintStderr` appends its operands, in order, to the error output, and changes nothing else. -/
theorem C60_print_stderr : evalIntrinsic .printStderr args retTy s = .ok (v, s') ↔
    retTy = unitTy ∧ v = unitValue ∧ ∃ out, List.Forall₂ Shows args out ∧ s' = { s with stderr := s.stderr ++ out } := by
  unfold evalIntrinsic
  dsimp only
  unfold intrinsicPrintStderr
  simp only [EM.bind_eq_ok, EM.lift_eq_ok, requireUb_eq_ok, EM.modify_eq_ok, EM.pure_eq_ok, decide_eq_true_eq, evalPrint_eq_ok]
  constructor
  · rintro ⟨_, _, ⟨hr, rfl⟩, out, _, ⟨ho, rfl⟩, _, _, rfl, rfl, rfl⟩
    exact ⟨hr, rfl, out, ho, rfl⟩
  · rintro ⟨hr, rfl, out, ho, rfl⟩
    exact ⟨(), s, ⟨hr, rfl⟩, out, s, ⟨ho, rfl⟩, (), _, rfl, rfl, rfl⟩

/-- C60: printing anything else is undefined behavior. -/
theorem C60_print_ub {e} (h : evalIntrinsic .printStdout args retTy s = .error e ∨
    evalIntrinsic .printStderr args retTy s = .error e) : e = .ub := by
  have hu : ∀ b, ensureUb b = .error e → e = .ub := by
    intro b; unfold ensureUb; split <;> intro h <;> cases h; rfl
  unfold evalIntrinsic at h
  dsimp only at h
  unfold intrinsicPrintStdout intrinsicPrintStderr at h
  simp only [EM.bind_eq_error, EM.lift_eq_error, EM.modify_ne_error, EM.pure_apply, reduceCtorEq, and_false, exists_false,
    or_false, requireUb] at h
  rcases h with (h | ⟨_, _, _, h⟩) | h | ⟨_, _, _, h⟩
  · exact hu _ h
  · exact evalPrint_error h
  · exact hu _ h
  · exact evalPrint_error h

section
variable [SoftMem M P F]

/-- C60: when a thread executes `PrintStdout`, exactly the values of its operands are appended to the standard output. -/
theorem C60_step_print_stdout {as ret next} (h : step s = .ok ((), s'))
    (hat : s.AtTerminator s'.activeThread (.intrinsic .printStdout as ret next)) :
    ∃ rest pl ty vs out s1 s2, s.oracle = .int s'.activeThread :: rest ∧
      evalPlace ret (s.schedule s'.activeThread rest) = .ok ((pl, ty), s1) ∧ evalValues as s1 = .ok (vs, s2) ∧
      List.Forall₂ Shows vs out ∧ s'.stdout = s.stdout ++ out ∧ s'.stderr = s.stderr := by
  obtain ⟨rest, h1, hs⟩ := step_at h hat
  obtain ⟨pl, ty, vs, v, s1, s2, s3, k1, k2, h3, m1, m2⟩ := intrinsic_parts hs
  obtain ⟨_, _, out, ho, rfl⟩ := C60_print_stdout.1 h3
  refine ⟨rest, pl, ty, vs, out, s1, s2, h1, k1, k2, ho, ?_, ?_⟩
  · rw [m2.stdout]; exact congrArg (· ++ out) m1.stdout
  · rw [m2.stderr]; exact m1.stderr

/-- C60: when a thread executes `PrintStderr`, exactly the values of its operands are appended to the error output. -/
theorem C60_step_print_stderr {as ret next} (h : step s = .ok ((), s'))
    (hat : s.AtTerminator s'.activeThread (.intrinsic .printStderr as ret next)) :
    ∃ rest pl ty vs out s1 s2, s.oracle = .int s'.activeThread :: rest ∧
      evalPlace ret (s.schedule s'.activeThread rest) = .ok ((pl, ty), s1) ∧ evalValues as s1 = .ok (vs, s2) ∧
      List.Forall₂ Shows vs out ∧ s'.stderr = s.stderr ++ out ∧ s'.stdout = s.stdout := by
  obtain ⟨rest, h1, hs⟩ := step_at h hat
  obtain ⟨pl, ty, vs, v, s1, s2, s3, k1, k2, h3, m1, m2⟩ := intrinsic_parts hs
  obtain ⟨_, _, out, ho, rfl⟩ := C60_print_stderr.1 h3
  refine ⟨rest, pl, ty, vs, out, s1, s2, h1, k1, k2, ho, ?_, ?_⟩
  · rw [m2.stderr]; exact congrArg (· ++ out) m1.stderr
  · rw [m2.stdout]; exact m1.stdout

/-- C60: no other instruction prints anything. -/
theorem C60_print_only_here (h : step s = .ok ((), s')) :
    (s'.stdout ≠ s.stdout → s.AtIntrinsic s'.activeThread .printStdout) ∧
    (s'.stderr ≠ s.stderr → s.AtIntrinsic s'.activeThread .printStderr) := by
  by_cases hl : ∀ op, s.AtIntrinsic s'.activeThread op → op.loud = false
  · have := mu_step hl h
    exact ⟨fun hn => (hn this.stdout).elim, fun hn => (hn this.stderr).elim⟩
  · simp only [not_forall] at hl
    obtain ⟨op, ⟨as, r, n, hat⟩, hl⟩ := hl
    cases op with
    | printStdout =>
      obtain ⟨_, _, _, _, _, _, _, _, _, _, _, _, e⟩ := C60_step_print_stdout h hat
      exact ⟨fun _ => ⟨as, r, n, hat⟩, fun hn => (hn e).elim⟩
    | printStderr =>
      obtain ⟨_, _, _, _, _, _, _, _, _, _, _, _, e⟩ := C60_step_print_stderr h hat
      exact ⟨fun hn => (hn e).elim, fun _ => ⟨as, r, n, hat⟩⟩
    | pointerExposeProvenance =>
      obtain ⟨rest, h1, hs⟩ := step_at h hat
      obtain ⟨pl, ty, vs, v, s1, s2, s3, k1, k2, h3, m1, m2⟩ := intrinsic_parts hs
      have hm : s3.stdout = s2.stdout ∧ s3.stderr = s2.stderr := by
        unfold evalIntrinsic at h3
        dsimp only at h3
        unfold intrinsicExpose at h3
        split at h3
        · simp only [EM.bind_eq_ok, EM.lift_eq_ok, requireUb_eq_ok, EM.modify_eq_ok, EM.pure_eq_ok] at h3
          obtain ⟨_, _, ⟨_, rfl⟩, _, _, ⟨_, rfl⟩, _, _, rfl, _, rfl⟩ := h3
          exact ⟨rfl, rfl⟩
        · cases h3
      exact ⟨fun hn => (hn (by rw [m2.stdout, hm.1]; exact m1.stdout)).elim,
        fun hn => (hn (by rw [m2.stderr, hm.2]; exact m1.stderr)).elim⟩
    | _ => exact (hl rfl).elim
end

/-! ### The payload of an unwind -/

/-- C60: `GetUnwindPayload` gives the payload of the innermost unwind of the thread, and changes nothing. -/
theorem C60_get_unwind_payload : evalIntrinsic .getUnwindPayload args retTy s = .ok (v, s') ↔
    ∃ (t : Thread P F) (p : ThinPtr P) (rest : List (ThinPtr P)), args = [] ∧ retTy.IsThinPtr ∧
      s.threads[s.activeThread]? = some t ∧ t.unwindPayloads = p :: rest ∧ v = .ptr ⟨p, none⟩ ∧ s' = s := by
  unfold evalIntrinsic
  dsimp only
  unfold intrinsicGetUnwindPayload
  simp only [EM.bind_eq_ok, requireUb_eq_ok, EM.read_eq_ok, getActive_eq_ok, List.isEmpty_iff, isThinPtrTy_iff]
  constructor
  · rintro ⟨_, _, ⟨ha, rfl⟩, _, _, ⟨hr, rfl⟩, t, _, ⟨ht, rfl⟩, h⟩
    cases hp : t.unwindPayloads with
    | nil => rw [hp] at h; cases h
    | cons p rest => rw [hp] at h; cases h; exact ⟨t, p, rest, ha, hr, ht, hp, rfl, rfl⟩
  · rintro ⟨t, p, rest, ha, hr, ht, hp, rfl, rfl⟩
    refine ⟨(), _, ⟨ha, rfl⟩, (), _, ⟨hr, rfl⟩, t, _, ⟨ht, rfl⟩, ?_⟩
    rw [hp]; rfl

/-- C60: `GetUnwindPayload` is undefined behavior if nothing is being unwound, or for wrong operands. -/
theorem C60_get_unwind_payload_ub {t : Thread P F} (ht : s.threads[s.activeThread]? = some t) {e}
    (h : evalIntrinsic .getUnwindPayload args retTy s = .error e) : e = .ub := by
  have hu : ∀ b, ensureUb b = .error e → e = .ub := by
    intro b; unfold ensureUb; split <;> intro h <;> cases h; rfl
  unfold evalIntrinsic at h
  dsimp only at h
  unfold intrinsicGetUnwindPayload at h
  simp only [EM.bind_eq_error, requireUb, EM.lift_eq_error, EM.lift_eq_ok, EM.read_eq_error, EM.read_eq_ok] at h
  have hg := getActive_eq_ok.2 ht
  rcases h with h | ⟨_, _, ⟨_, rfl⟩, h | ⟨_, _, ⟨_, rfl⟩, h | ⟨t', _, ⟨h1, rfl⟩, h⟩⟩⟩
  · exact hu _ h
  · exact hu _ h
  · rw [hg] at h; cases h
  · cases hp : t'.unwindPayloads with
    | nil => rw [hp] at h; cases h; rfl
    | cons p rest => rw [hp] at h; cases h

/-! ### Raw comparison -/

theorem bytesData_rawData {bs : List (AByte P)} {ds : List UInt8} : bytesData bs = .ok ds ↔ RawData bs ds := by
  unfold RawData
  induction bs generalizing ds with
  | nil =>
    unfold bytesData
    constructor
    · intro h; cases h; exact .nil
    · intro h; cases h; rfl
  | cons b bs ih =>
    unfold bytesData
    cases b with
    | uninit =>
      constructor
      · intro h; cases h
      · intro h
        cases h with
        | cons h _ => obtain ⟨_, h⟩ := h; cases h
    | init d f =>
      constructor
      · intro h
        simp only [AByte.data] at h
        split at h
        · rename_i ds' hds
          cases h
          exact .cons ⟨f, rfl⟩ (ih.1 hds)
        · cases h
      · intro h
        cases h with
        | cons h1 h2 =>
          obtain ⟨f', h1⟩ := h1
          cases h1
          simp only [AByte.data, ih.2 h2]

theorem bytesDataUb_eq_ok {bs : List (AByte P)} {ds : List UInt8} : bytesDataUb bs = .ok ds ↔ RawData bs ds := by
  rw [← bytesData_rawData]
  unfold bytesDataUb
  split
  · rename_i h; rw [h]; constructor <;> intro h <;> cases h
  · rfl

theorem loadRawData_eq_ok {p : Pointer P} {pt : PtrType} {ds : List UInt8} : loadRawData p pt s = .ok (ds, s') ↔
    ∃ m pointee n al bs, pt = .ref m pointee ∧ pointee.layout = .sized n al ∧ memLoad p.thin n al .none s = .ok (bs, s') ∧
      RawData bs ds := by
  unfold loadRawData
  constructor
  · intro h
    cases pt with
    | ref m pointee =>
      cases hl : pointee.layout with
      | sized n al =>
        simp only [hl, EM.bind_eq_ok, EM.lift_eq_ok, bytesDataUb_eq_ok] at h
        obtain ⟨bs, _, h1, h2, rfl⟩ := h
        exact ⟨m, pointee, n, al, bs, rfl, hl, h1, h2⟩
      | _ => simp only [hl] at h; cases h
    | _ => cases h
  · rintro ⟨m, pointee, n, al, bs, rfl, hl, h1, h2⟩
    simp only [hl, EM.bind_eq_ok, EM.lift_eq_ok, bytesDataUb_eq_ok]
    exact ⟨bs, _, h1, h2, rfl⟩

/-- C60: `RawEq` takes two references of the same type to sized memory, loads both, and tells whether the bytes are the same
apart from their provenance. All of them have to be initialized. -/
theorem C60_raw_eq : evalIntrinsic .rawEq args retTy s = .ok (v, s') ↔
    ∃ l r m pointee n al bl br dl dr s1, args = [(.ptr l, .ptr (.ref m pointee)), (.ptr r, .ptr (.ref m pointee))] ∧
      retTy = .bool ∧ pointee.layout = .sized n al ∧
      memLoad l.thin n al .none s = .ok (bl, s1) ∧ memLoad r.thin n al .none s1 = .ok (br, s') ∧
      RawData bl dl ∧ RawData br dr ∧ v = .bool (decide (dl = dr)) := by
  unfold evalIntrinsic
  dsimp only
  unfold intrinsicRawEq
  constructor
  · intro h
    split at h
    · rename_i left lTy right rTy
      simp only [EM.bind_eq_ok, requireUb_eq_ok, decide_eq_true_eq] at h
      obtain ⟨_, _, ⟨hr, rfl⟩, _, _, ⟨rfl, rfl⟩, h⟩ := h
      split at h
      · simp only [EM.bind_eq_ok, loadRawData_eq_ok, EM.pure_eq_ok] at h
        obtain ⟨dl, s1, ⟨m, pt, n, al, bl, rfl, hl, h1, h2⟩, dr, _, ⟨m', pt', n', al', br, e, hl', h1', h2'⟩, rfl, rfl⟩ := h
        cases e
        rw [hl] at hl'; cases hl'
        exact ⟨_, _, m, pt, n, al, bl, br, dl, dr, s1, rfl, hr, hl, h1, h1', h2, h2', rfl⟩
      · cases h
    · cases h
  · rintro ⟨l, r, m, pt, n, al, bl, br, dl, dr, s1, rfl, rfl, hl, h1, h1', h2, h2', rfl⟩
    simp only [EM.bind_eq_ok, requireUb_eq_ok, decide_eq_true_eq, loadRawData_eq_ok, EM.pure_eq_ok]
    exact ⟨(), s, ⟨trivial, rfl⟩, (), s, ⟨trivial, rfl⟩, dl, s1, ⟨m, pt, n, al, bl, rfl, hl, h1, h2⟩, dr, s',
      ⟨m, pt, n, al, br, rfl, hl, h1', h2'⟩, rfl, rfl⟩
end

section
variable {M PE AE F : Type} [T : Target] [DecidableEq PE] [Memory M (AllocId × PE) F]
  [SoftMem M (AllocId × PE) F] [LawfulTarget T] [RawRetag M (AllocId × PE) F] [B : BasicBacked M PE AE F]
variable {s s' : Machine M (AllocId × PE) F} {args : List (Value (AllocId × PE) × Ty)} {retTy : Ty} {v : Value (AllocId × PE)}
include B

theorem memLoad_at {p : ThinPtr (AllocId × PE)} {n al bs} (h : memLoad p n al .none s = .ok (bs, s')) :
    (B.mem s.mem.memory).At p n bs ∧ SameData (B.mem s.mem.memory) (B.mem s'.mem.memory) ∧ s' = { s with mem := s'.mem } := by
  obtain ⟨m, h1, rfl⟩ := memLoad_eq_ok.1 h
  exact ⟨at_of_memLoad h1, same_conc h1, rfl⟩

/-- C60: `RawEq` does not change what is in memory, nor anything else but the memory model's own bookkeeping. -/
theorem C60_raw_eq_only_reads (h : evalIntrinsic .rawEq args retTy s = .ok (v, s')) :
    s.SameContents s' ∧ s' = { s with mem := s'.mem } := by
  obtain ⟨l, r, m, pt, n, al, bl, br, dl, dr, s1, rfl, rfl, hl, h1, h1', h2, h2', rfl⟩ := C60_raw_eq.1 h
  obtain ⟨a1, a2, a3⟩ := memLoad_at h1
  obtain ⟨b1, b2, b3⟩ := memLoad_at h1'
  exact ⟨sameContents_of (a2.trans b2), by rw [b3, a3]⟩

/-- C60: raw comparison is reflexive. -/
theorem C60_raw_eq_self {l ty} (h : evalIntrinsic .rawEq [(.ptr l, ty), (.ptr l, ty)] retTy s = .ok (v, s')) : v = .bool true := by
  obtain ⟨l', r, m, pt, n, al, bl, br, dl, dr, s1, e, rfl, hl, h1, h1', h2, h2', rfl⟩ := C60_raw_eq.1 h
  cases e
  obtain ⟨a1, a2, a3⟩ := memLoad_at h1
  obtain ⟨b1, b2, b3⟩ := memLoad_at h1'
  obtain rfl := b1.unique (a1.same a2)
  rw [← bytesData_rawData] at h2 h2'
  rw [h2] at h2'; cases h2'
  simp
end

/-! ### Concrete cases -/

namespace Ex
attribute [local instance] x86_64

-- A run prints to both outputs.
example : ∃ s s' : BMach, Reachable printProg s ∧ step s = .ok ((), s') ∧ s.atOp s'.activeThread = some .printStdout ∧
    s.stdout = [.int 1] ∧ s'.stdout = [.int 1, .int 3] ∧ s'.stderr = [.int 2] :=
  exists_step printRun 2 _ (by decide +kernel)
example : ∃ s s' : BMach, Reachable printProg s ∧ step s = .ok ((), s') ∧ s.atOp s'.activeThread = some .printStderr ∧
    s.stderr = [] ∧ s'.stderr = [.int 2] :=
  exists_step printRun 1 _ (by decide +kernel)
-- Several operands, and operands that cannot be printed.
example : ∃ s : BMach, Reachable printProg s ∧
    errOf (evalIntrinsic .printStdout [(.int 4, usize), (.bool true, .bool)] unitTy s) = none ∧
    errOf (evalIntrinsic .printStdout [(.int 4, usize), (.ptr ⟨⟨16, none⟩, none⟩, rawTy)] unitTy s) = some .ub ∧
    errOf (evalIntrinsic .assume [(.bool true, .bool)] unitTy s) = none ∧
    errOf (evalIntrinsic .assume [(.bool false, .bool)] unitTy s) = some .ub :=
  exists_reachable printRun 0 _ (by decide +kernel)

/-- A reference to 4 bytes. -/
def rawEqRef : Ty := .ptr (refTy 4 ⟨0⟩)
/-- A pointer into the global of `leakProg`. -/
def intoGlobal (i : Int) : Value (Nat × Unit) := .ptr ⟨⟨16 + i, some (0, ())⟩, none⟩

-- Comparing the parts of the global of `leakProg`, before and after one is changed and de-initialized.
example : ∃ s : BMach, Reachable leakProg s ∧
    errOf ((do
      expectValue (evalIntrinsic .rawEq [(intoGlobal 0, rawEqRef), (intoGlobal 4, rawEqRef)] .bool) (.bool true)
      expectValue (evalIntrinsic .atomicStore [(intoGlobal 4, rawTy), (.int 5, u32)] unitTy) unitValue
      expectValue (evalIntrinsic .rawEq [(intoGlobal 0, rawEqRef), (intoGlobal 4, rawEqRef)] .bool) (.bool false)
      expectValue (evalIntrinsic .rawEq [(intoGlobal 4, rawEqRef), (intoGlobal 4, rawEqRef)] .bool) (.bool true)) s) = none ∧
    errOf ((do
      memDeinit ⟨20, some (0, ())⟩ 1 Align.one
      expectValue (evalIntrinsic .rawEq [(intoGlobal 0, rawEqRef), (intoGlobal 4, rawEqRef)] .bool) (.bool true)) s) = some .ub :=
  exists_reachable heapRun 1 _ (by decide +kernel)

-- A thread that catches an unwind gets the payload; without an unwind there is none.
example : ∃ s s' : BMach, Reachable callProg s ∧ step s = .ok ((), s') ∧ s.atOp s'.activeThread = some .getUnwindPayload ∧
    (evalValue (.load (.local 2)) s').map (·.1.1) = .ok (intoGlobal 0) :=
  exists_step callRun 9 _ (by decide +kernel)
example : ∃ s : BMach, Reachable leakProg s ∧ errOf (evalIntrinsic .getUnwindPayload [] rawTy s) = some .ub :=
  exists_reachable heapRun 1 _ (by decide +kernel)

end Ex
end MiniRust
