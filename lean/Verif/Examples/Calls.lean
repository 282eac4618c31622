import Verif.Examples.Programs
import Verif.Spec.Frames
/-
A concrete program with calls, unwinding and storage statements.
-/
namespace MiniRust
variable {M P F : Type} [Memory M P F] [DecidableEq P] [T : Target]

/-- The top frame of thread `a`. -/
def Machine.topFrame (s : Machine M P F) (a : Nat) : Option (StackFrame P F) :=
  match s.threads[a]? with
  | some t => t.stack.head?
  | none => none

/-- The terminator thread `a` is about to execute. -/
def StackFrame.nextTerm (f : StackFrame P F) : Option Terminator :=
  match f.func.blocks.get? f.nextBlock with
  | some b => if f.nextStmt = b.statements.length then some b.terminator else none
  | none => none

/-- The statement thread `a` is about to execute. -/
def StackFrame.nextStatement (f : StackFrame P F) : Option Statement :=
  match f.func.blocks.get? f.nextBlock with
  | some b => b.statements[f.nextStmt]?
  | none => none

theorem StackFrame.nextTerm_eq {f : StackFrame P F} {term} (h : f.nextTerm = some term) : f.AtTerm term := by
  unfold StackFrame.nextTerm at h
  split at h
  · rename_i b hb
    split at h
    · rename_i hp; cases h; exact ⟨b, hb, hp, rfl⟩
    · cases h
  · cases h

theorem StackFrame.nextStatement_eq {f : StackFrame P F} {st} (h : f.nextStatement = some st) : f.AtStmt st := by
  unfold StackFrame.nextStatement at h
  split at h
  · rename_i b hb
    exact ⟨b, hb, h⟩
  · cases h

/-- Thread `a` is scheduled next, and its top frame and number of frames below it satisfy `q`. -/
def Machine.runsNext (s : Machine M P F) (a : Nat) (q : StackFrame P F → List (StackFrame P F) → Bool) : Bool :=
  match s.oracle, s.threads[a]? with
  | .int (.ofNat i) :: _, some t => i == a && (t.state == .enabled) && (match t.stack with
    | f :: rest => q f rest
    | [] => false)
  | _, _ => false

theorem Machine.runsNext_eq {s : Machine M P F} {a q} (h : s.runsNext a q = true) : ∃ r t f rest, s.Runs a r t f rest ∧ q f rest = true := by
  unfold Machine.runsNext at h
  split at h
  · rename_i i r t ho ht
    simp only [Bool.and_eq_true, beq_iff_eq] at h
    obtain ⟨⟨rfl, h2⟩, h3⟩ := h
    split at h3
    · rename_i f rest hs
      exact ⟨r, t, f, rest, ⟨ho, ht, h2, hs⟩, h3⟩
    · cases h3
  · cases h

/-- All functions start at a regular block. -/
def Program.startsOk (prog : Program) : Bool :=
  prog.functions.all fun e => match e.2.blocks.get? e.2.start with
    | some b => b.kind == .regular
    | none => false

theorem Program.startsOk_eq {prog : Program} (h : prog.startsOk = true) : prog.StartsOk := by
  intro name f hf
  unfold Program.startsOk at h
  have := List.all_eq_true.1 h _ (Map.get?_mem hf)
  split at this
  · rename_i b hb
    exact ⟨b, hb, by simpa using this⟩
  · cases this

namespace Ex
attribute [local instance] x86_64

/-- Returns its argument. -/
def idFn : Function where
  locals := [(0, u32), (1, u32)]
  args := [1]
  ret := 0
  callingConvention := .c
  blocks := [(0, ⟨[.assign (.local 0) (.load (.local 1))], .return, .regular⟩)]
  start := 0

/-- Unwinds with a pointer to a global. -/
def throwFn : Function where
  locals := [(0, unitTy)]
  args := []
  ret := 0
  callingConvention := .c
  blocks := [(0, ⟨[], .startUnwind (global 0) 1, .regular⟩), (1, ⟨[], .resumeUnwind, .cleanup⟩)]
  start := 0

/-- Calls `idFn`, branches on the result, calls `throwFn` and catches the unwinding. -/
def callMain : Function where
  locals := [(0, unitTy), (1, u32), (2, rawTy)]
  args := []
  ret := 0
  callingConvention := .c
  blocks := [
    (0, ⟨[.storageLive 1, .storageLive 2], .call (fnPtr 1) .c [.byValue (.constant (.int 5) u32)] (.local 1) (some 1) none, .regular⟩),
    (1, ⟨[], .switch (.load (.local 1)) [(5, 2)] 7, .regular⟩),
    (2, ⟨[], .call (fnPtr 2) .c [] (.local 0) (some 5) (some 3), .regular⟩),
    (3, ⟨[], .intrinsic .getUnwindPayload [] (.local 2) (some 4), .catch⟩),
    (4, ⟨[], .stopUnwind 5, .catch⟩),
    (5, ⟨[.storageDead 1], .goto 6, .regular⟩),
    (6, ⟨[], .unreachable, .regular⟩),
    (7, ⟨[], .intrinsic .exit [] (.local 0) none, .regular⟩)]
  start := 0

/-- Calls, unwinding and storage statements. -/
def callProg : Program where
  functions := [(0, callMain), (1, idFn), (2, throwFn)]
  start := 0
  globals := [(0, ⟨List.replicate 8 (some 0), [], ⟨3⟩⟩)]
  traits := []
  vtables := []

/-- A run of `callProg`. -/
def callRun : List (Choice (Nat × Unit)) :=
  [.int 16, .int 32, .int 33, .int 34, .int 48, .int 0, .int 64, .int 0, .int 72, .int 0, .int 80, .int 84, .int 0, .int 0, .int 0,
   .int 0, .int 96, .int 0, .int 0, .int 0, .int 0, .int 0, .int 0, .int 0, .int 0]

theorem callProg_startsOk : callProg.StartsOk := Program.startsOk_eq (by decide +kernel)

/-- A reachable state of `callProg` from which thread 0 makes a step, with a property of its frame. -/
theorem call_step (n : Nat) (q : StackFrame (Nat × Unit) Unit → List (StackFrame (Nat × Unit) Unit) → Bool)
    (h : (observe (M := BasicMem Unit Unit) callProg callRun n (fun s => do
      let (_, _) ← step s
      .ok (s.runsNext 0 q))) = .ok true) :
    ∃ (s s' : BMach) (r : List (Choice (Nat × Unit))) (t : Thread (Nat × Unit) Unit) (f : StackFrame (Nat × Unit) Unit) (rest : _),
      Reachable callProg s ∧ step s = .ok ((), s') ∧ s.Runs 0 r t f rest ∧ q f rest = true := by
  obtain ⟨s, h1, h2⟩ := reachable_of_observe h
  obtain ⟨⟨_, s'⟩, h3, h4⟩ := Res.bind_eq_ok.1 h2
  injection h4 with h4
  obtain ⟨r, t, f, rest, h5, h6⟩ := Machine.runsNext_eq h4
  exact ⟨s, s', r, t, f, rest, h1, h3, h5, h6⟩

end Ex
end MiniRust
