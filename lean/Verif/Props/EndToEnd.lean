import Verif.Spec.EndToEnd
import Verif.Props.Crate
import Verif.Props.Mir
import Verif.Props.Calls
/-
C80: executions of translated crates do what the MIR of the crate says.
-/
set_option linter.unusedSectionVars false
namespace MiniRust
section
variable {I A Y D : Type} [DecidableEq I] [DecidableEq A] [DecidableEq Y] [DecidableEq D] [T : Target]
variable {K : Crate I A Y D} {c : Cx I A Y D} {k : Nat}
variable {M PE AE F : Type} [DecidableEq PE] [Memory M (AllocId × PE) F] [hm : SoftMem M (AllocId × PE) F]
  [B : BasicBacked M PE AE F] {s s' : Machine M (AllocId × PE) F} {i d : Nat} {g : StackFrame (AllocId × PE) F}

include B in
/-- Every frame executes the start function or what an instance was translated to. -/
theorem frame_instance (hK : K.DropFirst) (hr : K.Runs k c) (hd : Crate.Done c) {unwinds mir order} (hf : K.FromMir unwinds mir order)
    (hre : Reachable c.finish s) (hg : s.FrameAt i d g) :
    g.func = mkStartFn 0 ∨ ∃ (inst : I) (n : FnName) (ns : List Nat), c.nameOf (.fn inst) = some n ∧
      List.Forall₂ (fun r m => c.nameOf r = some m) (K.body inst).requests ns ∧
      (mir inst ns).Valid ∧ (mir inst ns).Order (order inst) ∧
      (unwinds = true → ∀ blk ∈ (mir inst ns).blocks, ¬ blk.terminator.PanicsNounwind) ∧
      (mir inst ns).translate unwinds (order inst) = .ok g.func := by
  obtain ⟨t, ht, hgt⟩ := hg
  have hfr := ((hre.frames (B := B)).threads t (List.mem_of_getElem? ht)).stack
  obtain ⟨name, hn⟩ := (hfr.mem (List.mem_reverse.1 (List.mem_of_getElem? hgt))).func
  rw [(hre.frames (B := B)).eq] at hn
  obtain ⟨h1, h2, _, h4⟩ := C70_functions hK hr hd
  rcases h4 name _ hn with rfl | ⟨inst, hi⟩
  · rw [h2] at hn
    injection hn with hn
    exact .inl hn.symm
  · obtain ⟨f, ns, h5, h6, h7⟩ := h1 inst name hi
    rw [hn] at h5
    injection h5 with h5
    subst h5
    have hl := h7.length_eq.symm
    exact .inr ⟨inst, name, ns, hi, h7, hf.valid _ _ hl, hf.ordered _ _ hl, hf.unwind _ _ hl, (hf.build _ _ hl).symm.trans h6⟩

include B in
/-- C80 (partial): the full claim has `MirRun true`, where a drop that unwinds goes to its cleanup block, and has no condition on panics that cannot
unwind. It is false by `C67_drop_unwind_lost` and `C67_nounwind_unwinds`. In every execution of the program that a crate is translated to, whatever else the machine does meanwhile, each activation of a function
does what the MIR of one of the instances that main needs says, where the names are those of what the instance refers to; or it is the activation of
the start function, which calls main and does nothing else. -/
theorem C80_follows_mir_partial (hK : K.DropFirst) (hr : K.Runs k c) (hd : Crate.Done c) {unwinds mir order} (hf : K.FromMir unwinds mir order)
    (hre : Reachable c.finish s) (hg : s.FrameAt i d g) (hfresh : g.Fresh g.func) {as} (h : s.Lives i d as s') :
    (as = [] ∨ as = [.call ⟨mkFnPtr 0, .rust, [], unitPlace⟩ .returned] ∨ as = [.call ⟨mkFnPtr 0, .rust, [], unitPlace⟩ .unwound]) ∧
      g.func = mkStartFn 0 ∨
    ∃ (inst : I) (n : FnName) (ns : List Nat), K.Needed (.fn inst) ∧ c.nameOf (.fn inst) = some n ∧
      List.Forall₂ (fun r m => c.nameOf r = some m) (K.body inst).requests ns ∧
      ∃ t, MirRun false ((mir inst ns).todo unwinds (order inst)) (mir inst ns).entry as (some t) := by
  rcases frame_instance (B := B) hK hr hd hf hre hg with h1 | ⟨inst, n, ns, h1, h2, h3, h4, h5, h6⟩
  · exact .inl ⟨C70_start_follows (B := B) hre hg (h1 ▸ hfresh) h, h1⟩
  · exact .inr ⟨inst, n, ns, (C70_exactly_needed hK hr hd _).1 ⟨n, h1⟩, h1, h2, C67_activation_follows_mir (B := B) h3 h4 h5 h6 hre hg hfresh h⟩

include B in
/-- C80 (partial, for the same reasons): an activation is left only where the MIR body ends. -/
theorem C80_follows_mir_to_end_partial (hK : K.DropFirst) (hr : K.Runs k c) (hd : Crate.Done c) {unwinds mir order} (hf : K.FromMir unwinds mir order)
    (hre : Reachable c.finish s) (hg : s.FrameAt i d g) (hfresh : g.Fresh g.func) {as x s''} (h : s.Lives i d as s')
    (hdo : s'.Does i d [x] true) (hs : step s' = .ok ((), s'')) :
    g.func = mkStartFn 0 ∨ ∃ (inst : I) (n : FnName) (ns : List Nat), K.Needed (.fn inst) ∧ c.nameOf (.fn inst) = some n ∧
      List.Forall₂ (fun r m => c.nameOf r = some m) (K.body inst).requests ns ∧
      MirRun false ((mir inst ns).todo unwinds (order inst)) (mir inst ns).entry (as ++ [x]) none := by
  rcases frame_instance (B := B) hK hr hd hf hre hg with h1 | ⟨inst, n, ns, h1, h2, h3, h4, h5, h6⟩
  · exact .inl h1
  · exact .inr ⟨inst, n, ns, (C70_exactly_needed hK hr hd _).1 ⟨n, h1⟩, h1, h2,
      C67_activation_follows_mir_to_end (B := B) h3 h4 h5 h6 hre hg hfresh h hdo hs⟩
end

/-! ### A concrete crate -/

namespace EndEx
attribute [local instance] x86_64 x86_64_lawful
open MirEx

/-- `fn main() { f(); }`, where `f` has the name `n`. -/
def mainBody (n : Nat) : MirBody where
  locals := [unitTy, unitTy]
  argCount := 0
  spread := none
  alwaysLive := [1]
  conv := .rust
  blocks := [⟨[], .call (.fn n .rust none) [] (.local 1) (some 1) .continue, false⟩, ⟨[], .return, false⟩]

/-- Instance 0 is main, which calls instance 1. -/
def mir (i : Nat) (ns : List Nat) : MirBody := if i = 0 then mainBody (ns.headD 0) else smallBody
def order (i : Nat) : List Nat := if i = 0 then [1, 0] else [1, 0, 2]

def crate : Crate Nat Nat Nat Nat where
  entry := 0
  alloc _ := none
  vtable _ _ := ⟨0, ⟨0⟩, [], 3, none⟩
  principal _ := none
  body i := ⟨if i = 0 then [.fn 1] else [], fun ns => (mir i ns).translate true (order i)⟩

theorem crate_dropFirst : crate.DropFirst := by
  intro y d es he
  cases he

theorem crate_fromMir : crate.FromMir true mir order where
  valid := by
    intro i ns _
    unfold mir
    split
    · refine ⟨?_, ?_, ⟨_, rfl, rfl⟩, ?_, ?_, ?_⟩ <;>
        simp [mainBody, MirTerm.Valid, block_iff, MirCallee.Valid, UnwindAction.Valid, RustCallOk]
    · exact smallValid
  ordered := by
    intro i ns _
    unfold mir order
    split
    · refine ⟨by decide, fun b => ?_⟩
      simp only [List.mem_cons, List.not_mem_nil, or_false, mainBody, List.length_cons, List.length_nil]
      omega
    · exact smallOrdered
  unwind := by
    intro i ns _ h
    unfold mir
    split
    · intro blk hb
      simp only [mainBody, List.mem_cons, List.not_mem_nil, or_false] at hb
      rcases hb with rfl | rfl <;> simp [MirTerm.PanicsNounwind]
    · exact smallNot h
  build := by
    intro i ns _
    rfl

def run : List (Choice (Nat × Unit)) :=
  [.int 56, .int 57, .int 58, .int 64, .int 0, .int 65, .int 0, .int 66, .int 0, .int 0, .int 67, .int 0, .int 68, .int 0, .int 0, .int 0, .int 0, .int 0, .int 0, .int 0, .int 0]

/-- From where a function was just called to where it was left. -/
def fromTo (s s' : BMach) : Bool :=
  decide ((match ActEx.top2 s with
      | some g => decide (g.nextBlock = g.func.start ∧ g.nextStmt = 0 ∧ g.locals.keys = [g.func.ret] ∧ g.func.args = [] ∧ g.func.callingConvention = .rust)
      | none => false) = true ∧ s'.threads.map (·.stack.length) = [1])

/-- There is a state in which `main` was just called, and later it is left. -/
theorem called_and_left : ∃ k c, crate.Runs k c ∧ Crate.Done c ∧ ∃ (s s1 s2 : BMach) (g : StackFrame (Nat × Unit) Unit) (as : List Act) (x : Act),
    Reachable c.finish s ∧ g.func ≠ mkStartFn 0 ∧
    s.FrameAt 0 1 g ∧ g.Fresh g.func ∧ s.Lives 0 1 as s1 ∧ s1.Does 0 1 [x] true ∧ step s1 = .ok ((), s2) := by
  obtain ⟨k, c, hk, hd, hq⟩ := Crate.exists_done (K := crate) 3 10 (fun c => observe c.finish run 1 (fun s : BMach => do
    let (_, s') ← runSteps 9 s
    .ok (decide (fromTo s s' = true))) = .ok true) (by decide +kernel)
  obtain ⟨s, s', hr, hs, h⟩ := exists_steps (M := BasicMem Unit Unit) run 1 9 (fun s s' => fromTo s s' = true) hq
  obtain ⟨h1, h2⟩ := of_decide_eq_true h
  refine ⟨k, c, hk, hd, ?_⟩
  cases ht : ActEx.top2 s with
  | none => rw [ht] at h1; cases h1
  | some g =>
    rw [ht] at h1
    obtain ⟨g1, g2, g3, g4, g5⟩ := of_decide_eq_true h1
    unfold ActEx.top2 at ht
    split at ht
    swap
    · cases ht
    rename_i t hthr
    split at ht
    swap
    · cases ht
    rename_i f f0 hstack
    cases ht
    have hframe : s.FrameAt 0 1 g := ⟨t, by rw [hthr]; rfl, by rw [hstack]; rfl⟩
    have hfresh : g.Fresh g.func := ⟨rfl, g1, g2, fun l => by rw [g3, g4]; simp⟩
    have hne : g.func ≠ mkStartFn 0 := fun h => by rw [h] at g5; cases g5
    rcases C66_lives_or_left hr hframe (runSteps_steps hs) with ⟨as, hl⟩ | ⟨as, s1, x, s2, k1, k2, k3, _⟩
    · obtain ⟨g', ⟨t', k1, k2⟩, _⟩ := C66_follows_graph hr hframe hfresh hl
      have h3 : t'.stack.length ∈ s'.threads.map (·.stack.length) := List.mem_map.mpr ⟨t', List.mem_of_getElem? k1, rfl⟩
      rw [h2] at h3
      have h4 : 1 < t'.stack.length := by
        have := (List.getElem?_eq_some_iff.mp k2).1
        simpa using this
      simp only [List.mem_singleton] at h3
      omega
    · exact ⟨s, s1, s2, g, as, x, hr, hne, hframe, hfresh, k1, k2, k3⟩

/-- The hypotheses of `C80_follows_mir_partial` and `C80_follows_mir_to_end_partial` are met by an activation of `main`, from its call to its end. -/
example : ∃ (inst : Nat) (ns : List Nat) (as : List Act) (x : Act),
    MirRun false ((mir inst ns).todo true (order inst)) (mir inst ns).entry (as ++ [x]) none := by
  obtain ⟨k, c, hk, hd, s, s1, s2, g, as, x, hr, hne, hg, hf, hl, hx, hs⟩ := called_and_left
  rcases C80_follows_mir_partial crate_dropFirst hk hd crate_fromMir hr hg hf hl with ⟨_, h⟩ | _
  · exact absurd h hne
  rcases C80_follows_mir_to_end_partial crate_dropFirst hk hd crate_fromMir hr hg hf hl hx hs with h | ⟨inst, n, ns, _, _, _, h⟩
  · exact absurd h hne
  · exact ⟨inst, ns, as, x, h⟩

end EndEx
end MiniRust
