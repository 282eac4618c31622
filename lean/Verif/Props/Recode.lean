import Verif.Lemmas.RecodeRun
import Verif.Lemmas.RecodeWf
import Verif.Props.Calls
import Verif.Props.Run
import Verif.Examples.Programs
import Verif.Examples.Calls
import Mathlib.Data.Nat.Pairing
/-
C87: the names of basic blocks do not matter, and neither does code that is not executed.
-/
set_option linter.unusedSectionVars false
namespace MiniRust

section
variable [T : Target] {M P F : Type} [Memory M P F] [DecidableEq P]
variable {V : Function → BbName → Prop} {σ : BbName → BbName} {p p' : Program}

theorem run_rel (h : Program.Recoded V σ p p') (hw : p'.checkWf = p.checkWf) {o : List (Choice P)}
    (hv : ∀ s₀ s : Machine M P F, Machine.new p o = .ok s₀ → Steps s₀ s → s.InBlocks V) (fuel : Nat) :
    run M (F := F) fuel p' o = run M fuel p o := by
  unfold run
  rcases h.new (M := M) (F := F) hw o with ⟨s, s', h1, h2, h3⟩ | ⟨e, h1, h2⟩
  · rw [h1, h2]
    dsimp only
    rcases runLoop_rel fuel h3 fun u hu => hv s u h1 hu with ⟨k1, k2⟩ | ⟨e, t, t', k1, k2, k3⟩
    · rw [k1, k2]
    · rw [k1, k2]
      dsimp only
      rw [k3.eq]
  · rw [h1, h2]

/-- C87: code that an execution does not get to has no effect on it. If the execution of a program with the choices `o` only enters
blocks in `V`, then a program that has the same blocks in `V` (with other names, given by `σ`), and any other ones, ends in the
same way with these choices, and prints the same. -/
theorem C87_unused (hw : p.checkWf = .ok ()) (hw' : p'.checkWf = .ok ()) (h : Program.Recoded V σ p p') {o : List (Choice P)}
    (hv : ∀ s₀ s : Machine M P F, Machine.new p o = .ok s₀ → Steps s₀ s → s.InBlocks V) (fuel : Nat) :
    run M (F := F) fuel p' o = run M fuel p o :=
  run_rel h (hw'.trans hw.symm) hv fuel

/-- C87: and it goes through the same states: memory, exposed provenance, locks, pointers to globals and functions, and
output are the same; threads are in the same states, and have the same frames with the same live locals, at the same places. -/
theorem C87_states (hw : p.checkWf = .ok ()) (hw' : p'.checkWf = .ok ()) (h : Program.Recoded V σ p p') {o : List (Choice P)} {s₀ s : Machine M P F}
    (h0 : Machine.new p o = .ok s₀) (hs : Steps s₀ s) (hv : ∀ u, Steps s₀ u → u.InBlocks V) :
    ∃ s₀' s', Machine.new p' o = .ok s₀' ∧ Steps s₀' s' ∧ s' = { s with prog := s'.prog, threads := s'.threads } ∧
      List.Forall₂ (fun th th' : Thread P F => th'.state = th.state ∧ th'.unwindPayloads = th.unwindPayloads ∧
        List.Forall₂ (fun fr fr' : StackFrame P F => fr'.locals = fr.locals ∧ fr'.nextBlock = σ fr.nextBlock ∧ fr'.nextStmt = fr.nextStmt ∧
          fr'.extra = fr.extra) th.stack th'.stack) s.threads s'.threads := by
  rcases h.new (M := M) (F := F) (hw'.trans hw.symm) o with ⟨s1, s1', h1, h2, h3⟩ | ⟨e, h1, h2⟩
  · rw [h0] at h1
    cases h1
    obtain ⟨s', k1, k2⟩ := steps_rel hs h3 hv
    refine ⟨s1', s', h2, k1, ?_, k2.threads.imp fun a b hab => ⟨by rw [hab.eq], by rw [hab.eq], hab.stack.imp fun x y hxy =>
      ⟨hxy.locals, hxy.nextBlock, hxy.nextStmt, hxy.extra⟩⟩⟩
    conv_lhs => rw [k2.eq]
    rw [k2.eq]
  · rw [h0] at h1; cases h1

theorem recoded_rename (hσ : Function.Injective σ) : Program.Recoded (fun _ _ => True) σ p (p.renameBlocks fun _ => σ) := by
  refine ⟨?_, rfl, rfl, rfl, rfl⟩
  show List.Forall₂ _ p.functions (p.functions.map _)
  generalize p.functions = m
  induction m with
  | nil => exact .nil
  | cons x m ih =>
    exact .cons ⟨rfl, rfl, rfl, rfl, rfl, rfl, fun b _ => get?_renameBlocks hσ _ b⟩ ih

/-- C87: the names of basic blocks do not matter: with other names, given by an injective function, a program ends in the same way and prints the
same, for all choices. It is well formed iff the original one is. -/
theorem C87_names (hσ : Function.Injective σ) (o : List (Choice P)) (fuel : Nat) :
    (p.renameBlocks fun _ => σ).checkWf = p.checkWf ∧ run M (F := F) fuel (p.renameBlocks fun _ => σ) o = run M fuel p o :=
  ⟨checkWf_rename fun _ => hσ, run_rel (recoded_rename hσ) (checkWf_rename fun _ => hσ) (fun _ _ _ _ _ _ _ _ _ => trivial) fuel⟩

end

/-! ### Blocks that cannot be reached -/

section
variable {M PE AE F : Type} [T : Target] [DecidableEq PE] [Memory M (AllocId × PE) F] [hm : SoftMem M (AllocId × PE) F]
  [B : BasicBacked M PE AE F]
variable {s s' : Machine M (AllocId × PE) F} {prog p p' : Program}

/-- A frame that is in a block that can be reached, at one of its statements or its terminator. -/
structure StackFrame.InReach {P F : Type} (f : StackFrame P F) : Prop where
  reaches : f.func.Reaches f.nextBlock
  stmt : ∀ bb, f.func.blocks.get? f.nextBlock = some bb → f.nextStmt ≤ bb.statements.length

theorem StackFrame.InReach.moved {P F : Type} {f f' : StackFrame P F} (h : f.InReach) {t b} (ht : f.AtTerm t) (hb : t.Target b) (hf : f.MovedTo b f') : f'.InReach := by
  obtain ⟨bb, h1, _, rfl⟩ := ht
  refine ⟨?_, fun bb _ => by rw [hf.stmt]; omega⟩
  rw [hf.same.func, hf.block]
  exact .step h.reaches h1 hb

theorem StackStep.inReach {P F : Type} {st st' : List (StackFrame P F)} {pl pl'} (h : StackStep prog st pl st' pl') (hr : ∀ f ∈ st, f.InReach) :
    ∀ f ∈ st', f.InReach := by
  cases h with
  | @stmt f f' rest st pl h1 h2 =>
    intro g hg
    rcases List.mem_cons.1 hg with rfl | hg
    · obtain ⟨blk, k1, k2⟩ := h1
      refine ⟨by rw [h2.func, h2.block]; exact (hr f (by simp)).reaches, fun bb hbb => ?_⟩
      rw [h2.func, h2.block, show f.func.blocks.get? f.nextBlock = some blk from k1] at hbb
      cases hbb
      rw [h2.stmt]
      exact (List.getElem?_eq_some_iff.1 k2).1
    · exact hr g (by simp [hg])
  | @goto f f' rest b pl h1 h2 =>
    intro g hg
    rcases List.mem_cons.1 hg with rfl | hg
    · exact (hr f (by simp)).moved h1 .goto h2
    · exact hr g (by simp [hg])
  | @switch f f' rest v cases fb b pl h1 h2 h3 =>
    intro g hg
    rcases List.mem_cons.1 hg with rfl | hg
    · refine (hr f (by simp)).moved h1 ?_ h3
      rcases h2 with rfl | h2
      · exact .fallback
      · obtain ⟨i, hi⟩ := h2
        exact .case hi
    · exact hr g (by simp [hg])
  | @intrinsic f f' rest op as r b pl h1 h2 =>
    intro g hg
    rcases List.mem_cons.1 hg with rfl | hg
    · exact (hr f (by simp)).moved h1 .intrinsic h2
    · exact hr g (by simp [hg])
  | @startUnwind f f' rest v b pl x h1 h2 =>
    intro g hg
    rcases List.mem_cons.1 hg with rfl | hg
    · exact (hr f (by simp)).moved h1 .startUnwind h2
    · exact hr g (by simp [hg])
  | @stopUnwind f f' rest b pl x h1 h2 =>
    intro g hg
    rcases List.mem_cons.1 hg with rfl | hg
    · exact (hr f (by simp)).moved h1 .stopUnwind h2
    · exact hr g (by simp [hg])
  | @call f f' g rest c conv as r n u pl name fn h1 h2 h3 h4 =>
    intro k hk
    rcases List.mem_cons.1 hk with rfl | hk
    · exact ⟨by rw [h3.func, h3.block]; exact .start, fun _ _ => by rw [h3.stmt]; omega⟩
    · rcases List.mem_cons.1 hk with rfl | hk
      · have := hr f (by simp)
        exact ⟨by rw [h4.same.func, h4.block]; exact this.reaches, by rw [h4.same.func, h4.block, h4.stmt]; exact this.stmt⟩
      · exact hr k (by simp [hk])
  | @ret f g g' rest c conv as r b u pl h1 h2 h3 =>
    intro k hk
    rcases List.mem_cons.1 hk with rfl | hk
    · exact (hr g (by simp)).moved h2 .next h3
    · exact hr k (by simp [hk])
  | @resume f g g' rest c conv as r n b pl h1 h2 h3 =>
    intro k hk
    rcases List.mem_cons.1 hk with rfl | hk
    · exact (hr g (by simp)).moved h2 .unwind h3
    · exact hr k (by simp [hk])
  | finish => intro g hg; cases hg

include B in
theorem Reachable.inReach (hr : Reachable prog s) : ∀ th ∈ s.threads, ∀ fr ∈ th.stack, fr.InReach := by
  obtain ⟨o, s0, hn, hs⟩ := hr
  induction hs with
  | refl =>
    obtain ⟨_, _, _, _, f, g, hf, hg, hth⟩ := new_frames (B := B) hn
    intro th hth' fr hfr
    rw [hth] at hth'
    cases List.mem_singleton.1 hth'
    cases List.mem_singleton.1 hfr
    exact ⟨by rw [hg.func, hg.block]; exact .start, fun _ _ => by rw [hg.stmt]; omega⟩
  | @tail t u h1 h2 ih =>
    obtain ⟨a, th, th', _, k1, k2, k3, k4, k5⟩ := C35_stack_discipline (B := B) ⟨o, s0, hn, h1⟩ h2
    intro x hx fr hfr
    obtain ⟨i, hi⟩ := List.mem_iff_getElem?.1 hx
    have hlt : i < u.threads.length := (List.getElem?_eq_some_iff.1 hi).1
    by_cases hia : i = a
    · subst hia
      rw [k2] at hi; cases hi
      exact k3.inReach (fun f hf => ih th (List.mem_of_getElem? k1) f hf) fr hfr
    · by_cases hit : i < t.threads.length
      · obtain ⟨y, j1, j2, _⟩ := k4 i _ hia (List.getElem?_eq_getElem hit)
        rw [hi] at j1; cases j1
        rw [j2] at hfr
        exact ih _ (List.getElem_mem hit) fr hfr
      · rcases k5 with k5 | ⟨k5, y, g, fn, name, j1, j2, _, _, j5⟩
        · omega
        · have : i = t.threads.length := by omega
          subst this
          rw [hi] at j1; cases j1
          rw [j2] at hfr
          cases List.mem_singleton.1 hfr
          exact ⟨by rw [j5.func, j5.block]; exact .start, fun _ _ => by rw [j5.stmt]; omega⟩

include B in
/-- C87: every frame of a running program is in a block that can be reached from the start of its function by following
the targets of terminators. -/
theorem C87_follows (hr : Reachable prog s) : ∀ th ∈ s.threads, ∀ fr ∈ th.stack, fr.func.Reaches fr.nextBlock :=
  fun th hth fr hfr => (hr.inReach (B := B) th hth fr hfr).reaches

include B in
/-- C87: blocks that cannot be reached from the start of their function by following terminators have no effect. They can be removed, added, or replaced by
any other ones, and the other ones can be renamed: the program ends in the same way and prints the same, for all choices. -/
theorem C87_unreachable {σ : BbName → BbName} (hw : p.checkWf = .ok ()) (hw' : p'.checkWf = .ok ()) (h : Program.Recoded Function.Reaches σ p p')
    (o : List (Choice (AllocId × PE))) (fuel : Nat) : run M (F := F) fuel p' o = run M fuel p o :=
  C87_unused hw hw' h (fun s₀ s h0 hs th hth fr rest hst =>
    C87_follows (B := B) ⟨o, s₀, h0, hs⟩ th hth fr (by rw [hst]; simp)) fuel

end

theorem Terminator.rename_id (t : Terminator) : t.rename id = t := by
  cases t <;> simp [Terminator.rename]

/-! ### Other names in each function -/

section
variable [T : MiniRust.Target]

theorem Terminator.rename_rename {σ σ' : BbName → BbName} (t : Terminator) : (t.rename σ).rename σ' = t.rename fun b => σ' (σ b) := by
  cases t <;> simp [Terminator.rename, Function.comp_def]

theorem Terminator.Target.rename {σ : BbName → BbName} {t : Terminator} {c : BbName} (h : (t.rename σ).Target c) : ∃ b, c = σ b := by
  cases t with
  | switch v cs b =>
    cases h with
    | case h =>
      obtain ⟨x, _, hx⟩ := List.mem_map.1 (Map.get?_mem h)
      exact ⟨x.2, (congrArg Prod.snd hx).symm⟩
    | fallback => exact ⟨_, rfl⟩
  | intrinsic op args r n =>
    cases n with
    | none => cases h
    | some b => cases h; exact ⟨_, rfl⟩
  | call c conv args r n u =>
    cases n <;> cases u <;> cases h <;> exact ⟨_, rfl⟩
  | goto => cases h; exact ⟨_, rfl⟩
  | startUnwind => cases h; exact ⟨_, rfl⟩
  | stopUnwind => cases h; exact ⟨_, rfl⟩
  | _ => cases h

theorem get?_renamed {σ : BbName → BbName} {m : Map BbName BasicBlock} {b : BbName} {bb : BasicBlock}
    (h : Map.get? (m.map fun x => (σ x.1, { x.2 with terminator := x.2.terminator.rename σ })) b = some bb) : ∃ t : Terminator, bb.terminator = t.rename σ := by
  induction m with
  | nil => cases h
  | cons x m ih =>
    obtain ⟨k, g⟩ := x
    rw [List.map_cons] at h
    unfold Map.get? at h
    dsimp only at h
    split at h
    · cases h; exact ⟨_, rfl⟩
    · exact ih h

theorem Function.Reaches.renamed {f : Function} {σ : BbName → BbName} {c : BbName} (h : (f.renameBlocks σ).Reaches c) : ∃ b, c = σ b := by
  cases h with
  | start => exact ⟨_, rfl⟩
  | step _ h1 h2 =>
    obtain ⟨t, ht⟩ := get?_renamed h1
    rw [ht] at h2
    exact h2.rename

/-- Every renaming is obtained from the one that makes the names of the blocks of different functions different. -/
theorem recoded_pair {p : Program} {τ : FnName → BbName → BbName} (hτ : ∀ n, Function.Injective (τ n)) :
    Program.Recoded Function.Reaches (fun b => τ b.unpair.1 b.unpair.2) (p.renameBlocks Nat.pair) (p.renameBlocks τ) := by
  refine ⟨?_, rfl, rfl, rfl, rfl⟩
  show List.Forall₂ _ (p.functions.map _) (p.functions.map _)
  generalize p.functions = m
  induction m with
  | nil => exact .nil
  | cons x m ih =>
    obtain ⟨n, f⟩ := x
    have hi : Function.Injective (Nat.pair n) := fun a b h => (Nat.pair_eq_pair.1 h).2
    refine .cons ⟨rfl, rfl, rfl, rfl, rfl, ?_, fun b hb => ?_⟩ ih
    · show τ n f.start = τ (Nat.pair n f.start).unpair.1 (Nat.pair n f.start).unpair.2
      rw [Nat.unpair_pair]
    · obtain ⟨b, rfl⟩ := hb.renamed
      rw [show (f.renameBlocks (Nat.pair n)).blocks.get? (Nat.pair n b) = _ from get?_renameBlocks hi _ b]
      rw [Nat.unpair_pair]
      rw [show (f.renameBlocks (τ n)).blocks.get? (τ n b) = _ from get?_renameBlocks (hτ n) _ b]
      cases f.blocks.get? b with
      | none => rfl
      | some bb =>
        simp only [Option.map_some, Terminator.rename_rename, Nat.unpair_pair]

end

theorem renameBlocks_id (p : Program) : (p.renameBlocks fun _ => id) = p := by
  have h : ∀ f : Function, f.renameBlocks id = f := fun f => by
    unfold Function.renameBlocks
    simp only [Terminator.rename_id, id]
    rw [show (f.blocks.map fun x => (x.1, { statements := x.2.statements, terminator := x.2.terminator, kind := x.2.kind })) = f.blocks from List.map_id _]
  unfold Program.renameBlocks
  simp only [h]
  rw [show (p.functions.map fun x => (x.1, x.2)) = p.functions from List.map_id _]

section
variable {M PE AE F : Type} [T : Target] [DecidableEq PE] [Memory M (AllocId × PE) F] [hm : SoftMem M (AllocId × PE) F]
  [B : BasicBacked M PE AE F]

include B in
/-- C87: the names of the blocks of each function can be chosen without regard to the other functions: the program in which the blocks
of the function with the name `n` are renamed by `τ n` is well formed iff the program is, ends in the same way and prints the same, for all choices. -/
theorem C87_names_each {p : Program} {τ : FnName → BbName → BbName} (hτ : ∀ n, Function.Injective (τ n)) (o : List (Choice (AllocId × PE))) (fuel : Nat) :
    (p.renameBlocks τ).checkWf = p.checkWf ∧ run M (F := F) fuel (p.renameBlocks τ) o = run M fuel p o := by
  have hp : ∀ n, Function.Injective (Nat.pair n) := fun n a b h => (Nat.pair_eq_pair.1 h).2
  have key : ∀ {τ : FnName → BbName → BbName}, (∀ n, Function.Injective (τ n)) →
      run M (F := F) fuel (p.renameBlocks τ) o = run M fuel (p.renameBlocks Nat.pair) o := fun {τ} hτ =>
    run_rel (recoded_pair hτ) ((checkWf_rename hτ).trans (checkWf_rename hp).symm) (fun s₀ s h0 hs th hth fr rest hst =>
      C87_follows (B := B) ⟨o, s₀, h0, hs⟩ th hth fr (by rw [hst]; simp)) fuel
  have hid := key (τ := fun _ => id) fun _ => Function.injective_id
  rw [renameBlocks_id] at hid
  exact ⟨checkWf_rename hτ, (key hτ).trans hid.symm⟩

end

/-! ### Concrete cases -/

section
attribute [local instance] x86_64

/-- The targets of a terminator. -/
def Terminator.targets : Terminator → List BbName
  | .goto b => [b]
  | .switch _ cases b => b :: cases.map (·.2)
  | .intrinsic _ _ _ b => b.toList
  | .call _ _ _ _ b u => b.toList ++ u.toList
  | .startUnwind _ b => [b]
  | .stopUnwind b => [b]
  | _ => []

theorem Terminator.Target.mem {t : Terminator} {b : BbName} (h : t.Target b) : b ∈ t.targets := by
  cases h with
  | case h => exact List.mem_cons_of_mem _ (List.mem_map.2 ⟨_, Map.get?_mem h, rfl⟩)
  | _ => simp [Terminator.targets]

/-- Does the list contain the start of the function and the targets of its blocks? -/
def Function.closed (f : Function) (l : List BbName) : Bool :=
  l.contains f.start && l.all fun b => match f.blocks.get? b with
    | none => true
    | some bb => bb.terminator.targets.all l.contains

theorem Function.Reaches.mem {f : Function} {l : List BbName} (hl : f.closed l = true) {b : BbName} (h : f.Reaches b) : b ∈ l := by
  unfold Function.closed at hl
  rw [Bool.and_eq_true] at hl
  induction h with
  | start => simpa using hl.1
  | step _ h1 h2 ih =>
    have := List.all_eq_true.1 hl.2 _ ih
    rw [h1] at this
    simpa using List.all_eq_true.1 this _ h2.mem

/-- `printProg` with another block, which is never executed. -/
def deadProg : Program := Ex.mainProg [] [
  (4, ⟨[], .intrinsic .printStdout [Ex.usz 9] (.local 0) (some 0), .regular⟩),
  (0, ⟨[], .intrinsic .printStdout [Ex.usz 1] (.local 0) (some 1), .regular⟩),
  (1, ⟨[], .intrinsic .printStderr [Ex.usz 2] (.local 0) (some 2), .regular⟩),
  (2, ⟨[], .intrinsic .printStdout [Ex.usz 3] (.local 0) (some 3), .regular⟩),
  (3, ⟨[], .intrinsic .exit [] (.local 0) none, .regular⟩)]

/-- The hypotheses of `C87_unreachable` are met: a block is added. -/
theorem deadProg_recoded : Program.Recoded Function.Reaches id Ex.printProg deadProg := by
  refine ⟨.cons ⟨rfl, rfl, rfl, rfl, rfl, rfl, fun b hb => ?_⟩ .nil, rfl, rfl, rfl, rfl⟩
  have := hb.mem (l := [0, 1, 2, 3]) (by decide)
  simp only [List.mem_cons, List.not_mem_nil, or_false] at this
  rcases this with rfl | rfl | rfl | rfl <;> rfl

example : Ex.printProg.checkWf = .ok () ∧ deadProg.checkWf = .ok () := by decide +kernel

example (fuel : Nat) : run (BasicMem Unit Unit) fuel deadProg Ex.printRun = run (BasicMem Unit Unit) fuel Ex.printProg Ex.printRun :=
  C87_unreachable (B := inferInstance) (by decide +kernel) (by decide +kernel) deadProg_recoded _ _

example : run (BasicMem Unit Unit) 5 (Ex.printProg.renameBlocks fun n b => n + b + 7) Ex.printRun = some (.machineStop, [.int 1, .int 3], [.int 2]) := by
  decide +kernel

/-- The functions of this program have blocks with equal names; they can get different ones. -/
example (o : List (Choice (AllocId × Unit))) (fuel : Nat) :
    run (BasicMem Unit Unit) fuel (Ex.callProg.renameBlocks fun n b => 2 * b + n) o = run (BasicMem Unit Unit) fuel Ex.callProg o :=
  (C87_names_each (B := inferInstance) (fun (n a b : Nat) (h : 2 * a + n = 2 * b + n) => show a = b by omega) o fuel).2

/-- Always exits, and has a block that would print. -/
def oneWayProg (b : BasicBlock) : Program := Ex.mainProg [] [
  (0, ⟨[], .switch (Ex.usz 1) [(0, 1)] 2, .regular⟩), (1, b), (2, ⟨[], .intrinsic .exit [] (.local 0) none, .regular⟩)]

/-- Are all states of the execution in blocks in `V`? -/
def within {M P F : Type} [Memory M P F] [DecidableEq P] (V : BbName → Bool) : Nat → Machine M P F → Bool
  | 0, _ => false
  | n + 1, s => s.threads.all (fun th => match th.stack with | [] => true | fr :: _ => V fr.nextBlock) &&
    match step s with
    | .ok ((), s') => within V n s'
    | .error _ => true

theorem within_steps {M P F : Type} [Memory M P F] [DecidableEq P] {V : BbName → Bool} : ∀ n {s : Machine M P F}, within V n s = true → ∀ u, Steps s u →
    u.InBlocks fun _ b => V b = true
  | 0, _, h, _, _ => by cases h
  | n + 1, s, h, u, hu => by
    unfold within at h
    rw [Bool.and_eq_true] at h
    have hc : u = s ∨ ∃ t, step s = .ok ((), t) ∧ Steps t u := by
      clear h
      induction hu with
      | refl => exact .inl rfl
      | tail h1 h2 ih =>
        rcases ih with rfl | ⟨t, k1, k2⟩
        · exact .inr ⟨_, h2, .refl _⟩
        · exact .inr ⟨t, k1, .tail k2 h2⟩
    rcases hc with rfl | ⟨t, k1, k2⟩
    · intro th hth fr rest hst
      have := List.all_eq_true.1 h.1 th hth
      rw [hst] at this
      exact this
    · have := h.2
      rw [k1] at this
      exact within_steps n this u k2

/-- The hypotheses of `C87_unused` are met. In both programs the block can be reached in the control flow graph. -/
example (fuel : Nat) : run (BasicMem Unit Unit) fuel (oneWayProg ⟨[], .intrinsic .printStdout [Ex.usz 1] (.local 0) (some 2), .regular⟩) Ex.printRun =
    run (BasicMem Unit Unit) fuel (oneWayProg ⟨[], .unreachable, .regular⟩) Ex.printRun := by
  refine C87_unused (V := fun _ b => decide (b ≠ 1) = true) (σ := id) (by decide +kernel) (by decide +kernel) ?_ ?_ fuel
  · refine ⟨.cons ⟨rfl, rfl, rfl, rfl, rfl, rfl, fun b hb => ?_⟩ .nil, rfl, rfl, rfl, rfl⟩
    have hb : b ≠ 1 := by simpa using hb
    show Map.get? [(0, _), (1, _), (2, _)] b = Option.map _ (Map.get? [(0, _), (1, _), (2, _)] b)
    simp only [Map.get?, if_neg hb.symm]
    split
    · rfl
    · split <;> rfl
  · intro s₀ s h0 hs
    refine within_steps (V := fun b => decide (b ≠ 1)) 5 ?_ s hs
    have : (match (Machine.new (oneWayProg ⟨[], .unreachable, .regular⟩) Ex.printRun : Res (Machine (BasicMem Unit Unit) _ _)) with
      | .ok s => within (fun b => decide (b ≠ 1)) 5 s
      | .error _ => false) = true := by decide +kernel
    rw [h0] at this
    exact this

end
end MiniRust
