import Verif.Spec.Termination
import Verif.Spec.Frames
import Verif.Props.Recode
import Mathlib.Data.Finset.Card
import Mathlib.Tactic.Linarith
/-
A bound on the number of steps of programs without loops and recursion: every step decreases the cost of the machine.
-/
set_option linter.unusedSectionVars false
namespace MiniRust
open Relation Classical

/-! ### Depths of blocks and ranks of functions -/

/-- How many blocks are still to come. -/
noncomputable def Function.depth (f : Function) (b : BbName) : Nat :=
  (f.blocks.keys.toFinset.filter fun c => ReflTransGen f.Jump b c).card

theorem Function.depth_le {f : Function} {b} : f.depth b ≤ f.blocks.length := by
  unfold depth
  refine (Finset.card_filter_le _ _).trans ((List.toFinset_card_le _).trans ?_)
  unfold Map.keys
  rw [List.length_map]

theorem Map.mem_keys_of_get? {K V : Type} [DecidableEq K] {m : Map K V} {k v} (h : m.get? k = some v) : k ∈ m.keys :=
  List.mem_map.2 ⟨_, Map.get?_mem h, rfl⟩

theorem Function.depth_lt {f : Function} (hl : f.LoopFree) {b c} (hr : f.Reaches b) (hj : f.Jump b c) : f.depth c < f.depth b := by
  unfold depth
  refine Finset.card_lt_card (Finset.ssubset_iff_of_subset ?_ |>.2 ⟨b, ?_, ?_⟩)
  · intro x hx
    rw [Finset.mem_filter] at hx ⊢
    exact ⟨hx.1, hx.2.head hj⟩
  · obtain ⟨bb, h1, _⟩ := hj
    rw [Finset.mem_filter, List.mem_toFinset]
    exact ⟨Map.mem_keys_of_get? h1, .refl⟩
  · rw [Finset.mem_filter]
    rintro ⟨_, h⟩
    exact hl b hr (TransGen.head' hj h)

/-- How many functions can be called from the code of `f`. -/
noncomputable def Program.rank (prog : Program) (f : Function) : Nat :=
  (prog.functions.keys.toFinset.filter fun g => ∃ g1, f.CallsTo g1 ∧ ReflTransGen prog.Calls g1 g).card

theorem Program.rank_lt {prog : Program} (hn : prog.NoRecursion) {f g : Function} {n} (hc : f.CallsTo n) (hg : prog.functions.get? n = some g) :
    prog.rank g < prog.rank f := by
  unfold rank
  refine Finset.card_lt_card (Finset.ssubset_iff_of_subset ?_ |>.2 ⟨n, ?_, ?_⟩)
  · intro x hx
    rw [Finset.mem_filter] at hx ⊢
    obtain ⟨h1, g1, h2, h3⟩ := hx
    exact ⟨h1, n, hc, h3.head ⟨g, hg, h2⟩⟩
  · rw [Finset.mem_filter, List.mem_toFinset]
    exact ⟨Map.mem_keys_of_get? hg, n, hc, .refl⟩
  · rw [Finset.mem_filter]
    rintro ⟨_, g1, h2, h3⟩
    exact hn n (TransGen.head' ⟨g, hg, h2⟩ h3)

/-! ### Costs -/

/-- The cost of calls to functions of a smaller rank. -/
def callCost (K D : Nat) : Nat → Nat
  | 0 => 0
  | r + 1 => D * (K + callCost K D r)

theorem callCost_mono {K D : Nat} (hD : 1 ≤ D) {r r' : Nat} (h : r ≤ r') : callCost K D r ≤ callCost K D r' := by
  induction h with
  | refl => exact Nat.le_refl _
  | step _ ih =>
    refine ih.trans ?_
    show _ ≤ D * (K + _)
    nlinarith

section
variable {P F : Type}

/-- The number of statements that are left in the block. -/
def StackFrame.left (f : StackFrame P F) : Nat :=
  match f.func.blocks.get? f.nextBlock with
  | some b => b.statements.length - f.nextStmt
  | none => 0

variable (prog : Program) (K D : Nat)

/-- The cost of a suspended frame. -/
noncomputable def StackFrame.low (f : StackFrame P F) : Nat :=
  f.func.depth f.nextBlock * (K + callCost K D (prog.rank f.func)) + 1

/-- The cost of the frame at the top. -/
noncomputable def StackFrame.top (f : StackFrame P F) : Nat :=
  f.low prog K D + callCost K D (prog.rank f.func) + f.left

noncomputable def stackCost : List (StackFrame P F) → Nat
  | [] => 0
  | f :: rest => f.top prog K D + (rest.map (·.low prog K D)).sum

/-- Bounds on the numbers of statements and blocks. -/
structure Bounds : Prop where
  stmts : ∀ name f b bb, prog.functions.get? name = some f → f.blocks.get? b = some bb → bb.statements.length + 2 ≤ K
  blocks : ∀ name f, prog.functions.get? name = some f → f.blocks.length + 2 ≤ D
  pos : 2 ≤ K ∧ 1 ≤ D

variable {prog K D}

theorem StackFrame.low_eq {f f' : StackFrame P F} (h1 : f'.func = f.func) (h2 : f'.nextBlock = f.nextBlock) : f'.low prog K D = f.low prog K D := by
  unfold low; rw [h1, h2]

theorem StackFrame.left_le {f : StackFrame P F} (hb : Bounds prog K D) (hf : ∃ name, prog.functions.get? name = some f.func) : f.left + 2 ≤ K := by
  unfold left
  split
  · rename_i b h
    obtain ⟨name, hf⟩ := hf
    have := hb.stmts _ _ _ _ hf h
    omega
  · have := hb.pos; omega

/-- A frame at the start of a function of a smaller rank costs less than the calls of the frame that starts it. -/
theorem StackFrame.fresh_lt {f : Function} {g : StackFrame P F} (hb : Bounds prog K D) (hg : ∃ name, prog.functions.get? name = some g.func)
    (hr : prog.rank g.func < prog.rank f) : g.top prog K D < callCost K D (prog.rank f) := by
  refine Nat.lt_of_lt_of_le ?_ (callCost_mono hb.pos.2 hr)
  have h1 := StackFrame.left_le hb hg
  obtain ⟨name, hg⟩ := hg
  have h2 := hb.blocks _ _ hg
  have h3 := g.func.depth_le (b := g.nextBlock)
  unfold top low
  show _ < D * (K + callCost K D (prog.rank g.func))
  generalize callCost K D (prog.rank g.func) = c at *
  generalize g.func.depth g.nextBlock = d at *
  have h4 : d + 2 ≤ D := by omega
  have := Nat.mul_le_mul_right (K + c) h4
  rw [Nat.add_mul] at this
  omega

/-- Moving on to the next block saves more than a call. -/
theorem StackFrame.moved_lt {f f' : StackFrame P F} (hb : Bounds prog K D) (hf : ∃ name, prog.functions.get? name = some f.func) (hl : f.func.LoopFree)
    (hr : f.func.Reaches f.nextBlock) {t : Terminator} (ht : f.AtTerm t) {b} (htg : t.Target b) (hm : f.MovedTo b f') :
    f'.top prog K D + callCost K D (prog.rank f.func) < f.low prog K D + callCost K D (prog.rank f.func) ∧ f'.func = f.func := by
  obtain ⟨bb, h1, _, rfl⟩ := ht
  have h2 := Function.depth_lt hl hr ⟨bb, h1, htg⟩
  have h3 := StackFrame.left_le (f := f') hb (by rw [hm.same.func]; exact hf)
  refine ⟨?_, hm.same.func⟩
  unfold top low
  rw [hm.same.func, hm.block]
  generalize callCost K D (prog.rank f.func) = c at *
  have := Nat.mul_le_mul_right (K + c) (show f.func.depth b + 1 ≤ f.func.depth f.nextBlock from h2)
  rw [Nat.add_mul] at this
  omega

theorem stackCost_cons {f : StackFrame P F} {rest} : stackCost prog K D (f :: rest) = f.top prog K D + (rest.map (·.low prog K D)).sum := rfl
theorem stackCost_nil : stackCost prog K D ([] : List (StackFrame P F)) = 0 := rfl

theorem StackFrame.low_pos {f : StackFrame P F} : 0 < f.low prog K D := Nat.succ_pos _

/-- A step of a thread decreases the cost of its stack; a step of an intrinsic by more than the cost of a call. -/
theorem StackStep.cost {st st' : List (StackFrame P F)} {pl pl'} (h : StackStep prog st pl st' pl') (hb : Bounds prog K D)
    (hf : ∀ f ∈ st, (∃ name, prog.functions.get? name = some f.func) ∧ f.func.Reaches f.nextBlock ∧ f.func.LoopFree)
    (hcall : ∀ f rest c conv as r n u g f', st = f :: rest → f.AtTerm (.call c conv as r n u) → st' = g :: f' :: rest →
      (∃ name, prog.functions.get? name = some g.func) ∧ prog.rank g.func < prog.rank f.func) :
    stackCost prog K D st' < stackCost prog K D st ∧
    ∀ f rest op as r n, st = f :: rest → f.AtTerm (.intrinsic op as r n) →
      stackCost prog K D st' + callCost K D (prog.rank f.func) < stackCost prog K D st := by
  have term : ∀ {f : StackFrame P F} {t t'}, f.AtTerm t → f.AtTerm t' → t = t' := by
    rintro f _ _ ⟨b, h1, _, rfl⟩ ⟨b', h2, _, rfl⟩
    cases h1.symm.trans h2; rfl
  have move : ∀ {f f' : StackFrame P F} {rest t b}, f ∈ st → f.AtTerm t → t.Target b → f.MovedTo b f' →
      stackCost prog K D (f' :: rest) + callCost K D (prog.rank f.func) < stackCost prog K D (f :: rest) ∧ f'.top prog K D < f.low prog K D := by
    intro f f' rest t b hin ht htg hm
    obtain ⟨h1, h2, h3⟩ := hf f hin
    obtain ⟨h4, _⟩ := StackFrame.moved_lt hb h1 h3 h2 ht htg hm
    rw [stackCost_cons, stackCost_cons, show f.top prog K D = f.low prog K D + callCost K D (prog.rank f.func) + f.left from rfl]
    omega
  have move' : ∀ {f f' : StackFrame P F} {rest t b}, st = f :: rest → f.AtTerm t → t.Target b → f.MovedTo b f' → st' = f' :: rest →
      stackCost prog K D st' < stackCost prog K D st ∧
      ∀ f rest op as r n, st = f :: rest → f.AtTerm (.intrinsic op as r n) →
        stackCost prog K D st' + callCost K D (prog.rank f.func) < stackCost prog K D st := by
    intro f f' rest t b e ht htg hm e'
    have := (move (rest := rest) (by rw [e]; simp) ht htg hm).1
    rw [e, e']
    refine ⟨by omega, ?_⟩
    intro f2 rest2 op as r n e2 _
    cases e2
    exact this
  cases h with
  | @stmt f f' rest st pl h1 h2 =>
    refine ⟨?_, ?_⟩
    · obtain ⟨b, k1, k2⟩ := h1
      have k3 := (List.getElem?_eq_some_iff.1 k2).1
      have e : f'.left + 1 = f.left := by
        unfold StackFrame.left
        rw [h2.func, h2.block, show f.func.blocks.get? f.nextBlock = some b from k1, h2.stmt]
        show b.statements.length - (f.nextStmt + 1) + 1 = b.statements.length - f.nextStmt
        omega
      rw [stackCost_cons, stackCost_cons]
      unfold StackFrame.top
      rw [StackFrame.low_eq h2.func h2.block, h2.func]
      omega
    · rintro f2 rest2 op as r n e ⟨b2, k3, k4, _⟩
      cases e
      obtain ⟨b, k1, k2⟩ := h1
      cases k1.symm.trans k3
      have := (List.getElem?_eq_some_iff.1 k2).1
      omega
  | goto h1 h2 => exact move' rfl h1 .goto h2 rfl
  | switch h1 h2 h3 =>
    refine move' rfl h1 ?_ h3 rfl
    rcases h2 with rfl | h2
    · exact .fallback
    · obtain ⟨i, hi⟩ := h2
      exact .case hi
  | intrinsic h1 h2 => exact move' rfl h1 .intrinsic h2 rfl
  | startUnwind h1 h2 => exact move' rfl h1 .startUnwind h2 rfl
  | stopUnwind h1 h2 => exact move' rfl h1 .stopUnwind h2 rfl
  | @call f f' g rest c conv as r n u pl name fn h1 h2 h3 h4 =>
    refine ⟨?_, fun f2 rest2 op as r n e ht => ?_⟩
    · obtain ⟨k1, k2⟩ := hcall _ _ _ _ _ _ _ _ _ _ rfl h1 rfl
      have := StackFrame.fresh_lt hb k1 k2
      rw [stackCost_cons, stackCost_cons, show f.top prog K D = f.low prog K D + callCost K D (prog.rank f.func) + f.left from rfl, List.map_cons, List.sum_cons,
        StackFrame.low_eq h4.same.func h4.block]
      omega
    · cases e; cases term h1 ht
  | @ret f g g' rest c conv as r b u pl h1 h2 h3 =>
    refine ⟨?_, fun f2 rest2 op as r n e ht => ?_⟩
    · have := (move (rest := rest) (by simp) h2 .next h3).2
      rw [stackCost_cons, stackCost_cons, List.map_cons, List.sum_cons]
      omega
    · cases e; cases term h1 ht
  | @resume f g g' rest c conv as r n b pl h1 h2 h3 =>
    refine ⟨?_, fun f2 rest2 op as r n e ht => ?_⟩
    · have := (move (rest := rest) (by simp) h2 .unwind h3).2
      rw [stackCost_cons, stackCost_cons, List.map_cons, List.sum_cons]
      omega
    · cases e; cases term h1 ht
  | @finish f pl h1 =>
    refine ⟨?_, fun f2 rest2 op as r n e ht => ?_⟩
    · rw [stackCost_cons, stackCost_nil]
      unfold StackFrame.top
      have := StackFrame.low_pos (f := f) (prog := prog) (K := K) (D := D)
      omega
    · cases e; cases term h1 ht

/-! ### Sums -/

theorem sum_change : ∀ {l l' : List Nat} {a x y : Nat}, l[a]? = some x → l'[a]? = some y → l'.length = l.length →
    (∀ i, i ≠ a → l'[i]? = l[i]?) → l'.sum + x = l.sum + y
  | [], _, _, _, _, h, _, _, _ => by cases h
  | _ :: _, [], _, _, _, _, h, _, _ => by cases h
  | u :: l, v :: l', 0, x, y, h1, h2, h3, h4 => by
    cases h1; cases h2
    have : l' = l := by
      refine List.ext_getElem? fun i => ?_
      simpa using h4 (i + 1) (by omega)
    rw [this, List.sum_cons, List.sum_cons]; omega
  | u :: l, v :: l', a + 1, x, y, h1, h2, h3, h4 => by
    have h0 : v = u := by simpa using h4 0 (by omega)
    have := sum_change (l := l) (l' := l') (a := a) (by simpa using h1) (by simpa using h2) (by simpa using h3)
      (fun i hi => by simpa using h4 (i + 1) (by omega))
    rw [h0, List.sum_cons, List.sum_cons]
    omega

theorem exists_bound {α : Type} (g : α → Nat) : ∀ l : List α, ∃ n, ∀ x ∈ l, g x ≤ n
  | [] => ⟨0, nofun⟩
  | x :: l => by
    obtain ⟨n, h⟩ := exists_bound g l
    refine ⟨g x + n, fun y hy => ?_⟩
    rcases List.mem_cons.1 hy with rfl | hy
    · omega
    · have := h y hy; omega

theorem exists_bounds (prog : Program) : ∃ K D, Bounds prog K D := by
  obtain ⟨D, hD⟩ := exists_bound (fun x : FnName × Function => x.2.blocks.length) prog.functions
  obtain ⟨K, hK⟩ := exists_bound (fun x : FnName × Function => (exists_bound (fun y : BbName × BasicBlock => y.2.statements.length) x.2.blocks).choose) prog.functions
  refine ⟨K + 2, D + 2, ?_, ?_, by omega, by omega⟩
  · intro name f b bb h1 h2
    have k1 := hK _ (Map.get?_mem h1)
    have k2 := (exists_bound (fun y : BbName × BasicBlock => y.2.statements.length) f.blocks).choose_spec _ (Map.get?_mem h2)
    exact Nat.add_le_add_right (k2.trans k1) 2
  · intro name f h1
    exact Nat.add_le_add_right (hD _ (Map.get?_mem h1)) 2

end
end MiniRust
