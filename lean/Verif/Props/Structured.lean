import Verif.Props.Termination
import Verif.Props.Builder
import Verif.Mir
/-
C91: functions that are built without `while_` have no loops.
-/
namespace MiniRust

/-! ### Runs of structured programs without `while_` are short -/

mutual
/-- How long the structured program can run at most, if it has no `while_`. -/
def Code.size : Code → Nat
  | .nil => 0
  | .stmt _ rest | .op _ _ _ rest | .halt _ _ _ rest | .unreachable rest | .ret rest | .resume rest | .callNoret _ _ _ rest
  | .callNounwind _ _ _ rest | .stop rest | .while_ _ _ rest => rest.size + 1
  | .call _ _ handler rest | .tryCall _ handler rest | .startUnwind _ _ handler rest | .tryUnwind _ handler rest => handler.size + rest.size + 2
  | .switch _ cases fallback rest => cases.size + fallback.size + rest.size + 1
def Cases.size : Cases → Nat
  | .nil => 0
  | .cons _ body rest => body.size + rest.size
end

theorem Code.size_append : ∀ (c d : Code), (c.append d).size = c.size + d.size
  | .nil, d => by simp only [Code.append, Code.size]; omega
  | .stmt _ r, d | .op _ _ _ r, d | .halt _ _ _ r, d | .unreachable r, d | .ret r, d | .resume r, d | .callNoret _ _ _ r, d
  | .callNounwind _ _ _ r, d | .call _ _ _ r, d | .tryCall _ _ r, d | .startUnwind _ _ _ r, d | .tryUnwind _ _ r, d | .stop r, d
  | .switch _ _ _ r, d | .while_ _ _ r, d => by
    have := Code.size_append r d
    simp only [Code.append, Code.size]; omega

theorem Code.NoWhile.append : ∀ {c d : Code}, c.NoWhile → d.NoWhile → (c.append d).NoWhile
  | .nil, d, _, h' => h'
  | .stmt _ r, d, h, h' | .op _ _ _ r, d, h, h' | .halt _ _ _ r, d, h, h' | .unreachable r, d, h, h' | .ret r, d, h, h' | .resume r, d, h, h'
  | .callNoret _ _ _ r, d, h, h' | .callNounwind _ _ _ r, d, h, h' | .stop r, d, h, h' => by
    simp only [Code.append, Code.NoWhile] at h ⊢
    exact Code.NoWhile.append h h'
  | .call _ _ _ r, d, h, h' | .tryCall _ _ r, d, h, h' | .startUnwind _ _ _ r, d, h, h' | .tryUnwind _ _ r, d, h, h' => by
    simp only [Code.append, Code.NoWhile] at h ⊢
    exact ⟨h.1, Code.NoWhile.append h.2 h'⟩
  | .switch _ _ _ r, d, h, h' => by
    simp only [Code.append, Code.NoWhile] at h ⊢
    exact ⟨h.1, h.2.1, Code.NoWhile.append h.2.2 h'⟩
  | .while_ _ _ r, d, h, _ => by simp only [Code.NoWhile] at h

theorem Cases.get?_noWhile : ∀ {cs : Cases} {i : Int} {body : Code}, cs.get? i = some body → cs.NoWhile → body.NoWhile ∧ body.size ≤ cs.size
  | .nil, _, _, h, _ => by cases h
  | .cons v b rest, i, body, h, hw => by
    simp only [Cases.get?] at h
    simp only [Cases.NoWhile] at hw
    simp only [Cases.size]
    split at h
    · cases h; exact ⟨hw.1, by omega⟩
    · have := Cases.get?_noWhile h hw.2
      exact ⟨this.1, by omega⟩

theorem Code.Step.smaller {c c' : Code} {a : Act} (h : Code.Step c a (some c')) (hw : c.NoWhile) : c'.NoWhile ∧ c'.size < c.size := by
  cases h
  case switchCase hb =>
    simp only [Code.NoWhile] at hw
    have := Cases.get?_noWhile hb hw.1
    simp only [Code.size, Code.size_append]
    exact ⟨this.1.append hw.2.2, by omega⟩
  case whileTrue | whileFalse => simp only [Code.NoWhile] at hw
  all_goals
    simp only [Code.NoWhile] at hw
    simp only [Code.size, Code.size_append]
    first
    | exact ⟨hw, by omega⟩
    | exact ⟨hw.1, by omega⟩
    | exact ⟨hw.2, by omega⟩
    | exact ⟨Code.NoWhile.append hw.1 (by simp only [Code.NoWhile]; exact hw.2), by omega⟩
    | exact ⟨Code.NoWhile.append hw.2.1 hw.2.2, by omega⟩

theorem Code.Run.short {c : Code} {as : List Act} {r : Option Code} (h : Code.Run c as r) (hw : c.NoWhile) : as.length ≤ c.size + 1 := by
  induction h with
  | nil => exact Nat.zero_le _
  | last => exact Nat.le_add_left _ _
  | cons h _ ih =>
    obtain ⟨h1, h2⟩ := h.smaller hw
    have := ih h1
    simp only [List.length_cons]
    omega

/-! ### Jumps between blocks are runs -/

theorem CfgRun.trans {bl p q as bs r} (h : CfgRun bl p as (some q)) (h' : CfgRun bl q bs r) : CfgRun bl p (as ++ bs) r := by
  generalize hq : some q = o at h
  induction h with
  | nil => cases hq; exact h'
  | last => cases hq
  | cons k _ ih => exact .cons k (ih hq)
  | goto k _ ih => exact .goto k (ih hq)

/-- The rest of the statements of a block can be run. -/
theorem CfgRun.stmts {bl : Map BbName BasicBlock} {b : BbName} {bb : BasicBlock} (hb : bl.get? b = some bb) : ∀ {n i : Nat}, i + n = bb.statements.length →
    ∃ as, as.length = n ∧ CfgRun bl (b, i) as (some (b, bb.statements.length))
  | 0, i, h => ⟨[], rfl, by rw [← h]; exact .nil⟩
  | n + 1, i, h => by
    obtain ⟨as, h1, h2⟩ := CfgRun.stmts hb (n := n) (i := i + 1) (by omega)
    exact ⟨_ :: as, by simp [h1], .cons (.stmt ⟨bb, hb, List.getElem?_eq_getElem (show i < bb.statements.length by omega)⟩) h2⟩

/-- The block is empty and goes to the next one. -/
def Skips (bl : Map BbName BasicBlock) (b c : BbName) : Prop := TermAt bl (b, 0) (.goto c)

theorem exists_other (m : Map Int BbName) : ∃ j, m.get? j = none := by
  have key : ∀ m : Map Int BbName, ∃ j : Int, ∀ i ∈ m.keys, i < j := by
    intro m
    induction m with
    | nil => exact ⟨0, nofun⟩
    | cons x m ih =>
      obtain ⟨j, h⟩ := ih
      refine ⟨max j (x.1 + 1), fun i hi => ?_⟩
      rcases List.mem_cons.1 hi with rfl | hi
      · exact Int.lt_of_lt_of_le (Int.lt_add_one_iff.2 (Int.le_refl _)) (Int.le_max_right _ _)
      · have := h i hi; omega
  obtain ⟨j, h⟩ := key m
  refine ⟨j, ?_⟩
  cases hg : m.get? j with
  | none => rfl
  | some b => exact absurd (h j (List.mem_map.2 ⟨_, Map.get?_mem hg, rfl⟩)) (by omega)

theorem Function.Jump.run {f : Function} {b c : BbName} (h : f.Jump b c) :
    Skips f.blocks b c ∨ ∃ as, as ≠ [] ∧ CfgRun f.blocks (b, 0) as (some (c, 0)) := by
  obtain ⟨bb, hb, ht⟩ := h
  obtain ⟨as, hl, hr⟩ := CfgRun.stmts hb (n := bb.statements.length) (i := 0) (by omega)
  have hat : TermAt f.blocks (b, bb.statements.length) bb.terminator := ⟨bb, hb, rfl, rfl⟩
  have vis : ∀ {a}, CfgStep f.blocks (b, bb.statements.length) a (some (c, 0)) →
      ∃ as, as ≠ [] ∧ CfgRun f.blocks (b, 0) as (some (c, 0)) :=
    fun k => ⟨_, by simp, hr.trans (.cons k .nil)⟩
  generalize bb.terminator = t at ht hat
  cases ht with
  | goto =>
    by_cases he : as = []
    · subst he
      simp only [List.length_nil] at hl
      rw [← hl] at hat
      exact .inl hat
    · exact .inr ⟨as ++ [], by simpa using he, hr.trans (.goto hat .nil)⟩
  | case hi => exact .inr (vis (.switchCase hat hi))
  | fallback =>
    obtain ⟨j, hj⟩ := exists_other _
    exact .inr (vis (.switchFallback hat hj))
  | intrinsic => exact .inr (vis (.op hat))
  | next => exact .inr (vis (.callR hat))
  | unwind => exact .inr (vis (.callU hat))
  | startUnwind => exact .inr (vis (.startUnwind hat))
  | stopUnwind => exact .inr (vis (.stopUnwind hat))

theorem Function.Jump.run' {f : Function} {b c : BbName} (h : f.Jump b c) : ∃ as, CfgRun f.blocks (b, 0) as (some (c, 0)) := by
  rcases h.run with h | ⟨as, _, h⟩
  · exact ⟨[], .goto h .nil⟩
  · exact ⟨as, h⟩

theorem Function.Reaches.run {f : Function} {b : BbName} (h : f.Reaches b) : ∃ as, CfgRun f.blocks (f.start, 0) as (some (b, 0)) := by
  induction h with
  | start => exact ⟨[], .nil⟩
  | step _ h1 h2 ih =>
    obtain ⟨as, k⟩ := ih
    obtain ⟨bs, k'⟩ := Function.Jump.run' ⟨_, h1, h2⟩
    exact ⟨_, k.trans k'⟩

theorem jumps_run {f : Function} {b c : BbName} (h : Relation.TransGen f.Jump b c) :
    Relation.TransGen (Skips f.blocks) b c ∨ ∃ as, as ≠ [] ∧ CfgRun f.blocks (b, 0) as (some (c, 0)) := by
  induction h with
  | single h =>
    rcases h.run with h | h
    · exact .inl (.single h)
    · exact .inr h
  | @tail c d h1 h ih =>
    rcases ih with ih | ⟨as, k1, k2⟩
    · rcases h.run with h | ⟨as, k1, k2⟩
      · exact .inl (.tail ih h)
      · right
        have : ∃ bs, CfgRun f.blocks (b, 0) bs (some (c, 0)) := by
          clear h1 h k1 k2
          induction ih with
          | single h => exact ⟨[], .goto h .nil⟩
          | tail _ h ih =>
            obtain ⟨bs, k⟩ := ih
            exact ⟨_, k.trans (.goto h .nil)⟩
        obtain ⟨bs, k⟩ := this
        exact ⟨bs ++ as, by simp [k1], k.trans k2⟩
    · obtain ⟨bs, k⟩ := h.run'
      exact .inr ⟨as ++ bs, by simp [k1], k2.trans k⟩

/-- Nothing happens in a cycle of empty blocks. -/
theorem skips_stuck {bl : Map BbName BasicBlock} {p a r} (h : CfgRun bl p [a] r) : ∀ {b}, p = (b, 0) → ¬ Relation.TransGen (Skips bl) b b := by
  generalize has : [a] = as at h
  induction h with
  | nil => cases has
  | last h =>
    intro b hp hc
    subst hp
    obtain ⟨c, hc, _⟩ := Relation.TransGen.head'_iff.1 hc
    exact absurd (hc.steps.1 h) (by simp [Terminator.Steps])
  | cons h =>
    intro b hp hc
    subst hp
    obtain ⟨c, hc, _⟩ := Relation.TransGen.head'_iff.1 hc
    exact absurd (hc.steps.1 h) (by simp [Terminator.Steps])
  | goto h _ ih =>
    intro b hp hc
    subst hp
    obtain ⟨c, h1, h2⟩ := Relation.TransGen.head'_iff.1 hc
    cases TermAt.inj h h1
    exact ih has rfl (Relation.TransGen.tail' h2 h1)

theorem CfgRun.repeat {bl p as} (h : CfgRun bl p as (some p)) : ∀ n : Nat, ∃ bs, bs.length = n * as.length ∧ CfgRun bl p bs (some p)
  | 0 => ⟨[], by simp, .nil⟩
  | n + 1 => by
    obtain ⟨bs, h1, h2⟩ := h.repeat n
    exact ⟨bs ++ as, by rw [List.length_append, h1, Nat.succ_mul], h2.trans h⟩

/-! ### C91 -/

/-- C91: a function that is built without `while_` has no loops. -/
theorem C91_no_while {decls : List Decl} {code : Code} {f : Function} (h : buildFunction decls code = .ok f) (hw : code.NoWhile) : f.LoopFree := by
  intro b hb hc
  obtain ⟨as, hr⟩ := hb.run
  rcases jumps_run hc with hc | ⟨bs, hne, hc⟩
  · obtain ⟨a, r, ha⟩ := C65_never_stuck h hr
    exact skips_stuck ha rfl hc
  · obtain ⟨cs, h1, h2⟩ := hc.repeat (code.size + 2)
    obtain ⟨c, hrun⟩ := (C65_same_behavior h _).1.1 ⟨_, hr.trans h2⟩
    have hs := hrun.short hw
    have : 0 < bs.length := List.length_pos_iff.2 hne
    have : (code.size + 2) * 1 ≤ (code.size + 2) * bs.length := Nat.mul_le_mul_left _ this
    rw [List.length_append, h1] at hs
    omega

section
variable {M PE AE F : Type} [Target] [DecidableEq PE] [Memory M (AllocId × PE) F] [SoftMem M (AllocId × PE) F] [B : BasicBacked M PE AE F]

include B in

/-- C91: if all functions are built without `while_`, call each other by their names, and none calls itself, directly or through others, then
all executions have ended after a bounded number of steps. -/
theorem C91_structured {prog : Program} (hk : prog.KeysUnique)
    (hb : ∀ name f, prog.functions.get? name = some f → ∃ decls code, buildFunction decls code = .ok f ∧ code.NoWhile)
    (hd : prog.DirectCalls) (hn : prog.NoRecursion) :
    ∃ N, ∀ oracle : List (Choice (AllocId × PE)), ∃ e out err, run M (F := F) N prog oracle = some (e, out, err) :=
  C91_ends (B := B) ⟨hk, fun name f hf => by
    obtain ⟨decls, code, h1, h2⟩ := hb name f hf
    exact C91_no_while h1 h2, hd, hn⟩

end

/-- A function with branches and a handler: `if true { } else { exit() }; try { unwind } catch { }; exit()`. -/
def branchCode : Code :=
  .if_ (.constant (.bool true) .bool) .nil (.halt .exit [] unitPlace .nil)
    (.tryUnwind (.constant (.int 0) (.int ⟨.unsigned, 8⟩)) .nil (.halt .exit [] unitPlace .nil))

/-- The conditions of `C91_structured` are met. -/
example : ∃ f, buildFunction [] branchCode = .ok f ∧ branchCode.NoWhile ∧
    let prog : Program := { functions := [(0, f)], start := 0, globals := [], traits := [], vtables := [] }
    prog.KeysUnique ∧ prog.DirectCalls ∧ prog.NoRecursion := by
  have hb : (match buildFunction [] branchCode with | .ok f => f.blocks.all fun x => x.2.terminator.callee.isNone | .error _ => false) = true := by
    decide +kernel
  cases h : buildFunction [] branchCode with
  | error e => rw [h] at hb; cases hb
  | ok f =>
    rw [h] at hb
    have hb : ∀ b bb, f.blocks.get? b = some bb → bb.terminator.callee = none :=
      fun b bb hg => Option.isNone_iff_eq_none.1 (List.all_eq_true.1 hb (b, bb) (Map.get?_mem hg))
    have hf : ∀ {name g}, Map.get? [(0, f)] name = some g → g = f := by
      intro name g hg
      have : (name, g) ∈ [(0, f)] := Map.get?_mem hg
      exact (Prod.mk.inj (List.mem_singleton.1 this)).2
    refine ⟨f, rfl, by simp [branchCode, Code.if_, Code.NoWhile, Cases.NoWhile], ⟨List.nodup_nil, List.nodup_singleton _, List.nodup_nil⟩, ?_, ?_⟩
    · intro name g b bb c h1 h2 h3
      cases hf h1
      rw [hb b bb h2] at h3; cases h3
    · refine Program.NoRecursion.of_lt fun x hx g ⟨b, bb, ty, h2, h3⟩ => ?_
      cases List.mem_singleton.1 (show x ∈ [(0, f)] from hx)
      rw [hb b bb h2] at h3; cases h3

end MiniRust
