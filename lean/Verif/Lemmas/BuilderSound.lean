import Verif.Lemmas.Builder
/-
Whatever is built from a structured program lies in the blocks as it should.
-/
namespace MiniRust
open FnBuilder

def Cases.toList : Cases → List (Int × Code)
  | .nil => []
  | .cons i body rest => (i, body) :: rest.toList

theorem Cases.values_eq : ∀ cs : Cases, cs.values = cs.toList.map (·.1)
  | .nil => rfl
  | .cons i b rest => by simp [Cases.values, Cases.toList, Cases.values_eq rest]

theorem Cases.builders_eq : ∀ cs : Cases, cs.builders = cs.toList.map fun e => (e.1, e.2.build)
  | .nil => by simp [Cases.builders, Cases.toList]
  | .cons i b rest => by simp [Cases.builders, Cases.toList, Cases.builders_eq rest]

theorem Cases.laid_iff {bl m after} : ∀ cs : Cases, cs.Laid bl m after ↔
    ∀ e ∈ cs.toList, ∃ n o, Map.get? m e.1 = some n ∧ e.2.Laid bl (n, 0) o ∧ Joins bl o after
  | .nil => by simp [Cases.Laid, Cases.toList]
  | .cons i b rest => by
    simp only [Cases.Laid, Cases.toList, List.forall_mem_cons]
    rw [Cases.laid_iff rest]

theorem Cases.flow_eq : ∀ cs : Cases, (cs.flow.isSome = true ↔ ∀ e ∈ cs.toList, e.2.flow.isSome = true) ∧
    ∀ a, cs.flow = some a → a = cs.toList.any fun e => e.2.flow == some true
  | .nil => by simp [Cases.flow, Cases.toList]
  | .cons i b rest => by
    obtain ⟨h1, h2⟩ := Cases.flow_eq rest
    simp only [Cases.flow, Cases.toList, List.forall_mem_cons, List.any_cons]
    cases hb : b.flow with
    | none => simp
    | some x =>
      cases hr : rest.flow with
      | none => rw [hr] at h1; simp at h1; simpa using h1
      | some y =>
        rw [hr] at h1
        refine ⟨by simpa using h1, fun a ha => ?_⟩
        simp only [Option.some.injEq] at ha
        rw [← ha, ← h2 y hr]
        cases x <;> simp

variable [T : Target]

theorem Cases.checked_iff {prog : Program} {f : Function} {k : BbKind} : ∀ cs : Cases, cs.Checked prog f k ↔
    ∀ e ∈ cs.toList, e.2.Checked prog f k
  | .nil => by simp [Cases.Checked, Cases.toList]
  | .cons i b rest => by
    simp only [Cases.Checked, Cases.toList, List.forall_mem_cons]
    rw [Cases.checked_iff rest]

def Code.piece (c : Code) : Piece := ⟨c.build, c.flow, c.Laid, fun prog f k => c.Checked prog f k⟩

namespace FnBuilder

theorem handler_cur {b b' : FnBuilder} {k g u} (h : b.handlerBlock k g = .ok (u, b')) : b'.cur = b.cur := by
  simp only [handlerBlock, declareBlock, Res.bind_eq_ok] at h
  obtain ⟨_, _, _, _, h⟩ := h
  split at h
  · cases h
  · cases h; rfl

omit T in
theorem handleCall_cur {b b' : FnBuilder} {r g a c n u} (h : b.handleCall r g a c n u = .ok b') : b.cur ≠ none := by
  simp only [handleCall, curBlock, Res.bind_eq_ok, unwrap_eq_ok] at h
  obtain ⟨_, h, _⟩ := h
  rw [h]; simp

omit T in
theorem finish_cur {b b' : FnBuilder} {t} (h : b.finishBlock t = .ok b') : b.cur ≠ none := by
  obtain ⟨cb, h, _⟩ := finishBlock_eq_ok.mp h
  rw [h]; simp

/-- Nothing can follow a finished block. -/
theorem build_none {c : Code} {b b' : FnBuilder} (h : c.build b = .ok b') (hc : b.cur = none) : c = .nil ∧ b' = b := by
  cases c with
  | nil => unfold Code.build at h; cases h; exact ⟨rfl, rfl⟩
  | stmt s rest =>
    simp only [Code.build, Res.bind_eq_ok, statement_eq_ok] at h
    obtain ⟨_, ⟨_, h, _⟩, _⟩ := h
    rw [hc] at h; cases h
  | op o a r rest =>
    simp only [Code.build, Res.bind_eq_ok, intrinsic, finishWithNextBlock, curBlock, unwrap_eq_ok] at h
    obtain ⟨_, ⟨_, h, _⟩, _⟩ := h
    rw [hc] at h; cases h
  | halt | unreachable | ret | resume =>
    simp only [Code.build, Res.bind_eq_ok] at h
    obtain ⟨_, h, _⟩ := h
    exact absurd hc (finish_cur h)
  | callNoret =>
    simp only [Code.build, Res.bind_eq_ok, callNoret] at h
    obtain ⟨_, h, _⟩ := h
    exact absurd hc (handleCall_cur h)
  | callNounwind =>
    simp only [Code.build, Res.bind_eq_ok, callNounwind, declareBlock] at h
    obtain ⟨_, h, _⟩ := h
    exact absurd (show ({ b with nextBlock := b.nextBlock + 1 } : FnBuilder).cur = none from hc) (handleCall_cur h)
  | call =>
    simp only [Code.build, Res.bind_eq_ok, callWithConv, declareBlock] at h
    obtain ⟨⟨_, b1⟩, h1, _, h, _⟩ := h
    refine absurd ?_ (handleCall_cur h)
    exact (handler_cur h1).trans hc
  | tryCall =>
    simp only [Code.build, Res.bind_eq_ok, callWithConv, declareBlock] at h
    obtain ⟨⟨_, b1⟩, h1, _, h, _⟩ := h
    refine absurd ?_ (handleCall_cur h)
    exact (handler_cur h1).trans hc
  | startUnwind =>
    simp only [Code.build, Res.bind_eq_ok, startUnwind] at h
    obtain ⟨⟨_, b1⟩, h1, _, h, _⟩ := h
    refine absurd ?_ (finish_cur h)
    exact (handler_cur h1).trans hc
  | tryUnwind =>
    simp only [Code.build, Res.bind_eq_ok, startUnwind, declareBlock] at h
    obtain ⟨⟨_, b1⟩, h1, _, h, _⟩ := h
    refine absurd ?_ (finish_cur h)
    exact (handler_cur h1).trans hc
  | stop => unfold Code.build at h; cases h
  | switch =>
    simp only [Code.build, Res.bind_eq_ok, switchInt, curBlock, unwrap_eq_ok] at h
    obtain ⟨_, ⟨_, h, _⟩, _⟩ := h
    rw [hc] at h; cases h
  | while_ =>
    simp only [Code.build, Res.bind_eq_ok, while_, declareBlock, curBlock, unwrap_eq_ok] at h
    obtain ⟨_, ⟨_, h, _⟩, _⟩ := h
    rw [hc] at h; cases h

/-- Going on after a step that finished a block and started another. -/
theorem then_rest {b b1 b' : FnBuilder} {rest : Code} {cb cb1 : CurBlock} (hS : rest.piece.Sound)
    (g1 : Grow b b1) (c1 : b1.cur = some cb1) (hk : cb1.kind = cb.kind) (h : rest.build b1 = .ok b') :
    rest.flow = some b'.cur.isSome ∧ Grow b b' ∧
    (∀ bl, Ext bl b' → Ext bl b1 ∧ rest.Laid bl cb1.pos (b'.cur.map CurBlock.pos)) ∧
    ∀ prog f, Ext f.blocks b' → rest.Checked prog f cb.kind → Fine prog f b1 →
      Fine prog f b' ∧ ∀ cb', b'.cur = some cb' → cb'.kind = cb.kind := by
  obtain ⟨hf, g2, l2, f2⟩ := hS b1 b' cb1 c1 h
  refine ⟨hf, g1.trans g2, fun bl he => ⟨g2.ext bl he, l2 bl he⟩, fun prog f he hC hF => ?_⟩
  rw [← hk] at hC ⊢
  exact f2 prog f he hC hF

/-- A step that ends the code. -/
theorem then_end {b b' : FnBuilder} {rest : Code} {t : Terminator} {cb : CurBlock} (hc : b.cur = some cb)
    (h : (do let b ← b.finishBlock t; rest.build b) = .ok b') :
    rest = .nil ∧ b'.cur = none ∧ Grow b b' ∧ (∀ bl, Ext bl b' → TermAt bl cb.pos t) ∧
    ∀ prog f, Fine prog f b → t.checkWf prog f cb.kind = .ok () → Fine prog f b' := by
  simp only [Res.bind_eq_ok] at h
  obtain ⟨b1, h1, h2⟩ := h
  obtain ⟨c1, g1, t1, f1⟩ := finish_spec hc h1
  obtain ⟨rfl, rfl⟩ := build_none h2 c1
  exact ⟨rfl, c1, g1, t1, f1⟩

theorem intrinsic_ok {prog : Program} {f : Function} {o a r} {k : BbKind} {n : BbName} (h : IntrinsicOk prog f o a r)
    (hk : HasKind f.blocks n k) : (Terminator.intrinsic o a r (some n)).checkWf prog f k = .ok () := by
  obtain ⟨blk, hb, rfl⟩ := hk
  unfold IntrinsicOk at h
  simp only [Terminator.checkWf, Res.bind_eq_ok] at h ⊢
  obtain ⟨x, h1, y, h2, z, h3, w, h4, v, h5, h6⟩ := h
  exact ⟨x, h1, y, h2, z, h3, w, h4, v, h5, by simp [Function.checkNextOpt, Function.checkNextBlock, hb]⟩

theorem intrinsic_ok' {prog : Program} {f : Function} {o a r} {k : BbKind} (h : IntrinsicOk prog f o a r) :
    (Terminator.intrinsic o a r none).checkWf prog f k = .ok () := by
  unfold IntrinsicOk at h
  simp only [Terminator.checkWf, Res.bind_eq_ok] at h ⊢
  exact h

theorem call_ok {prog : Program} {f : Function} {g c a r} {k : BbKind} {n u : Option BbName} (h : CallOk prog f ⟨g, c, a, r⟩)
    (hn : f.checkNextOpt k n = .ok ()) (hu : f.checkUnwindOpt k u = .ok ()) :
    (Terminator.call g c a r n u).checkWf prog f k = .ok () := by
  unfold CallOk at h
  simp only [Terminator.checkWf, Res.bind_eq_ok] at h ⊢
  obtain ⟨x, h1, y, h2, z, h3, w, h4, v, h5, t, h6, _⟩ := h
  exact ⟨x, h1, y, h2, z, h3, w, h4, v, h5, t, h6, (), hn, hu⟩

omit T in
theorem nextOpt_ok {f : Function} {k : BbKind} {n : BbName} (h : HasKind f.blocks n k) : f.checkNextOpt k (some n) = .ok () := by
  obtain ⟨blk, hb, rfl⟩ := h
  simp [Function.checkNextOpt, Function.checkNextBlock, hb]

omit T in
theorem unwind_ok {f : Function} {k h : BbKind} {n : BbName} (hk : HasKind f.blocks n h) (hh : HandlerOk k h) :
    f.checkUnwindBlock k n = .ok () := by
  obtain ⟨blk, hb, rfl⟩ := hk
  obtain ⟨rfl, h | h⟩ | ⟨rfl | rfl, h⟩ := hh <;> simp [Function.checkUnwindBlock, hb, h]

theorem startUnwind_ok {prog : Program} {f : Function} {e : ValueExpr} {n : BbName} {h : BbKind}
    (he : e.checkWf prog f.locals = .ok (.ptr (.raw .none))) (hk : HasKind f.blocks n h) (hh : HandlerOk .regular h) :
    (Terminator.startUnwind e n).checkWf prog f .regular = .ok () := by
  simp [Terminator.checkWf, he, unwind_ok hk hh]

/-- The catch block of `tryCall` and `tryUnwind`. -/
def catchPiece (c : Code) (cont : BbName) : Piece where
  g := fun b => do
    let b ← c.build b
    if b.cur.isSome then b.stopUnwind cont else .ok b
  flow := c.flow.map fun _ => false
  L := fun bl p out => out = none ∧ ∃ o, c.Laid bl p o ∧ ∀ q, o = some q → TermAt bl q (.stopUnwind cont)
  C := fun prog f k => k = .catch ∧ c.Checked prog f .catch ∧ HasKind f.blocks cont .regular

theorem catch_sound {c : Code} {cont : BbName} (hS : c.piece.Sound) : (catchPiece c cont).Sound := by
  intro b b' cb hc h
  simp only [catchPiece, Res.bind_eq_ok] at h ⊢
  obtain ⟨b1, h1, h2⟩ := h
  obtain ⟨hf, g1, l1, f1⟩ := hS b b1 cb hc h1
  simp only [Code.piece] at hf l1 f1
  split at h2
  · rename_i hsome
    obtain ⟨cb1, hcb1⟩ := Option.isSome_iff_exists.mp hsome
    obtain ⟨c2, g2, t2, f2⟩ := finish_spec hcb1 h2
    refine ⟨by rw [hf, c2]; rfl, g1.trans g2, fun bl he => ⟨by rw [c2]; rfl, _, l1 bl (g2.ext bl he), fun q hq => ?_⟩, ?_⟩
    · rw [hcb1] at hq; cases hq; exact t2 bl he
    · rintro prog f he ⟨hk, hC, blk, hb, hcont⟩ hF
      rw [← hk] at hC
      obtain ⟨hF1, hk1⟩ := f1 prog f (g2.ext _ he) hC hF
      refine ⟨f2 prog f hF1 ?_, fun cb' h => by rw [c2] at h; cases h⟩
      rw [hk1 cb1 hcb1, hk]
      simp [Terminator.checkWf, Function.checkNextBlock, hb, hcont]
  · rename_i hns
    have hcn : b1.cur = none := by cases h : b1.cur <;> simp_all
    cases h2
    refine ⟨by rw [hf, hcn]; rfl, g1, fun bl he => ⟨by rw [hcn]; rfl, _, l1 bl he, fun q hq => by rw [hcn] at hq; cases hq⟩, ?_⟩
    rintro prog f he ⟨hk, hC, _⟩ hF
    rw [← hk] at hC
    exact f1 prog f he hC hF

/-- The body of `while_`. -/
def bodyPiece (c : Code) (cond : BbName) : Piece where
  g := fun b => do
    let b ← c.build b
    if b.cur.isSome then b.goto cond else .ok b
  flow := c.flow.map fun _ => false
  L := fun bl p out => out = none ∧ ∃ o, c.Laid bl p o ∧ ∀ q, o = some q → TermAt bl q (.goto cond)
  C := fun prog f k => c.Checked prog f k ∧ HasKind f.blocks cond k

theorem body_sound {c : Code} {cond : BbName} (hS : c.piece.Sound) : (bodyPiece c cond).Sound := by
  intro b b' cb hc h
  simp only [bodyPiece, Res.bind_eq_ok] at h ⊢
  obtain ⟨b1, h1, h2⟩ := h
  obtain ⟨hf, g1, l1, f1⟩ := hS b b1 cb hc h1
  simp only [Code.piece] at hf l1 f1
  split at h2
  · rename_i hsome
    obtain ⟨cb1, hcb1⟩ := Option.isSome_iff_exists.mp hsome
    obtain ⟨c2, g2, t2, f2⟩ := finish_spec hcb1 h2
    refine ⟨by rw [hf, c2]; rfl, g1.trans g2, fun bl he => ⟨by rw [c2]; rfl, _, l1 bl (g2.ext bl he), fun q hq => ?_⟩, ?_⟩
    · rw [hcb1] at hq; cases hq; exact t2 bl he
    · rintro prog f he ⟨hC, hcond⟩ hF
      obtain ⟨hF1, hk1⟩ := f1 prog f (g2.ext _ he) hC hF
      refine ⟨f2 prog f hF1 (goto_ok ?_), fun cb' h => by rw [c2] at h; cases h⟩
      rw [hk1 cb1 hcb1]; exact hcond
  · rename_i hns
    have hcn : b1.cur = none := by cases h : b1.cur <;> simp_all
    cases h2
    refine ⟨by rw [hf, hcn]; rfl, g1, fun bl he => ⟨by rw [hcn]; rfl, _, l1 bl he, fun q hq => by rw [hcn] at hq; cases hq⟩, ?_⟩
    rintro prog f he ⟨hC, _⟩ hF
    exact f1 prog f he hC hF

def skipPiece : Piece where
  g := fun b => .ok b
  flow := some true
  L := fun _ p out => out = some p
  C := fun _ _ _ => True

theorem skip_sound : skipPiece.Sound := by
  intro b b' cb hc h
  cases h
  refine ⟨by rw [hc]; rfl, .refl _, fun bl _ => by rw [hc]; rfl, fun prog f _ _ hF => ⟨hF, fun cb' h => ?_⟩⟩
  rw [hc] at h; cases h; rfl

end FnBuilder

open FnBuilder

mutual
theorem Code.sound : (c : Code) → c.piece.Sound
  | .nil => by
    intro b b' cb hc h
    simp only [Code.piece, Code.build] at h
    cases h
    refine ⟨by simp [Code.piece, Code.flow, hc], .refl _, fun bl _ => ?_, fun prog f _ _ hF => ⟨hF, fun cb' h => ?_⟩⟩
    · simp [Code.piece, Code.Laid, hc]
    · rw [hc] at h; cases h; rfl
  | .stmt s rest => by
    intro b b' cb hc h
    simp only [Code.piece, Code.build, Res.bind_eq_ok] at h
    obtain ⟨b1, h1, h2⟩ := h
    obtain ⟨c1, g1, t1, f1⟩ := statement_spec hc h1
    obtain ⟨hf, g, hl, hF⟩ := then_rest (cb := cb) (Code.sound rest) g1 c1 rfl h2
    refine ⟨by simpa only [Code.piece, Code.flow] using hf, g, fun bl he => ?_, fun prog f he hC hb => ?_⟩
    · obtain ⟨he1, hl⟩ := hl bl he
      simp only [Code.piece, Code.Laid]
      refine ⟨t1 bl he1, ?_⟩
      simpa [CurBlock.pos] using hl
    · simp only [Code.piece, Code.Checked] at hC
      exact hF prog f he hC.2 (f1 prog f hb hC.1)
  | .op o a r rest => by
    intro b b' cb hc h
    simp only [Code.piece, Code.build, Res.bind_eq_ok, intrinsic] at h
    obtain ⟨b1, h1, h2⟩ := h
    obtain ⟨n, c1, g1, t1, f1⟩ := next_spec hc h1
    obtain ⟨hf, g, hl, hF⟩ := then_rest (cb := cb) (Code.sound rest) g1 c1 rfl h2
    refine ⟨by simpa only [Code.piece, Code.flow] using hf, g, fun bl he => ?_, fun prog f he hC hb => ?_⟩
    · obtain ⟨he1, hl⟩ := hl bl he
      simp only [Code.piece, Code.Laid]
      exact ⟨n, (t1 bl he1).1, hl⟩
    · simp only [Code.piece, Code.Checked] at hC
      exact hF prog f he hC.2 (f1 prog f hb (intrinsic_ok hC.1 (t1 _ (hl _ he).1).2))
  | .halt o a r rest => by
    intro b b' cb hc h
    simp only [Code.piece, Code.build] at h
    obtain ⟨rfl, c1, g1, t1, f1⟩ := then_end hc h
    refine ⟨by simp [Code.piece, Code.flow, Code.isNil, c1], g1, fun bl he => ?_, fun prog f he hC hb => ?_⟩
    · simp only [Code.piece, Code.Laid, c1]; exact ⟨t1 bl he, rfl⟩
    · simp only [Code.piece, Code.Checked] at hC
      exact ⟨f1 prog f hb (intrinsic_ok' hC), fun cb' h => by rw [c1] at h; cases h⟩
  | .unreachable rest => by
    intro b b' cb hc h
    simp only [Code.piece, Code.build] at h
    obtain ⟨rfl, c1, g1, t1, f1⟩ := then_end hc h
    refine ⟨by simp [Code.piece, Code.flow, Code.isNil, c1], g1, fun bl he => ?_, fun prog f he hC hb => ?_⟩
    · simp only [Code.piece, Code.Laid, c1]; exact ⟨t1 bl he, rfl⟩
    · exact ⟨f1 prog f hb (by simp [Terminator.checkWf]), fun cb' h => by rw [c1] at h; cases h⟩
  | .ret rest => by
    intro b b' cb hc h
    simp only [Code.piece, Code.build] at h
    obtain ⟨rfl, c1, g1, t1, f1⟩ := then_end hc h
    refine ⟨by simp [Code.piece, Code.flow, Code.isNil, c1], g1, fun bl he => ?_, fun prog f he hC hb => ?_⟩
    · simp only [Code.piece, Code.Laid, c1]; exact ⟨t1 bl he, rfl⟩
    · simp only [Code.piece, Code.Checked] at hC
      exact ⟨f1 prog f hb (by simp [Terminator.checkWf, hC]), fun cb' h => by rw [c1] at h; cases h⟩
  | .resume rest => by
    intro b b' cb hc h
    simp only [Code.piece, Code.build] at h
    obtain ⟨rfl, c1, g1, t1, f1⟩ := then_end hc h
    refine ⟨by simp [Code.piece, Code.flow, Code.isNil, c1], g1, fun bl he => ?_, fun prog f he hC hb => ?_⟩
    · simp only [Code.piece, Code.Laid, c1]; exact ⟨t1 bl he, rfl⟩
    · simp only [Code.piece, Code.Checked] at hC
      exact ⟨f1 prog f hb (by simp [Terminator.checkWf, hC]), fun cb' h => by rw [c1] at h; cases h⟩
  | .callNoret r g a rest => by
    intro b b' cb hc h
    simp only [Code.piece, Code.build, callNoret, handleCall, curBlock, hc, unwrap, Res.bind_ok] at h
    obtain ⟨rfl, c1, g1, t1, f1⟩ := then_end (rest := rest) (b' := b') hc (by simpa [Res.bind_eq_ok] using h)
    refine ⟨by simp [Code.piece, Code.flow, Code.isNil, c1], g1, fun bl he => ?_, fun prog f he hC hb => ?_⟩
    · simp only [Code.piece, Code.Laid, c1]; exact ⟨t1 bl he, rfl⟩
    · simp only [Code.piece, Code.Checked] at hC
      exact ⟨f1 prog f hb (call_ok hC rfl rfl), fun cb' h => by rw [c1] at h; cases h⟩
  | .callNounwind r g a rest => by
    intro b b' cb hc h
    simp only [Code.piece, Code.build, Res.bind_eq_ok, callNounwind, declareBlock] at h
    obtain ⟨b1, h1, h2⟩ := h
    obtain ⟨c1, g1, t1, f1⟩ := call_spec (b := { b with nextBlock := b.nextBlock + 1 }) hc h1
    obtain ⟨hf, g, hl, hF⟩ := then_rest (cb := cb) (Code.sound rest) ((grow_next b _).trans g1) c1 rfl h2
    refine ⟨by simpa only [Code.piece, Code.flow] using hf, g, fun bl he => ?_, fun prog f he hC hb => ?_⟩
    · obtain ⟨he1, hl⟩ := hl bl he
      simp only [Code.piece, Code.Laid]
      exact ⟨_, (t1 bl he1).1, hl⟩
    · simp only [Code.piece, Code.Checked] at hC
      exact hF prog f he hC.2 (f1 prog f hb (call_ok hC.1 (nextOpt_ok (t1 _ (hl _ he).1).2) rfl))
  | .call c k handler rest => by
    intro b b' cb hc h
    simp only [Code.piece, Code.build, Res.bind_eq_ok, callWithConv, declareBlock] at h
    obtain ⟨⟨u, b0⟩, h0, b1, h1, h2⟩ := h
    obtain ⟨hf0, c0, g0, l0, f0⟩ := handler_spec (P := handler.piece) (Code.sound handler) h0
    rw [hc] at c0
    obtain ⟨c1, g1, t1, f1⟩ := call_spec (b := { b0 with nextBlock := b0.nextBlock + 1 }) c0 h1
    obtain ⟨hf, g, hl, hF⟩ := then_rest (cb := cb) (Code.sound rest) (g0.trans ((grow_next b0 _).trans g1)) c1 rfl h2
    have back : ∀ bl, Ext bl b' → Ext bl b0 := fun bl he => g1.ext bl (hl bl he).1
    simp only [Code.piece] at hf0
    refine ⟨by simp only [Code.piece, Code.flow, hf0, if_true, hf], g, fun bl he => ?_, fun prog f he hC hb => ?_⟩
    · obtain ⟨he1, hl⟩ := hl bl he
      simp only [Code.piece, Code.Laid]
      exact ⟨_, u, (t1 bl he1).1, (l0 bl (back bl he)).1, hl⟩
    · simp only [Code.piece, Code.Checked] at hC
      refine hF prog f he hC.2.2.2 (f1 prog f (f0 prog f (back _ he) hC.2.2.1 hb) ?_)
      exact call_ok hC.1 (nextOpt_ok (t1 _ (hl _ he).1).2) (unwind_ok (l0 _ (back _ he)).2 hC.2.1)
  | .tryCall c handler rest => by
    intro b b' cb hc h
    simp only [Code.piece, Code.build, Res.bind_eq_ok, callWithConv, declareBlock, goto] at h
    obtain ⟨⟨u, b0⟩, h0, b1, h1, b2, h2, b3, h3, h4⟩ := h
    obtain ⟨hf0, c0, g0, l0, f0⟩ := handler_spec (P := catchPiece handler b.nextBlock) (catch_sound (Code.sound handler)) h0
    rw [show ({ b with nextBlock := b.nextBlock + 1 } : FnBuilder).cur = some cb from hc] at c0
    obtain ⟨c1, g1, t1, f1⟩ := call_spec (b := { b0 with nextBlock := b0.nextBlock + 1 }) c0 h1
    obtain ⟨c2, g2, t2, f2⟩ := finish_spec c1 h2
    obtain ⟨_, c3, g3, t3, f3⟩ := set_spec h3
    obtain ⟨hf4, g4, l4, f4⟩ := Code.sound rest b3 b' _ c3 h4
    simp only [Code.piece] at hf4 l4 f4
    simp only [catchPiece] at hf0 l0 f0
    have e3 : ∀ bl, Ext bl b' → Ext bl b3 := g4.ext
    have e2 : ∀ bl, Ext bl b' → Ext bl b2 := fun bl he => g3.ext bl (e3 bl he)
    have e1 : ∀ bl, Ext bl b' → Ext bl b1 := fun bl he => g2.ext bl (e2 bl he)
    have e0 : ∀ bl, Ext bl b' → Ext bl b0 := fun bl he => g1.ext bl (e1 bl he)
    have hfl : handler.flow.isSome = true := by cases h : handler.flow <;> simp_all
    refine ⟨by simp only [Code.piece, Code.flow, hfl, if_true, hf4],
      (grow_next b _).trans (g0.trans ((grow_next b0 _).trans (g1.trans (g2.trans (g3.trans g4))))), fun bl he => ?_,
      fun prog f he hC hb => ?_⟩
    · simp only [Code.piece, Code.Laid]
      obtain ⟨⟨_, o, hlo, hq⟩, _⟩ := l0 bl (e0 bl he)
      exact ⟨_, u, _, o, (t1 bl (e1 bl he)).1, t2 bl (e2 bl he), hlo, hq, l4 bl he⟩
    · simp only [Code.piece, Code.Checked] at hC
      obtain ⟨hcall, hk, hh, hr⟩ := hC
      have hcont := t3 _ (e3 _ he)
      have hF0 := f0 prog f (e0 _ he) ⟨trivial, hh, hcont⟩ (fine_next hb)
      rw [hk] at f1 f2 t1
      have hF1 := f1 prog f hF0 (call_ok hcall (nextOpt_ok (t1 _ (e1 _ he)).2)
        (unwind_ok (l0 _ (e0 _ he)).2 (.inl ⟨rfl, .inr rfl⟩)))
      have hF2 := f2 prog f hF1 (goto_ok hcont)
      obtain ⟨hF4, hk4⟩ := f4 prog f he hr (f3 prog f hF2)
      exact ⟨hF4, fun cb' h => (hk4 cb' h).trans hk.symm⟩
  | .startUnwind e k handler rest => by
    intro b b' cb hc h
    simp only [Code.piece, Code.build, Res.bind_eq_ok, startUnwind] at h
    obtain ⟨⟨u, b0⟩, h0, b1, h1, h2⟩ := h
    obtain ⟨hf0, c0, g0, l0, f0⟩ := handler_spec (P := handler.piece) (Code.sound handler) h0
    rw [hc] at c0
    obtain ⟨rfl, c1, g1, t1, f1⟩ := then_end (rest := rest) (b' := b') c0 (by simp only [Res.bind_eq_ok]; exact ⟨b1, h1, h2⟩)
    simp only [Code.piece] at hf0
    refine ⟨by simp [Code.piece, Code.flow, Code.isNil, c1, hf0], g0.trans g1, fun bl he => ?_, fun prog f he hC hb => ?_⟩
    · simp only [Code.piece, Code.Laid, c1]; exact ⟨u, t1 bl he, (l0 bl (g1.ext bl he)).1, rfl⟩
    · simp only [Code.piece, Code.Checked] at hC
      obtain ⟨hp, hk, hh, hC⟩ := hC
      refine ⟨f1 prog f (f0 prog f (g1.ext _ he) hC hb) ?_, fun cb' h => by rw [c1] at h; cases h⟩
      rw [hk] at hh ⊢
      exact startUnwind_ok hp (l0 _ (g1.ext _ he)).2 hh
  | .tryUnwind e handler rest => by
    intro b b' cb hc h
    simp only [Code.piece, Code.build, Res.bind_eq_ok, startUnwind, declareBlock] at h
    obtain ⟨⟨u, b0⟩, h0, b2, h2, b3, h3, h4⟩ := h
    obtain ⟨hf0, c0, g0, l0, f0⟩ := handler_spec (P := catchPiece handler b.nextBlock) (catch_sound (Code.sound handler)) h0
    rw [show ({ b with nextBlock := b.nextBlock + 1 } : FnBuilder).cur = some cb from hc] at c0
    obtain ⟨c2, g2, t2, f2⟩ := finish_spec c0 h2
    obtain ⟨_, c3, g3, t3, f3⟩ := set_spec h3
    obtain ⟨hf4, g4, l4, f4⟩ := Code.sound rest b3 b' _ c3 h4
    simp only [Code.piece] at hf4 l4 f4
    simp only [catchPiece] at hf0 l0 f0
    have e3 : ∀ bl, Ext bl b' → Ext bl b3 := g4.ext
    have e2 : ∀ bl, Ext bl b' → Ext bl b2 := fun bl he => g3.ext bl (e3 bl he)
    have e0 : ∀ bl, Ext bl b' → Ext bl b0 := fun bl he => g2.ext bl (e2 bl he)
    have hfl : handler.flow.isSome = true := by cases h : handler.flow <;> simp_all
    refine ⟨by simp only [Code.piece, Code.flow, hfl, if_true, hf4],
      (grow_next b _).trans (g0.trans (g2.trans (g3.trans g4))), fun bl he => ?_,
      fun prog f he hC hb => ?_⟩
    · simp only [Code.piece, Code.Laid]
      obtain ⟨⟨_, o, hlo, hq⟩, _⟩ := l0 bl (e0 bl he)
      exact ⟨u, _, o, t2 bl (e2 bl he), hlo, hq, l4 bl he⟩
    · simp only [Code.piece, Code.Checked] at hC
      obtain ⟨hp, hk, hh, hr⟩ := hC
      have hcont := t3 _ (e3 _ he)
      have hF0 := f0 prog f (e0 _ he) ⟨trivial, hh, hcont⟩ (fine_next hb)
      rw [hk] at f2
      have hF2 := f2 prog f hF0 (startUnwind_ok hp (l0 _ (e0 _ he)).2 (.inl ⟨rfl, .inr rfl⟩))
      obtain ⟨hF4, hk4⟩ := f4 prog f he hr (f3 prog f hF2)
      exact ⟨hF4, fun cb' h => (hk4 cb' h).trans hk.symm⟩
  | .stop rest => by
    intro b b' cb hc h
    simp only [Code.piece, Code.build] at h
    cases h
  | .switch v cases fallback rest => by
    intro b b' cb hc h
    simp only [Code.piece, Code.build, Res.bind_eq_ok, Cases.builders_eq] at h
    obtain ⟨b1, h1, h2⟩ := h
    have hS := Cases.sound cases
    obtain ⟨hnd, hfl, hfF, hcur, hcb, g1, l1, f1⟩ := switch_spec (cases := cases.toList.map fun e => (e.1, e.2.piece))
      (F := fallback.piece) hc (by simpa [Code.piece, Function.comp_def] using h1)
      (by
        intro e he
        obtain ⟨e', he', rfl⟩ := List.mem_map.mp he
        exact hS e' he') (Code.sound fallback)
    simp only [List.map_map, Function.comp_def, List.any_map, Code.piece, List.forall_mem_map] at hnd hfl hfF hcur l1 f1
    rw [← Cases.values_eq] at hnd l1
    obtain ⟨fa, hfa⟩ := Option.isSome_iff_exists.mp ((Cases.flow_eq cases).1.mpr hfl)
    obtain ⟨ff, hff⟩ := Option.isSome_iff_exists.mp hfF
    have hfa' := (Cases.flow_eq cases).2 fa hfa
    have hcur' : b1.cur.isSome = (fa || ff) := by
      rw [hcur, hfa', hff]; cases ff <;> simp
    have hfloweq : ∀ (hx : (fa || ff) = true), (Code.switch v cases fallback rest).flow = rest.flow := by
      intro hx; simp [Code.flow, hfa, hff, hnd, hx]
    cases hc1 : b1.cur with
    | none =>
      obtain ⟨rfl, rfl⟩ := build_none h2 hc1
      rw [hc1] at l1 hcur'
      have hx : (fa || ff) = false := hcur'.symm
      refine ⟨by simp [Code.piece, Code.flow, hfa, hff, hnd, hx, Code.isNil, hc1], g1, fun bl he => ?_,
        fun prog f he hC hb => ?_⟩
      · obtain ⟨m, fb, o, ht, hm, hcs, hF, hj⟩ := l1 bl he
        simp only [Code.piece, Code.Laid, hc1]
        exact ⟨m, fb, none, o, ht, hm, (Cases.laid_iff cases).mpr hcs, hF, hj, fun _ => rfl, fun _ h => by cases h⟩
      · simp only [Code.piece, Code.Checked] at hC
        obtain ⟨⟨ity, hv, hr⟩, hCc, hCf, _⟩ := hC
        rw [Cases.values_eq] at hr
        refine ⟨f1 prog f he ⟨ity, hv, fun e he => hr e.1 (List.mem_map_of_mem he)⟩ ((Cases.checked_iff cases).mp hCc) hCf hb,
          fun cb' h => by rw [hc1] at h; cases h⟩
    | some cb1 =>
      rw [hc1] at l1 hcur'
      have hx : (fa || ff) = true := hcur'.symm
      obtain ⟨hk1, hs1⟩ := hcb cb1 hc1
      obtain ⟨hf, g, hl, hF⟩ := then_rest (cb := cb) (Code.sound rest) g1 hc1 hk1 h2
      refine ⟨by simp only [Code.piece]; rw [hfloweq hx, hf], g, fun bl he => ?_, fun prog f he hC hb => ?_⟩
      · obtain ⟨he1, hl⟩ := hl bl he
        obtain ⟨m, fb, o, ht, hm, hcs, hF, hj⟩ := l1 bl he1
        simp only [Code.piece, Code.Laid]
        refine ⟨m, fb, some cb1.name, o, ht, hm, (Cases.laid_iff cases).mpr hcs, hF, hj, fun h => (by cases h), fun a h => ?_⟩
        cases h
        simpa [CurBlock.pos, hs1] using hl
      · simp only [Code.piece, Code.Checked] at hC
        obtain ⟨⟨ity, hv, hr⟩, hCc, hCf, hCr⟩ := hC
        rw [Cases.values_eq] at hr
        exact hF prog f he hCr (f1 prog f (hl _ he).1 ⟨ity, hv, fun e he => hr e.1 (List.mem_map_of_mem he)⟩
          ((Cases.checked_iff cases).mp hCc) hCf hb)
  | .while_ c body rest => by
    intro b b' cb hc h
    simp only [Code.piece, Code.build, Res.bind_eq_ok, while_, declareBlock, curBlock, unwrap_eq_ok, goto, if_] at h
    obtain ⟨b3, ⟨cb', hc', b1, h1, b2, h2, h3⟩, h4⟩ := h
    simp only [hc] at hc'
    cases hc'
    obtain ⟨c1, g1, t1, f1⟩ := finish_spec (b := { b with nextBlock := b.nextBlock + 1 }) hc h1
    obtain ⟨_, c2, g2, t2, f2⟩ := set_spec h2
    obtain ⟨hnd, hfl, hfF, hcur, hcb, g3, l3, f3⟩ := switch_spec (cases := [(1, bodyPiece body b.nextBlock)])
      (F := skipPiece) c2 (by exact h3) (by simpa using body_sound (Code.sound body)) skip_sound
    have hcur3 : b3.cur.isSome = true := by rw [hcur]; simp [skipPiece]
    obtain ⟨cb3, hc3⟩ := Option.isSome_iff_exists.mp hcur3
    obtain ⟨hk3, hs3⟩ := hcb cb3 hc3
    obtain ⟨hf, g, hl, hF⟩ := then_rest (cb := cb) (Code.sound rest) ((grow_next b _).trans (g1.trans (g2.trans g3))) hc3 hk3 h4
    simp only [List.forall_mem_cons, List.not_mem_nil, false_implies, implies_true, and_true, bodyPiece] at hfl
    have hfl' : body.flow.isSome = true := by cases h : body.flow <;> simp_all
    have e2 : ∀ bl, Ext bl b' → Ext bl b2 := fun bl he => g3.ext bl (hl bl he).1
    have e1 : ∀ bl, Ext bl b' → Ext bl b1 := fun bl he => g2.ext bl (e2 bl he)
    rw [hc3] at l3
    refine ⟨by simp only [Code.piece, Code.flow, hfl', if_true, hf], g, fun bl he => ?_, fun prog f he hC hb => ?_⟩
    · obtain ⟨m, fb, o, ht, hm, hcs, hskip, hj⟩ := l3 bl (hl bl he).1
      obtain ⟨n, o', hn, ⟨rfl, o'', hlo, hq⟩, _⟩ := hcs _ List.mem_cons_self
      simp only [skipPiece] at hskip
      obtain ⟨a, ha, hta⟩ := hj _ hskip
      cases ha
      simp only [Code.piece, Code.Laid]
      refine ⟨_, m, n, fb, o'', cb3.name, .inr (t1 bl (e1 bl he)), ht, hn, fun i hi => (hm i).mpr (by simpa using hi), hlo, hq, hta, ?_⟩
      have := (hl bl he).2
      simpa [CurBlock.pos, hs3] using this
    · simp only [Code.piece, Code.Checked] at hC
      obtain ⟨hv, hCb, hCr⟩ := hC
      have hcond := t2 _ (e2 _ he)
      have hF1 := f1 prog f (fine_next hb) (goto_ok hcond)
      refine hF prog f he hCr (f3 prog f (hl _ he).1 ⟨_, hv, ?_⟩ ?_ trivial (f2 prog f hF1))
      · simp only [List.forall_mem_cons, List.not_mem_nil, false_implies, implies_true, and_true]
        decide
      · simp only [List.forall_mem_cons, List.not_mem_nil, false_implies, implies_true, and_true]
        exact ⟨hCb, hcond⟩
theorem Cases.sound : (cs : Cases) → ∀ e ∈ cs.toList, e.2.piece.Sound
  | .nil => by simp [Cases.toList]
  | .cons i b rest => by
    simp only [Cases.toList, List.forall_mem_cons]
    exact ⟨Code.sound b, Cases.sound rest⟩
end

end MiniRust
