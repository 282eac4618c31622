import Verif.Lemmas.BuilderSim
/-
What the function builder makes of structured programs.
-/
namespace MiniRust

theorem Map.contains_eq_false {K V : Type} [DecidableEq K] {m : Map K V} {k : K} : m.contains k = false ↔ m.get? k = none := by
  unfold Map.contains; cases Map.get? m k <;> simp

theorem Map.insert_fresh {K V : Type} [DecidableEq K] {m : Map K V} {k : K} {v : V} (h : m.get? k = none) :
    m.insert k v = m ++ [(k, v)] := by
  induction m with
  | nil => rfl
  | cons e m ih =>
    obtain ⟨k', v'⟩ := e
    simp only [Map.get?] at h
    split at h
    · simp at h
    · rename_i hne
      simp only [Map.insert, if_neg hne, List.cons_append, ih h]

theorem Map.tryInsert_eq_ok {K V : Type} [DecidableEq K] {m m' : Map K V} {k : K} {v : V} :
    m.tryInsert k v = .ok m' ↔ m.get? k = none ∧ m' = m.insert k v := by
  unfold Map.tryInsert
  cases h : m.contains k with
  | false => have := Map.contains_eq_false.mp h; simp [this, eq_comm]
  | true =>
    have : m.get? k ≠ none := fun e => by rw [Map.contains_eq_false.mpr e] at h; cases h
    simp [panic, this]

def CurBlock.pos (cb : CurBlock) : Pos := (cb.name, cb.statements.length)

namespace FnBuilder

theorem statement_eq_ok {b b' : FnBuilder} {s : Statement} : b.statement s = .ok b' ↔
    ∃ cb, b.cur = some cb ∧ b' = { b with cur := some { cb with statements := cb.statements ++ [s] } } := by
  simp only [statement, curBlock, Res.bind_eq_ok, unwrap_eq_ok]
  constructor
  · rintro ⟨cb, h, e⟩; cases e; exact ⟨cb, h, rfl⟩
  · rintro ⟨cb, h, rfl⟩; exact ⟨cb, h, rfl⟩

theorem finishBlock_eq_ok {b b' : FnBuilder} {t : Terminator} : b.finishBlock t = .ok b' ↔
    ∃ cb, b.cur = some cb ∧ b.blocks.get? cb.name = none ∧
      b' = { b with cur := none, blocks := b.blocks.insert cb.name ⟨cb.statements, t, cb.kind⟩ } := by
  simp only [finishBlock, Res.bind_eq_ok, unwrap_eq_ok, Map.tryInsert_eq_ok]
  constructor
  · rintro ⟨cb, h, _, ⟨hn, rfl⟩, e⟩
    cases e
    exact ⟨cb, h, hn, rfl⟩
  · rintro ⟨cb, h, hn, rfl⟩
    exact ⟨cb, h, _, ⟨hn, rfl⟩, rfl⟩

theorem setCurBlock_eq_ok {b b' : FnBuilder} {n : BbName} {k : BbKind} : b.setCurBlock n k = .ok b' ↔
    b.cur = none ∧ b.blocks.get? n = none ∧ b' = { b with cur := some ⟨[], n, k⟩ } := by
  unfold setCurBlock
  cases h : b.blocks.contains n with
  | true =>
    have : b.blocks.get? n ≠ none := fun e => by rw [Map.contains_eq_false.mpr e] at h; cases h
    simp [panic, this]
  | false =>
    have := Map.contains_eq_false.mp h
    cases hc : b.cur <;> simp [panic, this, eq_comm]

/-- The final blocks extend what has been built so far. -/
def Ext (bl : Map BbName BasicBlock) (b : FnBuilder) : Prop :=
  (∀ n blk, b.blocks.get? n = some blk → bl.get? n = some blk) ∧
  ∀ cb, b.cur = some cb → ∃ blk, bl.get? cb.name = some blk ∧ cb.statements <+: blk.statements ∧ blk.kind = cb.kind

/-- The block has this kind. -/
def HasKind (bl : Map BbName BasicBlock) (n : BbName) (k : BbKind) : Prop := ∃ blk, bl.get? n = some blk ∧ blk.kind = k

/-- `b'` was reached from `b`. -/
structure Grow (b b' : FnBuilder) : Prop where
  sub : ∀ n blk, b.blocks.get? n = some blk → b'.blocks.get? n = some blk
  ext : ∀ bl, Ext bl b' → Ext bl b
  locals : b'.locals = b.locals
  args : b'.args = b.args
  start : b'.start = b.start
  ret : b'.ret = b.ret
  conv : b'.conv = b.conv
  nextLocal : b'.nextLocal = b.nextLocal

theorem Grow.refl (b : FnBuilder) : Grow b b := ⟨fun _ _ h => h, fun _ h => h, rfl, rfl, rfl, rfl, rfl, rfl⟩

theorem Grow.trans {a b c : FnBuilder} (h : Grow a b) (h' : Grow b c) : Grow a c :=
  ⟨fun n blk e => h'.sub n blk (h.sub n blk e), fun bl e => h.ext bl (h'.ext bl e), h'.locals.trans h.locals,
    h'.args.trans h.args, h'.start.trans h.start, h'.ret.trans h.ret, h'.conv.trans h.conv, h'.nextLocal.trans h.nextLocal⟩

theorem grow_next (b : FnBuilder) (n : Nat) : Grow b { b with nextBlock := n } :=
  ⟨fun _ _ h => h, fun _ h => h, rfl, rfl, rfl, rfl, rfl, rfl⟩

variable [T : Target]

/-- All finished blocks, and the statements of the current one, pass the checks. -/
def Fine (prog : Program) (f : Function) (b : FnBuilder) : Prop :=
  (∀ e ∈ b.blocks, checkStatements prog f e.2.statements = .ok () ∧ e.2.terminator.checkWf prog f e.2.kind = .ok ()) ∧
  ∀ cb, b.cur = some cb → checkStatements prog f cb.statements = .ok ()

theorem checkStatements_append {prog : Program} {f : Function} : ∀ {l l' : List Statement},
    checkStatements prog f l = .ok () → checkStatements prog f l' = .ok () → checkStatements prog f (l ++ l') = .ok ()
  | [], _, _, h => h
  | s :: l, l', h, h' => by
    simp only [checkStatements, Res.bind_eq_ok] at h
    obtain ⟨u, hs, hl⟩ := h
    simp only [List.cons_append, checkStatements, Res.bind_eq_ok]
    exact ⟨u, hs, checkStatements_append hl h'⟩

/-! ### The primitives -/

theorem statement_spec {b b' : FnBuilder} {s : Statement} {cb : CurBlock} (hc : b.cur = some cb) (h : b.statement s = .ok b') :
    b'.cur = some { cb with statements := cb.statements ++ [s] } ∧ Grow b b' ∧ (∀ bl, Ext bl b' → StmtAt bl cb.pos s) ∧
    ∀ prog f, Fine prog f b → s.checkWf prog f = .ok () → Fine prog f b' := by
  obtain ⟨cb', hc', rfl⟩ := statement_eq_ok.mp h
  rw [hc] at hc'; cases hc'
  refine ⟨rfl, ⟨fun _ _ h => h, ?_, rfl, rfl, rfl, rfl, rfl, rfl⟩, ?_, ?_⟩
  · rintro bl ⟨h1, h2⟩
    refine ⟨h1, fun cb' hcb => ?_⟩
    rw [hc] at hcb; cases hcb
    obtain ⟨blk, hb, hp, hk⟩ := h2 _ rfl
    exact ⟨blk, hb, (List.prefix_append _ _).trans hp, hk⟩
  · rintro bl ⟨_, h2⟩
    obtain ⟨blk, hb, ⟨t, ht⟩, hk⟩ := h2 _ rfl
    refine ⟨blk, hb, ?_⟩
    rw [← ht]
    simp [CurBlock.pos]
  · rintro prog f ⟨h1, h2⟩ hs
    refine ⟨h1, fun cb' hcb => ?_⟩
    cases hcb
    exact checkStatements_append (h2 cb hc) (by simp [checkStatements, hs])

theorem finish_spec {b b' : FnBuilder} {t : Terminator} {cb : CurBlock} (hc : b.cur = some cb) (h : b.finishBlock t = .ok b') :
    b'.cur = none ∧ Grow b b' ∧ (∀ bl, Ext bl b' → TermAt bl cb.pos t) ∧
    ∀ prog f, Fine prog f b → t.checkWf prog f cb.kind = .ok () → Fine prog f b' := by
  obtain ⟨cb', hc', hn, rfl⟩ := finishBlock_eq_ok.mp h
  rw [hc] at hc'; cases hc'
  have hsub : ∀ n blk, b.blocks.get? n = some blk →
      (b.blocks.insert cb.name ⟨cb.statements, t, cb.kind⟩).get? n = some blk := by
    intro n blk hb
    rw [Map.get?_insert, if_neg]
    · exact hb
    · rintro rfl; rw [hn] at hb; cases hb
  have hnew : (b.blocks.insert cb.name ⟨cb.statements, t, cb.kind⟩).get? cb.name = some ⟨cb.statements, t, cb.kind⟩ := by
    rw [Map.get?_insert, if_pos rfl]
  refine ⟨rfl, ⟨hsub, ?_, rfl, rfl, rfl, rfl, rfl, rfl⟩, ?_, ?_⟩
  · rintro bl ⟨h1, _⟩
    refine ⟨fun n blk hb => h1 n blk (hsub n blk hb), fun cb' hcb => ?_⟩
    rw [hc] at hcb; cases hcb
    exact ⟨_, h1 _ _ hnew, List.prefix_rfl, rfl⟩
  · rintro bl ⟨h1, _⟩
    exact ⟨_, h1 _ _ hnew, rfl, rfl⟩
  · rintro prog f ⟨h1, h2⟩ ht
    refine ⟨fun e he => ?_, fun _ h => by cases h⟩
    rw [Map.insert_fresh hn, List.mem_append, List.mem_singleton] at he
    obtain he | rfl := he
    · exact h1 e he
    · exact ⟨h2 cb hc, ht⟩

theorem set_spec {b b' : FnBuilder} {n : BbName} {k : BbKind} (h : b.setCurBlock n k = .ok b') :
    b.cur = none ∧ b'.cur = some ⟨[], n, k⟩ ∧ Grow b b' ∧ (∀ bl, Ext bl b' → HasKind bl n k) ∧
    ∀ prog f, Fine prog f b → Fine prog f b' := by
  obtain ⟨hc, hn, rfl⟩ := setCurBlock_eq_ok.mp h
  refine ⟨hc, rfl, ⟨fun _ _ h => h, ?_, rfl, rfl, rfl, rfl, rfl, rfl⟩, ?_, ?_⟩
  · rintro bl ⟨h1, _⟩
    exact ⟨h1, fun cb' hcb => by rw [hc] at hcb; cases hcb⟩
  · rintro bl ⟨_, h2⟩
    obtain ⟨blk, hb, _, hk⟩ := h2 _ rfl
    exact ⟨blk, hb, hk⟩
  · rintro prog f ⟨h1, h2⟩
    exact ⟨h1, fun cb hcb => by cases hcb; rfl⟩

theorem fine_next {prog : Program} {f : Function} {b : FnBuilder} {n : Nat} (h : Fine prog f b) :
    Fine prog f { b with nextBlock := n } := h

theorem next_spec {b b' : FnBuilder} {t : BbName → Terminator} {cb : CurBlock} (hc : b.cur = some cb)
    (h : b.finishWithNextBlock t = .ok b') :
    ∃ n, b'.cur = some ⟨[], n, cb.kind⟩ ∧ Grow b b' ∧ (∀ bl, Ext bl b' → TermAt bl cb.pos (t n) ∧ HasKind bl n cb.kind) ∧
    ∀ prog f, Fine prog f b → (t n).checkWf prog f cb.kind = .ok () → Fine prog f b' := by
  simp only [finishWithNextBlock, curBlock, Res.bind_eq_ok, unwrap_eq_ok, declareBlock] at h
  obtain ⟨cb', hc', b1, h1, h2⟩ := h
  rw [hc] at hc'; cases hc'
  obtain ⟨_, g1, t1, f1⟩ := finish_spec (b := { b with nextBlock := b.nextBlock + 1 }) hc h1
  obtain ⟨_, c2, g2, k2, f2⟩ := set_spec h2
  exact ⟨_, c2, (grow_next b _).trans (g1.trans g2), fun bl he => ⟨t1 bl (g2.ext bl he), k2 bl he⟩,
    fun prog f hf ht => f2 prog f (f1 prog f hf ht)⟩

theorem call_spec {b b' : FnBuilder} {r : PlaceExpr} {g : ValueExpr} {a : List ArgumentExpr} {c : CallingConvention} {n : BbName}
    {u : Option BbName} {cb : CurBlock} (hc : b.cur = some cb) (h : b.handleCall r g a c (some n) u = .ok b') :
    b'.cur = some ⟨[], n, cb.kind⟩ ∧ Grow b b' ∧
    (∀ bl, Ext bl b' → TermAt bl cb.pos (.call g c a r (some n) u) ∧ HasKind bl n cb.kind) ∧
    ∀ prog f, Fine prog f b → (Terminator.call g c a r (some n) u).checkWf prog f cb.kind = .ok () → Fine prog f b' := by
  simp only [handleCall, curBlock, Res.bind_eq_ok, unwrap_eq_ok] at h
  obtain ⟨cb', hc', b1, h1, h2⟩ := h
  rw [hc] at hc'; cases hc'
  obtain ⟨_, g1, t1, f1⟩ := finish_spec hc h1
  obtain ⟨_, c2, g2, k2, f2⟩ := set_spec h2
  exact ⟨c2, g1.trans g2, fun bl he => ⟨t1 bl (g2.ext bl he), k2 bl he⟩,
    fun prog f hf ht => f2 prog f (f1 prog f hf ht)⟩

/-! ### Pieces of code -/

/-- A closure given to the builder, whether code can follow it, how it lies in the blocks, and what it needs to be
well-formed. -/
structure Piece where
  g : FnBuilder → Res FnBuilder
  flow : Option Bool
  L : Map BbName BasicBlock → Pos → Option Pos → Prop
  C : Program → Function → BbKind → Prop

/-- Whatever the closure builds is as described. -/
def Piece.Sound (P : Piece) : Prop := ∀ b b' cb, b.cur = some cb → P.g b = .ok b' →
  P.flow = some b'.cur.isSome ∧ Grow b b' ∧ (∀ bl, Ext bl b' → P.L bl cb.pos (b'.cur.map CurBlock.pos)) ∧
  ∀ prog f, Ext f.blocks b' → P.C prog f cb.kind → Fine prog f b →
    Fine prog f b' ∧ ∀ cb', b'.cur = some cb' → cb'.kind = cb.kind

theorem handler_spec {b b' : FnBuilder} {k : BbKind} {P : Piece} {u : BbName} (hP : P.Sound)
    (h : b.handlerBlock k P.g = .ok (u, b')) :
    P.flow = some false ∧ b'.cur = b.cur ∧ Grow b b' ∧ (∀ bl, Ext bl b' → P.L bl (u, 0) none ∧ HasKind bl u k) ∧
    ∀ prog f, Ext f.blocks b' → P.C prog f k → Fine prog f b → Fine prog f b' := by
  simp only [handlerBlock, declareBlock, Res.bind_eq_ok] at h
  obtain ⟨b1, h1, b2, h2, h3⟩ := h
  split at h3
  · cases h3
  · rename_i hcur
    cases h3
    obtain ⟨_, c1, g1, k1, f1⟩ := set_spec h1
    obtain ⟨hflow, g2, l2, f2⟩ := hP b1 b2 _ c1 h2
    have hnone : b2.cur = none := by cases h : b2.cur <;> simp_all
    have back : ∀ bl, Ext bl { b2 with cur := b.cur } → Ext bl b2 := fun bl he =>
      ⟨he.1, fun cb h => by rw [hnone] at h; cases h⟩
    refine ⟨by rw [hflow, hnone]; rfl, rfl, ⟨fun n blk e => g2.sub n blk (g1.sub n blk e), fun bl he => ⟨?_, he.2⟩,
      g2.locals.trans g1.locals, g2.args.trans g1.args, g2.start.trans g1.start, g2.ret.trans g1.ret, g2.conv.trans g1.conv,
      g2.nextLocal.trans g1.nextLocal⟩, fun bl he => ⟨?_, k1 bl (g2.ext bl (back bl he))⟩, fun prog f he hC hf => ?_⟩
    · exact (g1.ext bl (g2.ext bl (back bl he))).1
    · have := l2 bl (back bl he)
      rwa [hnone] at this
    · have hf1 : Fine prog f b1 := f1 prog f ⟨hf.1, fun cb h => by cases h⟩
      obtain ⟨hf2, _⟩ := f2 prog f (back _ he) hC hf1
      exact ⟨hf2.1, hf.2⟩

/-! ### Branches -/

theorem Map.get?_append_new {m : Map Int BbName} {i : Int} {n : BbName} (h : m.get? i = none) (j : Int) :
    Map.get? (m ++ [(i, n)]) j = if i = j then some n else m.get? j := by
  rw [← Map.insert_fresh h, Map.get?_insert]

theorem declareCases_spec : ∀ {cases : List (Int × Piece)} {b b' : FnBuilder} {m m' : Map Int BbName}
    {br br' : List ((FnBuilder → Res FnBuilder) × BbName)},
    b.declareCases m br (cases.map fun e => (e.1, e.2.g)) = .ok (b', m', br') →
    ∃ names : List BbName, names.length = cases.length ∧
      br' = br ++ (cases.zip names).map (fun e => (e.1.2.g, e.2)) ∧
      m' = m ++ (cases.zip names).map (fun e => (e.1.1, e.2)) ∧
      (cases.map (·.1)).Nodup ∧ (∀ i ∈ cases.map (·.1), m.get? i = none) ∧
      (∀ i, m'.get? i = none ↔ m.get? i = none ∧ i ∉ cases.map (·.1)) ∧
      (∀ i n, m.get? i = some n → m'.get? i = some n) ∧
      (∀ e ∈ cases.zip names, m'.get? e.1.1 = some e.2) ∧
      ∃ N, b' = { b with nextBlock := N }
  | [], b, b', m, m', br, br', h => by
    cases h
    refine ⟨[], rfl, by simp, by simp, by simp, by simp, by simp, fun _ _ h => h, by simp, ⟨_, rfl⟩⟩
  | (i, P) :: cases, b, b', m, m', br, br', h => by
    simp only [List.map_cons, declareCases, declareBlock, Res.bind_eq_ok, Map.tryInsert_eq_ok] at h
    obtain ⟨m1, ⟨hi, rfl⟩, h⟩ := h
    obtain ⟨names, hl, hbr, hm, hnd, hfresh, hnone, hkeep, hget, N, hN⟩ := declareCases_spec h
    rw [Map.insert_fresh hi] at hm hnone hkeep hfresh
    have hi' : i ∉ cases.map (·.1) := fun hin => by
      have := hfresh i hin
      rw [Map.get?_append_new hi, if_pos rfl] at this; cases this
    refine ⟨b.nextBlock :: names, by simp [hl], by simp [hbr], by simp [hm], ?_, ?_, ?_, ?_, ?_, N, hN⟩
    · simp only [List.map_cons, List.nodup_cons]; exact ⟨hi', hnd⟩
    · intro j hj
      simp only [List.map_cons, List.mem_cons] at hj
      obtain rfl | hj := hj
      · exact hi
      · have := hfresh j hj
        rw [Map.get?_append_new hi] at this
        split at this
        · cases this
        · exact this
    · intro j
      rw [hnone, Map.get?_append_new hi]
      simp only [List.map_cons, List.mem_cons, not_or]
      by_cases hij : i = j
      · subst hij; simp
      · rw [if_neg hij]
        exact ⟨fun ⟨a, b⟩ => ⟨a, fun e => hij e.symm, b⟩, fun ⟨a, _, b⟩ => ⟨a, b⟩⟩
    · intro j n hj
      apply hkeep
      rw [Map.get?_append_new hi, if_neg]
      · exact hj
      · rintro rfl; rw [hi] at hj; cases hj
    · intro e he
      simp only [List.zip_cons_cons, List.mem_cons] at he
      obtain rfl | he := he
      · exact hkeep _ _ (by rw [Map.get?_append_new hi, if_pos rfl])
      · exact hget e he

theorem goto_ok {prog : Program} {f : Function} {n : BbName} {k : BbKind} (h : HasKind f.blocks n k) :
    (Terminator.goto n).checkWf prog f k = .ok () := by
  obtain ⟨blk, hb, rfl⟩ := h
  simp [Terminator.checkWf, Function.checkNextBlock, hb]

theorem buildBranches_spec {k : BbKind} : ∀ {l : List (Piece × BbName)} {b b' : FnBuilder} {after after' : Option BbName},
    buildBranches k b after (l.map fun e => (e.1.g, e.2)) = .ok (b', after') → b.cur = none → (∀ e ∈ l, e.1.Sound) →
    b'.cur = none ∧ (∀ e ∈ l, e.1.flow.isSome = true) ∧
    after'.isSome = (after.isSome || l.any fun e => e.1.flow == some true) ∧ (∀ a, after = some a → after' = some a) ∧
    Grow b b' ∧ (∀ bl, Ext bl b' → ∀ e ∈ l, HasKind bl e.2 k ∧ ∃ o, e.1.L bl (e.2, 0) o ∧ Joins bl o after') ∧
    ∀ prog f, Ext f.blocks b' → (∀ e ∈ l, e.1.C prog f k) → (∀ a, after' = some a → HasKind f.blocks a k) →
      Fine prog f b → Fine prog f b'
  | [], b, b', after, after', h, hc, _ => by
    cases h
    exact ⟨hc, by simp, by simp, fun _ h => h, .refl _, by simp, fun _ _ _ _ _ h => h⟩
  | (P, n) :: l, b, b', after, after', h, hc, hS => by
    simp only [List.map_cons, buildBranches, Res.bind_eq_ok] at h
    obtain ⟨b1, h1, b2, h2, h3⟩ := h
    obtain ⟨_, c1, g1, k1, f1⟩ := set_spec h1
    obtain ⟨hflow, g2, l2, f2⟩ := hS (P, n) List.mem_cons_self b1 b2 _ c1 h2
    have hS' : ∀ e ∈ l, e.1.Sound := fun e he => hS e (List.mem_cons_of_mem _ he)
    have hflow' : P.flow.isSome = true := by rw [hflow]; rfl
    -- the rest, after the branch was closed
    have finish : ∀ {b3 : FnBuilder} {jump : Option BbName}, b3.cur = none → Grow b2 b3 →
        (b2.cur.isSome = true → jump.isSome = true) → jump.isSome = (after.isSome || P.flow == some true) →
        (∀ a, after = some a → jump = some a) →
        (∀ cb a, b2.cur = some cb → jump = some a → (∀ bl, Ext bl b3 → TermAt bl cb.pos (.goto a)) ∧
          ∀ prog f, Fine prog f b2 → HasKind f.blocks a cb.kind → Fine prog f b3) →
        (b2.cur = none → ∀ prog f, Fine prog f b2 → Fine prog f b3) →
        buildBranches k b3 jump (l.map fun e => (e.1.g, e.2)) = .ok (b', after') →
        b'.cur = none ∧ (∀ e ∈ (P, n) :: l, e.1.flow.isSome = true) ∧
        after'.isSome = (after.isSome || ((P, n) :: l).any fun e => e.1.flow == some true) ∧
        (∀ a, after = some a → after' = some a) ∧
        Grow b b' ∧ (∀ bl, Ext bl b' → ∀ e ∈ (P, n) :: l, HasKind bl e.2 k ∧ ∃ o, e.1.L bl (e.2, 0) o ∧ Joins bl o after') ∧
        ∀ prog f, Ext f.blocks b' → (∀ e ∈ (P, n) :: l, e.1.C prog f k) → (∀ a, after' = some a → HasKind f.blocks a k) →
          Fine prog f b → Fine prog f b' := by
      intro b3 jump c3 g3 hj hjs hja hjump hnone hb
      obtain ⟨c4, hfl, haf, hka, g4, l4, f4⟩ := buildBranches_spec hb c3 hS'
      refine ⟨c4, ?_, ?_, fun a ha => hka a (hja a ha), g1.trans (g2.trans (g3.trans g4)), ?_, ?_⟩
      · intro e he
        obtain rfl | he := List.mem_cons.mp he
        · exact hflow'
        · exact hfl e he
      · rw [haf, hjs, List.any_cons, Bool.or_assoc]
      · intro bl he e hm
        obtain rfl | hm := List.mem_cons.mp hm
        · have he3 := g4.ext bl he
          have he2 := g3.ext bl he3
          refine ⟨k1 bl (g2.ext bl he2), _, l2 bl he2, fun q hq => ?_⟩
          cases hcur : b2.cur with
          | none => rw [hcur] at hq; cases hq
          | some cb =>
            rw [hcur] at hq; cases hq
            have := hj (by rw [hcur]; rfl)
            obtain ⟨a, ha⟩ := Option.isSome_iff_exists.mp this
            exact ⟨a, hka a ha, (hjump cb a hcur ha).1 bl he3⟩
        · exact l4 bl he e hm
      · intro prog f he hC hk hf
        have he3 := g4.ext _ he
        have he2 := g3.ext _ he3
        obtain ⟨hf2, hkind⟩ := f2 prog f he2 (hC (P, n) List.mem_cons_self) (f1 prog f hf)
        refine f4 prog f he (fun e hm => hC e (List.mem_cons_of_mem _ hm)) hk ?_
        cases hcur : b2.cur with
        | none => exact hnone hcur prog f hf2
        | some cb =>
          obtain ⟨a, ha⟩ := Option.isSome_iff_exists.mp (hj (by rw [hcur]; rfl))
          refine (hjump cb a hcur ha).2 prog f hf2 ?_
          rw [hkind cb hcur]
          exact hk a (hka a ha)
    split at h3
    · rename_i hsome
      obtain ⟨cb2, hcb2⟩ := Option.isSome_iff_exists.mp hsome
      have hft : P.flow = some true := by rw [hflow, hsome]
      cases after with
      | some jump =>
        simp only [Res.bind_eq_ok] at h3
        obtain ⟨b3, h3, h4⟩ := h3
        obtain ⟨c3, g3, t3, f3⟩ := finish_spec hcb2 h3
        refine finish c3 g3 (fun _ => rfl) (by simp) (fun _ h => h) ?_ (fun h => by rw [hcb2] at h; cases h) h4
        intro cb a hcb ha
        rw [hcb2] at hcb; cases hcb; cases ha
        exact ⟨t3, fun prog f hf hk => f3 prog f hf (goto_ok hk)⟩
      | none =>
        simp only [declareBlock, Res.bind_eq_ok] at h3
        obtain ⟨b3, h3, h4⟩ := h3
        obtain ⟨c3, g3, t3, f3⟩ := finish_spec (b := { b2 with nextBlock := b2.nextBlock + 1 }) hcb2 h3
        refine finish c3 ((grow_next b2 _).trans g3) (fun _ => rfl) (by simp [hft]) (fun _ h => by cases h) ?_
          (fun h => by rw [hcb2] at h; cases h) h4
        intro cb a hcb ha
        rw [hcb2] at hcb; cases hcb; cases ha
        exact ⟨t3, fun prog f hf hk => f3 prog f hf (goto_ok hk)⟩
    · rename_i hns
      have hcn : b2.cur = none := by cases h : b2.cur <;> simp_all
      have hff : P.flow = some false := by rw [hflow, hcn]; rfl
      refine finish hcn (.refl _) (fun h => absurd h hns) (by simp [hff]) (fun _ h => h)
        (fun cb a h => by rw [hcn] at h; cases h) (fun _ _ _ h => h) h3

theorem checkSwitchCases_ok {f : Function} {k : BbKind} {ity : IntType} : ∀ {l : List (Int × BbName)},
    (∀ e ∈ l, ity.canRepresent e.1 = true ∧ HasKind f.blocks e.2 k) → checkSwitchCases f k ity l = .ok ()
  | [], _ => rfl
  | (i, n) :: l, h => by
    obtain ⟨h1, blk, hb, hk⟩ := h (i, n) List.mem_cons_self
    simp only [checkSwitchCases, Function.checkNextBlock, h1, hb, hk, ensureWf_true, Res.bind_ok, beq_self_eq_true]
    exact checkSwitchCases_ok fun e he => h e (List.mem_cons_of_mem _ he)

/-- What `switch_int` builds. -/
theorem switch_spec {b b' : FnBuilder} {v : ValueExpr} {cases : List (Int × Piece)} {F : Piece} {cb : CurBlock}
    (hc : b.cur = some cb) (h : b.switchInt v (cases.map fun e => (e.1, e.2.g)) F.g = .ok b')
    (hS : ∀ e ∈ cases, e.2.Sound) (hF : F.Sound) :
    (cases.map (·.1)).Nodup ∧ (∀ e ∈ cases, e.2.flow.isSome = true) ∧ F.flow.isSome = true ∧
    b'.cur.isSome = ((cases.any fun e => e.2.flow == some true) || F.flow == some true) ∧
    (∀ cb', b'.cur = some cb' → cb'.kind = cb.kind ∧ cb'.statements = []) ∧ Grow b b' ∧
    (∀ bl, Ext bl b' → ∃ m fb o, TermAt bl cb.pos (.switch v m fb) ∧ (∀ i, m.get? i = none ↔ i ∉ cases.map (·.1)) ∧
      (∀ e ∈ cases, ∃ n o, m.get? e.1 = some n ∧ e.2.L bl (n, 0) o ∧ Joins bl o (b'.cur.map (·.name))) ∧
      F.L bl (fb, 0) o ∧ Joins bl o (b'.cur.map (·.name))) ∧
    ∀ prog f, Ext f.blocks b' →
      (∃ ity : IntType, v.checkWf prog f.locals = .ok (.int ity) ∧ ∀ e ∈ cases, ity.canRepresent e.1 = true) →
      (∀ e ∈ cases, e.2.C prog f cb.kind) → F.C prog f cb.kind → Fine prog f b → Fine prog f b' := by
  simp only [switchInt, curBlock, Res.bind_eq_ok, unwrap_eq_ok, declareBlock] at h
  obtain ⟨cb', hc', ⟨b1, m, br⟩, h1, b2, h2, ⟨b3, after⟩, h3, h4⟩ := h
  rw [hc] at hc'; cases hc'
  obtain ⟨names, hlen, hbr, hm, hnd, _, hnone, _, hget, N, rfl⟩ := declareCases_spec h1
  simp only [List.nil_append] at hbr hm
  obtain ⟨c2, g2, t2, f2⟩ := finish_spec (b := { b with nextBlock := N + 1 }) hc h2
  have hlist : br ++ [(F.g, N)] = ((cases.zip names).map (fun e => (e.1.2, e.2)) ++ [(F, N)]).map fun e => (e.1.g, e.2) := by
    rw [hbr]; simp
  simp only [hlist] at h3
  have hmem : ∀ e ∈ cases, ∃ n, (e, n) ∈ cases.zip names := by
    intro e he
    obtain ⟨i, hi, rfl⟩ := List.mem_iff_getElem.mp he
    exact ⟨names[i]'(by omega), List.mem_iff_getElem.mpr ⟨i, by simp; omega, by simp⟩⟩
  have hmem' : ∀ e n, (e, n) ∈ cases.zip names → e ∈ cases := fun e n h => (List.of_mem_zip h).1
  have hS' : ∀ e ∈ (cases.zip names).map (fun e => (e.1.2, e.2)) ++ [(F, N)], e.1.Sound := by
    intro e he
    simp only [List.mem_append, List.mem_map, List.mem_singleton] at he
    obtain ⟨e', he', rfl⟩ | rfl := he
    · exact hS _ (hmem' _ _ he')
    · exact hF
  obtain ⟨c3, hfl, haf, _, g3, l3, f3⟩ := buildBranches_spec h3 c2 hS'
  have hflows : (∀ e ∈ cases, e.2.flow.isSome = true) ∧ F.flow.isSome = true := by
    refine ⟨fun e he => ?_, hfl (F, N) (by simp)⟩
    obtain ⟨n, hn⟩ := hmem e he
    exact hfl (e.2, n) (by simp only [List.mem_append, List.mem_map]; exact .inl ⟨_, hn, rfl⟩)
  have hany : ((cases.zip names).map (fun e => (e.1.2, e.2)) ++ [(F, N)]).any (fun e => e.1.flow == some true) =
      ((cases.any fun e => e.2.flow == some true) || F.flow == some true) := by
    simp only [List.any_append, List.any_cons, List.any_nil, Bool.or_false, List.any_map]
    congr 1
    rw [Bool.eq_iff_iff, List.any_eq_true, List.any_eq_true]
    constructor
    · rintro ⟨e, he, h⟩; exact ⟨e.1, hmem' _ _ he, h⟩
    · rintro ⟨e, he, h⟩; obtain ⟨n, hn⟩ := hmem e he; exact ⟨_, hn, h⟩
  rw [hany] at haf
  simp only [Option.isSome_none, Bool.false_or] at haf
  have grow1 : Grow b { b with nextBlock := N + 1 } := grow_next b _
  -- the last step
  have last : b'.cur.isSome = after.isSome ∧ (∀ cb', b'.cur = some cb' → cb'.kind = cb.kind ∧ cb'.statements = []) ∧
      Grow b3 b' ∧ b'.cur.map (·.name) = after ∧ (∀ bl, Ext bl b' → ∀ a, after = some a → HasKind bl a cb.kind) ∧
      ∀ prog f, Fine prog f b3 → Fine prog f b' := by
    cases after with
    | none =>
      cases h4
      exact ⟨by rw [c3]; rfl, fun cb' h => (by rw [c3] at h; cases h), .refl _, by rw [c3]; rfl, fun _ _ _ h => (by cases h),
        fun _ _ h => h⟩
    | some a =>
      obtain ⟨_, c4, g4, k4, f4⟩ := set_spec h4
      refine ⟨by rw [c4]; rfl, fun cb' h => (by rw [c4] at h; cases h; exact ⟨rfl, rfl⟩), g4, by rw [c4]; rfl,
        fun bl he a' h => (by cases h; exact k4 bl he), f4⟩
  obtain ⟨hl1, hl2, hl3, hl4, hl5, hl6⟩ := last
  refine ⟨hnd, hflows.1, hflows.2, by rw [hl1, haf], hl2, grow1.trans (g2.trans (g3.trans hl3)), ?_, ?_⟩
  · intro bl he
    have he3 := hl3.ext bl he
    rw [hl4]
    obtain ⟨_, o, hLF, hjF⟩ := l3 bl he3 (F, N) (by simp)
    refine ⟨m, N, o, t2 bl (g3.ext bl he3), fun i => by rw [hnone]; simp [Map.get?], fun e hin => ?_, hLF, hjF⟩
    obtain ⟨n, hn⟩ := hmem e hin
    obtain ⟨_, o', hL, hj⟩ := l3 bl he3 (e.2, n) (by simp only [List.mem_append, List.mem_map]; exact .inl ⟨_, hn, rfl⟩)
    exact ⟨n, o', hget _ hn, hL, hj⟩
  · rintro prog f he ⟨ity, hv, hrep⟩ hC hCF hf
    have he3 := hl3.ext _ he
    refine hl6 prog f (f3 prog f he3 ?_ (hl5 _ he) (f2 prog f hf ?_))
    · intro e hin
      simp only [List.mem_append, List.mem_map, List.mem_singleton] at hin
      obtain ⟨e', he', rfl⟩ | rfl := hin
      · exact hC _ (hmem' _ _ he')
      · exact hCF
    · have hsw : checkSwitchCases f cb.kind ity m = .ok () := by
        apply checkSwitchCases_ok
        intro e hin
        rw [hm] at hin
        obtain ⟨⟨e', n⟩, he', rfl⟩ := List.mem_map.mp hin
        exact ⟨hrep _ (hmem' _ _ he'),
          (l3 _ he3 (e'.2, n) (by simp only [List.mem_append, List.mem_map]; exact .inl ⟨_, he', rfl⟩)).1⟩
      obtain ⟨blk, hb, hk⟩ := (l3 _ he3 (F, N) (by simp)).1
      simp only at hb
      simp [Terminator.checkWf, hv, hsw, Function.checkNextBlock, hb, hk]

end FnBuilder
end MiniRust
