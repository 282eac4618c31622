import Verif.Lemmas.MirSim
import Verif.Lemmas.BuilderSound
import Verif.Lemmas.BuilderFn
import Verif.Lemmas.EnumTranslation
import Verif.Lemmas.Abi
/-
What the translation of MIR bodies does to the context, and where the meaning of blocks lies in the result.
-/
set_option linter.unusedSectionVars false
namespace MiniRust

namespace FnCtxt

/-- The names of blocks are different, and below the next one. -/
structure Inv (c : FnCtxt) : Prop where
  nodup : (c.blocks.map (·.1)).Nodup
  lt : ∀ e ∈ c.blocks, e.1 < c.nextBb

/-- `c'` has new blocks, with new names or names from `own`. -/
structure Adds (c c' : FnCtxt) (own : List Nat) (news : Map BbName BasicBlock) : Prop where
  numBlocks : c'.numBlocks = c.numBlocks
  numLocals : c'.numLocals = c.numLocals
  nextBb : c.nextBb ≤ c'.nextBb
  blocks : c'.blocks = c.blocks ++ news
  names : ∀ e ∈ news, e.1 ∈ own ∨ (c.nextBb ≤ e.1 ∧ e.1 < c'.nextBb)

theorem Adds.refl (c : FnCtxt) : Adds c c [] [] := ⟨rfl, rfl, Nat.le_refl _, by simp, by simp⟩

theorem Adds.trans {a b c : FnCtxt} {o o' n n'} (h : Adds a b o n) (h' : Adds b c o' n') : Adds a c (o ++ o') (n ++ n') := by
  refine ⟨h'.numBlocks.trans h.numBlocks, h'.numLocals.trans h.numLocals, Nat.le_trans h.nextBb h'.nextBb,
    by rw [h'.blocks, h.blocks, List.append_assoc], fun e he => ?_⟩
  have h1 := h.nextBb
  have h2 := h'.nextBb
  rcases List.mem_append.mp he with he | he
  · rcases h.names e he with h | ⟨h, h3⟩
    · exact .inl (List.mem_append_left _ h)
    · exact .inr ⟨h, Nat.lt_of_lt_of_le h3 h2⟩
  · rcases h'.names e he with h | ⟨h, h3⟩
    · exact .inl (List.mem_append_right _ h)
    · exact .inr ⟨Nat.le_trans h1 h, h3⟩

/-- The locals and their types. -/
def Locs (tys : List Ty) (c : FnCtxt) : Prop :=
  c.locals = (tys.zipIdx.map fun e => (e.2, e.1)) ∧ c.nextLocal = tys.length

theorem Locs.fresh {tys : List Ty} {c : FnCtxt} (h : Locs tys c) (ty : Ty) :
    (c.freshLocal ty).1 = tys.length ∧ Locs (tys ++ [ty]) (c.freshLocal ty).2 := by
  have hn : c.locals.get? c.nextLocal = none := by rw [h.1, h.2]; exact get?_zipIdx (by omega)
  refine ⟨h.2, ?_, by simp [freshLocal, h.2]⟩
  simp only [freshLocal]
  rw [Map.insert_fresh hn, h.1, h.2]
  simp [List.zipIdx_append]

/-- A block with an unused name is added. -/
theorem Inv.insert {c : FnCtxt} (hI : Inv c) {n : Nat} (hn : n ∉ c.blocks.map (·.1)) (hlt : n < c.nextBb) (blk : BasicBlock) :
    c.insertNewBlock n blk = .ok (c.insertBlock n blk) ∧ Inv (c.insertBlock n blk) ∧
    Adds c (c.insertBlock n blk) [n] [(n, blk)] := by
  have hnone : c.blocks.get? n = none := by
    cases h : c.blocks.get? n with
    | none => rfl
    | some v => exact absurd (List.mem_map.mpr ⟨(n, v), Map.get?_mem h, rfl⟩) hn
  have hb : (c.insertBlock n blk).blocks = c.blocks ++ [(n, blk)] := by simp [insertBlock, Map.insert_fresh hnone]
  refine ⟨?_, ⟨?_, ?_⟩, ⟨rfl, rfl, Nat.le_refl _, hb, by simp⟩⟩
  · simp only [insertNewBlock, insertBlock]
    rw [(Map.tryInsert_eq_ok (m' := c.blocks.insert n blk)).mpr ⟨hnone, rfl⟩]; rfl
  · rw [hb, List.map_append, List.nodup_append]
    refine ⟨hI.nodup, by simp, ?_⟩
    rintro a ha b hb rfl
    simp only [List.map_cons, List.map_nil, List.mem_singleton] at hb
    exact hn (hb ▸ ha)
  · intro e he
    rw [hb] at he
    rcases List.mem_append.mp he with he | he
    · exact hI.lt e he
    · cases List.mem_singleton.mp he; exact hlt

theorem Inv.bump {c : FnCtxt} (hI : Inv c) {m : Nat} (h : c.nextBb ≤ m) :
    Inv { c with nextBb := m } ∧ Adds c { c with nextBb := m } [] [] :=
  ⟨⟨hI.nodup, fun e he => Nat.lt_of_lt_of_le (hI.lt e he) h⟩, ⟨rfl, rfl, h, by simp, by simp⟩⟩

theorem Inv.not_mem {c : FnCtxt} (hI : Inv c) {n : Nat} (h : c.nextBb ≤ n) : n ∉ c.blocks.map (·.1) := by
  intro hm
  obtain ⟨e, he, rfl⟩ := List.mem_map.mp hm
  exact absurd (hI.lt e he) (Nat.not_lt.mpr h)

/-- A block with a fresh name is added. -/
theorem Inv.add {c : FnCtxt} (hI : Inv c) (blk : BasicBlock) :
    c.freshBb.2.insertNewBlock c.freshBb.1 blk = .ok (c.freshBb.2.insertBlock c.freshBb.1 blk) ∧
    Inv (c.freshBb.2.insertBlock c.freshBb.1 blk) ∧
    Adds c (c.freshBb.2.insertBlock c.freshBb.1 blk) [] [(c.freshBb.1, blk)] ∧
    (∀ tys, Locs tys c → Locs tys (c.freshBb.2.insertBlock c.freshBb.1 blk)) := by
  obtain ⟨h1, h2⟩ := hI.bump (Nat.le_succ c.nextBb)
  obtain ⟨h3, h4, h5⟩ := h1.insert (hI.not_mem (Nat.le_refl c.nextBb)) (Nat.lt_succ_self c.nextBb) blk
  refine ⟨h3, h4, ⟨rfl, rfl, Nat.le_succ _, ?_, ?_⟩, fun tys h => h⟩
  · exact h5.blocks
  · intro e he
    cases List.mem_singleton.mp he
    exact .inr ⟨Nat.le_refl _, Nat.lt_succ_self _⟩

end FnCtxt

open FnCtxt
open FnBuilder (HasKind goto_ok intrinsic_ok intrinsic_ok' call_ok nextOpt_ok unwind_ok startUnwind_ok checkStatements_append
  checkSwitchCases_ok)

/-- The blocks contain the new ones. -/
def Sub (news bl : Map BbName BasicBlock) : Prop := ∀ e ∈ news, bl.get? e.1 = some e.2

theorem Sub.left {a b bl} (h : Sub (a ++ b) bl) : Sub a bl := fun e he => h e (List.mem_append_left _ he)
theorem Sub.right {a b bl} (h : Sub (a ++ b) bl) : Sub b bl := fun e he => h e (List.mem_append_right _ he)

/-- The blocks of the body have the right kind in the function. -/
def Kinds (body : MirBody) (f : Function) : Prop := ∀ k b, body.Block k b → HasKind f.blocks b (kindOf k)

section
variable [Target]

/-- A block that passes the checks. -/
def FineBlock (prog : Program) (f : Function) (blk : BasicBlock) : Prop :=
  checkStatements prog f blk.statements = .ok () ∧ blk.terminator.checkWf prog f blk.kind = .ok ()

def FineNews (prog : Program) (f : Function) (news : Map BbName BasicBlock) : Prop := ∀ e ∈ news, FineBlock prog f e.2

theorem FineNews.append {prog f a b} (h : FineNews prog f a) (h' : FineNews prog f b) : FineNews prog f (a ++ b) :=
  fun e he => (List.mem_append.mp he).elim (h e) (h' e)

theorem FineNews.single {prog f n blk} (h : FineBlock prog f blk) : FineNews prog f [(n, blk)] := by
  intro e he; cases List.mem_singleton.mp he; exact h

theorem FineNews.nil {prog f} : FineNews prog f [] := by intro e he; cases he
end

theorem MirBody.Block.lt {body : MirBody} {k b} (h : body.Block k b) : b < body.blocks.length := by
  obtain ⟨blk, h, _⟩ := h
  exact (List.getElem?_eq_some_iff.mp h).1

theorem bbName_ok {c : FnCtxt} {b : Nat} (h : b < c.numBlocks) : c.bbName b = .ok b := by simp [bbName, h]

theorem bbNameOpt_ok {c : FnCtxt} {t : Option Nat} (h : ∀ b, t = some b → b < c.numBlocks) : c.bbNameOpt t = .ok t := by
  cases t with
  | none => rfl
  | some b => simp [bbNameOpt, bbName_ok (h b rfl)]

theorem localName_ok {c : FnCtxt} {l : Nat} (h : l < c.numLocals) : c.localName l = .ok l := by simp [localName, h]

/-! ### Unwinding and panicking -/

variable [T : Target] {body : MirBody}

/-- The result of translating some unwind action. -/
structure UnwindSpec (body : MirBody) (isCleanup : Bool) (u : UnwindAction) (c c' : FnCtxt) (n : BbName) (news : Map BbName BasicBlock) :
    Prop where
  inv : Inv c'
  adds : Adds c c' [] news
  locs : ∀ tys, Locs tys c → Locs tys c'
  laid : ∀ bl, Sub news bl → (u.todo = .goto n ∧ n < body.blocks.length) ∨ u.todo.Laid bl body.blocks.length (n, 0)
  fine : ∀ prog f, Sub news f.blocks → Kinds body f → u.todo.Checked prog f → FineNews prog f news ∧
    ∃ h, HasKind f.blocks n h ∧ HandlerOk (kindOf isCleanup) h

theorem termAt_single {bl : Map BbName BasicBlock} {n t k} (h : bl.get? n = some ⟨[], t, k⟩) : TermAt bl (n, 0) t := ⟨_, h, rfl, rfl⟩

theorem handler_unwindKind (b : Bool) : HandlerOk (kindOf b) (unwindKind b) := by
  cases b <;> simp [HandlerOk, kindOf, unwindKind]

theorem unwind_spec {c : FnCtxt} (hI : Inv c) (hN : c.numBlocks = body.blocks.length) {isCleanup : Bool} {u : UnwindAction}
    (hv : u.Valid body isCleanup) :
    ∃ n c' news, c.translateUnwindAction isCleanup u = .ok (n, c') ∧ UnwindSpec body isCleanup u c c' n news := by
  cases u with
  | «continue» =>
    simp only [UnwindAction.Valid] at hv
    subst hv
    obtain ⟨_, h2, h3, h4⟩ := hI.add ⟨[], .resumeUnwind, .cleanup⟩
    refine ⟨_, _, _, rfl, h2, h3, h4, fun bl hs => .inr ?_, fun prog f hs hk hc => ⟨.single ⟨rfl, rfl⟩, _, ⟨_, hs _ List.mem_cons_self, rfl⟩, ?_⟩⟩
    · simp only [UnwindAction.todo, Todo.Laid]
      exact termAt_single (hs _ List.mem_cons_self)
    · simp [HandlerOk, kindOf]
  | unreachable =>
    obtain ⟨_, h2, h3, h4⟩ := hI.add ⟨[], .unreachable, unwindKind isCleanup⟩
    refine ⟨_, _, _, rfl, h2, h3, h4, fun bl hs => .inr ?_, fun prog f hs hk hc => ⟨.single ⟨rfl, rfl⟩, _, ⟨_, hs _ List.mem_cons_self, rfl⟩, ?_⟩⟩
    · simp only [UnwindAction.todo, Todo.Laid]
      exact termAt_single (hs _ List.mem_cons_self)
    · exact handler_unwindKind _
  | terminate =>
    obtain ⟨_, h2, h3, h4⟩ := hI.add ⟨[], mkAbort, unwindKind isCleanup⟩
    refine ⟨_, _, _, rfl, h2, h3, h4, fun bl hs => .inr ?_, fun prog f hs hk hc => ⟨.single ⟨rfl, ?_⟩, _, ⟨_, hs _ List.mem_cons_self, rfl⟩, ?_⟩⟩
    · simp only [UnwindAction.todo, Todo.abort, Todo.Laid]
      exact ⟨none, termAt_single (hs _ List.mem_cons_self), fun _ => trivial, fun b h => by cases h⟩
    · simp only [UnwindAction.todo, Todo.abort, Todo.Checked] at hc
      exact intrinsic_ok' hc.1
    · exact handler_unwindKind _
  | cleanup b =>
    obtain ⟨rfl, hb⟩ := hv
    refine ⟨b, c, [], by simp [translateUnwindAction, bbName_ok (hN ▸ hb.lt)], hI, .refl c, fun _ h => h, fun bl hs => .inl ⟨rfl, hb.lt⟩,
      fun prog f hs hk hc => ⟨.nil, _, hk _ _ hb, ?_⟩⟩
    simp [HandlerOk, kindOf]

/-- What is known about a terminator and the statements before it. -/
structure TermSpec (body : MirBody) (isCleanup unchecked unlaid : Bool) (todo : Todo) (c c' : FnCtxt) (stmts : List Statement) (t : Terminator)
    (news : Map BbName BasicBlock) (new : List Ty) : Prop where
  inv : Inv c'
  adds : Adds c c' [] news
  locs : ∀ tys, Locs tys c → Locs (tys ++ new) c'
  laid : unlaid = false → ∀ bl p, Sub news bl → (∀ i s, stmts[i]? = some s → StmtAt bl (p.1, p.2 + i) s) → TermAt bl (p.1, p.2 + stmts.length) t →
    todo.Starts bl body.blocks.length p
  fine : unchecked = false → ∀ prog f, Sub news f.blocks → Kinds body f → todo.Checked prog f → FineNews prog f news ∧
    checkStatements prog f stmts = .ok () ∧ t.checkWf prog f (kindOf isCleanup) = .ok ()

/-- A terminator that needs no new blocks. -/
theorem TermSpec.plain {c : FnCtxt} (hI : Inv c) {isCleanup : Bool} {todo : Todo} {t : Terminator}
    (hl : ∀ bl p, TermAt bl p t → todo.Laid bl body.blocks.length p)
    (hf : ∀ prog f, Kinds body f → todo.Checked prog f → t.checkWf prog f (kindOf isCleanup) = .ok ()) {un unl} :
    TermSpec body isCleanup un unl todo c c [] t [] [] :=
  ⟨hI, .refl c, fun tys h => by simpa using h, fun _ bl p _ _ h => .inl (hl bl p h),
    fun _ prog f _ hk hc => ⟨.nil, rfl, hf prog f hk hc⟩⟩

theorem goto_spec {c : FnCtxt} (hI : Inv c) {isCleanup : Bool} {b : Nat} (hb : body.Block isCleanup b) {un unl} :
    TermSpec body isCleanup un unl (.goto b) c c [] (.goto b) [] [] := by
  refine .plain hI (fun bl p h => ?_) fun prog f hk hc => goto_ok (hk _ _ hb)
  simp only [Todo.Laid]
  exact ⟨h, hb.lt⟩

theorem abort_spec {c : FnCtxt} (hI : Inv c) {isCleanup : Bool} {un unl} :
    TermSpec body isCleanup un unl .abort c c [] mkAbort [] [] := by
  refine .plain hI (fun bl p h => ?_) fun prog f hk hc => ?_
  · simp only [Todo.abort, Todo.Laid]
    exact ⟨none, h, fun _ => trivial, fun b h => by cases h⟩
  · simp only [Todo.abort, Todo.Checked] at hc
    exact intrinsic_ok' hc.1

theorem op_spec {c : FnCtxt} (hI : Inv c) {isCleanup : Bool} {o a r} {target : Option Nat}
    (ht : ∀ b, target = some b → body.Block isCleanup b) {un unl} :
    TermSpec body isCleanup un unl (.op o a r (gotoOpt target)) c c [] (.intrinsic o a r target) [] [] := by
  refine .plain hI (fun bl p h => ?_) fun prog f hk hc => ?_
  · simp only [Todo.Laid]
    refine ⟨target, h, fun h => by rw [h]; rfl, fun b h => ?_⟩
    rw [h]
    exact .inl ⟨rfl, (ht b h).lt⟩
  · simp only [Todo.Checked] at hc
    cases target with
    | none => exact intrinsic_ok' hc.1
    | some b => exact intrinsic_ok hc.1 (hk _ _ (ht b rfl))

theorem panic_spec {c : FnCtxt} (hI : Inv c) (hN : c.numBlocks = body.blocks.length) {isCleanup unwinds : Bool} {u : UnwindAction}
    (hv : u.Valid body isCleanup) {unl} :
    ∃ t c' news, c.translatePanic unwinds isCleanup u = .ok (t, c') ∧
      TermSpec body isCleanup (unwinds && isCleanup) unl (panicTodo unwinds u) c c' [] t news [] ∧
      ∀ bl p, Sub news bl → TermAt bl p t → (panicTodo unwinds u).Laid bl body.blocks.length p := by
  cases unwinds with
  | false =>
    refine ⟨_, c, [], rfl, abort_spec hI, fun bl p _ h => ?_⟩
    simp only [panicTodo, Todo.abort, Todo.Laid, Bool.false_eq_true, if_false]
    exact ⟨none, h, fun _ => trivial, fun b h => by cases h⟩
  | true =>
    obtain ⟨n, c', news, he, hs⟩ := unwind_spec hI hN hv
    have hl : ∀ bl p, Sub news bl → TermAt bl p (.startUnwind unitPtr n) → (panicTodo true u).Laid bl body.blocks.length p := by
      intro bl p hsub h
      simp only [panicTodo, if_true, Todo.Laid]
      exact ⟨n, h, hs.laid bl hsub⟩
    refine ⟨_, c', news, by simp only [translatePanic, if_true, he, Res.bind_ok],
      ⟨hs.inv, hs.adds, fun tys h => by simpa using hs.locs tys h, fun _ bl p hsub _ h => .inl (hl bl p hsub h), ?_⟩, hl⟩
    intro hu prog f hsub hk hc
    simp only [Bool.true_and] at hu
    subst hu
    simp only [panicTodo, if_true, Todo.Checked] at hc
    obtain ⟨h1, h, h2, h3⟩ := hs.fine prog f hsub hk hc.2
    exact ⟨h1, rfl, startUnwind_ok hc.1 h2 h3⟩

/-- A call that may unwind. -/
theorem mirCall_spec {c c' : FnCtxt} {isCleanup : Bool} {u : UnwindAction} {n news} (hs : UnwindSpec body isCleanup u c c' n news)
    (i : CallInfo) {target : Option Nat} (ht : ∀ b, target = some b → body.Block isCleanup b) {un unl} :
    TermSpec body isCleanup un unl (.call i (gotoOpt target) u.todo) c c' [] (.call i.callee i.conv i.args i.ret target (some n)) news [] := by
  refine ⟨hs.inv, hs.adds, fun tys h => by simpa using hs.locs tys h, fun _ bl p hsub _ h => .inl ?_, fun _ prog f hsub hk hc => ?_⟩
  · simp only [Todo.Laid]
    refine ⟨target, some n, h, fun h => by rw [h]; rfl, fun b h => ?_, fun h => (by cases h), fun b h => ?_⟩
    · rw [h]; exact .inl ⟨rfl, (ht b h).lt⟩
    · cases h; exact hs.laid bl hsub
  · simp only [Todo.Checked] at hc
    obtain ⟨h1, h, h2, h3⟩ := hs.fine prog f hsub hk hc.2.2
    refine ⟨h1, rfl, call_ok hc.1 ?_ (unwind_ok h2 h3)⟩
    cases target with
    | none => rfl
    | some b => exact nextOpt_ok (hk _ _ (ht b rfl))

/-! ### `catch_unwind` -/

theorem insert_next {m : Map BbName BasicBlock} {n : Nat} (h : ∀ e ∈ m, e.1 < n) (b : BasicBlock) :
    m.insert n b = m ++ [(n, b)] ∧ ∀ e ∈ m ++ [(n, b)], e.1 < n + 1 := by
  refine ⟨Map.insert_new fun hm => ?_, fun e he => ?_⟩
  · obtain ⟨e, he, h'⟩ := List.mem_map.mp hm
    exact absurd (h e he) (h' ▸ Nat.lt_irrefl _)
  · rcases List.mem_append.mp he with he | he
    · exact Nat.lt_succ_of_lt (h e he)
    · cases List.mem_singleton.mp he; exact Nat.lt_succ_self _

/-- The blocks of `catch_unwind`. -/
def catchBlocks (n tmp : Nat) (f d h : ValueExpr) (destination : PlaceExpr) (target : Nat) : Map BbName BasicBlock :=
  [(n, ⟨[.storageLive tmp, .storageLive (tmp + 1), .storageLive (tmp + 2), .storageLive (tmp + 3),
        .assign (.local tmp) (.addrOf destination rawVoidPtr), .assign (.local (tmp + 1)) f,
        .assign (.local (tmp + 2)) d, .assign (.local (tmp + 3)) h],
      .call (.load (.local (tmp + 1))) .rust [.byValue (.load (.local (tmp + 2)))] unitPlace (some (n + 1)) (some (n + 2)),
      .regular⟩),
   (n + 1, ⟨[.assign (.deref (.load (.local tmp)) (.int ⟨.signed, 4⟩)) (.constant (.int 0) (.int ⟨.signed, 4⟩)),
        .storageDead tmp, .storageDead (tmp + 1), .storageDead (tmp + 2), .storageDead (tmp + 3)], .goto target, .regular⟩),
   (n + 2, ⟨[.storageLive (tmp + 4)], .intrinsic .getUnwindPayload [] (.local (tmp + 4)) (some (n + 3)), .catch⟩),
   (n + 3, ⟨[.assign (.deref (.load (.local tmp)) (.int ⟨.signed, 4⟩)) (.constant (.int 1) (.int ⟨.signed, 4⟩))],
      .call (.load (.local (tmp + 3))) .rust [.byValue (.load (.local (tmp + 2))), .byValue (.load (.local (tmp + 4)))] unitPlace
        (some (n + 4)) none, .catch⟩),
   (n + 4, ⟨[.storageDead tmp, .storageDead (tmp + 1), .storageDead (tmp + 2), .storageDead (tmp + 3)], .stopUnwind target, .catch⟩)]

theorem catch_eq {c : FnCtxt} (hI : Inv c) {f d h : ValueExpr} {destination : PlaceExpr} {target : Nat} :
    ∃ c', c.translateCatchUnwind [f, d, h] destination target = .ok (.goto c.nextBb, c') ∧ Inv c' ∧
      Adds c c' [] (catchBlocks c.nextBb c.nextLocal f d h destination target) ∧ ∀ tys, Locs tys c → Locs (tys ++ catchTys) c' := by
  have key : ∀ bl : Map BbName BasicBlock, bl = c.blocks ++ catchBlocks c.nextBb c.nextLocal f d h destination target →
      Inv { c with nextBb := c.nextBb + 5, blocks := bl } := by
    rintro _ rfl
    constructor
    · simp only [List.map_append, List.nodup_append]
      refine ⟨hI.nodup, ?_, ?_⟩
      · simp [catchBlocks]
      · rintro a ha b hb rfl
        refine hI.not_mem (n := a) ?_ ha
        simp only [catchBlocks, List.map_cons, List.map_nil, List.mem_cons, List.not_mem_nil, or_false] at hb
        rcases hb with rfl | rfl | rfl | rfl | rfl <;> omega
    · intro e he
      rcases List.mem_append.mp he with he | he
      · exact Nat.lt_of_lt_of_le (hI.lt e he) (Nat.le_add_right _ _)
      · simp only [catchBlocks, List.mem_cons, List.not_mem_nil, or_false] at he
        rcases he with rfl | rfl | rfl | rfl | rfl
        · exact Nat.lt_add_of_pos_right (by decide)
        all_goals exact Nat.add_lt_add_left (by decide) c.nextBb
  have hb : ∀ b0 b1 b2 b3 b4, ((((c.blocks.insert c.nextBb b0).insert (c.nextBb + 1) b1).insert (c.nextBb + 2) b2).insert
      (c.nextBb + 3) b3).insert (c.nextBb + 4) b4 = c.blocks ++ [(c.nextBb, b0), (c.nextBb + 1, b1), (c.nextBb + 2, b2),
        (c.nextBb + 3, b3), (c.nextBb + 4, b4)] := by
    intro b0 b1 b2 b3 b4
    obtain ⟨e0, h0⟩ := insert_next hI.lt b0
    obtain ⟨e1, h1⟩ := insert_next h0 b1
    obtain ⟨e2, h2⟩ := insert_next h1 b2
    obtain ⟨e3, h3⟩ := insert_next h2 b3
    obtain ⟨e4, h4⟩ := insert_next h3 b4
    rw [e0, e1, e2, e3, e4]
    simp
  refine ⟨_, rfl, ?_, ?_, ?_⟩
  · have := key _ (hb _ _ _ _ _)
    exact ⟨this.nodup, this.lt⟩
  · refine ⟨rfl, rfl, Nat.le_add_right _ 5, hb _ _ _ _ _, fun e he => .inr ?_⟩
    simp only [catchBlocks, List.mem_cons, List.not_mem_nil, or_false] at he
    have : ∀ i, i < 5 → c.nextBb ≤ c.nextBb + i ∧ c.nextBb + i < c.nextBb + 5 := by omega
    rcases he with rfl | rfl | rfl | rfl | rfl
    · exact this 0 (by omega)
    · exact this 1 (by omega)
    · exact this 2 (by omega)
    · exact this 3 (by omega)
    · exact this 4 (by omega)
  · intro tys hl
    have h5 := ((((hl.fresh (.ptr rawVoidPtr)).2.fresh (.ptr .fnPtr)).2.fresh (.ptr rawVoidPtr)).2.fresh (.ptr .fnPtr)).2.fresh (.ptr rawVoidPtr)
    have := h5.2
    simp only [List.append_assoc, List.cons_append, List.nil_append] at this
    exact this

theorem Todo.laid_stmts {bl : Map BbName BasicBlock} {n : Nat} : ∀ {l : List Statement} {rest : Todo} {p : Pos},
    (∀ i s, l[i]? = some s → StmtAt bl (p.1, p.2 + i) s) → rest.Laid bl n (p.1, p.2 + l.length) → (Todo.stmts l rest).Laid bl n p
  | [], rest, p, _, h => by simpa [Todo.stmts] using h
  | s :: l, rest, p, hs, h => by
    simp only [Todo.stmts, Todo.Laid]
    refine ⟨by simpa using hs 0 s rfl, .inl (Todo.laid_stmts (fun i s hi => ?_) ?_)⟩
    · have := hs (i + 1) s (by simpa using hi)
      rwa [Nat.add_assoc, Nat.add_comm 1 i]
    · rw [List.length_cons] at h
      rwa [Nat.add_assoc, Nat.add_comm 1]

theorem laid_block {bl : Map BbName BasicBlock} {n b : Nat} {blk : BasicBlock} {rest : Todo} (h : bl.get? b = some blk)
    (hr : TermAt bl (b, blk.statements.length) blk.terminator → rest.Laid bl n (b, blk.statements.length)) :
    (Todo.stmts blk.statements rest).Laid bl n (b, 0) := by
  refine Todo.laid_stmts (fun i s hi => ⟨blk, h, by simpa using hi⟩) ?_
  simpa using hr ⟨blk, h, rfl, rfl⟩

theorem Todo.checked_stmts {prog : Program} {f : Function} : ∀ {l : List Statement} {rest : Todo},
    (Todo.stmts l rest).Checked prog f ↔ checkStatements prog f l = .ok () ∧ rest.Checked prog f
  | [], rest => by simp [Todo.stmts, checkStatements]
  | s :: l, rest => by
    simp only [Todo.stmts, Todo.Checked, checkStatements, Res.bind_eq_ok, Todo.checked_stmts (l := l)]
    constructor
    · rintro ⟨h1, h2, h3⟩; exact ⟨⟨(), h1, h2⟩, h3⟩
    · rintro ⟨⟨_, h1, h2⟩, h3⟩; exact ⟨h1, h2, h3⟩

theorem catch_spec {c : FnCtxt} (hI : Inv c) {f d h : ValueExpr} {destination : PlaceExpr} {target : Nat}
    (ht : body.Block false target) {un unl} :
    ∃ t c' news, c.translateCatchUnwind [f, d, h] destination target = .ok (t, c') ∧
      TermSpec body false un unl (catchUnwindTodo c.nextLocal f d h destination target) c c' [] t news catchTys := by
  obtain ⟨c', he, hi, ha, hl⟩ := catch_eq hI (f := f) (d := d) (h := h) (destination := destination) (target := target)
  refine ⟨_, c', _, he, hi, ha, hl, ?_, ?_⟩
  · intro _ bl p hsub _ hterm
    refine .inr ⟨_, by simpa using hterm, ?_⟩
    simp only [Sub, catchBlocks, List.mem_cons, List.not_mem_nil, or_false, forall_eq_or_imp, forall_eq] at hsub
    obtain ⟨g0, g1, g2, g3, g4⟩ := hsub
    refine laid_block (rest := .call _ _ _) g0 fun t0 => ?_
    rw [Todo.Laid]
    refine ⟨_, _, t0, fun h => (by cases h), fun b hb => ?_, fun h => (by cases h), fun b hb => ?_⟩
    · cases hb
      refine .inr (laid_block (rest := .goto target) g1 fun t1 => ?_)
      rw [Todo.Laid]
      exact ⟨t1, ht.lt⟩
    · cases hb
      refine .inr (laid_block (rest := .op _ _ _ _) g2 fun t2 => ?_)
      rw [Todo.Laid]
      refine ⟨_, t2, fun h => (by cases h), fun b hb => ?_⟩
      cases hb
      refine .inr (.inl (laid_block (rest := .call _ _ _) g3 fun t3 => ?_))
      rw [Todo.Laid]
      refine ⟨_, _, t3, fun h => (by cases h), fun b hb => ?_, fun _ => rfl, fun b hb => (by cases hb)⟩
      cases hb
      refine .inr (laid_block (rest := .stopUnwind _) g4 fun t4 => ?_)
      rw [Todo.Laid]
      exact ⟨_, t4, .inl ⟨rfl, ht.lt⟩⟩
  · intro _ prog fn hsub hk hc
    simp only [Sub, catchBlocks, List.mem_cons, List.not_mem_nil, or_false, forall_eq_or_imp, forall_eq] at hsub
    obtain ⟨g0, g1, g2, g3, g4⟩ := hsub
    simp only [catchUnwindTodo, Todo.checked_stmts, Todo.Checked] at hc
    obtain ⟨s0, c0, ⟨s1, _⟩, s2, i2, s3, c3, ⟨s4, _⟩, _⟩ := hc
    have hreg : HasKind fn.blocks target .regular := hk _ _ ht
    refine ⟨?_, rfl, goto_ok ⟨_, g0, rfl⟩⟩
    intro e hmem
    simp only [catchBlocks, List.mem_cons, List.not_mem_nil, or_false] at hmem
    rcases hmem with rfl | rfl | rfl | rfl | rfl
    · exact ⟨s0, call_ok c0 (nextOpt_ok ⟨_, g1, rfl⟩) (unwind_ok ⟨_, g2, rfl⟩ (.inl ⟨rfl, .inr rfl⟩))⟩
    · exact ⟨s1, goto_ok hreg⟩
    · refine ⟨by simp only [checkStatements, s2, Res.bind_ok], intrinsic_ok i2 ⟨_, g3, rfl⟩⟩
    · refine ⟨by simp only [checkStatements, s3, Res.bind_ok], call_ok c3 (nextOpt_ok ⟨_, g4, rfl⟩) rfl⟩
    · refine ⟨s4, ?_⟩
      obtain ⟨blk, hb, hkk⟩ := hreg
      simp [Terminator.checkWf, Function.checkNextBlock, hb, hkk]

/-! ### Calls -/

/-- An assignment, and a jump. -/
theorem assign_spec {c : FnCtxt} (hI : Inv c) {isCleanup : Bool} {s : Statement} {b : Nat} (hb : body.Block isCleanup b) {un unl} :
    TermSpec body isCleanup un unl (.stmt s (.goto b)) c c [s] (.goto b) [] [] := by
  refine ⟨hI, .refl c, fun tys h => by simpa using h, fun _ bl p _ hs h => .inl ?_, fun _ prog f _ hk hc => ⟨.nil, ?_, goto_ok (hk _ _ hb)⟩⟩
  · simp only [Todo.Laid]
    exact ⟨by simpa using hs 0 s rfl, .inl ⟨by simpa using h, hb.lt⟩⟩
  · simp only [Todo.Checked] at hc
    simp only [checkStatements, hc.1, Res.bind_ok]

theorem translate_eq : MirOperand.translate = MirOperand.value := by
  funext o; cases o <;> rfl

theorem rsIntrinsic_spec {c : FnCtxt} (hI : Inv c) (hN : c.numBlocks = body.blocks.length) {isCleanup : Bool} {i : RsIntrinsic}
    {args : List MirOperand} {destination : PlaceExpr} {target : Option Nat} (hv : i.Valid isCleanup args target)
    (ht : ∀ b, target = some b → body.Block isCleanup b) {un unl} :
    ∃ stmts t c' news, c.translateRsIntrinsic i args destination target = .ok (stmts, t, c') ∧
      TermSpec body isCleanup un unl (i.todo c.nextLocal args destination target) c c' stmts t news
        (match i with | .catchUnwind => catchTys | _ => []) := by
  have val : ∀ v, i.value args = some (.ok v) → target.isSome →
      ∃ stmts t c' news, c.translateRsIntrinsic i args destination target = .ok (stmts, t, c') ∧
      TermSpec body isCleanup un unl (i.todo c.nextLocal args destination target) c c' stmts t news [] := by
    intro v h1 h2
    obtain ⟨b, rfl⟩ := Option.isSome_iff_exists.mp h2
    refine ⟨[.assign destination v], .goto b, c, [], ?_, ?_⟩
    · simp only [translateRsIntrinsic, h1, unwrap, Res.bind_ok, bbName_ok (hN ▸ (ht b rfl).lt)]
    · simp only [RsIntrinsic.todo, h1, gotoOpt]
      exact assign_spec hI (ht b rfl)
  have two : args.length = 2 → ∃ l r, args = [l, r] := by
    intro h
    match args, h with
    | [l, r], _ => exact ⟨l, r, rfl⟩
  have one : args.length = 1 → ∃ l, args = [l] := by
    intro h
    match args, h with
    | [l], _ => exact ⟨l, rfl⟩
  have jump : ∀ b, target = some b → ∃ stmts t c' news, (do
      let t ← unwrap target
      let b ← c.bbName t
      (.ok ([], Terminator.goto b, c) : Res (List Statement × Terminator × FnCtxt))) = .ok (stmts, t, c') ∧
      TermSpec body isCleanup un unl (gotoOpt target) c c' stmts t news [] := by
    rintro b rfl
    exact ⟨[], .goto b, c, [], by simp only [unwrap, Res.bind_ok, bbName_ok (hN ▸ (ht b rfl).lt)], goto_spec hI (ht b rfl)⟩
  cases i with
  | assertValidity p =>
    cases p with
    | true => exact ⟨[], mkAbort, c, [], rfl, abort_spec hI⟩
    | false =>
      obtain ⟨b, hb⟩ := Option.isSome_iff_exists.mp hv
      exact jump b hb
  | rawEq =>
    refine ⟨[], _, c, [], ?_, op_spec hI ht⟩
    simp only [translateRsIntrinsic, RsIntrinsic.value, bbNameOpt_ok fun b h => hN ▸ (ht b h).lt, Res.bind_ok, translate_eq]
  | arithOffset s ty =>
    obtain ⟨l, r, rfl⟩ := two hv.1
    exact val _ rfl hv.2
  | ptrOffsetFrom u s =>
    obtain ⟨l, r, rfl⟩ := two hv.1
    exact val _ rfl hv.2
  | ctpop =>
    obtain ⟨l, rfl⟩ := one hv.1
    exact val _ rfl hv.2
  | exactDiv =>
    obtain ⟨l, r, rfl⟩ := two hv.1
    exact val _ rfl hv.2
  | sizeOfVal ty =>
    obtain ⟨l, rfl⟩ := one hv.1
    exact val _ rfl hv.2
  | alignOfVal ty =>
    obtain ⟨l, rfl⟩ := one hv.1
    exact val _ rfl hv.2
  | coldPath =>
    obtain ⟨b, hb⟩ := Option.isSome_iff_exists.mp hv
    exact jump b hb
  | catchUnwind =>
    obtain ⟨h3, h4, rfl⟩ := hv
    obtain ⟨b, rfl⟩ := Option.isSome_iff_exists.mp h4
    match args, h3 with
    | [f, d, h], _ =>
      obtain ⟨t, c', news, he, hs⟩ := catch_spec hI (ht b rfl) (f := f.value) (d := d.value) (h := h.value)
        (destination := destination) (un := un) (unl := unl)
      refine ⟨[], t, c', news, ?_, hs⟩
      simp only [translateRsIntrinsic, RsIntrinsic.value, unwrap, Res.bind_ok, bbName_ok (hN ▸ (ht b rfl).lt), List.map_cons, List.map_nil, translate_eq, he]
  | abort => exact ⟨[], mkAbort, c, [], rfl, abort_spec hI⟩
  | unsupported => exact hv.elim

theorem argument_eq : MirOperand.argument = MirOperand.passed := by
  funext op; cases op <;> rfl

theorem callArgs_ok {args : List MirOperand} {rc : Option Nat} (h : RustCallOk args rc) : callArgs args rc = .ok (passedArgs args rc) := by
  cases rc with
  | none => simp [callArgs, passedArgs, argument_eq]
  | some n =>
    obtain ⟨p, h | h⟩ := h <;> simp [callArgs, passedArgs, h, argument_eq]

/-- The types of the variables that a terminator needs. -/
def MirTerm.newTys : MirTerm → List Ty
  | .call (.rsIntrinsic .catchUnwind) _ _ _ _ => catchTys
  | _ => []

theorem translateCall_spec {c : FnCtxt} (hI : Inv c) (hN : c.numBlocks = body.blocks.length) {unwinds isCleanup : Bool} {callee : MirCallee}
    {args : List MirOperand} {destination : PlaceExpr} {target : Option Nat} {unwind : UnwindAction}
    (hv : callee.Valid body isCleanup args target unwind) (ht : ∀ b, target = some b → body.Block isCleanup b) {un unl}
    (hun : (∃ n, callee = .panicFn n) → (unwinds && isCleanup) = true → un = true)
    (hunl : callee = .panicFn true → unwinds = true → un = true ∧ unl = true) :
    ∃ stmts t c' news, c.translateCall unwinds isCleanup callee args destination target unwind = .ok (stmts, t, c') ∧
      TermSpec body isCleanup un unl (callee.todo unwinds c.nextLocal args destination target unwind) c c' stmts t news
        (MirTerm.call callee args destination target unwind).newTys := by
  have opt : ∀ {c' : FnCtxt}, c'.numBlocks = c.numBlocks → c'.bbNameOpt target = .ok target := fun h =>
    bbNameOpt_ok fun b hb => by rw [h, hN]; exact (ht b hb).lt
  cases callee with
  | fnPtr func conv =>
    obtain ⟨n, c', news, he, hs⟩ := unwind_spec hI hN hv
    refine ⟨_, _, c', news, ?_, mirCall_spec hs ⟨func.value, conv, args.map (·.passed), destination⟩ ht⟩
    simp only [translateCall, he, Res.bind_ok, opt hs.adds.numBlocks, argument_eq, translate_eq]
  | rsIntrinsic i =>
    obtain ⟨s, t, c', news, he, hs⟩ := rsIntrinsic_spec hI hN hv ht (destination := destination) (un := un) (unl := unl)
    refine ⟨s, t, c', news, he, ?_⟩
    cases i <;> exact hs
  | intrinsic op =>
    refine ⟨_, _, c, [], ?_, op_spec hI ht⟩
    simp only [translateCall, opt rfl, Res.bind_ok, translate_eq]
  | panicFn nounwind =>
    obtain ⟨t, c', news, he, hs, _⟩ := panic_spec hI hN hv (unwinds := unwinds) (unl := false)
    refine ⟨[], t, c', news, by simp only [translateCall, he, Res.bind_ok], hs.inv, hs.adds, hs.locs, ?_, ?_⟩
    · intro hu
      cases nounwind with
      | false => exact hs.laid rfl
      | true =>
        cases unwinds with
        | true => rw [(hunl rfl rfl).2] at hu; cases hu
        | false => exact hs.laid rfl
    · intro hu prog f hsub hk hc
      refine hs.fine ?_ prog f hsub hk ?_
      · cases h : unwinds && isCleanup with
        | false => rfl
        | true => rw [hun ⟨_, rfl⟩ h] at hu; cases hu
      · cases nounwind with
        | false => exact hc
        | true =>
          cases unwinds with
          | true => rw [(hunl rfl rfl).1] at hu; cases hu
          | false => exact hc
  | foreign => exact hv.elim
  | fn name conv rc =>
    obtain ⟨n, c', news, he, hs⟩ := unwind_spec hI hN hv.1
    refine ⟨_, _, c', news, ?_, mirCall_spec hs ⟨mkFnPtr name, conv, passedArgs args rc, destination⟩ ht⟩
    simp only [translateCall, callArgs_ok hv.2, he, Res.bind_ok, opt hs.adds.numBlocks]
  | «virtual» method conv rc =>
    obtain ⟨n, c', news, he, hs⟩ := unwind_spec hI hN hv.1
    match args, hv with
    | [], hv => exact absurd rfl hv.2.2
    | self :: rest, hv =>
      refine ⟨_, _, c', news, ?_, mirCall_spec hs ⟨_, conv, _, destination⟩ ht⟩
      simp only [translateCall, callArgs_ok hv.2.1, he, Res.bind_ok, opt hs.adds.numBlocks, translate_eq]

/-! ### Terminators -/

theorem bring_inj {s : Signedness} {n a b : Nat} (ha : a < 2 ^ (8 * n)) (hb : b < 2 ^ (8 * n))
    (h : bringInBounds s n (a : Int) = bringInBounds s n (b : Int)) : a = b := by
  have hp : (2 : Int) ^ (8 * n) = ((2 ^ (8 * n) : Nat) : Int) := by simp
  have h1 := bringInBounds_cong s n a
  have h2 := bringInBounds_cong s n b
  rw [h] at h1
  have h3 := Int.dvd_sub h2 h1
  have h4 : bringInBounds s n (b : Int) - b - (bringInBounds s n (b : Int) - a) = (a : Int) - b := by omega
  rw [h4] at h3
  have := inBounds_unique .unsigned n a b (by simp only [inBounds, hp, decide_eq_true_eq]; omega)
    (by simp only [inBounds, hp, decide_eq_true_eq]; omega) h3
  omega

theorem caseOf_eq : ∀ (l : List (Int × Nat)) (i : Int), Map.get? (l : Map Int BbName) i = caseOf l i
  | [], _ => rfl
  | (v, b) :: l, i => by
    simp only [caseOf, Map.get?, caseOf_eq l i]

theorem caseOf_mem : ∀ {l : List (Int × Nat)} {i : Int} {b : Nat}, caseOf l i = some b → (i, b) ∈ l
  | (v, b) :: l, i, b', h => by
    simp only [caseOf] at h
    split at h
    · rename_i hv; cases h; exact hv ▸ List.mem_cons_self
    · exact List.mem_cons_of_mem _ (caseOf_mem h)

theorem switchCases_ok {c : FnCtxt} {ity : IntType} (hs : ity.size ≤ 16) : ∀ {targets : List (Nat × Nat)} {m : Map Int BbName},
    (targets.map (·.1)).Nodup → (∀ t ∈ targets, t.1 < 2 ^ (8 * ity.size) ∧ t.2 < c.numBlocks) →
    (∀ t ∈ targets, ity.bringInBounds t.1 ∉ m.map (·.1)) →
    c.switchCases ity targets m = .ok (m ++ targets.map fun t => (ity.bringInBounds t.1, t.2))
  | [], m, _, _, _ => by simp [switchCases]
  | (bits, b) :: rest, m, hn, hb, hm => by
    simp only [List.map_cons, List.nodup_cons] at hn
    have h1 := hb _ List.mem_cons_self
    simp only [switchCases, intFromBits_ok hs, Res.bind_ok, bbName_ok h1.2, Map.insert_new (hm _ List.mem_cons_self)]
    rw [switchCases_ok hs hn.2 (fun t ht => hb t (List.mem_cons_of_mem _ ht))]
    · simp
    · intro t ht hmem
      rw [List.map_append, List.mem_append] at hmem
      rcases hmem with hmem | hmem
      · exact hm t (List.mem_cons_of_mem _ ht) hmem
      · simp only [List.map_cons, List.map_nil, List.mem_singleton] at hmem
        have := bring_inj (hb t (List.mem_cons_of_mem _ ht)).1 h1.1 hmem
        exact hn.1 (List.mem_map.mpr ⟨t, ht, this⟩)

theorem switch_spec {c : FnCtxt} (hI : Inv c) {isCleanup : Bool} {v : ValueExpr} {cs : List (Int × Nat)} {b : Nat}
    (hc : ∀ t ∈ cs, body.Block isCleanup t.2) (hb : body.Block isCleanup b) {un unl} :
    TermSpec body isCleanup un unl (.switch v cs (.goto b)) c c [] (.switch v cs b) [] [] := by
  refine .plain hI (fun bl p h => ?_) fun prog f hk hch => ?_
  · rw [Todo.Laid]
    exact ⟨cs, b, h, caseOf_eq cs, fun i b h => (hc _ (caseOf_mem h)).lt, .inl ⟨rfl, hb.lt⟩⟩
  · simp only [Todo.Checked] at hch
    obtain ⟨⟨ity, h1, h2⟩, _⟩ := hch
    obtain ⟨blk, hbb, hbk⟩ := hk _ _ hb
    simp only [Terminator.checkWf, h1, Res.bind_ok,
      checkSwitchCases_ok (l := cs) (ity := ity) fun e he => ⟨h2 e he, hk _ _ (hc e he)⟩]
    simp [Function.checkNextBlock, hbb, hbk]

theorem term_spec {c : FnCtxt} (hI : Inv c) (hN : c.numBlocks = body.blocks.length) {unwinds isCleanup : Bool} {t : MirTerm}
    (hv : t.Valid body isCleanup) {un unl} (hun : t.Panics → (unwinds && isCleanup) = true → un = true)
    (hunl : t.PanicsNounwind → unwinds = true → un = true ∧ unl = true) :
    ∃ stmts t' c' news, c.translateTerm unwinds isCleanup t = .ok (stmts, t', c') ∧
      TermSpec body isCleanup un unl (t.todo unwinds c.nextLocal) c c' stmts t' news t.newTys := by
  cases t with
  | «return» =>
    refine ⟨_, _, c, [], rfl, .plain hI (fun bl p h => by simpa only [MirTerm.todo, Todo.Laid] using h) fun prog f hk hc => ?_⟩
    cases hv; rfl
  | goto b =>
    refine ⟨_, _, c, [], ?_, goto_spec hI hv⟩
    simp only [translateTerm, bbName_ok (hN ▸ MirBody.Block.lt hv), Res.bind_ok]
  | call callee args d target unwind =>
    refine translateCall_spec hI hN hv.1 hv.2 ?_ ?_
    · rintro ⟨n, rfl⟩ h; exact hun trivial h
    · rintro rfl h; exact hunl trivial h
  | switchInt discr ty targets otherwise =>
    obtain ⟨h1, h2, h3⟩ := hv
    have hlt : ∀ t ∈ targets, t.2 < c.numBlocks := fun t ht => hN ▸ (h2 t ht).lt
    cases ty with
    | bool =>
      obtain ⟨hs, hn, hb⟩ := h1
      have e1 := switchCases_ok (c := c) (ity := ⟨.unsigned, 1⟩) hs hn (fun t ht => ⟨hb t ht, hlt t ht⟩) (m := []) (by simp)
      have e2 : (targets.map fun t => ((⟨.unsigned, 1⟩ : IntType).bringInBounds t.1, t.2)) = targets.map fun (bits, b) => ((bits : Int), b) := by
        refine List.map_congr_left fun t ht => ?_
        have hx := hb t ht
        have : bringInBounds .unsigned 1 (t.1 : Int) = t.1 := by
          refine bringInBounds_of_inBounds _ _ _ ?_
          simp only [inBounds, decide_eq_true_eq]
          norm_num at hx ⊢
          omega
        simp only [IntType.bringInBounds, this]
      rw [List.nil_append, e2] at e1
      refine ⟨_, _, c, [], ?_, switch_spec hI (cs := targets.map fun (bits, b) => ((bits : Int), b)) ?_ h3⟩
      · simp only [translateTerm, Res.bind_ok, e1, bbName_ok (hN ▸ h3.lt), translate_eq]; rfl
      · intro t ht
        obtain ⟨t', ht', rfl⟩ := List.mem_map.mp ht
        exact h2 t' ht'
    | int ity =>
      obtain ⟨hs, hn, hb⟩ := h1
      have e1 := switchCases_ok (c := c) (ity := ity) hs hn (fun t ht => ⟨hb t ht, hlt t ht⟩) (m := []) (by simp)
      rw [List.nil_append] at e1
      refine ⟨_, _, c, [], ?_, switch_spec hI (cs := targets.map fun (bits, b) => (ity.bringInBounds bits, b)) ?_ h3⟩
      · simp only [translateTerm, Res.bind_ok, e1, bbName_ok (hN ▸ h3.lt), translate_eq]
      · intro t ht
        obtain ⟨t', ht', rfl⟩ := List.mem_map.mp ht
        exact h2 t' ht'
    | _ => exact h1.elim
  | unreachable => exact ⟨_, _, c, [], rfl, .plain hI (fun bl p h => by simpa only [MirTerm.todo, Todo.Laid] using h) fun prog f hk hc => rfl⟩
  | assert cond expected target unwind =>
    obtain ⟨h1, h2⟩ := hv
    obtain ⟨t, c1, news, he, hs, hl⟩ := panic_spec hI hN h2 (unwinds := unwinds) (unl := false)
    obtain ⟨g1, g2, g3, g4⟩ := hs.inv.add ⟨[], t, kindOf isCleanup⟩
    refine ⟨[], .switch (FnBuilder.boolToInt (if expected then cond.value else mkNot cond.value)) [(1, target)] c1.freshBb.1, _,
      news ++ [(c1.freshBb.1, ⟨[], t, kindOf isCleanup⟩)], ?_, g2, hs.adds.trans g3, fun tys h => ?_, ?_, ?_⟩
    · simp only [translateTerm, he, Res.bind_ok, g1, translate_eq]
      rw [bbName_ok]
      · rfl
      · rw [g3.numBlocks, hs.adds.numBlocks, hN]; exact h1.lt
    · exact g4 _ (hs.locs tys h)
    · intro _ bl p hsub _ ht
      refine .inl ?_
      simp only [MirTerm.todo]
      rw [Todo.Laid]
      refine ⟨_, _, by simpa using ht, caseOf_eq [(1, target)], fun i b h => ?_, .inr (hl bl _ hsub.left (termAt_single (hsub.right _ List.mem_cons_self)))⟩
      have := caseOf_mem h
      cases List.mem_singleton.mp this
      exact h1.lt
    · intro hu prog f hsub hk hc
      simp only [MirTerm.todo, Todo.Checked] at hc
      obtain ⟨⟨ity, k1, k2⟩, k3⟩ := hc
      have hu' : (unwinds && isCleanup) = false := by
        cases h : unwinds && isCleanup with
        | false => rfl
        | true => rw [hun trivial h] at hu; cases hu
      obtain ⟨f1, f2, f3⟩ := hs.fine hu' prog f hsub.left hk k3
      have hp := hsub.right _ List.mem_cons_self
      refine ⟨f1.append (.single ⟨rfl, f3⟩), rfl, ?_⟩
      simp only [Terminator.checkWf, k1, Res.bind_ok,
        checkSwitchCases_ok (l := [(1, target)]) (ity := ity) (f := f) (k := kindOf isCleanup) fun e he => by
          cases List.mem_singleton.mp he
          exact ⟨k2 (1, target) List.mem_cons_self, hk _ _ h1⟩]
      simp only at hp
      simp [Function.checkNextBlock, hp]
  | drop how place target unwind =>
    obtain ⟨h1, h2⟩ := hv
    refine ⟨_, .call (dropCall how place).1 .rust [.byValue (dropCall how place).2] unitPlace (some target) none, c, [], ?_,
      .plain hI (fun bl p h => ?_) fun prog f hk hc => ?_⟩
    · simp only [translateTerm, bbName_ok (hN ▸ h1.lt), Res.bind_ok]
    · simp only [MirTerm.todo]
      rw [Todo.Laid]
      exact ⟨target, h, .inl ⟨rfl, h1.lt⟩⟩
    · simp only [MirTerm.todo, Todo.Checked] at hc
      exact call_ok hc.1 (nextOpt_ok (hk _ _ h1)) rfl
  | resume =>
    refine ⟨_, _, c, [], rfl, .plain hI (fun bl p h => by simpa only [MirTerm.todo, Todo.Laid] using h) fun prog f hk hc => ?_⟩
    cases hv; rfl
  | unsupported => exact hv.elim

end MiniRust
