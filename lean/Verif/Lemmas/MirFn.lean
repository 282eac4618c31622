import Verif.Lemmas.MirTrans
/-
The translation of whole blocks and bodies.
-/
set_option linter.unusedSectionVars false
namespace MiniRust
open FnCtxt
open FnBuilder (HasKind goto_ok intrinsic_ok intrinsic_ok' call_ok nextOpt_ok unwind_ok startUnwind_ok checkStatements_append)

variable [T : Target] {body : MirBody}

/-- What is known about the translation of (the rest of) a block. -/
structure BlockSpec (body : MirBody) (isCleanup unchecked unlaid : Bool) (todo : Todo) (c c' : FnCtxt) (name : Nat)
    (statements : List Statement) (news : Map BbName BasicBlock) (new : List Ty) : Prop where
  inv : Inv c'
  adds : Adds c c' [name] news
  locs : ∀ tys, Locs tys c → Locs (tys ++ new) c'
  block : ∃ blk, (name, blk) ∈ news ∧ statements <+: blk.statements ∧ blk.kind = kindOf isCleanup
  laid : unlaid = false → ∀ bl, Sub news bl → todo.Starts bl body.blocks.length (name, statements.length)
  fine : unchecked = false → ∀ prog f, Sub news f.blocks → Kinds body f → todo.Checked prog f →
    checkStatements prog f statements = .ok () → FineNews prog f news

theorem stmt_spec {c : FnCtxt} (hL : c.numLocals = body.locals.length) {s : MirStmt} (hv : s.Valid body) :
    (∃ s', c.translateStmt s = .ok (.statement s') ∧ ∀ rest, s.todo rest = .stmt s' rest) ∨
    (∃ o d a, c.translateStmt s = .ok (.intrinsic o d a) ∧ ∀ rest, s.todo rest = .op o a d rest) := by
  cases s with
  | assign d v => exact .inl ⟨_, rfl, fun _ => rfl⟩
  | assignExpose d o => exact .inr ⟨_, _, _, rfl, fun _ => by rw [translate_eq]; rfl⟩
  | assignWithExposed d o => exact .inr ⟨_, _, _, rfl, fun _ => by rw [translate_eq]; rfl⟩
  | storageLive l => exact .inl ⟨_, by simp only [translateStmt, localName_ok (hL ▸ hv : l < c.numLocals), Res.bind_ok], fun _ => rfl⟩
  | storageDead l => exact .inl ⟨_, by simp only [translateStmt, localName_ok (hL ▸ hv : l < c.numLocals), Res.bind_ok], fun _ => rfl⟩
  | retag b p => exact .inl ⟨_, rfl, fun _ => rfl⟩
  | setDiscriminant p v => exact .inl ⟨_, rfl, fun _ => rfl⟩
  | assume o => exact .inr ⟨_, _, _, rfl, fun _ => by rw [translate_eq]; rfl⟩
  | placeMention p => exact .inl ⟨_, rfl, fun _ => rfl⟩
  | unsupported => exact hv.elim

theorem block_spec {unwinds isCleanup : Bool} {t : MirTerm} (hv : t.Valid body isCleanup) {un unl}
    (hun : t.Panics → (unwinds && isCleanup) = true → un = true)
    (hunl : t.PanicsNounwind → unwinds = true → un = true ∧ unl = true) : ∀ {stmts : List MirStmt} {c : FnCtxt} {name : Nat}
    {statements : List Statement}, Inv c → c.numBlocks = body.blocks.length → c.numLocals = body.locals.length →
    name ∉ c.blocks.map (·.1) → name < c.nextBb → (∀ s ∈ stmts, s.Valid body) →
    ∃ c' news, translateBlock unwinds isCleanup t c name statements stmts = .ok c' ∧
      BlockSpec body isCleanup un unl (stmts.foldr MirStmt.todo (t.todo unwinds c.nextLocal)) c c' name statements news t.newTys
  | [], c, name, statements, hI, hN, hL, hn, hlt, _ => by
    obtain ⟨stmts, t', c1, news, he, hs⟩ := term_spec hI hN hv hun hunl
    have hn1 : name ∉ c1.blocks.map (·.1) := by
      rw [hs.adds.blocks, List.map_append, List.mem_append, not_or]
      refine ⟨hn, fun hm => ?_⟩
      obtain ⟨e, he, rfl⟩ := List.mem_map.mp hm
      rcases hs.adds.names e he with h | ⟨h, _⟩
      · cases h
      · exact absurd hlt (Nat.not_lt.mpr h)
    obtain ⟨g1, g2, g3⟩ := hs.inv.insert hn1 (Nat.lt_of_lt_of_le hlt hs.adds.nextBb) ⟨statements ++ stmts, t', kindOf isCleanup⟩
    refine ⟨_, news ++ [(name, ⟨statements ++ stmts, t', kindOf isCleanup⟩)], ?_, g2, hs.adds.trans g3, ?_, ?_, ?_, ?_⟩
    · simp only [translateBlock, he, Res.bind_ok, g1]
    · exact fun tys h => hs.locs tys h
    · exact ⟨_, List.mem_append_right _ List.mem_cons_self, List.prefix_append _ _, rfl⟩
    · intro hu bl hsub
      have hb := hsub.right _ List.mem_cons_self
      refine hs.laid hu bl _ hsub.left (fun i s hi => ⟨_, hb, ?_⟩) ⟨_, hb, ?_, rfl⟩
      · simp only [List.getElem?_append_right (Nat.le_add_right _ _), Nat.add_sub_cancel_left, hi]
      · simp
    · intro hu prog f hsub hk hc hst
      obtain ⟨f1, f2, f3⟩ := hs.fine hu prog f hsub.left hk hc
      exact f1.append (.single ⟨checkStatements_append hst f2, f3⟩)
  | s :: rest, c, name, statements, hI, hN, hL, hn, hlt, hst => by
    rcases stmt_spec hL (hst s List.mem_cons_self) with ⟨s', e1, e2⟩ | ⟨o, d, a, e1, e2⟩
    · obtain ⟨c', news, he, hs⟩ := block_spec hv hun hunl (stmts := rest) (statements := statements ++ [s']) hI hN hL hn hlt
        (fun s h => hst s (List.mem_cons_of_mem _ h))
      obtain ⟨blk, hb1, hb2, hb3⟩ := hs.block
      refine ⟨c', news, by simp only [translateBlock, e1, Res.bind_ok, he], hs.inv, hs.adds, hs.locs,
        ⟨blk, hb1, (List.prefix_append _ _).trans hb2, hb3⟩, ?_, ?_⟩
      · intro hu bl hsub
        rw [List.foldr_cons, e2]
        refine .inl ?_
        rw [Todo.Laid]
        refine ⟨⟨blk, hsub _ hb1, ?_⟩, ?_⟩
        · obtain ⟨l, hl⟩ := hb2
          simp [← hl]
        · have := hs.laid hu bl hsub
          simpa only [List.length_append, List.length_singleton, Todo.Starts] using this
      · intro hu prog f hsub hk hc hck
        rw [List.foldr_cons, e2] at hc
        simp only [Todo.Checked] at hc
        refine hs.fine hu prog f hsub hk hc.2 (checkStatements_append hck ?_)
        simp only [checkStatements, hc.1, Res.bind_ok]
    · obtain ⟨b1, b2⟩ := hI.bump (Nat.le_succ c.nextBb)
      obtain ⟨g1, g2, g3⟩ := b1.insert hn (Nat.lt_succ_of_lt hlt) ⟨statements, .intrinsic o a d (some c.nextBb), kindOf isCleanup⟩
      have hn2 : c.nextBb ∉ (({ c with nextBb := c.nextBb + 1 } : FnCtxt).insertBlock name
          ⟨statements, .intrinsic o a d (some c.nextBb), kindOf isCleanup⟩).blocks.map (·.1) := by
        rw [g3.blocks, List.map_append, List.mem_append, not_or]
        refine ⟨hI.not_mem (Nat.le_refl _), fun hm => ?_⟩
        have : c.nextBb = name := List.mem_singleton.mp hm
        exact Nat.lt_irrefl _ (this ▸ hlt)
      obtain ⟨c', news, he, hs⟩ := block_spec hv hun hunl (stmts := rest) (statements := []) g2 hN hL hn2 (Nat.lt_succ_self c.nextBb)
        (fun s h => hst s (List.mem_cons_of_mem _ h))
      obtain ⟨blk, hb1, hb2, hb3⟩ := hs.block
      refine ⟨c', [(name, ⟨statements, .intrinsic o a d (some c.nextBb), kindOf isCleanup⟩)] ++ news, ?_, hs.inv, ?_, hs.locs, ?_, ?_, ?_⟩
      · simp only [translateBlock, e1, Res.bind_ok]
        rw [show c.freshBb = (c.nextBb, ({ c with nextBb := c.nextBb + 1 } : FnCtxt)) from rfl]
        simp only [g1, Res.bind_ok]
        exact he
      · have h1 := (b2.trans g3).trans hs.adds
        refine ⟨h1.numBlocks, h1.numLocals, h1.nextBb, h1.blocks, fun e he => ?_⟩
        rcases h1.names e he with h | h
        · simp only [List.nil_append, List.cons_append, List.mem_cons, List.not_mem_nil, or_false] at h
          rcases h with h | h
          · exact .inl (List.mem_singleton.mpr h)
          · have h2 : c.nextBb + 1 ≤ c'.nextBb := hs.adds.nextBb
            exact .inr ⟨Nat.le_of_eq h.symm, by rw [h]; exact h2⟩
        · exact .inr h
      · exact ⟨_, List.mem_append_left _ List.mem_cons_self, List.prefix_refl _, rfl⟩
      · intro hu bl hsub
        rw [List.foldr_cons, e2]
        refine .inl ?_
        rw [Todo.Laid]
        refine ⟨_, ⟨_, hsub.left _ List.mem_cons_self, rfl, rfl⟩, fun h => (by cases h), fun b hb => ?_⟩
        cases hb
        exact .inr (hs.laid hu bl hsub.right)
      · intro hu prog f hsub hk hc hck
        rw [List.foldr_cons, e2] at hc
        simp only [Todo.Checked] at hc
        exact (FineNews.single ⟨hck, intrinsic_ok hc.1 ⟨blk, hsub.right _ hb1, hb3⟩⟩).append
          (hs.fine hu prog f hsub.right hk hc.2 rfl)

/-! ### All blocks -/

def MirBody.newTys (body : MirBody) (b : Nat) : List Ty :=
  match body.blocks[b]? with
  | some blk => blk.terminator.newTys
  | none => []

/-- What is known after some of the blocks were translated; `base` is the number of locals before. -/
structure BlocksSpec (unwinds : Bool) (body : MirBody) (unchecked unlaid : Bool) (tys : List Ty) (c c' : FnCtxt) (order : List Nat)
    (news : Map BbName BasicBlock) : Prop where
  inv : Inv c'
  adds : Adds c c' order news
  locs : Locs (tys ++ order.flatMap body.newTys) c'
  block : ∀ b ∈ order, ∀ blk, body.blocks[b]? = some blk → ∃ blk', (b, blk') ∈ news ∧ blk'.kind = kindOf blk.isCleanup
  laid : unlaid = false → ∀ bl, Sub news bl → ∀ pre b post blk, order = pre ++ b :: post → body.blocks[b]? = some blk →
    (blk.todo unwinds (tys ++ pre.flatMap body.newTys).length).Starts bl body.blocks.length (b, 0)
  fine : unchecked = false → ∀ prog f, Sub news f.blocks → Kinds body f → (∀ pre b post blk, order = pre ++ b :: post →
    body.blocks[b]? = some blk → (blk.todo unwinds (tys ++ pre.flatMap body.newTys).length).Checked prog f) → FineNews prog f news

theorem blocks_spec {unwinds : Bool} (hv : body.Valid) {un unl}
    (hun : ∀ blk ∈ body.blocks, blk.terminator.Panics → (unwinds && blk.isCleanup) = true → un = true)
    (hunl : ∀ blk ∈ body.blocks, blk.terminator.PanicsNounwind → unwinds = true → un = true ∧ unl = true) :
    ∀ {order : List Nat} {c : FnCtxt} {tys : List Ty}, Inv c → c.numBlocks = body.blocks.length → c.numLocals = body.locals.length →
    Locs tys c → body.blocks.length ≤ c.nextBb → order.Nodup → (∀ b ∈ order, b < body.blocks.length ∧ b ∉ c.blocks.map (·.1)) →
    ∃ c' news, translateBlocks unwinds body c order = .ok c' ∧ BlocksSpec unwinds body un unl tys c c' order news
  | [], c, tys, hI, hN, hL, hl, hle, _, _ => by
    refine ⟨c, [], rfl, hI, .refl c, by simpa using hl, fun b h => (by cases h), ?_, fun _ _ _ _ _ _ => .nil⟩
    intro _ bl _ pre b post blk h
    simp at h
  | b :: rest, c, tys, hI, hN, hL, hl, hle, hnd, hb => by
    obtain ⟨hb1, hb2⟩ := hb b List.mem_cons_self
    rw [List.nodup_cons] at hnd
    obtain ⟨blk, hblk⟩ : ∃ blk, body.blocks[b]? = some blk := ⟨_, List.getElem?_eq_getElem hb1⟩
    have hmem : blk ∈ body.blocks := List.mem_of_getElem? hblk
    obtain ⟨c1, news1, he1, hs1⟩ := block_spec (hv.terms blk hmem) (hun blk hmem) (hunl blk hmem) (statements := []) hI hN hL hb2
      (Nat.lt_of_lt_of_le hb1 hle) (hv.stmts blk hmem)
    have hl1 : Locs (tys ++ body.newTys b) c1 := by
      have := hs1.locs tys hl
      simpa only [MirBody.newTys, hblk] using this
    obtain ⟨c2, news2, he2, hs2⟩ := blocks_spec hv hun hunl (order := rest) hs1.inv (hs1.adds.numBlocks.trans hN)
      (hs1.adds.numLocals.trans hL) hl1 (Nat.le_trans hle hs1.adds.nextBb) hnd.2 (by
        intro b' hb'
        obtain ⟨h1, h2⟩ := hb b' (List.mem_cons_of_mem _ hb')
        refine ⟨h1, ?_⟩
        rw [hs1.adds.blocks, List.map_append, List.mem_append, not_or]
        refine ⟨h2, fun hm => ?_⟩
        obtain ⟨e, he, rfl⟩ := List.mem_map.mp hm
        rcases hs1.adds.names e he with h | ⟨h, _⟩
        · rw [List.mem_singleton.mp h] at hb'; exact hnd.1 hb'
        · exact absurd (Nat.lt_of_lt_of_le h1 (Nat.le_trans hle h)) (Nat.lt_irrefl _))
    have hnl : c.nextLocal = tys.length := hl.2
    refine ⟨c2, news1 ++ news2, ?_, hs2.inv, hs1.adds.trans hs2.adds, ?_, ?_, ?_, ?_⟩
    · simp only [translateBlocks, MiniRust.index, hblk, unwrap, Res.bind_ok, he1, he2]
    · have := hs2.locs
      simpa only [List.flatMap_cons, List.append_assoc] using this
    · intro b' hb' blk' hblk'
      rcases List.mem_cons.mp hb' with rfl | hb'
      · rw [hblk] at hblk'; cases hblk'
        obtain ⟨x, h1, _, h2⟩ := hs1.block
        exact ⟨x, List.mem_append_left _ h1, h2⟩
      · obtain ⟨x, h1, h2⟩ := hs2.block b' hb' blk' hblk'
        exact ⟨x, List.mem_append_right _ h1, h2⟩
    · intro hu bl hsub pre b' post blk' ho hblk'
      cases pre with
      | nil =>
        simp only [List.nil_append, List.cons.injEq] at ho
        obtain ⟨rfl, rfl⟩ := ho
        rw [hblk] at hblk'; cases hblk'
        have := hs1.laid hu bl hsub.left
        rw [hnl] at this
        simpa [MirBlock.todo] using this
      | cons x pre =>
        simp only [List.cons_append, List.cons.injEq] at ho
        obtain ⟨rfl, ho⟩ := ho
        have := hs2.laid hu bl hsub.right pre b' post blk' ho hblk'
        simpa only [List.flatMap_cons, List.append_assoc] using this
    · intro hu prog f hsub hk hc
      refine FineNews.append ?_ ?_
      · refine hs1.fine hu prog f hsub.left hk ?_ rfl
        have := hc [] b rest blk rfl hblk
        rw [hnl]
        simpa [MirBlock.todo] using this
      · refine hs2.fine hu prog f hsub.right hk fun pre b' post blk' ho hblk' => ?_
        have := hc (b :: pre) b' post blk' (by rw [ho]; rfl) hblk'
        simpa only [List.flatMap_cons, List.append_assoc] using this

/-! ### Arguments -/

theorem spreadLoop_spec {spread : Nat} : ∀ {rest : List Ty} {c : FnCtxt} {tys : List Ty} {args : List LocalName} {stmts : List Statement}
    {k base : Nat}, Locs tys c → tys.length = base + k →
    ∃ c', c.spreadLoop spread args stmts k rest = (c', args ++ List.range' (base + k) rest.length,
        stmts ++ (List.range' k rest.length).map fun (i : Nat) => .assign (.field (.local spread) (i : Int)) (.load (.local (base + i : Nat)))) ∧
      Locs (tys ++ rest) c' ∧ ∃ nl lo, c' = { c with nextLocal := nl, locals := lo }
  | [], c, tys, args, stmts, k, base, hl, _ => ⟨c, by simp [spreadLoop], by simpa using hl, _, _, rfl⟩
  | ty :: rest, c, tys, args, stmts, k, base, hl, hb => by
    obtain ⟨h1, h2⟩ := hl.fresh ty
    obtain ⟨c', e, h3, nl, lo, h4⟩ := spreadLoop_spec (rest := rest) (args := args ++ [tys.length])
      (stmts := stmts ++ [.assign (.field (.local spread) (k : Int)) (.load (.local tys.length))]) (k := k + 1) (base := base) h2
      (by rw [List.length_append, hb]; rfl)
    refine ⟨c', ?_, by simpa using h3, nl, lo, ?_⟩
    · simp only [spreadLoop]
      rw [show c.freshLocal ty = ((c.freshLocal ty).1, (c.freshLocal ty).2) from rfl, h1]
      simp only
      rw [e, hb]
      simp [List.range'_succ, Nat.add_assoc]
    · rw [h4]; rfl

/-- The locals that receive argument `j`; `base` is the first of the locals for the fields of the spread argument. -/
def argLocals (spread : Option (Nat × List Ty)) (base : Nat) (j : Nat) : List LocalName :=
  match spread with
  | none => [j]
  | some (s, fields) => if j = s then List.range' base fields.length else [j]

def spreadStmts (spread : Option (Nat × List Ty)) (base : Nat) : List Statement :=
  match spread with
  | none => []
  | some (s, fields) => .storageLive s :: (List.range fields.length).map fun (i : Nat) =>
      .assign (.field (.local s) (i : Int)) (.load (.local (base + i : Nat)))

def spreadTysOf (spread : Option (Nat × List Ty)) : List Ty :=
  match spread with
  | none => []
  | some (_, tys) => tys

theorem argsLoop_skip {spread : Option (Nat × List Ty)} {base : Nat} : ∀ {n i : Nat} {c : FnCtxt} {args : List LocalName} {stmts : List Statement},
    (∀ s fields, spread = some (s, fields) → ¬ (i ≤ s ∧ s < i + n)) →
    argsLoop spread c args stmts n i = .ok (c, args ++ (List.range' i n).flatMap (argLocals spread base), stmts)
  | 0, i, c, args, stmts, _ => by simp [argsLoop]
  | n + 1, i, c, args, stmts, h => by
    have hrec := argsLoop_skip (spread := spread) (base := base) (n := n) (i := i + 1) (c := c) (args := args ++ [i]) (stmts := stmts)
      (fun s f e => by have := h s f e; omega)
    have hi : argLocals spread base i = [i] := by
      cases spread with
      | none => rfl
      | some e => simp only [argLocals]; rw [if_neg]; have := h e.1 e.2 rfl; omega
    have : argsLoop spread c args stmts (n + 1) i = argsLoop spread c (args ++ [i]) stmts n (i + 1) := by
      cases spread with
      | none => rfl
      | some e => simp only [argsLoop]; rw [if_neg]; have := h e.1 e.2 rfl; omega
    rw [this, hrec]
    simp [List.range'_succ, hi]

theorem argsLoop_spec {spread : Option (Nat × List Ty)} : ∀ {n i : Nat} {c : FnCtxt} {args : List LocalName} {stmts : List Statement} {tys : List Ty},
    Locs tys c → (∀ s fields, spread = some (s, fields) → i ≤ s ∧ s < i + n ∧ s < c.numLocals) →
    ∃ c', argsLoop spread c args stmts n i = .ok (c', args ++ (List.range' i n).flatMap (argLocals spread tys.length),
        stmts ++ spreadStmts spread tys.length) ∧
      Locs (tys ++ spreadTysOf spread) c' ∧ ∃ nl lo, c' = { c with nextLocal := nl, locals := lo }
  | n, i, c, args, stmts, tys, hl, h => by
    cases spread with
    | none =>
      refine ⟨c, ?_, by simpa [spreadTysOf] using hl, _, _, rfl⟩
      rw [argsLoop_skip (base := tys.length) (by intro s f e; cases e)]
      simp [spreadStmts]
    | some e =>
      obtain ⟨s, fields⟩ := e
      induction n generalizing i args with
      | zero => have := h s fields rfl; omega
      | succ n ih =>
        obtain ⟨h1, h2, h3⟩ := h s fields rfl
        by_cases hi : i = s
        · subst hi
          obtain ⟨c', e, g1, g2⟩ := spreadLoop_spec (spread := i) (rest := fields) (args := args) (stmts := stmts ++ [.storageLive i])
            (k := 0) (base := tys.length) hl rfl
          refine ⟨c', ?_, g1, g2⟩
          simp only [argsLoop, if_true, localName_ok h3, Res.bind_ok, e]
          rw [argsLoop_skip (base := tys.length) (by intro s f e; cases e; omega)]
          simp [List.range'_succ, argLocals, spreadStmts, List.range_eq_range']
        · obtain ⟨c', e, g1, g2⟩ := ih (i := i + 1) (args := args ++ [i]) (by intro s' f e; cases e; exact ⟨by omega, by omega, h3⟩)
          refine ⟨c', ?_, g1, g2⟩
          simp only [argsLoop, if_neg hi]
          rw [e]
          simp [List.range'_succ, argLocals, hi]

theorem alwaysLive_spec {c : FnCtxt} {n : Nat} : ∀ {l : List Nat}, (∀ x ∈ l, x < c.numLocals) →
    c.alwaysLive (n + 1) l = .ok ((l.filter (n < ·)).map .storageLive)
  | [], _ => rfl
  | x :: l, h => by
    simp only [FnCtxt.alwaysLive, localName_ok (h x List.mem_cons_self), Res.bind_ok,
      alwaysLive_spec (n := n) (l := l) fun y hy => h y (List.mem_cons_of_mem _ hy)]
    by_cases hx : n < x
    · rw [if_pos (show x ≥ n + 1 from hx), List.filter_cons_of_pos (by simpa using hx)]; rfl
    · rw [if_neg (show ¬ x ≥ n + 1 from hx), List.filter_cons_of_neg (by simpa using hx)]

/-! ### Bodies -/

theorem Todo.stmts_append {l l' : List Statement} {t : Todo} : Todo.stmts l (Todo.stmts l' t) = Todo.stmts (l ++ l') t := by
  induction l with
  | nil => rfl
  | cons s l ih => simp [Todo.stmts, ih]

theorem MirBody.entry_eq (body : MirBody) : body.entry =
    .stmts (spreadStmts body.spread body.locals.length ++ (body.alwaysLive.filter (body.argCount < ·)).map .storageLive) (.goto 0) := by
  rw [MirBody.entry, Todo.stmts_append]
  rfl

theorem newTys_length (body : MirBody) : ∀ l : List Nat, (l.flatMap body.newTys).length = 5 * l.countP body.catches
  | [] => rfl
  | b :: l => by
    rw [List.flatMap_cons, List.length_append, newTys_length body l, List.countP_cons]
    have : (body.newTys b).length = if body.catches b then 5 else 0 := by
      unfold MirBody.newTys MirBody.catches
      cases body.blocks[b]? with
      | none => rfl
      | some blk =>
        have h : blk.terminator.newTys = if blk.catches then catchTys else [] := by
          unfold MirBlock.catches MirTerm.newTys
          split <;> simp_all
        simp only [h]
        split <;> rfl
    rw [this]
    split <;> omega

theorem takeWhile_split {pre post : List Nat} {b : Nat} (h : (pre ++ b :: post).Nodup) : (pre ++ b :: post).takeWhile (· ≠ b) = pre := by
  rw [List.nodup_append] at h
  rw [List.takeWhile_append_of_pos]
  · simp
  · intro x hx
    have := h.2.2 x hx b List.mem_cons_self
    simpa using this

/-- The function that is made from a body. -/
structure BodySpec (unwinds : Bool) (body : MirBody) (order : List Nat) (unchecked unlaid : Bool) (f : Function) : Prop where
  nodup : (f.blocks.map (·.1)).Nodup
  locals : f.locals = ((body.locals ++ body.spreadTys ++ order.flatMap body.newTys).zipIdx.map fun e => (e.2, e.1))
  args : f.args = (List.range' 1 body.argCount).flatMap (argLocals body.spread body.locals.length)
  ret : f.ret = 0
  conv : f.callingConvention = body.conv
  start : HasKind f.blocks f.start .regular
  kinds : Kinds body f
  entry : body.entry.Laid f.blocks body.blocks.length (f.start, 0)
  laid : unlaid = false → ∀ b, b < body.blocks.length → ∃ t, body.todo unwinds order b = some t ∧ t.Starts f.blocks body.blocks.length (b, 0)
  fine : unchecked = false → ∀ prog, body.entry.Checked prog f → (∀ b t, body.todo unwinds order b = some t → t.Checked prog f) →
    FineNews prog f f.blocks

theorem translate_spec {unwinds : Bool} (hv : body.Valid) {order : List Nat} (ho : body.Order order) {un unl}
    (hun : ∀ blk ∈ body.blocks, blk.terminator.Panics → (unwinds && blk.isCleanup) = true → un = true)
    (hunl : ∀ blk ∈ body.blocks, blk.terminator.PanicsNounwind → unwinds = true → un = true ∧ unl = true) :
    ∃ f, body.translate unwinds order = .ok f ∧ BodySpec unwinds body order un unl f := by
  have hl0 : Locs body.locals body.context := by
    refine ⟨?_, rfl⟩
    simp [MirBody.context]
  obtain ⟨c1, e1, hl1, nl, lo, rfl⟩ := argsLoop_spec (spread := body.spread) (n := body.argCount) (i := 1) (args := []) (stmts := []) hl0 (by
    intro s fields h
    obtain ⟨h1, h2⟩ := hv.spread s fields h
    have := hv.args
    exact ⟨h1, by omega, Nat.lt_of_le_of_lt h2 this⟩)
  have hI1 : Inv { body.context with nextLocal := nl, locals := lo } := ⟨by simp [MirBody.context], by simp [MirBody.context]⟩
  obtain ⟨blk0, hb0, hk0⟩ := hv.start
  have hpos : 0 < body.blocks.length := MirBody.Block.lt hv.start
  obtain ⟨_, hI2, ha2, hl2⟩ := hI1.add ⟨spreadStmts body.spread body.locals.length ++ (body.alwaysLive.filter (body.argCount < ·)).map .storageLive,
    .goto 0, .regular⟩
  obtain ⟨c3, news, e3, hs⟩ := blocks_spec (unwinds := unwinds) hv hun hunl (order := order) hI2 rfl rfl (hl2 _ hl1)
    (Nat.le_succ body.blocks.length) ho.1 (by
      intro b hb
      have hlt := (ho.2 b).mp hb
      refine ⟨hlt, ?_⟩
      rw [ha2.blocks]
      intro hm
      have : b = body.blocks.length := by simpa [MirBody.context, freshBb] using hm
      exact Nat.lt_irrefl _ (this ▸ hlt))
  have hblocks : c3.blocks = [(body.blocks.length, ⟨spreadStmts body.spread body.locals.length ++
      (body.alwaysLive.filter (body.argCount < ·)).map .storageLive, .goto 0, .regular⟩)] ++ news := by
    rw [hs.adds.blocks, ha2.blocks]
    rfl
  have hsub : Sub c3.blocks c3.blocks := fun e he => Map.get?_of_nodup hs.inv.nodup he
  have hsub' : Sub ([(body.blocks.length, ⟨spreadStmts body.spread body.locals.length ++
      (body.alwaysLive.filter (body.argCount < ·)).map .storageLive, .goto 0, .regular⟩)] ++ news) c3.blocks := hblocks ▸ hsub
  have hstart := hsub'.left _ List.mem_cons_self
  have htmp : ∀ pre b post, order = pre ++ b :: post →
      (body.locals ++ spreadTysOf body.spread ++ pre.flatMap body.newTys).length = body.tmp order b := by
    intro pre b post h
    rw [List.length_append, List.length_append, newTys_length, MirBody.tmp, h, takeWhile_split (h ▸ ho.1)]
    rfl
  have hsplit : ∀ b, b < body.blocks.length → ∃ pre post, order = pre ++ b :: post := fun b hb =>
    List.append_of_mem ((ho.2 b).mpr hb)
  have hkinds : Kinds body ⟨c3.locals, (List.range' 1 body.argCount).flatMap (argLocals body.spread body.locals.length), 0, body.conv, c3.blocks,
      body.blocks.length⟩ := by
    rintro k b ⟨blk, hb, rfl⟩
    obtain ⟨x, h1, h2⟩ := hs.block b ((ho.2 b).mpr (List.getElem?_eq_some_iff.mp hb).1) blk hb
    exact ⟨x, hsub'.right _ h1, h2⟩
  refine ⟨⟨c3.locals, (List.range' 1 body.argCount).flatMap (argLocals body.spread body.locals.length), 0, body.conv, c3.blocks,
      body.blocks.length⟩, ?_, hs.inv.nodup, ?_, rfl, rfl, rfl, ⟨_, hstart, rfl⟩, hkinds, ?_, ?_, ?_⟩
  · simp only [MirBody.translate, e1, Res.bind_ok, List.nil_append]
    rw [alwaysLive_spec (c := _) (fun x hx => by exact hv.live x hx)]
    simp only [Res.bind_ok]
    rw [bbName_ok (by exact hpos)]
    simp only [Res.bind_ok]
    simp only [freshBb] at e3 ⊢
    rw [e3]
    rfl
  · exact hs.locs.1
  · rw [MirBody.entry_eq]
    refine laid_block hstart fun ht => ?_
    rw [Todo.Laid]
    exact ⟨ht, hpos⟩
  · intro hu b hb
    obtain ⟨pre, post, h⟩ := hsplit b hb
    have hblk := List.getElem?_eq_getElem hb
    refine ⟨body.blocks[b].todo unwinds (body.tmp order b), by simp only [MirBody.todo, hblk, Option.map_some], ?_⟩
    rw [← htmp pre b post h]
    exact hs.laid hu _ hsub'.right pre b post _ h hblk
  · intro hu prog hce hc
    have : FineNews prog ⟨c3.locals, (List.range' 1 body.argCount).flatMap (argLocals body.spread body.locals.length), 0, body.conv, c3.blocks,
      body.blocks.length⟩ ([(body.blocks.length, ⟨spreadStmts body.spread body.locals.length ++
      (body.alwaysLive.filter (body.argCount < ·)).map .storageLive, .goto 0, .regular⟩)] ++ news) := by
      refine FineNews.append (.single ⟨?_, goto_ok (hkinds _ _ hv.start)⟩) (hs.fine hu prog _ hsub'.right hkinds fun pre b post blk h hblk => ?_)
      · rw [MirBody.entry_eq, Todo.checked_stmts] at hce
        exact hce.1
      · refine hc b _ ?_
        rw [htmp pre b post h]
        simp only [MirBody.todo, hblk, Option.map_some]
    exact hblocks ▸ this

end MiniRust
