import Verif.Lemmas.Steady
/-
What one step does to the control state (stacks, positions, unwinding payloads) and to the storage of
locals.
-/
set_option linter.unusedSectionVars false
namespace MiniRust
section
variable {M PE AE F : Type} [T : Target] [DecidableEq PE] [Memory M (AllocId × PE) F] [hm : SoftMem M (AllocId × PE) F]
  [B : BasicBacked M PE AE F]
variable {s s' : Machine M (AllocId × PE) F}

/-! ### Frames -/

theorem typedStore_mem {p : ThinPtr (AllocId × PE)} {v ty al at' u} (h : typedStore p v ty al at' s = .ok (u, s')) :
    ∃ m, s' = { s with mem := m } ∧ StackKept (B := B) s.mem m := by
  have hst := (st_typedStore (B := B)).ok _ _ _ h
  unfold MiniRust.typedStore at h
  simp only [EM.bind_eq_ok, EM.read_eq_ok] at h
  obtain ⟨bs, _, ⟨_, rfl⟩, h⟩ := h
  unfold memStore at h
  simp only [Res.bind_eq_ok, Except.ok.injEq, Prod.mk.injEq] at h
  obtain ⟨m, h, _, rfl⟩ := h
  exact ⟨m, rfl, hst.mem⟩

theorem typedLoad_mem {p : ThinPtr (AllocId × PE)} {ty al at' v} (h : typedLoad p ty al at' s = .ok (v, s')) :
    ∃ m, s' = { s with mem := m } ∧ StackKept (B := B) s.mem m := by
  have hst := (Tri.steady (B := B) tri_typedLoad).ok _ _ _ h
  unfold MiniRust.typedLoad at h
  simp only [EM.bind_eq_ok, EM.read_eq_ok, EM.lift_eq_ok] at h
  obtain ⟨n, _, ⟨_, rfl⟩, bs, s1, h, _, rfl⟩ := h
  unfold memLoad at h
  simp only [Res.bind_eq_ok, Except.ok.injEq, Prod.mk.injEq, Prod.exists] at h
  obtain ⟨b, m, h, rfl, rfl⟩ := h
  exact ⟨m, rfl, hst.mem⟩

theorem memEndCall_mem {f : F} {u} (h : memEndCall f s = .ok (u, s')) :
    ∃ m, s' = { s with mem := m } ∧ StackKept (B := B) s.mem m := by
  have hst := (st_memEndCall (B := B)).ok _ _ _ h
  unfold memEndCall at h
  simp only [Res.bind_eq_ok, Except.ok.injEq, Prod.mk.injEq] at h
  obtain ⟨m, h, _, rfl⟩ := h
  exact ⟨m, rfl, hst.mem⟩

theorem passArguments_mem {fr : StackFrame (AllocId × PE) F} : ∀ {ls : List LocalName} {as} {s s' : Machine M (AllocId × PE) F} {u},
    passArguments fr ls as s = .ok (u, s') → ∃ m, s' = { s with mem := m } ∧ StackKept (B := B) s.mem m
  | [], as, s, s', u, h => by
    unfold MiniRust.passArguments at h
    cases h; exact ⟨_, rfl, .refl⟩
  | l :: ls, [], s, s', u, h => by
    unfold MiniRust.passArguments at h
    cases h; exact ⟨_, rfl, .refl⟩
  | l :: ls, (v, ty) :: as, s, s', u, h => by
    unfold MiniRust.passArguments at h
    simp only [EM.bind_eq_ok, EM.lift_eq_ok] at h
    obtain ⟨cty, _, ⟨_, rfl⟩, c, _, ⟨_, rfl⟩, h⟩ := h
    split at h
    · cases h
    · simp only [EM.bind_eq_ok, EM.lift_eq_ok, EM.unwrapRes_eq_ok] at h
      obtain ⟨al, _, ⟨_, rfl⟩, p, _, ⟨_, rfl⟩, _, s1, h1, h2⟩ := h
      obtain ⟨m, rfl, k1⟩ := typedStore_mem (B := B) h1
      obtain ⟨m', rfl, k2⟩ := passArguments_mem h2
      exact ⟨m', rfl, k1.trans k2⟩

include B in
theorem storageLives_trans : ∀ {ls : List LocalName} {fr fr' : StackFrame (AllocId × PE) F} {s s' : Machine M (AllocId × PE) F},
    fr.locals.keys.Nodup → storageLives fr ls s = .ok (fr', s') →
    ∃ m o L, s' = { s with mem := m, oracle := o } ∧ fr' = { fr with locals := L } ∧ L.keys.Nodup ∧
      (∀ l, l ∈ L.keys ↔ l ∈ fr.locals.keys ∨ l ∈ ls) ∧ SlotTrans (B := B) s.mem m (slotsOf fr) (slotsOf fr')
  | [], fr, fr', s, s', hn, h => by
    unfold MiniRust.storageLives at h
    cases h; exact ⟨_, _, _, rfl, rfl, hn, by simp, .ofKept .refl⟩
  | l :: ls, fr, fr', s, s', hn, h => by
    unfold MiniRust.storageLives at h
    simp only [EM.bind_eq_ok] at h
    obtain ⟨fr1, s1, h1, h2⟩ := h
    obtain ⟨m, o, ptr, rfl, rfl, t1⟩ := storageLive_trans (B := B) hn h1
    have hn1 := Map.keys_insert_nodup (v := ptr) (Map.keys_erase_nodup (k := l) hn) (Map.not_mem_erase hn)
    obtain ⟨m', o', L, rfl, rfl, hL, hk, t2⟩ := storageLives_trans hn1 h2
    refine ⟨m', o', L, rfl, rfl, hL, fun q => ?_, t1.trans t2⟩
    rw [hk q, Map.keys_insert_mem]
    by_cases hq : q = l
    · simp [hq]
    · simp [hq, Map.mem_keys_erase hq]

/-- A frame as a call or a new thread starts with. -/
structure FreshFrame (f : Function) (act : StackPopAction (AllocId × PE)) (g : StackFrame (AllocId × PE) F) : Prop where
  func : g.func = f
  action : g.stackPopAction = act
  block : g.nextBlock = f.start
  stmt : g.nextStmt = 0
  nodup : g.locals.keys.Nodup
  keys : ∀ l, l ∈ g.locals.keys ↔ l = f.ret ∨ l ∈ f.args

include B in
theorem createFrame_trans {f act conv rt as} {g : StackFrame (AllocId × PE) F} (h : createFrame f act conv rt as s = .ok (g, s')) :
    ∃ m o, s' = { s with mem := m, oracle := o } ∧ FreshFrame f act g ∧ SlotTrans (B := B) s.mem m [] (slotsOf g) := by
  unfold MiniRust.createFrame at h
  simp only [EM.bind_eq_ok] at h
  obtain ⟨fr1, s1, h1, fr2, s2, h2, h⟩ := h
  obtain ⟨m1, o1, ptr, rfl, rfl, t1⟩ := storageLive_trans (B := B) (by simp [StackFrame.init, Map.keys]) h1
  obtain ⟨m2, o2, L, rfl, rfl, hL, hk, t2⟩ := storageLives_trans (B := B) (by simp [StackFrame.init, Map.keys, Map.erase, Map.insert]) h2
  split at h
  · cases h
  simp only [EM.bind_eq_ok, EM.lift_eq_ok] at h
  obtain ⟨rt', _, ⟨_, rfl⟩, c, _, ⟨_, rfl⟩, h⟩ := h
  split at h
  · cases h
  split at h
  · cases h
  simp only [EM.bind_eq_ok, EM.pure_eq_ok] at h
  obtain ⟨_, s3, h3, rfl, rfl⟩ := h
  obtain ⟨m3, rfl, k⟩ := passArguments_mem (B := B) h3
  refine ⟨m3, o2, rfl, ⟨rfl, rfl, rfl, rfl, hL, fun q => ?_⟩, (t1.trans t2).trans (.ofKept k)⟩
  rw [hk q]
  simp [StackFrame.init, Map.keys, Map.erase, Map.insert]

include B in
theorem storageDeadAll_trans : ∀ {n : Nat} {fr fr' : StackFrame (AllocId × PE) F} {s s' : Machine M (AllocId × PE) F},
    fr.locals.length ≤ n → storageDeadAll n fr s = .ok (fr', s') →
    ∃ m, s' = { s with mem := m } ∧ fr' = { fr with locals := [] } ∧ SlotTrans (B := B) s.mem m (slotsOf fr) []
  | 0, fr, fr', s, s', hn, h => by
    unfold MiniRust.storageDeadAll at h
    cases h
    have : fr.locals = [] := List.eq_nil_of_length_eq_zero (by omega)
    exact ⟨_, rfl, by rw [← this], by unfold slotsOf; rw [this]; exact .ofKept .refl⟩
  | n + 1, fr, fr', s, s', hn, h => by
    unfold MiniRust.storageDeadAll at h
    cases hl : fr.locals with
    | nil =>
      rw [hl] at h
      cases h
      exact ⟨_, rfl, by rw [← hl], by unfold slotsOf; rw [hl]; exact .ofKept .refl⟩
    | cons e L =>
      obtain ⟨l, p⟩ := e
      rw [hl] at h
      simp only [EM.bind_eq_ok] at h
      obtain ⟨fr1, s1, h1, h2⟩ := h
      obtain ⟨m, rfl, rfl, t1⟩ := storageDead_trans (B := B) h1
      have he : fr.locals.erase l = L := by rw [hl]; simp [Map.erase]
      obtain ⟨m', rfl, rfl, t2⟩ := storageDeadAll_trans (fr := { fr with locals := fr.locals.erase l }) (by
        show (fr.locals.erase l).length ≤ n
        rw [he]; rw [hl] at hn; simpa using hn) h2
      exact ⟨m', rfl, rfl, t1.trans t2⟩

/-! ### Other threads -/

/-- The step keeps the program and does not touch stacks and payloads of the other threads. -/
structure Apart (s s' : Machine M (AllocId × PE) F) : Prop where
  prog : s'.prog = s.prog
  fns : s'.fnPtrs = s.fnPtrs
  active : s'.activeThread = s.activeThread
  length : s'.threads.length = s.threads.length
  others : ∀ (i : Nat) t t', i ≠ s.activeThread → s.threads[i]? = some t → s'.threads[i]? = some t' →
    t'.stack = t.stack ∧ t'.unwindPayloads = t.unwindPayloads ∧ (t'.state = .terminated ↔ t.state = .terminated)

theorem Apart.refl : Apart s s :=
  ⟨rfl, rfl, rfl, rfl, fun i t t' _ h h' => by rw [h] at h'; cases h'; exact ⟨rfl, rfl, .rfl⟩⟩

theorem Apart.trans {s'' : Machine M (AllocId × PE) F} (h : Apart s s') (h' : Apart s' s'') : Apart s s'' := by
  refine ⟨h'.prog.trans h.prog, h'.fns.trans h.fns, h'.active.trans h.active, h'.length.trans h.length,
    fun i t t'' hi e e'' => ?_⟩
  have hlt : i < s'.threads.length := by rw [h.length]; exact (List.getElem?_eq_some_iff.1 e).1
  have e' := List.getElem?_eq_getElem hlt
  obtain ⟨a1, a2, a3⟩ := h.others i t _ hi e e'
  obtain ⟨b1, b2, b3⟩ := h'.others i _ t'' (by rw [h.active]; exact hi) e' e''
  exact ⟨b1.trans a1, b2.trans a2, b3.trans a3⟩

theorem Steady.apart (h : Steady (B := B) s s') : Apart s s' :=
  ⟨h.prog, h.fns, h.active, h.length, fun i t t' hi e e' =>
    have := h.threads i t t' e e'
    ⟨this.other hi, this.payloads, this.live, this.dead hi⟩⟩

theorem Apart.ofMem {m : ConcMem M} {o} : Apart s { s with mem := m, oracle := o } :=
  ⟨rfl, rfl, rfl, rfl, fun i t t' _ h h' => by rw [h] at h'; cases h'; exact ⟨rfl, rfl, .rfl⟩⟩

theorem Apart.ofSet {t' : Thread (AllocId × PE) F} : Apart s { s with threads := s.threads.set s.activeThread t' } :=
  ⟨rfl, rfl, rfl, by simp, fun i t t' hi h h' => by
    simp only [List.getElem?_set_ne hi.symm] at h'
    rw [h] at h'; cases h'; exact ⟨rfl, rfl, .rfl⟩⟩

/-- The active thread after a steady computation. -/
theorem Steady.top (h : Steady (B := B) s s') {t : Thread (AllocId × PE) F} {f rest} (ht : s.threads[s.activeThread]? = some t) (hs : t.stack = f :: rest) :
    ∃ t' e, s'.threads[s'.activeThread]? = some t' ∧ t'.stack = { f with extra := e } :: rest ∧
      t'.unwindPayloads = t.unwindPayloads ∧ (t'.state = .terminated → t.state = .terminated) := by
  have hlt : s'.activeThread < s'.threads.length := by
    rw [h.length, h.active]; exact (List.getElem?_eq_some_iff.1 ht).1
  have e' := List.getElem?_eq_getElem hlt
  have := h.threads s.activeThread t _ ht (by rw [← h.active]; exact e')
  obtain htop := this.top
  rcases htop with e | ⟨g, g', r, e1, e2, ⟨x, rfl⟩⟩
  · exact ⟨_, f.extra, e', by rw [e, hs], this.payloads, this.live⟩
  · rw [hs] at e1; cases e1
    exact ⟨_, x, e', e2, this.payloads, this.live⟩

/-! ### Steps -/

/-- The blocks a terminator can continue at in the same frame, and its effect on the stack of payloads. -/
def Terminator.Jumps {P : Type} (term : Terminator) (b : BbName) (pl pl' : List (ThinPtr P)) : Prop :=
  match term with
  | .goto b' => b = b' ∧ pl' = pl
  | .switch _ cases fb => (b = fb ∨ ∃ i, cases.get? i = some b) ∧ pl' = pl
  | .startUnwind _ u => b = u ∧ ∃ x, pl' = x :: pl
  | .stopUnwind b' => b = b' ∧ ∃ x, pl = x :: pl'
  | .intrinsic _ _ _ n => n = some b ∧ pl' = pl
  | _ => False

/-- The effect of a statement on which locals are live. -/
def LocalsStep (st : Statement) (L L' : Map LocalName (ThinPtr (AllocId × PE))) : Prop :=
  match st with
  | .storageLive l => ∃ ptr, L' = (L.erase l).insert l ptr
  | .storageDead l => L' = L.erase l
  | _ => L' = L

/-- How the active thread moves from `t` (top frame `f` at block `blk`) to `t'`; `new` are new threads. -/
inductive Move (s s' : Machine M (AllocId × PE) F) (t t' : Thread (AllocId × PE) F)
    (f : StackFrame (AllocId × PE) F) (rest : List (StackFrame (AllocId × PE) F)) (blk : BasicBlock) :
    List (Thread (AllocId × PE) F) → Prop
  | stmt (st : Statement) (f' : StackFrame (AllocId × PE) F) : blk.statements[f.nextStmt]? = some st →
      t'.stack = f' :: rest → t'.unwindPayloads = t.unwindPayloads → f'.func = f.func →
      f'.stackPopAction = f.stackPopAction → f'.nextBlock = f.nextBlock → f'.nextStmt = f.nextStmt + 1 →
      LocalsStep st f.locals f'.locals → SlotTrans (B := B) s.mem s'.mem (slotsOf f) (slotsOf f') →
      (t'.state = .terminated → t.state = .terminated) → Move s s' t t' f rest blk []
  | jump (b : BbName) (e : F) (new : List (Thread (AllocId × PE) F)) : f.nextStmt = blk.statements.length →
      t'.stack = { f with nextBlock := b, nextStmt := 0, extra := e } :: rest →
      blk.terminator.Jumps b t.unwindPayloads t'.unwindPayloads →
      (new = [] ∨ ∃ fn name g, s.prog.functions.get? name = some fn ∧ FreshFrame fn .bottomOfStack g ∧
        new = [⟨[g], .enabled, []⟩]) →
      SlotTrans (B := B) s.mem s'.mem [] (threadSlots new) →
      (t'.state = .terminated → t.state = .terminated) → Move s s' t t' f rest blk new
  | call (c conv as r n u) (fn : Function) (name : FnName) (g : StackFrame (AllocId × PE) F) (e : F) (p) :
      f.nextStmt = blk.statements.length → blk.terminator = .call c conv as r n u →
      s.prog.functions.get? name = some fn → FreshFrame fn (.backToCaller n u p) g →
      t'.stack = g :: { f with extra := e } :: rest → t'.unwindPayloads = t.unwindPayloads →
      SlotTrans (B := B) s.mem s'.mem [] (slotsOf g) →
      (t'.state = .terminated → t.state = .terminated) → Move s s' t t' f rest blk []
  | ret (n u p) (b : BbName) (g : StackFrame (AllocId × PE) F) (rest' : List (StackFrame (AllocId × PE) F)) :
      f.nextStmt = blk.statements.length → f.stackPopAction = .backToCaller n u p → rest = g :: rest' →
      ((blk.terminator = .return ∧ n = some b) ∨ (blk.terminator = .resumeUnwind ∧ u = some b)) →
      t'.stack = g.jumpToBlock b :: rest' → t'.unwindPayloads = t.unwindPayloads →
      SlotTrans (B := B) s.mem s'.mem (slotsOf f) [] →
      (t'.state = .terminated → t.state = .terminated) → Move s s' t t' f rest blk []
  | bottom : f.nextStmt = blk.statements.length → f.stackPopAction = .bottomOfStack → rest = [] →
      blk.terminator = .return → t'.stack = [] → t'.state = .terminated → t'.unwindPayloads = t.unwindPayloads →
      SlotTrans (B := B) s.mem s'.mem (slotsOf f) [] → Move s s' t t' f rest blk []

/-- The effect of one step on all threads. -/
def Effect (s s' : Machine M (AllocId × PE) F) (t : Thread (AllocId × PE) F)
    (f : StackFrame (AllocId × PE) F) (rest : List (StackFrame (AllocId × PE) F)) (blk : BasicBlock) : Prop :=
  ∃ (sm : Machine M (AllocId × PE) F) (t' : Thread (AllocId × PE) F) (new : List (Thread (AllocId × PE) F)),
    Apart s sm ∧ sm.threads[s.activeThread]? = some t' ∧ s'.threads = sm.threads ++ new ∧ s'.prog = s.prog ∧
    s'.fnPtrs = s.fnPtrs ∧ s'.activeThread = s.activeThread ∧ Move (B := B) s s' t t' f rest blk new

theorem Effect.ofApart {t t' : Thread (AllocId × PE) F} {f rest blk} (h : Apart s s') (ht : s'.threads[s'.activeThread]? = some t')
    (hmv : Move (B := B) s s' t t' f rest blk []) : Effect (B := B) s s' t f rest blk :=
  ⟨s', t', [], h, by rw [← h.active]; exact ht, by simp, h.prog, h.fns, h.active, hmv⟩

theorem jumpToBlock_eq_ok {b u} : jumpToBlock b s = .ok (u, s') ↔ ∃ t f rest, s.threads[s.activeThread]? = some t ∧ t.stack = f :: rest ∧
    s' = { s with threads := s.threads.set s.activeThread { t with stack := f.jumpToBlock b :: rest } } := by
  unfold jumpToBlock
  rw [mutateCurFrame_ok (fun fr s r s1 h => by cases h; exact ⟨rfl, rfl⟩)]
  constructor
  · rintro ⟨t, fr, rest, fr', s1, h1, h2, h3, rfl⟩
    cases h3
    exact ⟨t, fr, rest, h1, h2, rfl⟩
  · rintro ⟨t, fr, rest, h1, h2, rfl⟩
    exact ⟨t, fr, rest, _, s, h1, h2, rfl, rfl⟩

theorem jumpOrUb_eq_ok {n u} : jumpOrUb n s = .ok (u, s') ↔ ∃ b, n = some b ∧ jumpToBlock b s = .ok (u, s') := by
  cases n with
  | none => simp [jumpOrUb, EM.throw]
  | some b => simp [jumpOrUb]

/-- A jump that ends a steady computation. -/
theorem jump_after {s1 : Machine M (AllocId × PE) F} (h : Steady (B := B) s s1) {b u} (h' : jumpToBlock b s1 = .ok (u, s'))
    {t : Thread (AllocId × PE) F} {f rest} (ht : s.threads[s.activeThread]? = some t) (hs : t.stack = f :: rest) :
    ∃ t' e, Apart s s' ∧ s'.threads[s'.activeThread]? = some t' ∧ t'.stack = { f with nextBlock := b, nextStmt := 0, extra := e } :: rest ∧
      t'.unwindPayloads = t.unwindPayloads ∧ (t'.state = .terminated → t.state = .terminated) ∧ StackKept (B := B) s.mem s'.mem := by
  obtain ⟨t1, e, h1, h2, h3, h4⟩ := h.top ht hs
  obtain ⟨t2, f2, rest2, g1, g2, rfl⟩ := jumpToBlock_eq_ok.1 h'
  rw [h1] at g1; cases g1
  rw [h2] at g2; cases g2
  refine ⟨_, e, h.apart.trans .ofSet, List.getElem?_set_self (List.getElem?_eq_some_iff.1 h1).1, rfl, h3, h4, h.mem⟩

theorem Res.get_values {P : Type} {cases : Map Int BbName} {fb b} {v : Value P} (h : switchTarget cases fb v = .ok b) :
    b = fb ∨ ∃ i, cases.get? i = some b := by
  unfold switchTarget at h
  split at h
  · cases h
    rename_i i
    cases hg : cases.get? i with
    | none => left; rfl
    | some b' => right; exact ⟨i, hg⟩
  · cases h

theorem fnFromPtr_prog {v : Value (AllocId × PE)} {fn : Function} (h : s.fnFromPtr v = .ok fn) : ∃ name, s.prog.functions.get? name = some fn := by
  unfold Machine.fnFromPtr at h
  split at h
  · split at h
    · cases h
    · split at h
      · cases h
      · exact ⟨_, Map.get_eq_ok.1 h⟩
  · cases h

variable {t : Thread (AllocId × PE) F} {f : StackFrame (AllocId × PE) F} {rest : List (StackFrame (AllocId × PE) F)} {blk : BasicBlock}

theorem effect_stmt (ht : s.threads[s.activeThread]? = some t) (hs : t.stack = f :: rest) (hnd : f.locals.keys.Nodup)
    {st : Statement} (hst : blk.statements[f.nextStmt]? = some st) {s1 : Machine M (AllocId × PE) F} {u u'}
    (h1 : evalStatement st s = .ok (u, s1)) (h2 : bumpStmt s1 = .ok (u', s')) : Effect (B := B) s s' t f rest blk := by
  have hb : ∀ {t1 : Thread (AllocId × PE) F} {f1 rest1}, s1.threads[s1.activeThread]? = some t1 → t1.stack = f1 :: rest1 →
      s' = { s1 with threads := s1.threads.set s1.activeThread { t1 with stack := { f1 with nextStmt := f1.nextStmt + 1 } :: rest1 } } := by
    intro t1 f1 rest1 e1 e2
    unfold bumpStmt at h2
    rw [mutateCurFrame_ok (fun fr s r s1 h => by cases h; exact ⟨rfl, rfl⟩)] at h2
    obtain ⟨t2, f2, r2, f2', s2, k1, k2, k3, rfl⟩ := h2
    cases k3
    rw [e1] at k1; cases k1
    rw [e2] at k2; cases k2
    rfl
  cases hk : st.isStorage with
  | false =>
    have hsd := (st_evalStatement (B := B) hk).ok _ _ _ h1
    obtain ⟨t1, e, g1, g2, g3, g4⟩ := hsd.top ht hs
    have := hb g1 g2
    subst this
    refine .ofApart (hsd.apart.trans .ofSet) (List.getElem?_set_self (List.getElem?_eq_some_iff.1 g1).1) ?_
    refine .stmt st _ hst rfl g3 rfl rfl rfl rfl ?_ (.ofKept hsd.mem) g4
    cases st <;> first | rfl | simp [Statement.isStorage] at hk
  | true =>
    have hp : ∀ {g : StackFrame (AllocId × PE) F → EM M (AllocId × PE) F (StackFrame (AllocId × PE) F)},
        (∀ fr s r s1, g fr s = .ok (r, s1) → ∃ m o, s1 = { s with mem := m, oracle := o }) →
        (∀ fr' m o, g f s = .ok (fr', { s with mem := m, oracle := o }) →
          fr'.func = f.func ∧ fr'.stackPopAction = f.stackPopAction ∧ fr'.nextBlock = f.nextBlock ∧ fr'.nextStmt = f.nextStmt ∧
          LocalsStep st f.locals fr'.locals ∧ SlotTrans (B := B) s.mem m (slotsOf f) (slotsOf fr')) →
        mutateCurFrame (fun frame => do let frame ← g frame; pure ((), frame)) s = .ok (u, s1) → Effect (B := B) s s' t f rest blk := by
      intro g hg1 hg2 h
      rw [mutateCurFrame_ok (fun fr s r s1 h => by
        simp only [EM.bind_eq_ok, EM.pure_eq_ok] at h
        obtain ⟨x, y, hx, _, rfl⟩ := h
        obtain ⟨m, o, rfl⟩ := hg1 _ _ _ _ hx
        exact ⟨rfl, rfl⟩)] at h
      obtain ⟨t2, f2, r2, f2', s2, k1, k2, k3, rfl⟩ := h
      rw [ht] at k1; cases k1
      rw [hs] at k2; cases k2
      simp only [EM.bind_eq_ok, EM.pure_eq_ok] at k3
      obtain ⟨x, y, hx, e1, rfl⟩ := k3
      cases e1
      obtain ⟨m, o, rfl⟩ := hg1 _ _ _ _ hx
      obtain ⟨a1, a2, a3, a4, a5, a6⟩ := hg2 _ _ _ hx
      have hlt := (List.getElem?_eq_some_iff.1 ht).1
      have := hb (List.getElem?_set_self hlt) rfl
      subst this
      refine .ofApart (t' := { t with stack := { f2' with nextStmt := f2'.nextStmt + 1 } :: rest }) ?_ ?_ ?_
      · simp only [List.set_set]
        exact Apart.ofMem.trans (Apart.ofSet (s := { s with mem := m, oracle := o }))
      · simp only [List.set_set]
        exact List.getElem?_set_self hlt
      · exact .stmt st _ hst rfl rfl a1 a2 a3 (by rw [← a4]) a5 a6 fun h => h
    cases st with
    | storageLive l =>
      unfold evalStatement at h1
      refine hp (g := fun frame => storageLive frame l) ?_ ?_ h1
      · intro fr s r s1 h
        unfold MiniRust.storageLive at h
        simp only [EM.bind_eq_ok, EM.lift_eq_ok, Prod.exists, EM.pure_eq_ok] at h
        obtain ⟨fr1, s1, h1, n, a, _, ⟨hlay, rfl⟩, ptr, s2, h2, rfl, rfl⟩ := h
        obtain ⟨m, rfl, _⟩ := storageDead_trans (B := B) h1
        obtain ⟨m2, o, ae, rfl, _⟩ := memAllocate_allocs (B := B) h2
        exact ⟨m2, o, rfl⟩
      · intro fr' m o h
        obtain ⟨m', o', ptr, e, rfl, tr⟩ := storageLive_trans (B := B) hnd h
        cases e
        exact ⟨rfl, rfl, rfl, rfl, ⟨ptr, rfl⟩, tr⟩
    | storageDead l =>
      unfold evalStatement at h1
      refine hp (g := fun frame => storageDead frame l) ?_ ?_ h1
      · intro fr s r s1 h
        obtain ⟨m, rfl, _⟩ := storageDead_trans (B := B) h
        exact ⟨m, _, rfl⟩
      · intro fr' m o h
        obtain ⟨m', e, rfl, tr⟩ := storageDead_trans (B := B) h
        cases e
        exact ⟨rfl, rfl, rfl, rfl, rfl, tr⟩
    | _ => simp [Statement.isStorage] at hk

theorem effect_jump (ht : s.threads[s.activeThread]? = some t) (hs : t.stack = f :: rest) (hpos : f.nextStmt = blk.statements.length)
    {s1 : Machine M (AllocId × PE) F} (h : Steady (B := B) s s1) {b u} (h' : jumpToBlock b s1 = .ok (u, s'))
    (hj : blk.terminator.Jumps b t.unwindPayloads t.unwindPayloads) : Effect (B := B) s s' t f rest blk := by
  obtain ⟨t', e, ha, g1, g2, g3, g4, g5⟩ := jump_after h h' ht hs
  refine .ofApart ha g1 (.jump b e [] hpos g2 ?_ (.inl rfl) (.ofKept g5) g4)
  rw [g3]; exact hj

/-- The part common to `Return` and `ResumeUnwind`. -/
theorem pop_trans (ht : s.threads[s.activeThread]? = some t) (hs : t.stack = f :: rest)
    {s1 s2 s3 s4 : Machine M (AllocId × PE) F} {fr fr' : StackFrame (AllocId × PE) F} {u}
    (h1 : popFrame s = .ok (fr, s1)) (h2 : ∃ m, s2 = { s1 with mem := m } ∧ StackKept (B := B) s1.mem m)
    (h3 : storageDeadAll fr.locals.length fr s2 = .ok (fr', s3)) (h4 : memEndCall fr'.extra s3 = .ok (u, s4)) :
    fr = f ∧ fr' = { f with locals := [] } ∧ SlotTrans (B := B) s.mem s4.mem (slotsOf f) [] ∧
      s4 = { s with mem := s4.mem, threads := s.threads.set s.activeThread { t with stack := rest } } := by
  obtain ⟨t1, r1, k1, k2, rfl⟩ := popFrame_eq_ok.1 h1
  rw [ht] at k1; cases k1
  rw [hs] at k2; cases k2
  obtain ⟨m, rfl, k⟩ := h2
  obtain ⟨m', rfl, rfl, tr⟩ := storageDeadAll_trans (B := B) (Nat.le_refl _) h3
  obtain ⟨m'', rfl, k'⟩ := memEndCall_mem (B := B) h4
  exact ⟨rfl, rfl, (SlotTrans.ofKept k).trans (tr.trans (.ofKept k')), rfl⟩

theorem effect_pop (ht : s.threads[s.activeThread]? = some t) (hs : t.stack = f :: rest) (hpos : f.nextStmt = blk.statements.length)
    {m m' : ConcMem M} (htr : SlotTrans (B := B) s.mem m (slotsOf f) []) (hk : StackKept (B := B) m m') {n u p b w}
    (hact : f.stackPopAction = .backToCaller n u p)
    (hterm : (blk.terminator = .return ∧ n = some b) ∨ (blk.terminator = .resumeUnwind ∧ u = some b))
    (hj : jumpToBlock b { s with mem := m', threads := s.threads.set s.activeThread { t with stack := rest } } = .ok (w, s')) :
    Effect (B := B) s s' t f rest blk := by
  have hlt := (List.getElem?_eq_some_iff.1 ht).1
  obtain ⟨t2, g, r2, g1, g2, rfl⟩ := jumpToBlock_eq_ok.1 hj
  simp only [List.getElem?_set_self hlt, Option.some.injEq] at g1
  subst g1
  refine .ofApart (t' := { t with stack := g.jumpToBlock b :: r2 }) ?_ ?_ ?_
  · simp only [List.set_set]
    exact Apart.ofMem.trans (Apart.ofSet (s := { s with mem := m' }))
  · simp only [List.set_set]
    exact List.getElem?_set_self hlt
  · exact .ret n u p b g r2 hpos hact g2 hterm rfl rfl (htr.trans (.ofKept hk)) fun h => h

theorem effect_term (ht : s.threads[s.activeThread]? = some t) (hs : t.stack = f :: rest) (hpos : f.nextStmt = blk.statements.length)
    {u : Unit} (h : evalTerminator blk.terminator s = .ok (u, s')) : Effect (B := B) s s' t f rest blk := by
  have hlt := (List.getElem?_eq_some_iff.1 ht).1
  cases hterm : blk.terminator with
  | goto b =>
    rw [hterm] at h; unfold evalTerminator at h
    exact effect_jump ht hs hpos (PreRel.refl s) h (by rw [hterm]; exact ⟨rfl, rfl⟩)
  | switch v cases fb =>
    rw [hterm] at h; unfold evalTerminator at h
    simp only [EM.bind_eq_ok, EM.lift_eq_ok, Prod.exists] at h
    obtain ⟨v, _, s1, h1, b, _, ⟨h2, rfl⟩, h3⟩ := h
    exact effect_jump ht hs hpos ((Tri.steady (B := B) (tri_evalValue _)).ok _ _ _ h1) h3
      (by rw [hterm]; exact ⟨Res.get_values h2, rfl⟩)
  | unreachable => rw [hterm] at h; unfold evalTerminator at h; cases h
  | startUnwind pl ub =>
    rw [hterm] at h; unfold evalTerminator at h
    simp only [EM.bind_eq_ok, EM.lift_eq_ok] at h
    obtain ⟨v, s1, h1, ptr, _, ⟨h2, rfl⟩, _, s2, h3, h4⟩ := h
    have hst := (Tri.steady (B := B) (tri_evalValue _)).ok _ _ _ h1
    obtain ⟨t1, e, g1, g2, g3, g4⟩ := hst.top ht hs
    unfold pushPayload at h3
    simp only [EM.bind_eq_ok, EM.read_eq_ok, getActive_eq_ok, EM.modify_eq_ok] at h3
    obtain ⟨t2, _, ⟨k1, rfl⟩, rfl⟩ := h3
    rw [g1] at k1; cases k1
    have hlt1 := (List.getElem?_eq_some_iff.1 g1).1
    obtain ⟨t3, f3, r3, k1, k2, rfl⟩ := jumpToBlock_eq_ok.1 h4
    simp only [Machine.setActive, List.getElem?_set_self hlt1, Option.some.injEq] at k1
    subst k1
    simp only [g2] at k2
    cases k2
    refine .ofApart (t' := { t1 with stack := StackFrame.jumpToBlock { f with extra := e } ub :: rest, unwindPayloads := ptr :: t1.unwindPayloads }) ?_ ?_ ?_
    · simp only [Machine.setActive, List.set_set]
      exact hst.apart.trans .ofSet
    · simp only [Machine.setActive, List.set_set]
      exact List.getElem?_set_self hlt1
    · refine .jump ub e [] hpos rfl ?_ (.inl rfl) (.ofKept hst.mem) g4
      rw [hterm]; exact ⟨rfl, ptr, by rw [← g3]⟩
  | stopUnwind b =>
    rw [hterm] at h; unfold evalTerminator at h
    simp only [EM.bind_eq_ok] at h
    obtain ⟨_, s1, h1, h2⟩ := h
    obtain ⟨t1, p, pl, k1, k2, rfl⟩ := popPayload_eq_ok.1 h1
    rw [ht] at k1; cases k1
    obtain ⟨t3, f3, r3, k1, k3, rfl⟩ := jumpToBlock_eq_ok.1 h2
    simp only [Machine.setActive, List.getElem?_set_self hlt, Option.some.injEq] at k1
    subst k1
    simp only [hs] at k3
    cases k3
    refine .ofApart (t' := { t with stack := f.jumpToBlock b :: rest, unwindPayloads := pl }) ?_ ?_ ?_
    · simp only [Machine.setActive, List.set_set]
      exact .ofSet
    · simp only [Machine.setActive, List.set_set]
      exact List.getElem?_set_self hlt
    · refine .jump b f.extra [] hpos rfl ?_ (.inl rfl) (.ofKept .refl) fun h => h
      rw [hterm]; exact ⟨rfl, p, k2⟩
  | call c conv as r n ub =>
    rw [hterm] at h; unfold evalTerminator at h
    simp only [EM.bind_eq_ok, EM.read_eq_ok, Prod.exists] at h
    obtain ⟨rp, rty, s1, h1, _, s2, h2, cv, _, s3a, h3, fn, s3, ⟨h4, rfl⟩, args, s4, h5, h6⟩ := h
    have hst : Steady (B := B) s s4 :=
      PreRel.trans _ _ _ ((Tri.steady (B := B) (tri_evalPlace _)).ok _ _ _ h1) (PreRel.trans _ _ _ (st_prepare.ok _ _ _ h2)
        (PreRel.trans _ _ _ ((Tri.steady (B := B) (tri_evalValue _)).ok _ _ _ h3) (st_evalArguments.ok _ _ _ h5)))
    have hst3 : Steady (B := B) s s3 :=
      PreRel.trans _ _ _ ((Tri.steady (B := B) (tri_evalPlace _)).ok _ _ _ h1) (PreRel.trans _ _ _ (st_prepare.ok _ _ _ h2)
        ((Tri.steady (B := B) (tri_evalValue _)).ok _ _ _ h3))
    obtain ⟨t1, e, g1, g2, g3, g4⟩ := hst.top ht hs
    unfold evalCall at h6
    simp only [EM.bind_eq_ok] at h6
    obtain ⟨g, s5, h7, h8⟩ := h6
    obtain ⟨m, o, rfl, hfresh, tr⟩ := createFrame_trans (B := B) h7
    unfold pushFrame at h8
    simp only [EM.bind_eq_ok, EM.read_eq_ok, getActive_eq_ok, EM.modify_eq_ok] at h8
    obtain ⟨t2, _, ⟨k1, rfl⟩, rfl⟩ := h8
    have k1' : s4.threads[s4.activeThread]? = some t2 := k1
    rw [g1] at k1'; cases k1'
    obtain ⟨name, hname⟩ := fnFromPtr_prog h4
    rw [hst3.prog] at hname
    refine .ofApart (t' := { t1 with stack := g :: t1.stack }) ?_ ?_ ?_
    · exact (hst.apart.trans Apart.ofMem).trans .ofSet
    · exact List.getElem?_set_self (List.getElem?_eq_some_iff.1 g1).1
    · exact .call c conv as r n ub fn name g e _ hpos hterm hname hfresh (by rw [g2]) g3
        ((SlotTrans.ofKept hst.mem).trans tr) g4
  | «return» =>
    rw [hterm] at h; unfold evalTerminator at h; unfold evalReturn at h
    simp only [EM.bind_eq_ok, EM.lift_eq_ok] at h
    obtain ⟨fr, s1, h1, cty, _, ⟨_, rfl⟩, al, _, ⟨_, rfl⟩, p, _, ⟨_, rfl⟩, v, s2, h2, fr', s3, h3, _, s4, h4, h5⟩ := h
    obtain ⟨rfl, rfl, tr, e4⟩ := pop_trans ht hs h1 (typedLoad_mem (B := B) h2) h3 h4
    generalize s4.mem = m4 at e4 tr
    subst e4
    unfold returnAction at h5
    cases hact : fr.stackPopAction with
    | bottomOfStack =>
      simp only [hact] at h5
      obtain ⟨h0, t5, k1, k2, rfl⟩ := terminateActiveThread_eq_ok.1 h5
      simp only [List.getElem?_set_self hlt, Option.some.injEq] at k1
      subst k1
      simp only at k2
      refine .ofApart (t' := { t with stack := [], state := .terminated }) ?_ ?_ ?_
      · refine ⟨rfl, rfl, rfl, by simp, ?_⟩
        intro i u u' hi hu hu'
        simp only [List.set_set, List.getElem?_map, List.getElem?_set_ne (Ne.symm hi)] at hu' hu
        rw [hu] at hu'
        simp only [Option.map_some, Option.some.injEq] at hu'
        subst hu'
        unfold Thread.wakeJoin
        split
        · rename_i hb; exact ⟨rfl, rfl, by simp [hb]⟩
        · exact ⟨rfl, rfl, .rfl⟩
      · simp only [List.set_set, List.getElem?_map, List.getElem?_set_self hlt, Option.map_some, Option.some.injEq]
        unfold Thread.wakeJoin Thread.withState
        rw [if_neg (by simp)]
        simp [k2]
      · exact .bottom hpos hact k2 hterm rfl rfl rfl tr
    | backToCaller n ub rp =>
      simp only [hact, EM.bind_eq_ok, EM.read_eq_ok, EM.lift_eq_ok, getActive_eq_ok] at h5
      obtain ⟨t5, _, ⟨k1, rfl⟩, _, _, ⟨_, rfl⟩, _, s6, k2, k3⟩ := h5
      obtain ⟨m6, rfl, k⟩ := typedStore_mem (B := B) k2
      obtain ⟨b, rfl, k3⟩ := jumpOrUb_eq_ok.1 k3
      exact effect_pop ht hs hpos tr k hact (.inl ⟨hterm, rfl⟩) k3
  | resumeUnwind =>
    rw [hterm] at h; unfold evalTerminator at h; unfold evalResumeUnwind at h
    simp only [EM.bind_eq_ok] at h
    obtain ⟨fr, s1, h1, fr', s3, h3, _, s4, h4, h5⟩ := h
    obtain ⟨rfl, rfl, tr, e4⟩ := pop_trans ht hs h1 ⟨_, rfl, .refl⟩ h3 h4
    generalize s4.mem = m4 at e4 tr
    subst e4
    cases hact : fr.stackPopAction with
    | bottomOfStack => simp only [hact] at h5; cases h5
    | backToCaller n ub rp =>
      simp only [hact] at h5
      obtain ⟨b, rfl, k3⟩ := jumpOrUb_eq_ok.1 h5
      exact effect_pop ht hs hpos tr .refl hact (.inr ⟨hterm, rfl⟩) k3
  | intrinsic op as r n =>
    rw [hterm] at h
    by_cases hstop : op = .abort ∨ op = .exit
    · exact absurd h (stops_ne_ok (by rcases hstop with rfl | rfl <;> trivial))
    rw [not_or] at hstop
    unfold evalTerminator at h
    simp only [EM.bind_eq_ok, Prod.exists] at h
    obtain ⟨rp, rty, s1, h1, vs, s2, h2, v, s3, h3, _, s4, h4, h5⟩ := h
    have hst2 : Steady (B := B) s s2 := PreRel.trans _ _ _ ((Tri.steady (B := B) (tri_evalPlace _)).ok _ _ _ h1)
      ((Tri.steady (B := B) (tri_evalValues _)).ok _ _ _ h2)
    obtain ⟨b, rfl, h5⟩ := jumpOrUb_eq_ok.1 h5
    by_cases hsp : op = .spawn
    · subst hsp
      unfold evalIntrinsic intrinsicSpawn at h3
      dsimp only at h3
      split at h3
      · rename_i fnA dataA
        simp only [EM.bind_eq_ok, EM.read_eq_ok, EM.pure_eq_ok] at h3
        obtain ⟨fn, s2a, ⟨hfn, rfl⟩, _, s2b, hq1, _, s2c, hq2, tid, s5, hsp, rfl, rfl⟩ := h3
        unfold requireUb at hq1 hq2
        simp only [EM.lift_eq_ok] at hq1 hq2
        obtain ⟨_, rfl⟩ := hq1
        obtain ⟨_, rfl⟩ := hq2
        unfold spawn at hsp
        simp only [EM.bind_eq_ok, EM.modify_eq_ok, EM.pure_eq_ok, newThread_eq_ok] at hsp
        obtain ⟨_, _, ⟨g, s6, hc, rfl, rfl⟩, _, _, rfl, rfl, rfl⟩ := hsp
        obtain ⟨m, o, rfl, hfresh, tr⟩ := createFrame_trans (B := B) hc
        -- the store and the jump happen with the new thread present
        obtain ⟨name, hname⟩ := fnFromPtr_prog hfn
        rw [hst2.prog] at hname
        obtain ⟨t2, e2, g1, g2, g3, g4⟩ := hst2.top ht hs
        have hlt2 := (List.getElem?_eq_some_iff.1 g1).1
        unfold placeStore at h4
        split at h4
        · cases h4
        · obtain ⟨m4, rfl, k4⟩ := typedStore_mem (B := B) h4
          obtain ⟨t5, f5, r5, k1, k2, rfl⟩ := jumpToBlock_eq_ok.1 h5
          simp only [List.getElem?_append_left hlt2, g1, Option.some.injEq] at k1
          subst k1
          rw [g2] at k2; cases k2
          refine ⟨{ s2c with threads := s2c.threads.set s2c.activeThread { t2 with stack := StackFrame.jumpToBlock { f with extra := e2 } b :: rest } }, { t2 with stack := StackFrame.jumpToBlock { f with extra := e2 } b :: rest }, [⟨[g], .enabled, []⟩],
            hst2.apart.trans .ofSet, ?_, ?_, hst2.prog, hst2.fns, hst2.active, ?_⟩
          · rw [← hst2.active]; exact List.getElem?_set_self hlt2
          · exact List.set_append_left _ _ hlt2
          · refine .jump b e2 _ hpos rfl (by rw [hterm]; exact ⟨rfl, g3⟩) (.inr ⟨fn, name, g, hname, hfresh, rfl⟩) ?_ g4
            have := ((SlotTrans.ofKept (S := []) hst2.mem).trans tr).trans (.ofKept k4)
            simpa [threadSlots, stackSlots] using this
      · cases h3
    · have hst := PreRel.trans _ _ _ hst2 (PreRel.trans _ _ _ ((st_evalIntrinsic (B := B) hstop.1 hstop.2 hsp).ok _ _ _ h3)
        ((st_placeStore (B := B)).ok _ _ _ h4))
      exact effect_jump ht hs hpos hst h5 (by rw [hterm]; exact ⟨rfl, rfl⟩)

theorem execStep_split {u} (h : execStep s = .ok (u, s')) : ∃ t f rest blk, s.threads[s.activeThread]? = some t ∧ t.stack = f :: rest ∧
    f.func.blocks.get? f.nextBlock = some blk ∧
    ((f.nextStmt = blk.statements.length ∧ evalTerminator blk.terminator s = .ok (u, s')) ∨
      (f.nextStmt ≠ blk.statements.length ∧ ∃ st s1 v, blk.statements[f.nextStmt]? = some st ∧ evalStatement st s = .ok (v, s1) ∧ bumpStmt s1 = .ok (u, s'))) := by
  unfold execStep at h
  simp only [EM.bind_eq_ok, EM.read_eq_ok, EM.lift_eq_ok, curFrame_eq_ok, Map.get_eq_ok] at h
  obtain ⟨f, _, ⟨⟨t, rest, h1, h2⟩, rfl⟩, blk, _, ⟨h3, rfl⟩, h⟩ := h
  refine ⟨t, f, rest, blk, h1, h2, h3, ?_⟩
  split at h
  · exact .inl ⟨‹_›, h⟩
  · simp only [EM.bind_eq_ok, EM.lift_eq_ok, index_eq_ok] at h
    obtain ⟨st, _, ⟨k1, rfl⟩, v, s1, k2, k3⟩ := h
    exact .inr ⟨‹_›, st, s1, v, k1, k2, k3⟩

/-- The effect of a step on control state and storage of locals. -/
theorem execStep_effect {u} (h : execStep s = .ok (u, s')) (hnd : ∀ t f rest, s.threads[s.activeThread]? = some t → t.stack = f :: rest → f.locals.keys.Nodup) :
    ∃ t f rest blk, s.threads[s.activeThread]? = some t ∧ t.stack = f :: rest ∧
      f.func.blocks.get? f.nextBlock = some blk ∧ Effect (B := B) s s' t f rest blk := by
  obtain ⟨t, f, rest, blk, h1, h2, h3, ⟨h4, h5⟩ | ⟨h4, st, s1, v, h5, h6, h7⟩⟩ := execStep_split h
  · exact ⟨t, f, rest, blk, h1, h2, h3, effect_term h1 h2 h4 h5⟩
  · exact ⟨t, f, rest, blk, h1, h2, h3, effect_stmt h1 h2 (hnd _ _ _ h1 h2) h5 h6 h7⟩

end
end MiniRust
