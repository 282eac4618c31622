import Verif.Spec.Frames
import Verif.Lemmas.Flow
import Verif.Lemmas.WfProg
/-
The stacks of reachable states.
-/
set_option linter.unusedSectionVars false
namespace MiniRust
section
variable {M PE AE F : Type} [T : Target] [DecidableEq PE] [Memory M (AllocId × PE) F] [hm : SoftMem M (AllocId × PE) F]
  [B : BasicBacked M PE AE F]
variable {s s' : Machine M (AllocId × PE) F} {prog : Program}

structure FrameOk (prog : Program) (fr : StackFrame (AllocId × PE) F) : Prop where
  func : ∃ name, prog.functions.get? name = some fr.func
  nodup : fr.locals.keys.Nodup
  ret : fr.func.ret ∈ fr.locals.keys
  args : ∀ a ∈ fr.func.args, a ∈ fr.locals.keys

def StackOk (prog : Program) : List (StackFrame (AllocId × PE) F) → Prop
  | [] => True
  | f :: rest => FrameOk prog f ∧ StackOk prog rest ∧ match rest with
    | [] => f.stackPopAction = .bottomOfStack
    | g :: _ => ∃ c conv as r n u p, f.stackPopAction = .backToCaller n u p ∧ g.AtTerm (.call c conv as r n u)

structure ThreadOk (prog : Program) (t : Thread (AllocId × PE) F) : Prop where
  stack : StackOk prog t.stack
  term : t.state = .terminated ↔ t.stack = []

theorem StackOk.swap {f f' : StackFrame (AllocId × PE) F} {rest} (h : StackOk prog (f :: rest)) (hf : FrameOk prog f')
    (ha : f'.stackPopAction = f.stackPopAction) : StackOk prog (f' :: rest) := by
  refine ⟨hf, h.2.1, ?_⟩
  have := h.2.2
  cases rest with
  | nil => exact ha.trans this
  | cons g r => simp only at this ⊢; rw [ha]; exact this

theorem FreshFrame.frameOk {fn : Function} {name act} {g : StackFrame (AllocId × PE) F} (hn : prog.functions.get? name = some fn)
    (h : FreshFrame fn act g) : FrameOk prog g :=
  ⟨⟨name, by rw [h.func]; exact hn⟩, h.nodup, by rw [h.func, h.keys]; exact .inl rfl,
    fun a ha => by rw [h.func] at ha; rw [h.keys]; exact .inr ha⟩

/-- Keys of the live locals after a statement. -/
theorem LocalsStep.keys {st : Statement} {L L' : Map LocalName (ThinPtr (AllocId × PE))} (h : LocalsStep st L L') (hn : L.keys.Nodup) :
    L'.keys.Nodup ∧ (∀ l, l ∈ L'.keys ↔ st = .storageLive l ∨ (l ∈ L.keys ∧ st ≠ .storageDead l)) ∧
      (∀ l, st ≠ .storageLive l → st ≠ .storageDead l → L'.get? l = L.get? l) := by
  have hget : ∀ {k q : LocalName}, q ≠ k → (L.erase k).get? q = L.get? q := fun hq => Map.get?_erase_of_ne _ _ _ hq.symm
  cases st with
  | storageLive k =>
    obtain ⟨ptr, rfl⟩ := h
    refine ⟨Map.keys_insert_nodup (Map.keys_erase_nodup hn) (Map.not_mem_erase hn), fun l => ?_, fun l h1 _ => ?_⟩
    · rw [Map.keys_insert_mem]
      by_cases hl : l = k
      · simp [hl]
      · have hl' : ¬ k = l := fun e => hl e.symm
        simp [hl, hl', Map.mem_keys_erase hl]
    · have hl : l ≠ k := fun e => h1 (by rw [e])
      rw [Map.get?_insert, if_neg (Ne.symm hl), hget hl]
  | storageDead k =>
    cases h
    refine ⟨Map.keys_erase_nodup hn, fun l => ?_, fun l _ h1 => ?_⟩
    · by_cases hl : l = k
      · simp [hl, Map.not_mem_erase hn]
      · have hl' : ¬ k = l := fun e => hl e.symm
        simp [hl', Map.mem_keys_erase hl]
    · exact hget fun e => h1 (by rw [e])
  | _ =>
    cases h
    exact ⟨hn, by simp, fun _ _ _ => rfl⟩

variable {t t' : Thread (AllocId × PE) F} {f : StackFrame (AllocId × PE) F} {rest : List (StackFrame (AllocId × PE) F)} {blk : BasicBlock}
  {new : List (Thread (AllocId × PE) F)}

theorem Move.threadOk (hwf : s.prog.checkWf = .ok ()) (hs : t.stack = f :: rest) (hb : f.func.blocks.get? f.nextBlock = some blk)
    (ht : ThreadOk s.prog t) (h : Move (B := B) s s' t t' f rest blk new) : ThreadOk s.prog t' ∧ ∀ u ∈ new, ThreadOk s.prog u := by
  have hso := ht.stack
  rw [hs] at hso
  have hterm : t.state ≠ .terminated := by rw [ne_eq, ht.term, hs]; simp
  have hf := hso.1
  obtain ⟨name, hname⟩ := hf.func
  have hfw := Function.wf (Program.checkWf_function hwf hname)
  cases h with
  | stmt st f' h1 h2 h3 h4 h5 h6 h7 h8 h9 h10 =>
    refine ⟨⟨?_, ?_⟩, by simp⟩
    · rw [h2]
      refine hso.swap ?_ h5
      obtain ⟨k1, k2, _⟩ := h8.keys hf.nodup
      have hst := hfw.stmts _ _ st hb (List.mem_of_getElem? h1)
      have hdead : ∀ l, (l = f.func.ret ∨ l ∈ f.func.args) → st ≠ .storageDead l := by
        rintro l hl rfl
        simp only [Statement.checkWf, Res.bind_eq_ok] at hst
        obtain ⟨_, _, hst⟩ := hst
        rw [if_pos hl] at hst; cases hst
      refine ⟨⟨name, by rw [h4]; exact hname⟩, k1, ?_, fun a ha => ?_⟩
      · rw [h4, k2]; exact .inr ⟨hf.ret, hdead _ (.inl rfl)⟩
      · rw [h4] at ha; rw [k2]; exact .inr ⟨hf.args a ha, hdead _ (.inr ha)⟩
    · rw [h2]; simp only [List.cons_ne_nil, iff_false]; exact fun h => hterm (h10 h)
  | jump b e _ h1 h2 h3 h4 h5 h6 =>
    refine ⟨⟨?_, ?_⟩, ?_⟩
    · rw [h2]; exact hso.swap ⟨hf.func, hf.nodup, hf.ret, hf.args⟩ rfl
    · rw [h2]; simp only [List.cons_ne_nil, iff_false]; exact fun h => hterm (h6 h)
    · rcases h4 with rfl | ⟨fn, nm, g, k1, k2, rfl⟩
      · simp
      · intro u hu
        cases List.mem_singleton.1 hu
        exact ⟨⟨k2.frameOk k1, trivial, k2.action⟩, by simp⟩
  | call c conv as r n u fn nm g e p h1 h2 h3 h4 h5 h6 h7 h8 =>
    refine ⟨⟨?_, ?_⟩, by simp⟩
    · rw [h5]
      refine ⟨h4.frameOk h3, hso.swap ⟨hf.func, hf.nodup, hf.ret, hf.args⟩ rfl, ?_⟩
      exact ⟨c, conv, as, r, n, u, p, h4.action, blk, hb, h1, h2.symm⟩
    · rw [h5]; simp only [List.cons_ne_nil, iff_false]; exact fun h => hterm (h8 h)
  | ret n u p b g rest' h1 h2 h3 h4 h5 h6 h7 h8 =>
    refine ⟨⟨?_, ?_⟩, by simp⟩
    · rw [h5]
      have hr := hso.2.1
      rw [h3] at hr
      have hg := hr.1
      exact hr.swap ⟨hg.func, hg.nodup, hg.ret, hg.args⟩ rfl
    · rw [h5]; simp only [List.cons_ne_nil, iff_false]; exact fun h => hterm (h8 h)
  | bottom h1 h2 h3 h4 h5 h6 h7 h8 =>
    exact ⟨⟨by rw [h5]; trivial, by simp [h5, h6]⟩, by simp⟩

/-- The effect of one step on stacks and payloads, in terms of the program. -/
theorem Move.stackStep (hs : t.stack = f :: rest) (hb : f.func.blocks.get? f.nextBlock = some blk)
    (ht : ThreadOk s.prog t) (h : Move (B := B) s s' t t' f rest blk new) :
    StackStep s.prog t.stack t.unwindPayloads t'.stack t'.unwindPayloads := by
  have hso := ht.stack
  rw [hs] at hso ⊢
  cases h with
  | stmt st f' h1 h2 h3 h4 h5 h6 h7 h8 h9 h10 =>
    rw [h2, h3]
    obtain ⟨k1, k2, k3⟩ := h8.keys hso.1.nodup
    exact .stmt ⟨blk, hb, h1⟩ ⟨h4, h5, h6, h7, k2, k3⟩
  | jump b e _ h1 h2 h3 h4 h5 h6 =>
    rw [h2]
    have hat : f.AtTerm blk.terminator := ⟨blk, hb, h1, rfl⟩
    have hmv : f.MovedTo b { f with nextBlock := b, nextStmt := 0, extra := e } := ⟨⟨rfl, rfl, rfl⟩, rfl, rfl⟩
    cases hterm : blk.terminator with
    | goto b' => rw [hterm] at h3 hat; obtain ⟨rfl, h3⟩ := h3; rw [h3]; exact .goto hat hmv
    | switch v cs fb => rw [hterm] at h3 hat; obtain ⟨h3, h3'⟩ := h3; rw [h3']; exact .switch hat h3 hmv
    | startUnwind v b' => rw [hterm] at h3 hat; obtain ⟨rfl, x, h3⟩ := h3; rw [h3]; exact .startUnwind hat hmv
    | stopUnwind b' => rw [hterm] at h3 hat; obtain ⟨rfl, x, h3⟩ := h3; rw [h3]; exact .stopUnwind hat hmv
    | intrinsic op as r n => rw [hterm] at h3 hat; obtain ⟨rfl, h3⟩ := h3; rw [h3]; exact .intrinsic hat hmv
    | _ => rw [hterm] at h3; exact h3.elim
  | call c conv as r n u fn nm g e p h1 h2 h3 h4 h5 h6 h7 h8 =>
    rw [h5, h6]
    exact .call ⟨blk, hb, h1, h2.symm⟩ h3 ⟨h4.func, h4.block, h4.stmt, h4.keys⟩ ⟨⟨rfl, rfl, rfl⟩, rfl, rfl⟩
  | ret n u p b g rest' h1 h2 h3 h4 h5 h6 h7 h8 =>
    rw [h5, h6, h3]
    have hr := hso.2.2
    rw [h3] at hr
    obtain ⟨c, conv, as, r, n', u', p', e, hg⟩ := hr
    rw [h2] at e; cases e
    rcases h4 with ⟨k1, rfl⟩ | ⟨k1, rfl⟩
    · exact .ret ⟨blk, hb, h1, k1.symm⟩ hg ⟨⟨rfl, rfl, rfl⟩, rfl, rfl⟩
    · exact .resume ⟨blk, hb, h1, k1.symm⟩ hg ⟨⟨rfl, rfl, rfl⟩, rfl, rfl⟩
  | bottom h1 h2 h3 h4 h5 h6 h7 h8 =>
    rw [h5, h7, h3]
    exact .finish ⟨blk, hb, h1, h4.symm⟩

/-! ### All threads -/

def ThreadsOk (s : Machine M (AllocId × PE) F) : Prop := ∀ t ∈ s.threads, ThreadOk s.prog t

theorem ThreadsOk.nodup (h : ThreadsOk s) : ∀ (i : Nat) t f rest, s.threads[i]? = some t → t.stack = f :: rest → f.locals.keys.Nodup := by
  intro i t f rest h1 h2
  have := (h t (List.mem_of_getElem? h1)).stack
  rw [h2] at this
  exact this.1.nodup

theorem ThreadsOk.effect (hwf : s.prog.checkWf = .ok ()) (h : ThreadsOk s) (ht : s.threads[s.activeThread]? = some t) (hs : t.stack = f :: rest)
    (hb : f.func.blocks.get? f.nextBlock = some blk) (he : Effect (B := B) s s' t f rest blk) : ThreadsOk s' := by
  obtain ⟨sm, t', new, ha, h1, h2, h3, h4, h5, hmv⟩ := he
  have hm := hmv.threadOk hwf hs hb (h t (List.mem_of_getElem? ht))
  intro u hu
  rw [h3]
  rw [h2] at hu
  rcases List.mem_append.1 hu with hu | hu
  · obtain ⟨i, hi⟩ := List.mem_iff_getElem?.1 hu
    by_cases hia : i = s.activeThread
    · subst hia
      rw [h1] at hi; cases hi
      exact hm.1
    · have hlt : i < s.threads.length := by rw [← ha.length]; exact (List.getElem?_eq_some_iff.1 hi).1
      obtain ⟨k1, k2, k3⟩ := ha.others i _ u hia (List.getElem?_eq_getElem hlt) hi
      have := h _ (List.getElem_mem hlt)
      exact ⟨by rw [k1]; exact this.stack, by rw [k1, k3]; exact this.term⟩
  · exact hm.2 u hu

/-! ### Storage -/

theorem threadSlots_eq (ts : List (Thread (AllocId × PE) F)) : threadSlots ts = (ts.map (·.stack)).flatMap stackSlots := by
  unfold threadSlots; rw [List.flatMap_map]

theorem flatMap_set_perm {α β : Type} (g : α → List β) : ∀ {l : List α} {i : Nat} {a : α}, l[i]? = some a →
    (l.flatMap g).Perm (g a ++ (l.eraseIdx i).flatMap g)
  | x :: l, 0, a, h => by simp at h; subst h; simp
  | x :: l, i + 1, a, h => by
    simp only [List.getElem?_cons_succ] at h
    simp only [List.flatMap_cons, List.eraseIdx_cons_succ]
    refine ((flatMap_set_perm g h).append_left (g x)).trans ?_
    rw [← List.append_assoc, ← List.append_assoc]
    exact List.perm_append_comm.append_right _

/-- The slots of all threads of a state, with those of the active thread in front. -/
theorem Apart.slots {sm : Machine M (AllocId × PE) F} (ha : Apart s sm) (ht : s.threads[s.activeThread]? = some t)
    (ht' : sm.threads[s.activeThread]? = some t') :
    ∃ R, (threadSlots s.threads).Perm (stackSlots t.stack ++ R) ∧ (threadSlots sm.threads).Perm (stackSlots t'.stack ++ R) := by
  refine ⟨(s.threads.map (·.stack)).eraseIdx s.activeThread |>.flatMap stackSlots, ?_, ?_⟩
  · rw [threadSlots_eq]
    exact flatMap_set_perm _ (by rw [List.getElem?_map, ht]; rfl)
  · rw [threadSlots_eq]
    have hE : (s.threads.map (·.stack)).eraseIdx s.activeThread = (sm.threads.map (·.stack)).eraseIdx s.activeThread := by
      apply List.ext_getElem?
      intro i
      rw [List.getElem?_eraseIdx, List.getElem?_eraseIdx]
      have key : ∀ j, j ≠ s.activeThread → (s.threads.map (·.stack))[j]? = (sm.threads.map (·.stack))[j]? := by
        intro j hj
        rw [List.getElem?_map, List.getElem?_map]
        cases e : s.threads[j]? with
        | none =>
          rw [List.getElem?_eq_none_iff] at e
          rw [List.getElem?_eq_none (by rw [ha.length]; exact e)]
        | some u =>
          have hlt : j < sm.threads.length := by rw [ha.length]; exact (List.getElem?_eq_some_iff.1 e).1
          rw [List.getElem?_eq_getElem hlt]
          have := ha.others j u _ hj e (List.getElem?_eq_getElem hlt)
          simp [this.1]
      split
      · exact key _ (by omega)
      · exact key _ (by omega)
    rw [hE]
    exact flatMap_set_perm _ (by rw [List.getElem?_map, ht']; rfl)

/-- The storage of locals: every live local has its own live stack allocation, and there are no others. -/
structure StorageOk (s : Machine M (AllocId × PE) F) : Prop where
  ok : SlotsOk (allocs (B := B) s.mem) (threadSlots s.threads)
  all : SlotsAll (allocs (B := B) s.mem) (threadSlots s.threads)

theorem SlotTrans.storage {m m' : ConcMem M} {S S' R : List (Slot PE)} (h : SlotTrans (B := B) m m' S S')
    (h1 : SlotsOk (allocs (B := B) m) (S ++ R)) (h2 : SlotsAll (allocs (B := B) m) (S ++ R)) :
    SlotsOk (allocs (B := B) m') (S' ++ R) ∧ SlotsAll (allocs (B := B) m') (S' ++ R) :=
  ⟨h.ok R h1, h.all R h1 h2⟩

theorem stackSlots_cons {f : StackFrame (AllocId × PE) F} {rest} : stackSlots (f :: rest) = slotsOf f ++ stackSlots rest := rfl

theorem slotsOf_jump {f : StackFrame (AllocId × PE) F} {b} {e : F} : slotsOf { f with nextBlock := b, nextStmt := 0, extra := e } = slotsOf f := rfl

theorem StorageOk.effect (h : StorageOk (B := B) s) (ht : s.threads[s.activeThread]? = some t) (hs : t.stack = f :: rest)
    (he : Effect (B := B) s s' t f rest blk) : StorageOk (B := B) s' := by
  obtain ⟨sm, t', new, ha, h1, h2, h3, h4, h5, hmv⟩ := he
  obtain ⟨R, p1, p2⟩ := ha.slots ht h1
  have g1 := h.ok.perm p1
  have g2 := h.all.perm p1
  rw [hs, stackSlots_cons] at g1 g2
  have fin : ∀ {S}, (threadSlots s'.threads).Perm S → SlotsOk (allocs (B := B) s'.mem) S ∧ SlotsAll (allocs (B := B) s'.mem) S → StorageOk (B := B) s' :=
    fun hp ⟨a, b⟩ => ⟨a.perm hp.symm, b.perm hp.symm⟩
  have hperm : (threadSlots s'.threads).Perm (threadSlots new ++ (stackSlots t'.stack ++ R)) := by
    rw [h2]
    unfold threadSlots
    rw [List.flatMap_append]
    exact List.perm_append_comm.trans (p2.append_left _)
  refine fin hperm ?_
  cases hmv with
  | stmt st f' k1 k2 k3 k4 k5 k6 k7 k8 k9 k10 =>
    rw [k2, stackSlots_cons, List.append_assoc]
    rw [List.append_assoc] at g1 g2
    exact k9.storage g1 g2
  | jump b e _ k1 k2 k3 k4 k5 k6 =>
    rw [k2, stackSlots_cons, slotsOf_jump]
    exact k5.storage (S := []) g1 g2
  | call c conv as r n u fn nm g e p k1 k2 k3 k4 k5 k6 k7 k8 =>
    rw [k5, stackSlots_cons, stackSlots_cons, List.append_assoc]
    exact k7.storage (S := []) g1 g2
  | ret n u p b g rest' k1 k2 k3 k4 k5 k6 k7 k8 =>
    rw [k5, stackSlots_cons]
    rw [List.append_assoc, k3] at g1 g2
    exact k7.storage g1 g2
  | bottom k1 k2 k3 k4 k5 k6 k7 k8 =>
    rw [k5]
    rw [List.append_assoc, k3] at g1 g2
    exact k8.storage g1 g2

/-! ### Initial states -/

def NoStack (m : ConcMem M) : Prop := ∀ (id : Nat) (x : Alloc PE AE), (allocs (B := B) m)[id]? = some x → x.kind ≠ .stack

theorem noStack_allocate {k n a} {p : ThinPtr (AllocId × PE)} (hk : k ≠ .stack) (h : memAllocate k n a s = .ok (p, s'))
    (hn : NoStack (B := B) s.mem) : NoStack (B := B) s'.mem ∧ s'.threads = s.threads := by
  obtain ⟨m, o, ae, rfl, _, e⟩ := memAllocate_allocs (B := B) h
  refine ⟨fun id x hx => ?_, rfl⟩
  rw [e] at hx
  rcases List.mem_append.1 (List.mem_of_getElem? hx) with hx | hx
  · obtain ⟨i, hi⟩ := List.mem_iff_getElem?.1 hx
    exact hn i x hi
  · cases List.mem_singleton.1 hx
    exact hk

theorem noStack_allocGlobals : ∀ {gs} {s s' : Machine M (AllocId × PE) F} {u}, allocGlobals gs s = .ok (u, s') →
    NoStack (B := B) s.mem → NoStack (B := B) s'.mem ∧ s'.threads = s.threads
  | [], s, s', u, h, hn => by unfold allocGlobals at h; cases h; exact ⟨hn, rfl⟩
  | (n, g) :: gs, s, s', u, h, hn => by
    unfold allocGlobals at h
    simp only [EM.bind_eq_ok, EM.modify_eq_ok] at h
    obtain ⟨p, s1, h1, _, _, rfl, h2⟩ := h
    obtain ⟨a1, a2⟩ := noStack_allocate (by simp) h1 hn
    obtain ⟨b1, b2⟩ := noStack_allocGlobals h2 a1
    exact ⟨b1, b2.trans a2⟩

theorem noStack_allocFunctions : ∀ {gs} {s s' : Machine M (AllocId × PE) F} {u}, allocFunctions gs s = .ok (u, s') →
    NoStack (B := B) s.mem → NoStack (B := B) s'.mem ∧ s'.threads = s.threads
  | [], s, s', u, h, hn => by unfold allocFunctions at h; cases h; exact ⟨hn, rfl⟩
  | n :: gs, s, s', u, h, hn => by
    unfold allocFunctions at h
    simp only [EM.bind_eq_ok, EM.modify_eq_ok] at h
    obtain ⟨p, s1, h1, _, _, rfl, h2⟩ := h
    obtain ⟨a1, a2⟩ := noStack_allocate (by simp) h1 hn
    obtain ⟨b1, b2⟩ := noStack_allocFunctions h2 a1
    exact ⟨b1, b2.trans a2⟩

theorem noStack_allocVTables : ∀ {gs} {s s' : Machine M (AllocId × PE) F} {u}, allocVTables gs s = .ok (u, s') →
    NoStack (B := B) s.mem → NoStack (B := B) s'.mem ∧ s'.threads = s.threads
  | [], s, s', u, h, hn => by unfold allocVTables at h; cases h; exact ⟨hn, rfl⟩
  | n :: gs, s, s', u, h, hn => by
    unfold allocVTables at h
    simp only [EM.bind_eq_ok, EM.modify_eq_ok] at h
    obtain ⟨p, s1, h1, _, _, rfl, h2⟩ := h
    obtain ⟨a1, a2⟩ := noStack_allocate (by simp) h1 hn
    obtain ⟨b1, b2⟩ := noStack_allocVTables h2 a1
    exact ⟨b1, b2.trans a2⟩

theorem memStore_kept {p : ThinPtr (AllocId × PE)} {b al at' u} (h : memStore p b al at' s = .ok (u, s')) :
    s'.threads = s.threads ∧ ∀ (id : Nat) (x' : Alloc PE AE), (allocs (B := B) s'.mem)[id]? = some x' → ∃ x : Alloc PE AE, (allocs (B := B) s.mem)[id]? = some x ∧ x.kind = x'.kind := by
  unfold memStore at h
  simp only [Res.bind_eq_ok, Except.ok.injEq, Prod.mk.injEq] at h
  obtain ⟨m, h0, _, rfl⟩ := h
  obtain ⟨mm, h1, rfl⟩ := ConcMem.store_eq_ok.1 h0
  obtain ⟨hx, e⟩ := B.store s.mem.memory p b al
  rw [h1] at e
  have e' : (B.mem s.mem.memory).store p b al hx = .ok (B.mem mm) := e.symm
  rw [BasicMem.store_eq_ok] at e'
  refine ⟨rfl, fun i x' hx' => ?_⟩
  have hx2 : (B.mem mm).allocations[i]? = some x' := hx'
  obtain ⟨_, ⟨_, e'⟩ | ⟨_, id, pe, a, off, extra, data, hp, ha, hl, h3, h4, hx', hw, e'⟩⟩ := e'
  · rw [e'] at hx2; exact ⟨x', hx2, rfl⟩
  · rw [e'] at hx2
    have hx3 : ((B.mem s.mem.memory).allocations.set id { a with extra := extra, data := data })[i]? = some x' := hx2
    by_cases hi : id = i
    · subst hi
      rw [List.getElem?_set_self (List.getElem?_eq_some_iff.1 ha).1] at hx3
      cases hx3
      exact ⟨a, ha, rfl⟩
    · rw [List.getElem?_set_ne hi] at hx3
      exact ⟨x', hx3, rfl⟩

theorem noStack_fillGlobals : ∀ {gs} {s s' : Machine M (AllocId × PE) F} {u}, fillGlobals gs s = .ok (u, s') →
    NoStack (B := B) s.mem → NoStack (B := B) s'.mem ∧ s'.threads = s.threads
  | [], s, s', u, h, hn => by unfold fillGlobals at h; cases h; exact ⟨hn, rfl⟩
  | (n, g) :: gs, s, s', u, h, hn => by
    unfold fillGlobals at h
    simp only [EM.bind_eq_ok, EM.read_eq_ok, EM.unwrapRes_eq_ok] at h
    obtain ⟨b, _, ⟨_, rfl⟩, p, _, ⟨_, rfl⟩, _, s1, h1, h2⟩ := h
    obtain ⟨a2, a1⟩ := memStore_kept (B := B) h1
    obtain ⟨b1, b2⟩ := noStack_fillGlobals h2 (fun id x hx => by
      obtain ⟨y, hy, hk⟩ := a1 id x hx
      rw [← hk]; exact hn id y hy)
    exact ⟨b1, b2.trans a2⟩

theorem new_frames {oracle : List (Choice (AllocId × PE))} (h : Machine.new prog oracle = .ok s) :
    s.prog = prog ∧ prog.checkWf = .ok () ∧ ThreadsOk s ∧ StorageOk (B := B) s ∧
      ∃ f g, prog.functions.get? prog.start = some f ∧ FreshFrame f .bottomOfStack g ∧ s.threads = [⟨[g], .enabled, []⟩] := by
  have hprog : s.prog = prog := (new_eq_ok h).2.1
  obtain ⟨s1, s2, s3, s4, s5, f, fr, hwf, h1, h2, h3, h4, hf, h5, rfl⟩ := new_stages h
  have h0 : NoStack (B := B) (Machine.empty prog oracle : Machine M (AllocId × PE) F).mem := by
    intro id x hx
    have : allocs (B := B) (Machine.empty prog oracle : Machine M (AllocId × PE) F).mem = [] := by
      show (B.mem Memory.new).allocations = []
      rw [B.new]; rfl
    rw [this] at hx; simp at hx
  obtain ⟨a1, a2⟩ := noStack_allocGlobals h1 h0
  obtain ⟨b1, b2⟩ := noStack_fillGlobals h2 a1
  obtain ⟨c1, c2⟩ := noStack_allocFunctions h3 b1
  obtain ⟨d1, d2⟩ := noStack_allocVTables h4 c1
  obtain ⟨m, o, rfl, hfresh, tr⟩ := createFrame_trans (B := B) h5
  have hthr : s4.threads = [] := by rw [d2, c2, b2, a2]; rfl
  have hg : prog.functions.get? prog.start = some f := Map.get_eq_ok.1 hf
  have hthr' : ({ s4 with mem := m, oracle := o, threads := s4.threads ++ [⟨[fr], .enabled, []⟩] } : Machine M (AllocId × PE) F).threads = [⟨[fr], .enabled, []⟩] := by
    show s4.threads ++ _ = _
    rw [hthr]; rfl
  refine ⟨hprog, hwf, ?_, ?_, f, fr, hg, hfresh, hthr'⟩
  · intro t ht
    rw [hthr'] at ht
    cases List.mem_singleton.1 ht
    rw [hprog]
    exact ⟨⟨hfresh.frameOk hg, trivial, hfresh.action⟩, by simp⟩
  · have := tr.storage (R := []) ⟨by simp, by simp⟩ (fun id x hx hk _ => absurd hk (d1 id x hx))
    refine ⟨?_, ?_⟩ <;> (rw [hthr']; simp only [threadSlots, stackSlots, List.flatMap_cons, List.flatMap_nil, List.append_nil] at this ⊢)
    exacts [this.1, this.2]

/-- The invariants of reachable states. -/
structure FramesInv (prog : Program) (s : Machine M (AllocId × PE) F) : Prop where
  eq : s.prog = prog
  wf : prog.checkWf = .ok ()
  threads : ThreadsOk s
  storage : StorageOk (B := B) s

/-- The effect of a scheduled step. -/
theorem FramesInv.step (hi : FramesInv (B := B) prog s) (h : step s = .ok ((), s')) :
    ∃ (a : Nat) (r : List (Choice (AllocId × PE))) (t : Thread (AllocId × PE) F) (f : StackFrame (AllocId × PE) F)
      (rest : List (StackFrame (AllocId × PE) F)) (blk : BasicBlock), s.oracle = .int a :: r ∧ s.threads[a]? = some t ∧ t.stack = f :: rest ∧
      f.func.blocks.get? f.nextBlock = some blk ∧ s'.activeThread = a ∧ t.state = .enabled ∧
      Effect (B := B) (s.schedule a r) s' t f rest blk := by
  obtain ⟨a, t, r, h1, h2, h3, h4, h5⟩ := step_eq_ok.1 h
  obtain ⟨t2, f, rest, blk, k1, k2, k3, k4⟩ := execStep_effect (B := B) h4 (fun t f rest e1 e2 => hi.threads.nodup _ t f rest e1 e2)
  have k1' : s.threads[a]? = some t2 := k1
  rw [h2] at k1'; cases k1'
  have hact : s'.activeThread = a := by
    obtain ⟨_, _, _, _, _, _, _, _, e, _⟩ := k4
    exact e
  exact ⟨a, r, t, f, rest, blk, h1, h2, k2, k3, hact, h3, k4⟩

theorem FramesInv.next (hi : FramesInv (B := B) prog s) (h : MiniRust.step s = .ok ((), s')) : FramesInv (B := B) prog s' := by
  obtain ⟨a, r, t, f, rest, blk, h1, h2, h3, h4, h5, _, h6⟩ := hi.step h
  have hp : s'.prog = s.prog := by
    obtain ⟨_, _, _, _, _, _, e, _⟩ := h6
    exact e
  refine ⟨hp.trans hi.eq, hi.wf, ?_, ?_⟩
  · refine ThreadsOk.effect (s := s.schedule a r) ?_ hi.threads h2 h3 h4 h6
    show s.prog.checkWf = _
    rw [hi.eq]; exact hi.wf
  · exact StorageOk.effect (s := s.schedule a r) ⟨hi.storage.ok, hi.storage.all⟩ h2 h3 h6

theorem Reachable.frames (h : Reachable prog s) : FramesInv (B := B) prog s := by
  refine h.induct (I := fun s => FramesInv (B := B) prog s) ?_ ?_
  · intro oracle s0 h0
    obtain ⟨h1, h2, h3, h4, _⟩ := new_frames (B := B) h0
    exact ⟨h1, h2, h3, h4⟩
  · intro s s' hs h
    exact hs.next h

end
end MiniRust
