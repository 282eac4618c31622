import Verif.Lemmas.Soft
/-
What the evaluation of expressions can change: only the memory (by loads and retags) and the extra
state of the current frame; and it fails only with UB, a panic or a rejected choice.
-/
set_option linter.unusedSectionVars false
namespace MiniRust

/-- Frames that differ only in the extra state kept for the memory model. -/
def FrameExtra {P F : Type} (f f' : StackFrame P F) : Prop := ∃ e, f' = { f with extra := e }

/-- Thread lists that differ at most in the top frame of thread `a`, which is related by `Rf`. -/
def OnlyTop {P F : Type} (Rf : StackFrame P F → StackFrame P F → Prop) (a : Nat)
    (ts ts' : List (Thread P F)) : Prop :=
  ts' = ts ∨ ∃ t f f' rest, ts[a]? = some t ∧ t.stack = f :: rest ∧ Rf f f' ∧
    ts' = ts.set a { t with stack := f' :: rest }

theorem FrameExtra.trans {P F : Type} {f g h : StackFrame P F} (h1 : FrameExtra f g)
    (h2 : FrameExtra g h) : FrameExtra f h := by
  obtain ⟨e, rfl⟩ := h1; obtain ⟨e', rfl⟩ := h2; exact ⟨e', rfl⟩

theorem OnlyTop.trans {P F : Type} {Rf : StackFrame P F → StackFrame P F → Prop} {a : Nat}
    {ts ts' ts'' : List (Thread P F)} (ht : ∀ f g h, Rf f g → Rf g h → Rf f h)
    (h1 : OnlyTop Rf a ts ts') (h2 : OnlyTop Rf a ts' ts'') : OnlyTop Rf a ts ts'' := by
  rcases h1 with rfl | ⟨t, f, f', rest, hg, hs, hr, rfl⟩
  · exact h2
  · rcases h2 with rfl | ⟨t2, f2, f2', rest2, hg2, hs2, hr2, rfl⟩
    · exact .inr ⟨t, f, f', rest, hg, hs, hr, rfl⟩
    · have hid := (List.getElem?_eq_some_iff.1 hg).1
      rw [List.getElem?_set_self hid] at hg2
      cases hg2
      cases hs2
      refine .inr ⟨t, f, f2', rest, hg, hs, ht _ _ _ hr hr2, ?_⟩
      rw [List.set_set]

theorem OnlyTop.length {P F : Type} {Rf : StackFrame P F → StackFrame P F → Prop} {a : Nat}
    {ts ts' : List (Thread P F)} (h : OnlyTop Rf a ts ts') : ts'.length = ts.length := by
  rcases h with rfl | ⟨t, f, f', rest, hg, hs, hr, rfl⟩ <;> simp

/-! ### Effects of computations -/

/-- A reflexive and transitive relation on machines. -/
class PreRel {M P F : Type} (R : Machine M P F → Machine M P F → Prop) : Prop where
  refl : ∀ s, R s s
  trans : ∀ s s' s'', R s s' → R s' s'' → R s s''

/-- Every success of `x` relates the machines by `R`, every failure satisfies `E`. -/
structure Tri {M P F α : Type} (E : Err → Prop) (R : Machine M P F → Machine M P F → Prop)
    (x : EM M P F α) : Prop where
  ok : ∀ s a s', x s = .ok (a, s') → R s s'
  err : ∀ s e, x s = .error e → E e

section
variable {M P F α β : Type} {E : Err → Prop} {R : Machine M P F → Machine M P F → Prop}

theorem Tri.bind [PreRel R] {x : EM M P F α} {f : α → EM M P F β} (hx : Tri E R x)
    (hf : ∀ a, Tri E R (f a)) : Tri E R (x >>= f) where
  ok s b s' h := by
    rw [EM.bind_eq_ok] at h
    obtain ⟨a, s1, h1, h2⟩ := h
    exact PreRel.trans _ _ _ (hx.ok _ _ _ h1) ((hf _).ok _ _ _ h2)
  err s e h := by
    rw [EM.bind_eq_error] at h
    rcases h with h | ⟨a, s1, _, h⟩
    · exact hx.err _ _ h
    · exact (hf _).err _ _ h
theorem Tri.pure [PreRel R] {a : α} : Tri E R (pure a : EM M P F α) where
  ok s b s' h := by cases h; exact PreRel.refl _
  err s e h := by cases h
theorem Tri.throw {e : Err} (h : E e) : Tri E R (EM.throw e : EM M P F α) where
  ok s b s' h := by cases h
  err s e h := by cases h; assumption
theorem Tri.lift [PreRel R] {r : Res α} (h : ResE E r) : Tri E R (EM.lift r : EM M P F α) where
  ok s b s' h := by rw [EM.lift_eq_ok] at h; obtain ⟨_, rfl⟩ := h; exact PreRel.refl _
  err s e he := by rw [EM.lift_eq_error] at he; exact h.err _ he
theorem Tri.read [PreRel R] {f : Machine M P F → Res α} (h : ∀ s, ResE E (f s)) :
    Tri E R (EM.read f) where
  ok s b s' h := by rw [EM.read_eq_ok] at h; obtain ⟨_, rfl⟩ := h; exact PreRel.refl _
  err s e he := by rw [EM.read_eq_error] at he; exact (h s).err _ he
theorem Tri.modify {f : Machine M P F → Machine M P F} (h : ∀ s, R s (f s)) :
    Tri E R (EM.modify f) where
  ok s b s' hs := by rw [EM.modify_eq_ok] at hs; subst hs; exact h _
  err s e he := by simp [EM.modify] at he
theorem Tri.ite {c : Prop} [Decidable c] {x y : EM M P F α} (hx : Tri E R x) (hy : Tri E R y) :
    Tri E R (if c then x else y) := by split <;> assumption
theorem Tri.unwrapRes {x : EM M P F α} (h : Tri E R x) (hp : E .panic) : Tri E R (EM.unwrapRes x) where
  ok s b s' hs := by rw [EM.unwrapRes_eq_ok] at hs; exact h.ok _ _ _ hs
  err s e he := by
    rw [EM.unwrapRes_eq_error] at he
    rcases he with ⟨rfl, he⟩ | ⟨rfl, _⟩
    · exact h.err _ _ he
    · exact hp
theorem Tri.mono {E' : Err → Prop} {R' : Machine M P F → Machine M P F → Prop} {x : EM M P F α}
    (h : Tri E R x) (hE : ∀ e, E e → E' e) (hR : ∀ s s', R s s' → R' s s') : Tri E' R' x where
  ok s a s' hs := hR _ _ (h.ok _ _ _ hs)
  err s e he := hE _ (h.err _ _ he)
end

/-! ### Memories -/

/-- Every operation of the memory fails only with UB, a panic or a rejected choice; `leak_check` may
also report a leak. -/
class SoftMem (M : Type) (P F : outParam Type) [Memory M P F] : Prop where
  allocate : ∀ (m : M) k n a p, ResE Soft (Memory.allocate m k n a p)
  deallocate : ∀ (m : M) p k n a, ResE Soft (Memory.deallocate m p k n a)
  store : ∀ (m : M) p b a, ResE Soft (Memory.store m p b a)
  load : ∀ (m : M) p n a, ResE Soft (Memory.load m p n a)
  deref : ∀ (m : M) p n, ResE Soft (Memory.dereferenceable m p n)
  retag : ∀ (m : M) f p t e vt, (∀ p, ResE Soft (vt p)) → ResE Soft (Memory.retagPtr m f p t e vt)
  endCall : ∀ (m : M) f, ResE Soft (Memory.endCall m f)
  leak : ∀ (m : M), ResE (· = .memoryLeak) (Memory.leakCheck m)

variable {M P F : Type} [Memory M P F] [DecidableEq P] [T : Target] {s s' : Machine M P F}

/-- A relation on memories that holds for the effects of evaluating expressions. -/
class ReadRel (Rm : ConcMem M → ConcMem M → Prop) : Prop where
  refl : ∀ m, Rm m m
  trans : ∀ m m' m'', Rm m m' → Rm m' m'' → Rm m m''
  load : ∀ (m m' : ConcMem M) (p : ThinPtr P) n al at' bytes,
    m.load p n al at' = .ok (bytes, m') → Rm m m'
  retag : ∀ (m m' : ConcMem M) f f' (p p' : Pointer P) pty e vt,
    m.retagPtr f p pty e vt = .ok (p', f', m') → Rm m m'

/-- The effect of evaluating an expression. -/
structure ExprRel (Rm : ConcMem M → ConcMem M → Prop) (s s' : Machine M P F) : Prop where
  mem : Rm s.mem s'.mem
  rest : s' = { s with mem := s'.mem, threads := s'.threads }
  threads : OnlyTop FrameExtra s.activeThread s.threads s'.threads

section
variable {Rm : ConcMem M → ConcMem M → Prop} [h : ReadRel (P := P) (F := F) Rm]

instance : PreRel (ExprRel (P := P) (F := F) Rm) where
  refl s := ⟨h.refl _, rfl, .inl rfl⟩
  trans s s' s'' h1 h2 := by
    refine ⟨h.trans _ _ _ h1.mem h2.mem, ?_, ?_⟩
    · rw [h2.rest, h1.rest]
    · have ha : s'.activeThread = s.activeThread := by rw [h1.rest]
      have := h2.threads
      rw [ha] at this
      exact h1.threads.trans (fun _ _ _ => FrameExtra.trans) this
end

theorem ExprRel.active {Rm : ConcMem M → ConcMem M → Prop} (h : ExprRel Rm s s') :
    s'.activeThread = s.activeThread := by rw [h.rest]

/-- Memory changes only. -/
theorem ExprRel.ofMem {Rm : ConcMem M → ConcMem M → Prop} {m : ConcMem M} (h : Rm s.mem m) :
    ExprRel Rm s { s with mem := m } := ⟨h, rfl, .inl rfl⟩

theorem index_threads {l : List (Thread P F)} {i : Nat} {t : Thread P F} :
    index l i = .ok t ↔ l[i]? = some t := index_eq_ok

theorem getActive_eq_ok {t : Thread P F} :
    s.getActive = .ok t ↔ s.threads[s.activeThread]? = some t := index_eq_ok

theorem curFrame_eq_ok {f : StackFrame P F} :
    s.curFrame = .ok f ↔ ∃ t rest, s.threads[s.activeThread]? = some t ∧ t.stack = f :: rest := by
  unfold Machine.curFrame
  simp only [Res.bind_eq_ok, getActive_eq_ok, Thread.curFrame, unwrap_eq_ok]
  constructor
  · rintro ⟨t, h1, h2⟩
    cases hs : t.stack with
    | nil => rw [hs] at h2; cases h2
    | cons g rest => rw [hs] at h2; cases h2; exact ⟨t, rest, h1, hs⟩
  · rintro ⟨t, rest, h1, h2⟩
    exact ⟨t, h1, by rw [h2]; rfl⟩

theorem setCurFrame_eq_ok {t t' : Thread P F} {f : StackFrame P F} :
    t.setCurFrame f = .ok t' ↔ ∃ g rest, t.stack = g :: rest ∧ t' = { t with stack := f :: rest } := by
  unfold Thread.setCurFrame
  cases h : t.stack with
  | nil => simp [panic]
  | cons g rest =>
    simp only [Except.ok.injEq, List.cons.injEq]
    constructor
    · rintro rfl; exact ⟨g, rest, ⟨rfl, rfl⟩, rfl⟩
    · rintro ⟨_, _, ⟨rfl, rfl⟩, rfl⟩; rfl

/-- The effect of `mutate_cur_frame`. -/
theorem mutateCurFrame_eq_ok {α : Type} {f : StackFrame P F → EM M P F (α × StackFrame P F)} {a : α} :
    mutateCurFrame f s = .ok (a, s') ↔
      ∃ t fr rest fr' s1 t1 fr1 rest1, s.threads[s.activeThread]? = some t ∧ t.stack = fr :: rest ∧
        f fr s = .ok ((a, fr'), s1) ∧ s1.threads[s1.activeThread]? = some t1 ∧ t1.stack = fr1 :: rest1 ∧
        s' = { s1 with threads := s1.threads.set s1.activeThread { t1 with stack := fr' :: rest1 } } := by
  unfold mutateCurFrame
  simp only [EM.bind_eq_ok, EM.read_eq_ok, EM.lift_eq_ok, EM.modify_eq_ok, EM.pure_eq_ok, curFrame_eq_ok,
    getActive_eq_ok, setCurFrame_eq_ok, Prod.exists]
  constructor
  · rintro ⟨fr, _, ⟨⟨t, rest, h1, h2⟩, rfl⟩, a', fr', s1, h3, t1, _, ⟨h4, rfl⟩, t2, _,
      ⟨⟨fr1, rest1, h5, rfl⟩, rfl⟩, _, _, rfl, rfl, rfl⟩
    exact ⟨t, fr, rest, fr', _, t1, fr1, rest1, h1, h2, h3, h4, h5, rfl⟩
  · rintro ⟨t, fr, rest, fr', s1, t1, fr1, rest1, h1, h2, h3, h4, h5, rfl⟩
    exact ⟨fr, _, ⟨⟨t, rest, h1, h2⟩, rfl⟩, a, fr', s1, h3, t1, _, ⟨h4, rfl⟩, _, _,
      ⟨⟨fr1, rest1, h5, rfl⟩, rfl⟩, (), _, rfl, rfl, rfl⟩

/-- `mutate_cur_frame` with a function that does not itself touch the threads. -/
theorem mutateCurFrame_ok {α : Type} {f : StackFrame P F → EM M P F (α × StackFrame P F)} {a : α}
    (hf : ∀ fr s r s1, f fr s = .ok (r, s1) → s1.threads = s.threads ∧ s1.activeThread = s.activeThread) :
    mutateCurFrame f s = .ok (a, s') ↔
      ∃ t fr rest fr' s1, s.threads[s.activeThread]? = some t ∧ t.stack = fr :: rest ∧
        f fr s = .ok ((a, fr'), s1) ∧
        s' = { s1 with threads := s.threads.set s.activeThread { t with stack := fr' :: rest } } := by
  rw [mutateCurFrame_eq_ok]
  constructor
  · rintro ⟨t, fr, rest, fr', s1, t1, fr1, rest1, h1, h2, h3, h4, h5, rfl⟩
    obtain ⟨e1, e2⟩ := hf _ _ _ _ h3
    rw [e1, e2, h1] at h4; cases h4
    rw [h2] at h5; cases h5
    exact ⟨t, fr, rest, fr', s1, h1, h2, h3, by rw [e1, e2]⟩
  · rintro ⟨t, fr, rest, fr', s1, h1, h2, h3, rfl⟩
    obtain ⟨e1, e2⟩ := hf _ _ _ _ h3
    exact ⟨t, fr, rest, fr', s1, t, fr, rest, h1, h2, h3, by rw [e1, e2]; exact h1, h2, by rw [e1, e2]⟩

/-- A failure of `mutate_cur_frame` comes from its function or is a panic. -/
theorem mutateCurFrame_err {α : Type} {f : StackFrame P F → EM M P F (α × StackFrame P F)} {e : Err}
    (h : mutateCurFrame f s = .error e) : e = .panic ∨ ∃ fr s, f fr s = .error e := by
  unfold mutateCurFrame at h
  have hcur : ∀ s : Machine M P F, ResE (· = .panic) s.curFrame := fun s => by
    unfold Machine.curFrame Machine.getActive Thread.curFrame
    exact .bind (.index rfl) fun _ => .unwrap rfl
  have hact : ∀ s : Machine M P F, ResE (· = .panic) s.getActive := fun s => .index rfl
  have hset : ∀ (t : Thread P F) fr, ResE (· = .panic) (t.setCurFrame fr) := fun t fr => by
    unfold Thread.setCurFrame; split
    · exact .panic rfl
    · exact .ok
  simp only [EM.bind_eq_error, EM.read_eq_error, EM.lift_eq_error, EM.modify_ne_error, EM.pure_apply,
    Prod.exists, reduceCtorEq, or_false, false_or, and_false, exists_false] at h
  rcases h with h | ⟨fr, _, _, h | ⟨a, fr', s1, _, h | ⟨t, _, _, h⟩⟩⟩
  · exact .inl ((hcur _).err _ h)
  · exact .inr ⟨fr, _, h⟩
  · exact .inl ((hact _).err _ h)
  · exact .inl ((hset _ _).err _ h)

/-! ### The tactic -/

/-- One step of following the structure of a computation. -/
syntax "tri_step" : tactic
macro_rules | `(tactic| tri_step) => `(tactic| soft_step)
macro_rules | `(tactic| tri_step) => `(tactic| first
  | apply Tri.bind | apply Tri.pure | apply Tri.throw | apply Tri.lift | apply Tri.read | apply Tri.ite
  | apply Tri.unwrapRes)
/-- Follow the structure of a computation to determine its effects. -/
macro "tri" : tactic => `(tactic| repeat' (with_reducible tri_step))

/-! ### Expressions -/

section
variable [hm : SoftMem M P F]

theorem soft_fnFromPtr {v} : ResE Soft (s.fnFromPtr v) := by unfold Machine.fnFromPtr; soft
macro_rules | `(tactic| soft_step) => `(tactic| apply soft_fnFromPtr)
theorem soft_vtableFromPtr {p} : ResE Soft (s.vtableFromPtr p) := by unfold Machine.vtableFromPtr; soft
macro_rules | `(tactic| soft_step) => `(tactic| apply soft_vtableFromPtr)
theorem soft_vtableLookup {p} : ResE Soft (s.vtableLookup p) := by unfold Machine.vtableLookup; soft
macro_rules | `(tactic| soft_step) => `(tactic| apply soft_vtableLookup)
theorem soft_valEnv : SoftEnv s.valEnv where
  from_ _ := soft_vtableFromPtr
  lookup _ := soft_vtableLookup
  deref p n := hm.deref _ p n
macro_rules | `(tactic| soft_step) => `(tactic| apply soft_computeSize soft_valEnv)
macro_rules | `(tactic| soft_step) => `(tactic| apply soft_computeAlign soft_valEnv)
macro_rules | `(tactic| soft_step) => `(tactic| apply soft_checkValue soft_valEnv)
macro_rules | `(tactic| soft_step) => `(tactic| apply soft_transmute soft_valEnv)
theorem soft_getActive : ResE Soft s.getActive := by unfold Machine.getActive; soft
macro_rules | `(tactic| soft_step) => `(tactic| apply soft_getActive)
theorem soft_curFrame : ResE Soft s.curFrame := by unfold Machine.curFrame Thread.curFrame; soft
macro_rules | `(tactic| soft_step) => `(tactic| apply soft_curFrame)
theorem soft_signedDereferenceable {m : ConcMem M} {p : ThinPtr P} {n : Int} :
    ResE Soft (m.signedDereferenceable p n) := by
  unfold ConcMem.signedDereferenceable Memory.signedDereferenceable; soft
  all_goals exact hm.deref _ _ _
macro_rules | `(tactic| soft_step) => `(tactic| apply soft_signedDereferenceable)
theorem soft_deref {m : ConcMem M} {p : ThinPtr P} {n : Nat} :
    ResE Soft (m.dereferenceable p n) := hm.deref _ _ _
macro_rules | `(tactic| soft_step) => `(tactic| apply soft_deref)

theorem soft_evalUnOpInt {op v} : ResE Soft (s.evalUnOpInt op v) := by unfold Machine.evalUnOpInt; soft
macro_rules | `(tactic| soft_step) => `(tactic| apply soft_evalUnOpInt)
theorem soft_evalCastOp {op v} : ResE Soft (s.evalCastOp op v) := by unfold Machine.evalCastOp; soft
macro_rules | `(tactic| soft_step) => `(tactic| apply soft_evalCastOp)
theorem soft_evalGetMetadata {v} : ResE Soft (s.evalGetMetadata v) := by
  unfold Machine.evalGetMetadata; soft
macro_rules | `(tactic| soft_step) => `(tactic| apply soft_evalGetMetadata)
theorem soft_evalVTableMethodLookup {m v} : ResE Soft (s.evalVTableMethodLookup m v) := by
  unfold Machine.evalVTableMethodLookup; soft
macro_rules | `(tactic| soft_step) => `(tactic| apply soft_evalVTableMethodLookup)
theorem soft_evalUnOp {op v} : ResE Soft (s.evalUnOp op v) := by unfold Machine.evalUnOp; soft
macro_rules | `(tactic| soft_step) => `(tactic| apply soft_evalUnOp)
theorem soft_ptrOffsetInbounds {p i} : ResE Soft (s.ptrOffsetInbounds p i) := by
  unfold Machine.ptrOffsetInbounds; soft
macro_rules | `(tactic| soft_step) => `(tactic| apply soft_ptrOffsetInbounds)
theorem soft_evalPtrOffset {i l r} : ResE Soft (s.evalPtrOffset i l r) := by
  unfold Machine.evalPtrOffset; soft
macro_rules | `(tactic| soft_step) => `(tactic| apply soft_evalPtrOffset)
theorem soft_ptrDistance {i l r} : ResE Soft (s.ptrDistance i l r) := by
  unfold Machine.ptrDistance; soft
macro_rules | `(tactic| soft_step) => `(tactic| apply soft_ptrDistance)
theorem soft_evalPtrOffsetFrom {i n l r} : ResE Soft (s.evalPtrOffsetFrom i n l r) := by
  unfold Machine.evalPtrOffsetFrom; soft
macro_rules | `(tactic| soft_step) => `(tactic| apply soft_evalPtrOffsetFrom)
theorem soft_evalConstructWidePointer {t l r} : ResE Soft (s.evalConstructWidePointer t l r) := by
  unfold Machine.evalConstructWidePointer; soft
macro_rules | `(tactic| soft_step) => `(tactic| apply soft_evalConstructWidePointer)
theorem soft_evalBinOp {op l r} : ResE Soft (s.evalBinOp op l r) := by unfold Machine.evalBinOp; soft
macro_rules | `(tactic| soft_step) => `(tactic| apply soft_evalBinOp)
theorem soft_decodeChecked {ty bs} : ResE Soft (s.decodeChecked ty bs) := by
  unfold Machine.decodeChecked; soft
  rename_i e hne he
  rcases (softN_decode _ _).err _ he with rfl | h
  · exact absurd rfl hne
  · exact h
macro_rules | `(tactic| soft_step) => `(tactic| apply soft_decodeChecked)
theorem soft_encodeChecked {ty v} : ResE Soft (s.encodeChecked ty v) := by
  unfold Machine.encodeChecked; soft
macro_rules | `(tactic| soft_step) => `(tactic| apply soft_encodeChecked)
theorem soft_evalConstant {c} : ResE Soft (s.evalConstant c) := by unfold Machine.evalConstant; soft
macro_rules | `(tactic| soft_step) => `(tactic| apply soft_evalConstant)
theorem soft_unwrapDecode {ty} {bs : List (AByte P)} : ResE Soft (unwrapDecode (decode ty bs)) := by
  unfold unwrapDecode; soft
  rename_i h
  constructor
  intro e he
  rcases (softN_decode _ _).err _ he with rfl | h'
  · exact (h he).elim
  · exact h'
macro_rules | `(tactic| soft_step) => `(tactic| apply soft_unwrapDecode)
theorem soft_unionValue {ty n o t} {v : Value P} : ResE Soft (unionValue ty n o t v) := by
  unfold unionValue; soft
macro_rules | `(tactic| soft_step) => `(tactic| apply soft_unionValue)
theorem soft_localPlace {l} : ResE Soft (s.localPlace l) := by unfold Machine.localPlace; soft
macro_rules | `(tactic| soft_step) => `(tactic| apply soft_localPlace)
theorem soft_checkSafeDeref {p t} : ResE Soft (s.checkSafeDeref p t) := by
  unfold Machine.checkSafeDeref; soft
macro_rules | `(tactic| soft_step) => `(tactic| apply soft_checkSafeDeref)
theorem soft_derefPlace {t v} : ResE Soft (s.derefPlace t v) := by unfold Machine.derefPlace; soft
macro_rules | `(tactic| soft_step) => `(tactic| apply soft_derefPlace)
theorem soft_fieldOffset {r t f} : ResE Soft (s.fieldOffset r t f) := by
  unfold Machine.fieldOffset; soft
macro_rules | `(tactic| soft_step) => `(tactic| apply soft_fieldOffset)
theorem soft_fieldPlace {f r} : ResE Soft (s.fieldPlace f r) := by unfold Machine.fieldPlace; soft
macro_rules | `(tactic| soft_step) => `(tactic| apply soft_fieldPlace)
theorem soft_indexInfo {r : Place P} {t} : ResE Soft (indexInfo r t) := by unfold indexInfo; soft
macro_rules | `(tactic| soft_step) => `(tactic| apply soft_indexInfo)
theorem soft_indexPlace {r i} : ResE Soft (s.indexPlace r i) := by unfold Machine.indexPlace; soft
macro_rules | `(tactic| soft_step) => `(tactic| apply soft_indexPlace)
theorem soft_downcastPlace {r : Place P × Ty} {d} : ResE Soft (downcastPlace r d) := by
  unfold downcastPlace; soft
macro_rules | `(tactic| soft_step) => `(tactic| apply soft_downcastPlace)

variable {Rm : ConcMem M → ConcMem M → Prop} [hR : ReadRel (P := P) (F := F) Rm]

theorem tri_memLoad {p : ThinPtr P} {n al at'} :
    Tri Soft (ExprRel Rm) (memLoad p n al at' : EM M P F _) where
  ok s b s' h := by
    rw [memLoad_eq_ok] at h
    obtain ⟨m, h, rfl⟩ := h
    exact .ofMem (hR.load _ _ _ _ _ _ _ h)
  err s e h := by
    revert h
    refine ResE.err (?_ : ResE Soft _) e
    unfold memLoad ConcMem.load
    exact .bind (.bind (hm.load _ _ _ _) fun _ => .ok) fun _ => .ok
macro_rules | `(tactic| tri_step) => `(tactic| apply tri_memLoad)

theorem tri_retagPtrM {ptr : Pointer P} {pty e} :
    Tri Soft (ExprRel Rm) (retagPtrM ptr pty e : EM M P F _) where
  ok s p' s' h := by
    unfold retagPtrM at h
    have h := (mutateCurFrame_ok (by
      intro fr s r s1 h
      simp only [Res.bind_eq_ok, Prod.exists, Except.ok.injEq, Prod.mk.injEq] at h
      obtain ⟨_, _, _, _, _, rfl⟩ := h
      exact ⟨rfl, rfl⟩)).1 h
    obtain ⟨t, fr, rest, fr', s1, h1, h2, h3, rfl⟩ := h
    simp only [Res.bind_eq_ok, Prod.exists, Except.ok.injEq, Prod.mk.injEq] at h3
    obtain ⟨q, x, m, h3, ⟨rfl, rfl⟩, rfl⟩ := h3
    exact ⟨hR.retag _ _ _ _ _ _ _ _ _ h3, rfl, .inr ⟨t, fr, _, rest, h1, h2, ⟨x, rfl⟩, rfl⟩⟩
  err s e h := by
    unfold retagPtrM at h
    rcases mutateCurFrame_err h with rfl | ⟨fr, s, h⟩
    · exact .panic
    · revert h
      refine ResE.err (?_ : ResE Soft _) e
      unfold ConcMem.retagPtr
      exact .bind (.bind (hm.retag _ _ _ _ _ _ fun _ => soft_vtableLookup) fun _ => .ok) fun _ => .ok
macro_rules | `(tactic| tri_step) => `(tactic| apply tri_retagPtrM)

theorem tri_typedLoad {p : ThinPtr P} {ty al at'} :
    Tri Soft (ExprRel Rm) (typedLoad p ty al at' : EM M P F _) := by unfold typedLoad; tri
macro_rules | `(tactic| tri_step) => `(tactic| apply tri_typedLoad)
theorem tri_placeLoad {p : Place P} {ty} :
    Tri Soft (ExprRel Rm) (placeLoad p ty : EM M P F _) := by unfold placeLoad; tri
macro_rules | `(tactic| tri_step) => `(tactic| apply tri_placeLoad)
theorem tri_addrOf {p : Place P} {pty} :
    Tri Soft (ExprRel Rm) (addrOf p pty : EM M P F _) := by unfold addrOf; tri
macro_rules | `(tactic| tri_step) => `(tactic| apply tri_addrOf)

omit [Memory M P F] in
/-- `decode_discriminant` changes the state only by its accessor. -/
theorem decodeDiscriminant_rel {S : Type} {acc : S → Nat → Nat → Res (List (AByte P) × S)}
    {R : S → S → Prop} (hrefl : ∀ s, R s s) (htrans : ∀ a b c, R a b → R b c → R a c)
    (hacc : ∀ s i n b s', acc s i n = .ok (b, s') → R s s') :
    ∀ (d : Discriminator) (s s' : S) (r), decodeDiscriminant acc d s = .ok (r, s') → R s s' := by
  refine Discriminator.rec
    (motive_1 := fun d => ∀ s s' r, decodeDiscriminant acc d s = .ok (r, s') → R s s')
    (motive_2 := fun l => ∀ v s s' r, decodeDiscriminantChildren acc l v s = some (.ok (r, s')) → R s s')
    (motive_3 := fun p => ∀ s s' r, decodeDiscriminant acc p.2 s = .ok (r, s') → R s s') ?_ ?_ ?_ ?_ ?_ ?_
  · intro d s s' r h; unfold decodeDiscriminant at h; cases h; exact hrefl _
  · intro s s' r h; unfold decodeDiscriminant at h; cases h; exact hrefl _
  · intro off vt fb ch ih1 ih2 s s' r h
    unfold decodeDiscriminant at h
    split at h
    · cases h
    · rename_i b s1 h1
      have h1 := hacc _ _ _ _ _ h1
      split at h
      · cases h; exact h1
      · cases h
      · split at h
        · rename_i h2; subst h; exact htrans _ _ _ h1 (ih2 _ _ _ _ h2)
        · exact htrans _ _ _ h1 (ih1 _ _ _ h)
  · intro v s s' r h; unfold decodeDiscriminantChildren at h; cases h
  · rintro ⟨⟨a, b⟩, d⟩ rest ih1 ih2 v s s' r h
    unfold decodeDiscriminantChildren at h
    split at h
    · exact ih1 _ _ _ (Option.some.inj h)
    · exact ih2 _ _ _ _ h
  · intro _ d ih; exact ih

/-- `decode_discriminant` with a stateful accessor. -/
theorem tri_decodeDiscriminant {E : Err → Prop} {R : Machine M P F → Machine M P F → Prop} [PreRel R]
    (hE : ∀ e, Soft e → E e) {acc : Machine M P F → Nat → Nat → Res (List (AByte P) × Machine M P F)}
    (hacc : ∀ i n, Tri Soft R (fun s => acc s i n)) {d : Discriminator} :
    Tri E R (fun s => decodeDiscriminant acc d s) where
  ok s a s' h := decodeDiscriminant_rel PreRel.refl PreRel.trans
    (fun s i n b s' h => (hacc i n).ok s b s' h) d s s' a h
  err s e h := hE _ ((softN_decodeDiscriminant (fun s i n => ⟨fun e h => (hacc i n).err s e h⟩) d s).err _ h)

/-- A read of the machine before a computation. -/
theorem Tri.readBind {α β : Type} {E : Err → Prop} {R : Machine M P F → Machine M P F → Prop}
    {f : Machine M P F → Res α} {g : α → EM M P F β} (hf : ∀ s, ResE E (f s)) (hg : ∀ a, Tri E R (g a)) :
    Tri E R (fun s => f s >>= fun a => g a s) where
  ok s b s' h := by
    simp only [Res.bind_eq_ok] at h
    obtain ⟨a, _, h⟩ := h
    exact (hg a).ok _ _ _ h
  err s e h := by
    simp only [Res.bind_eq_error] at h
    rcases h with h | ⟨a, _, h⟩
    · exact (hf s).err _ h
    · exact (hg a).err _ _ h

theorem tri_getDiscriminant {p : Place P} {ty} :
    Tri Soft (ExprRel Rm) (getDiscriminant p ty : EM M P F _) := by
  unfold getDiscriminant
  split
  · refine .ite (.throw .ub) (.bind ?_ ?_)
    · exact tri_decodeDiscriminant (fun _ h => h)
        (fun i n => .readBind (fun _ => soft_ptrOffsetInbounds) fun _ => tri_memLoad)
    · intro d; cases d
      · exact .throw .ub
      · exact .pure
  · exact .throw .panic
macro_rules | `(tactic| tri_step) => `(tactic| apply tri_getDiscriminant)

mutual
theorem tri_evalValue : ∀ (e : ValueExpr), Tri Soft (ExprRel Rm) (evalValue e : EM M P F _)
  | .constant _ _ => by unfold evalValue; tri
  | .tuple es _ => by
    unfold evalValue
    exact .bind (tri_evalValues es) fun _ => .pure
  | .union _ e ty => by
    unfold evalValue
    split
    · exact .bind (.lift soft_indexInt) fun _ => .bind (tri_evalValue e) fun _ =>
        .bind (.lift soft_unionValue) fun _ => .pure
    · exact .throw .panic
  | .variant _ e _ => by
    unfold evalValue
    exact .bind (tri_evalValue e) fun _ => .pure
  | .getDiscriminant p => by
    unfold evalValue
    exact .bind (tri_evalPlace p) fun _ => tri_getDiscriminant
  | .load p => by
    unfold evalValue
    exact .bind (tri_evalPlace p) fun _ => .bind tri_placeLoad fun _ => .pure
  | .addrOf p _ => by
    unfold evalValue
    exact .bind (tri_evalPlace p) fun _ => tri_addrOf
  | .unOp _ e => by
    unfold evalValue
    exact .bind (tri_evalValue e) fun _ => .read fun _ => soft_evalUnOp
  | .binOp _ e e' => by
    unfold evalValue
    exact .bind (tri_evalValue e) fun _ => .bind (tri_evalValue e') fun _ => .read fun _ => soft_evalBinOp
theorem tri_evalValues : ∀ (es : List ValueExpr), Tri Soft (ExprRel Rm) (evalValues es : EM M P F _)
  | [] => by unfold evalValues; exact .pure
  | e :: es => by
    unfold evalValues
    exact .bind (tri_evalValue e) fun _ => .bind (tri_evalValues es) fun _ => .pure
theorem tri_evalPlace : ∀ (e : PlaceExpr), Tri Soft (ExprRel Rm) (evalPlace e : EM M P F _)
  | .local _ => by unfold evalPlace; exact .read fun _ => soft_localPlace
  | .deref e _ => by
    unfold evalPlace
    exact .bind (tri_evalValue e) fun _ => .read fun _ => soft_derefPlace
  | .field p _ => by
    unfold evalPlace
    exact .bind (tri_evalPlace p) fun _ => .read fun _ => soft_fieldPlace
  | .index p e => by
    unfold evalPlace
    exact .bind (tri_evalPlace p) fun _ => .bind (tri_evalValue e) fun _ => .read fun _ => soft_indexPlace
  | .downcast p _ => by
    unfold evalPlace
    exact .bind (tri_evalPlace p) fun _ => .lift soft_downcastPlace
end
macro_rules | `(tactic| tri_step) => `(tactic| apply tri_evalValue)
macro_rules | `(tactic| tri_step) => `(tactic| apply tri_evalValues)
macro_rules | `(tactic| tri_step) => `(tactic| apply tri_evalPlace)
end

end MiniRust
