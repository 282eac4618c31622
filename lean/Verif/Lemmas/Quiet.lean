import Verif.Lemmas.ExprRel
/-
What statements and terminators can change. All steps except the operations on locks and threads
(`CtlOp`) only touch the memory, the output, and the stack of the active thread (`Quiet`).
-/
set_option linter.unusedSectionVars false
namespace MiniRust
variable {M P F : Type} [Memory M P F] [DecidableEq P] [T : Target] {s s' : Machine M P F}

/-- A relation on memories that holds for every operation of the memory but the allocation and deallocation of
heap memory. -/
class MemRel (Rm : ConcMem M → ConcMem M → Prop) : Prop extends ReadRel (P := P) (F := F) Rm where
  store : ∀ (m m' : ConcMem M) (p : ThinPtr P) b al at', m.store p b al at' = .ok m' → Rm m m'
  allocate : ∀ (m m' : ConcMem M) k n al pick (p : ThinPtr P), k ≠ .heap → m.allocate k n al pick = .ok (p, m') → Rm m m'
  deallocate : ∀ (m m' : ConcMem M) (p : ThinPtr P) n al, m.deallocate p .stack n al = .ok m' → Rm m m'
  endCall : ∀ (m m' : ConcMem M) f, m.endCall f = .ok m' → Rm m m'

/-- Such a relation that also holds for allocations of heap memory. -/
class AllocRel (Rm : ConcMem M → ConcMem M → Prop) : Prop extends MemRel (P := P) (F := F) Rm where
  heap : ∀ (m m' : ConcMem M) n al pick (p : ThinPtr P), m.allocate .heap n al pick = .ok (p, m') → Rm m m'

/-- Such a relation that also holds for deallocations of heap memory. -/
class FreeRel (Rm : ConcMem M → ConcMem M → Prop) : Prop extends MemRel (P := P) (F := F) Rm where
  free : ∀ (m m' : ConcMem M) (p : ThinPtr P) n al, m.deallocate p .heap n al = .ok m' → Rm m m'

/-- A relation on memories that holds for every operation of the memory. -/
class FullRel (Rm : ConcMem M → ConcMem M → Prop) : Prop extends AllocRel (P := P) (F := F) Rm, FreeRel (P := P) (F := F) Rm

/-- The relation that says nothing about the memory. -/
def AnyMem (_ _ : ConcMem M) : Prop := True

instance : FullRel (P := P) (F := F) (AnyMem (M := M)) where
  refl _ := trivial
  trans _ _ _ _ _ := trivial
  load _ _ _ _ _ _ _ _ := trivial
  retag _ _ _ _ _ _ _ _ _ _ := trivial
  store _ _ _ _ _ _ _ := trivial
  allocate _ _ _ _ _ _ _ _ _ := trivial
  heap _ _ _ _ _ _ _ := trivial
  deallocate _ _ _ _ _ _ := trivial
  endCall _ _ _ _ := trivial
  free _ _ _ _ _ _ := trivial

/-- Thread lists that differ at most in the stack and the payloads of thread `a`. -/
def OnlyActive (a : Nat) (ts ts' : List (Thread P F)) : Prop :=
  ts' = ts ∨ ∃ t t', ts[a]? = some t ∧ t'.state = t.state ∧ ts' = ts.set a t'

theorem OnlyActive.trans {a : Nat} {ts ts' ts'' : List (Thread P F)} (h1 : OnlyActive a ts ts')
    (h2 : OnlyActive a ts' ts'') : OnlyActive a ts ts'' := by
  rcases h1 with rfl | ⟨t, t', hg, hs, rfl⟩
  · exact h2
  · rcases h2 with rfl | ⟨t2, t2', hg2, hs2, rfl⟩
    · exact .inr ⟨t, t', hg, hs, rfl⟩
    · have hid := (List.getElem?_eq_some_iff.1 hg).1
      rw [List.getElem?_set_self hid] at hg2
      cases hg2
      exact .inr ⟨t, t2', hg, hs2.trans hs, by rw [List.set_set]⟩

theorem OnlyTop.onlyActive {Rf : StackFrame P F → StackFrame P F → Prop} {a : Nat}
    {ts ts' : List (Thread P F)} (h : OnlyTop Rf a ts ts') : OnlyActive a ts ts' := by
  rcases h with rfl | ⟨t, f, f', rest, hg, hs, hr, rfl⟩
  · exact .inl rfl
  · exact .inr ⟨t, { t with stack := f' :: rest }, hg, rfl, rfl⟩

/-- The effect of a step that does not operate on locks or threads: program, pointers of globals,
functions and vtables, the active thread, the locks and the synchronized threads are unchanged; no
thread changes its state; only the active thread changes its stack or payloads; the output only grows. -/
structure Quiet (Rm : ConcMem M → ConcMem M → Prop) (s s' : Machine M P F) : Prop where
  mem : Rm s.mem s'.mem
  prog : s'.prog = s.prog
  globals : s'.globalPtrs = s.globalPtrs
  fns : s'.fnPtrs = s.fnPtrs
  vtables : s'.vtablePtrs = s.vtablePtrs
  active : s'.activeThread = s.activeThread
  sync : s'.synchronizedThreads = s.synchronizedThreads
  locks : s'.locks = s.locks
  threads : OnlyActive s.activeThread s.threads s'.threads
  stdout : s.stdout <+: s'.stdout
  stderr : s.stderr <+: s'.stderr
  exposed : s.intptrcast.exposed ⊆ s'.intptrcast.exposed

section
variable {Rm : ConcMem M → ConcMem M → Prop} [h : ReadRel (P := P) (F := F) Rm]

instance : PreRel (Quiet (P := P) (F := F) Rm) where
  refl s := ⟨h.refl _, rfl, rfl, rfl, rfl, rfl, rfl, rfl, .inl rfl, List.prefix_refl _, List.prefix_refl _,
    fun _ h => h⟩
  trans s s' s'' h1 h2 :=
    { mem := h.trans _ _ _ h1.mem h2.mem
      prog := h2.prog.trans h1.prog
      globals := h2.globals.trans h1.globals
      fns := h2.fns.trans h1.fns
      vtables := h2.vtables.trans h1.vtables
      active := h2.active.trans h1.active
      sync := h2.sync.trans h1.sync
      locks := h2.locks.trans h1.locks
      threads := h1.threads.trans (h1.active ▸ h2.threads)
      stdout := h1.stdout.trans h2.stdout
      stderr := h1.stderr.trans h2.stderr
      exposed := fun _ h => h2.exposed (h1.exposed h) }

theorem Quiet.ofMem {m : ConcMem M} (h' : Rm s.mem m) : Quiet Rm s { s with mem := m } :=
  ⟨h', rfl, rfl, rfl, rfl, rfl, rfl, rfl, .inl rfl, List.prefix_refl _, List.prefix_refl _, fun _ h => h⟩

theorem Quiet.ofActive {t t' : Thread P F} (h1 : s.threads[s.activeThread]? = some t)
    (h2 : t'.state = t.state) : Quiet Rm s (s.setActive t') :=
  ⟨h.refl _, rfl, rfl, rfl, rfl, rfl, rfl, rfl, .inr ⟨t, t', h1, h2, rfl⟩, List.prefix_refl _,
    List.prefix_refl _, fun _ h => h⟩

theorem ExprRel.quiet (h : ExprRel Rm s s') : Quiet Rm s s' := by
  have h' := h.rest
  exact ⟨h.mem, by rw [h'], by rw [h'], by rw [h'], by rw [h'], by rw [h'], by rw [h'], by rw [h'],
    h.threads.onlyActive, by rw [h']; exact List.prefix_refl _, by rw [h']; exact List.prefix_refl _,
    by rw [h']; exact fun _ h => h⟩

theorem Tri.quiet {α : Type} {x : EM M P F α} (hx : Tri Soft (ExprRel Rm) x) : Tri Soft (Quiet Rm) x :=
  hx.mono (fun _ h => h) (fun _ _ h => h.quiet)
end

section
variable [hm : SoftMem M P F] {Rm : ConcMem M → ConcMem M → Prop} [hR : MemRel (P := P) (F := F) Rm]

macro_rules | `(tactic| tri_step) => `(tactic| first
  | exact Tri.quiet tri_memLoad | exact Tri.quiet tri_retagPtrM | exact Tri.quiet tri_typedLoad
  | exact Tri.quiet tri_placeLoad | exact Tri.quiet (tri_evalValue _) | exact Tri.quiet (tri_evalValues _)
  | exact Tri.quiet (tri_evalPlace _))

theorem tri_memStore {p : ThinPtr P} {b al at'} : Tri Soft (Quiet Rm) (memStore p b al at' : EM M P F _) where
  ok s u s' h := by
    unfold memStore at h
    simp only [Res.bind_eq_ok, Except.ok.injEq, Prod.mk.injEq] at h
    obtain ⟨m, h, _, rfl⟩ := h
    exact .ofMem (hR.store _ _ _ _ _ _ h)
  err s e h := by
    revert h
    refine ResE.err (?_ : ResE Soft _) e
    unfold memStore ConcMem.store
    exact .bind (.bind (hm.store _ _ _ _) fun _ => .ok) fun _ => .ok
macro_rules | `(tactic| tri_step) => `(tactic| apply tri_memStore)

theorem tri_popInt : Tri Soft (Quiet Rm) (EM.popInt : EM M P F _) where
  ok s u s' h := by
    rw [EM.popInt_eq_ok] at h
    obtain ⟨rest, _, rfl⟩ := h
    exact ⟨hR.refl _, rfl, rfl, rfl, rfl, rfl, rfl, rfl, .inl rfl, List.prefix_refl _, List.prefix_refl _,
      fun _ h => h⟩
  err s e h := by
    unfold EM.popInt at h
    split at h
    · cases h
    · cases h; exact .noBehavior
macro_rules | `(tactic| tri_step) => `(tactic| apply tri_popInt)

theorem tri_popProv : Tri Soft (Quiet Rm) (EM.popProv : EM M P F _) where
  ok s u s' h := by
    rw [EM.popProv_eq_ok] at h
    obtain ⟨rest, _, rfl⟩ := h
    exact ⟨hR.refl _, rfl, rfl, rfl, rfl, rfl, rfl, rfl, .inl rfl, List.prefix_refl _, List.prefix_refl _,
      fun _ h => h⟩
  err s e h := by
    unfold EM.popProv at h
    split at h
    · cases h
    · cases h; exact .noBehavior
macro_rules | `(tactic| tri_step) => `(tactic| apply tri_popProv)

theorem tri_memAllocate {k n al} (hk : k ≠ .heap) : Tri Soft (Quiet Rm) (memAllocate k n al : EM M P F (ThinPtr P)) := by
  unfold memAllocate
  refine .bind tri_popInt fun pick => ⟨?_, ?_⟩
  · intro s p s' h
    simp only [Res.bind_eq_ok, Except.ok.injEq, Prod.mk.injEq, Prod.exists] at h
    obtain ⟨p, m, h, rfl, rfl⟩ := h
    exact .ofMem (hR.allocate _ _ _ _ _ _ _ hk h)
  · intro s e h
    revert h
    refine ResE.err (?_ : ResE Soft _) e
    unfold ConcMem.allocate
    exact .bind (.bind (hm.allocate _ _ _ _ _) fun _ => .ok) fun _ => .ok
theorem tri_memHeap {Rm : ConcMem M → ConcMem M → Prop} [hR : AllocRel (P := P) (F := F) Rm] {k n al} :
    Tri Soft (Quiet Rm) (memAllocate k n al : EM M P F (ThinPtr P)) := by
  by_cases hk : k = .heap
  · subst hk
    unfold memAllocate
    refine .bind tri_popInt fun pick => ⟨?_, ?_⟩
    · intro s p s' h
      simp only [Res.bind_eq_ok, Except.ok.injEq, Prod.mk.injEq, Prod.exists] at h
      obtain ⟨p, m, h, rfl, rfl⟩ := h
      exact .ofMem (hR.heap _ _ _ _ _ _ h)
    · intro s e h
      revert h
      refine ResE.err (?_ : ResE Soft _) e
      unfold ConcMem.allocate
      exact .bind (.bind (hm.allocate _ _ _ _ _) fun _ => .ok) fun _ => .ok
  · exact tri_memAllocate hk
macro_rules | `(tactic| tri_step) => `(tactic| first | exact tri_memAllocate (by decide) | exact tri_memHeap)

theorem soft_memDeallocate {p : ThinPtr P} {k n al} {e} (h : memDeallocate p k n al s = .error e) : Soft e := by
  revert h
  refine ResE.err (?_ : ResE Soft _) e
  unfold memDeallocate ConcMem.deallocate
  exact .bind (.bind (hm.deallocate _ _ _ _ _) fun _ => .ok) fun _ => .ok

theorem tri_memDeallocate {p : ThinPtr P} {n al} :
    Tri Soft (Quiet Rm) (memDeallocate p .stack n al : EM M P F _) where
  ok s u s' h := by
    unfold memDeallocate at h
    simp only [Res.bind_eq_ok, Except.ok.injEq, Prod.mk.injEq] at h
    obtain ⟨m, h, _, rfl⟩ := h
    exact .ofMem (hR.deallocate _ _ _ _ _ h)
  err s e h := soft_memDeallocate h
macro_rules | `(tactic| tri_step) => `(tactic| exact tri_memDeallocate)

theorem tri_memFree {Rm : ConcMem M → ConcMem M → Prop} [hR : FreeRel (P := P) (F := F) Rm] {p : ThinPtr P} {n al} :
    Tri Soft (Quiet Rm) (memDeallocate p .heap n al : EM M P F _) where
  ok s u s' h := by
    unfold memDeallocate at h
    simp only [Res.bind_eq_ok, Except.ok.injEq, Prod.mk.injEq] at h
    obtain ⟨m, h, _, rfl⟩ := h
    exact .ofMem (hR.free _ _ _ _ _ h)
  err s e h := soft_memDeallocate h
macro_rules | `(tactic| tri_step) => `(tactic| exact tri_memFree)

theorem tri_memEndCall {f : F} : Tri Soft (Quiet Rm) (memEndCall f : EM M P F _) where
  ok s u s' h := by
    unfold memEndCall at h
    simp only [Res.bind_eq_ok, Except.ok.injEq, Prod.mk.injEq] at h
    obtain ⟨m, h, _, rfl⟩ := h
    exact .ofMem (hR.endCall _ _ _ h)
  err s e h := by
    revert h
    refine ResE.err (?_ : ResE Soft _) e
    unfold memEndCall ConcMem.endCall
    exact .bind (.bind (hm.endCall _ _) fun _ => .ok) fun _ => .ok
macro_rules | `(tactic| tri_step) => `(tactic| apply tri_memEndCall)

theorem tri_memDeinit {p : ThinPtr P} {n al} : Tri Soft (Quiet Rm) (memDeinit p n al : EM M P F _) := by
  unfold memDeinit; tri
macro_rules | `(tactic| tri_step) => `(tactic| apply tri_memDeinit)

theorem tri_setActive {g : Thread P F → Thread P F} (hg : ∀ t, (g t).state = t.state) {α : Type} {a : α} :
    Tri Soft (Quiet Rm) (do
      let t ← EM.read (·.getActive)
      EM.modify (·.setActive (g t))
      pure a : EM M P F α) where
  ok s u s' h := by
    simp only [EM.bind_eq_ok, EM.read_eq_ok, EM.modify_eq_ok, getActive_eq_ok, EM.pure_eq_ok] at h
    obtain ⟨t, _, ⟨h1, rfl⟩, _, _, rfl, _, rfl⟩ := h
    exact .ofActive h1 (hg t)
  err s e h := by
    simp only [EM.bind_eq_error, EM.read_eq_error, EM.modify_ne_error, EM.pure_apply, reduceCtorEq,
      and_false, exists_false, or_false] at h
    exact soft_getActive.err _ h

theorem tri_mutateCurFrame {α : Type} {f : StackFrame P F → EM M P F (α × StackFrame P F)}
    (hf : ∀ fr, Tri Soft (Quiet Rm) (f fr)) : Tri Soft (Quiet Rm) (mutateCurFrame f) where
  ok s a s' h := by
    rw [mutateCurFrame_eq_ok] at h
    obtain ⟨t, fr, rest, fr', s1, t1, fr1, rest1, h1, h2, h3, h4, h5, rfl⟩ := h
    exact PreRel.trans _ _ _ ((hf _).ok _ _ _ h3) (.ofActive h4 rfl)
  err s e h := by
    rcases mutateCurFrame_err h with rfl | ⟨fr, s, h⟩
    · exact .panic
    · exact (hf _).err _ _ h
macro_rules | `(tactic| tri_step) => `(tactic| apply tri_mutateCurFrame)

theorem tri_typedStore {p : ThinPtr P} {v ty al at'} :
    Tri Soft (Quiet Rm) (typedStore p v ty al at' : EM M P F _) := by unfold typedStore; tri
macro_rules | `(tactic| tri_step) => `(tactic| apply tri_typedStore)
theorem tri_placeStore {p : Place P} {v ty} :
    Tri Soft (Quiet Rm) (placeStore p v ty : EM M P F _) := by unfold placeStore; tri
macro_rules | `(tactic| tri_step) => `(tactic| apply tri_placeStore)

omit [Memory M P F] in
theorem encodeDiscriminant_rel {S : Type} {acc : S → Nat → List (AByte P) → Res S}
    {R : S → S → Prop} (hrefl : ∀ s, R s s) (htrans : ∀ a b c, R a b → R b c → R a c)
    (hacc : ∀ s i b s', acc s i b = .ok s' → R s s') (t : Tagger) :
    ∀ (s s' : S), encodeDiscriminant acc t s = .ok s' → R s s' := by
  induction t with
  | nil => intro s s' h; unfold encodeDiscriminant at h; cases h; exact hrefl _
  | cons a rest ih =>
    obtain ⟨off, vt, v⟩ := a
    intro s s' h
    unfold encodeDiscriminant at h
    simp only [Res.bind_eq_ok] at h
    obtain ⟨b, _, s1, h1, h2⟩ := h
    exact htrans _ _ _ (hacc _ _ _ _ h1) (ih _ _ h2)

theorem tri_setDiscriminant {p : Place P} {ty v} :
    Tri Soft (Quiet Rm) (setDiscriminant p ty v : EM M P F _) := by
  unfold setDiscriminant
  split
  · refine .ite (.throw .ub) ?_
    split
    · exact .throw .panic
    · rename_i tagger _
      have hacc : ∀ i b, Tri Soft (Quiet Rm) (fun s : Machine M P F => do
          let ptr ← s.ptrOffsetInbounds p.ptr.thin i
          memStore ptr b Align.one .none s) := fun i b =>
        .readBind (fun _ => soft_ptrOffsetInbounds) fun _ => tri_memStore
      constructor
      · intro s u s' h
        simp only [Res.bind_eq_ok, Except.ok.injEq, Prod.mk.injEq] at h
        obtain ⟨s1, h, _, rfl⟩ := h
        refine encodeDiscriminant_rel PreRel.refl PreRel.trans ?_ tagger _ _ h
        intro s i b s' h
        simp only [Res.bind_eq_ok, Prod.exists, Except.ok.injEq] at h
        obtain ⟨q, hq, u, s2, h2, rfl⟩ := h
        exact (hacc i b).ok s u _ (by simp only [Res.bind_eq_ok]; exact ⟨q, hq, h2⟩)
      · intro s e h
        revert h
        refine ResE.err (?_ : ResE Soft _) e
        refine .bind (soft_encodeDiscriminant (fun s i b => ?_) _ _) fun _ => .ok
        refine .bind soft_ptrOffsetInbounds fun q => .bind ⟨fun e h => tri_memStore (Rm := Rm) |>.err s e h⟩ fun _ => .ok
  · exact .throw .panic
macro_rules | `(tactic| tri_step) => `(tactic| apply tri_setDiscriminant)

mutual
theorem tri_retagVal (fe : Bool) : ∀ (v : Value P) (ty : Ty), Tri Soft (Quiet Rm) (retagVal fe v ty : EM M P F _)
  | .int _, _ => by unfold retagVal; tri
  | .bool _, _ => by unfold retagVal; tri
  | .union _, _ => by unfold retagVal; tri
  | .ptr _, ty => by cases ty <;> unfold retagVal <;> tri
  | .tuple vs, ty => by
    cases ty <;> unfold retagVal <;> tri
    all_goals exact tri_retagVals fe vs _
  | .variant _ v, ty => by
    cases ty <;> unfold retagVal <;> tri
    exact tri_retagVal fe v _
theorem tri_retagVals (fe : Bool) : ∀ (vs : List (Value P)) (tys : List Ty),
    Tri Soft (Quiet Rm) (retagVals fe vs tys : EM M P F _)
  | [], _ => by unfold retagVals; tri
  | v :: vs, tys => by
    cases tys <;> unfold retagVals <;> tri
    exacts [tri_retagVal fe v _, tri_retagVals fe vs _]
end
macro_rules | `(tactic| tri_step) => `(tactic| apply tri_retagVal)

theorem soft_localLayout {fr : StackFrame P F} {l} : ResE Soft (fr.localLayout l) := by
  unfold StackFrame.localLayout; soft
macro_rules | `(tactic| soft_step) => `(tactic| apply soft_localLayout)
theorem tri_storageDead {fr : StackFrame P F} {l} : Tri Soft (Quiet Rm) (storageDead fr l : EM M P F _) := by
  unfold storageDead; tri
macro_rules | `(tactic| tri_step) => `(tactic| apply tri_storageDead)
theorem tri_storageLive {fr : StackFrame P F} {l} : Tri Soft (Quiet Rm) (storageLive fr l : EM M P F _) := by
  unfold storageLive; tri
macro_rules | `(tactic| tri_step) => `(tactic| apply tri_storageLive)

theorem tri_evalStatement {st} : Tri Soft (Quiet Rm) (evalStatement st : EM M P F _) := by
  cases st <;> unfold evalStatement <;> tri
macro_rules | `(tactic| tri_step) => `(tactic| apply tri_evalStatement)

theorem tri_prepare {p : Place P} {ty} :
    Tri Soft (Quiet Rm) (prepareForInplacePassing p ty : EM M P F _) := by
  unfold prepareForInplacePassing; tri
macro_rules | `(tactic| tri_step) => `(tactic| apply tri_prepare)
theorem tri_evalArgument {a} : Tri Soft (Quiet Rm) (evalArgument a : EM M P F _) := by
  unfold evalArgument; tri
macro_rules | `(tactic| tri_step) => `(tactic| apply tri_evalArgument)
theorem tri_evalArguments {as} : Tri Soft (Quiet Rm) (evalArguments as : EM M P F _) := by
  induction as <;> unfold evalArguments <;> tri
macro_rules | `(tactic| tri_step) => `(tactic| apply tri_evalArguments)
theorem tri_storageLives {ls} {fr : StackFrame P F} : Tri Soft (Quiet Rm) (storageLives fr ls : EM M P F _) := by
  induction ls generalizing fr <;> unfold storageLives <;> tri
  rename_i ih _; exact ih
macro_rules | `(tactic| tri_step) => `(tactic| apply tri_storageLives)
theorem tri_passArguments {fr : StackFrame P F} {ls args} :
    Tri Soft (Quiet Rm) (passArguments fr ls args : EM M P F _) := by
  induction ls generalizing args with
  | nil => unfold passArguments; tri
  | cons l ls ih => cases args <;> unfold passArguments <;> tri; exact ih
macro_rules | `(tactic| tri_step) => `(tactic| apply tri_passArguments)
theorem tri_createFrame {f a c t as} :
    Tri Soft (Quiet Rm) (createFrame f a c t as : EM M P F (StackFrame P F)) := by unfold createFrame; tri
macro_rules | `(tactic| tri_step) => `(tactic| apply tri_createFrame)
theorem tri_pushFrame {fr : StackFrame P F} : Tri Soft (Quiet Rm) (pushFrame fr : EM M P F _) :=
  tri_setActive (g := fun t => { t with stack := fr :: t.stack }) (fun _ => rfl) (a := ())
macro_rules | `(tactic| tri_step) => `(tactic| apply tri_pushFrame)

theorem popFrame_eq_ok {fr : StackFrame P F} :
    popFrame s = .ok (fr, s') ↔ ∃ t rest, s.threads[s.activeThread]? = some t ∧ t.stack = fr :: rest ∧
      s' = s.setActive { t with stack := rest } := by
  unfold popFrame
  simp only [EM.bind_eq_ok, EM.read_eq_ok, getActive_eq_ok]
  constructor
  · rintro ⟨t, _, ⟨h1, rfl⟩, h⟩
    cases hs : t.stack with
    | nil => rw [hs] at h; cases h
    | cons f rest =>
      rw [hs] at h
      simp only [EM.bind_eq_ok, EM.modify_eq_ok, EM.pure_eq_ok] at h
      obtain ⟨_, _, rfl, rfl, rfl⟩ := h
      exact ⟨t, rest, h1, hs, rfl⟩
  · rintro ⟨t, rest, h1, h2, rfl⟩
    refine ⟨t, s, ⟨h1, rfl⟩, ?_⟩
    rw [h2]
    rfl

theorem tri_popFrame : Tri Soft (Quiet Rm) (popFrame : EM M P F (StackFrame P F)) where
  ok s fr s' h := by
    rw [popFrame_eq_ok] at h
    obtain ⟨t, rest, h1, h2, rfl⟩ := h
    exact .ofActive h1 rfl
  err s e h := by
    unfold popFrame at h
    rw [EM.bind_eq_error] at h
    rcases h with h | ⟨t, s1, _, h⟩
    · rw [EM.read_eq_error] at h; exact soft_getActive.err _ h
    · cases hs : t.stack with
      | nil => rw [hs] at h; cases h; exact .panic
      | cons f rest => rw [hs] at h; simp [EM.bind_eq_error] at h
macro_rules | `(tactic| tri_step) => `(tactic| apply tri_popFrame)

theorem tri_jumpToBlock {b} : Tri Soft (Quiet Rm) (jumpToBlock b : EM M P F _) := by
  unfold jumpToBlock; tri
macro_rules | `(tactic| tri_step) => `(tactic| apply tri_jumpToBlock)
theorem tri_jumpOrUb {b} : Tri Soft (Quiet Rm) (jumpOrUb b : EM M P F _) := by
  unfold jumpOrUb; tri
macro_rules | `(tactic| tri_step) => `(tactic| apply tri_jumpOrUb)
theorem tri_evalCall {f c as p t n u} : Tri Soft (Quiet Rm) (evalCall f c as p t n u : EM M P F _) := by
  unfold evalCall; tri
macro_rules | `(tactic| tri_step) => `(tactic| apply tri_evalCall)
theorem tri_storageDeadAll {n} {fr : StackFrame P F} :
    Tri Soft (Quiet Rm) (storageDeadAll n fr : EM M P F _) := by
  induction n generalizing fr <;> unfold storageDeadAll <;> tri
  rename_i ih _ _ _ _ _ _; exact ih
macro_rules | `(tactic| tri_step) => `(tactic| apply tri_storageDeadAll)
theorem tri_evalResumeUnwind : Tri Soft (Quiet Rm) (evalResumeUnwind : EM M P F _) := by
  unfold evalResumeUnwind; tri
macro_rules | `(tactic| tri_step) => `(tactic| apply tri_evalResumeUnwind)

theorem soft_switchTarget {c f} {v : Value P} : ResE Soft (switchTarget c f v) := by
  unfold switchTarget; soft
macro_rules | `(tactic| soft_step) => `(tactic| apply soft_switchTarget)
theorem soft_unwindPayload {v : Value P × Ty} : ResE Soft (unwindPayload v) := by
  unfold unwindPayload; soft
macro_rules | `(tactic| soft_step) => `(tactic| apply soft_unwindPayload)
theorem tri_pushPayload {p : ThinPtr P} : Tri Soft (Quiet Rm) (pushPayload p : EM M P F _) :=
  tri_setActive (g := fun t => { t with unwindPayloads := p :: t.unwindPayloads }) (fun _ => rfl) (a := ())
macro_rules | `(tactic| tri_step) => `(tactic| apply tri_pushPayload)

theorem popPayload_eq_ok {u : Unit} :
    popPayload s = .ok (u, s') ↔ ∃ t p rest, s.threads[s.activeThread]? = some t ∧
      t.unwindPayloads = p :: rest ∧ s' = s.setActive { t with unwindPayloads := rest } := by
  unfold popPayload
  simp only [EM.bind_eq_ok, EM.read_eq_ok, getActive_eq_ok]
  constructor
  · rintro ⟨t, _, ⟨h1, rfl⟩, h⟩
    cases hs : t.unwindPayloads with
    | nil => rw [hs] at h; cases h
    | cons f rest =>
      rw [hs] at h
      simp only [EM.modify_eq_ok] at h
      exact ⟨t, f, rest, h1, hs, h⟩
  · rintro ⟨t, p, rest, h1, h2, rfl⟩
    refine ⟨t, s, ⟨h1, rfl⟩, ?_⟩
    rw [h2]
    rfl

theorem tri_popPayload : Tri Soft (Quiet Rm) (popPayload : EM M P F _) where
  ok s u s' h := by
    rw [popPayload_eq_ok] at h
    obtain ⟨t, p, rest, h1, h2, rfl⟩ := h
    exact .ofActive h1 rfl
  err s e h := by
    unfold popPayload at h
    rw [EM.bind_eq_error] at h
    rcases h with h | ⟨t, s1, _, h⟩
    · rw [EM.read_eq_error] at h; exact soft_getActive.err _ h
    · cases hs : t.unwindPayloads with
      | nil => rw [hs] at h; cases h; exact .ub
      | cons f rest => rw [hs] at h; simp at h
macro_rules | `(tactic| tri_step) => `(tactic| apply tri_popPayload)

theorem tri_bumpStmt : Tri Soft (Quiet Rm) (bumpStmt : EM M P F _) := by unfold bumpStmt; tri
macro_rules | `(tactic| tri_step) => `(tactic| apply tri_bumpStmt)
end

end MiniRust
