import Verif.Lemmas.Slots
/-
Computations that leave the storage of locals and the control state of all threads alone.
-/
set_option linter.unusedSectionVars false
namespace MiniRust
section
variable {M PE AE F : Type} [T : Target] [DecidableEq PE] [Memory M (AllocId × PE) F] [B : BasicBacked M PE AE F]
variable {s s' : Machine M (AllocId × PE) F}

/-- Stacks that differ at most in the extra state of the top frame. -/
def TopExtra {P F : Type} (st st' : List (StackFrame P F)) : Prop :=
  st' = st ∨ ∃ f f' rest, st = f :: rest ∧ st' = f' :: rest ∧ FrameExtra f f'

theorem TopExtra.trans {P F : Type} {a b c : List (StackFrame P F)} (h : TopExtra a b) (h' : TopExtra b c) : TopExtra a c := by
  rcases h with rfl | ⟨f, f', rest, rfl, rfl, hf⟩
  · exact h'
  · rcases h' with rfl | ⟨g, g', rest', e, rfl, hg⟩
    · exact .inr ⟨f, f', rest, rfl, rfl, hf⟩
    · cases e; exact .inr ⟨f, g', rest, rfl, rfl, hf.trans hg⟩

/-- Thread `t'` is where `t` is; only a thread other than `t` or the scheduler can have changed its state. -/
structure ThreadSteady {P F : Type} (act : Prop) (t t' : Thread P F) : Prop where
  payloads : t'.unwindPayloads = t.unwindPayloads
  live : t'.state = .terminated → t.state = .terminated
  dead : ¬ act → t.state = .terminated → t'.state = .terminated
  top : TopExtra t.stack t'.stack
  other : ¬ act → t'.stack = t.stack

theorem ThreadSteady.refl {P F : Type} {act : Prop} {t : Thread P F} : ThreadSteady act t t :=
  ⟨rfl, id, fun _ h => h, .inl rfl, fun _ => rfl⟩

theorem ThreadSteady.trans {P F : Type} {act : Prop} {a b c : Thread P F} (h : ThreadSteady act a b)
    (h' : ThreadSteady act b c) : ThreadSteady act a c :=
  ⟨h'.payloads.trans h.payloads, fun e => h.live (h'.live e), fun n e => h'.dead n (h.dead n e), h.top.trans h'.top,
    fun n => (h'.other n).trans (h.other n)⟩

/-- Storage of locals, program and control state are unchanged; other threads at most change between
enabled and blocked. -/
structure Steady (s s' : Machine M (AllocId × PE) F) : Prop where
  mem : StackKept (B := B) s.mem s'.mem
  prog : s'.prog = s.prog
  fns : s'.fnPtrs = s.fnPtrs
  active : s'.activeThread = s.activeThread
  length : s'.threads.length = s.threads.length
  threads : ∀ (i : Nat) t t', s.threads[i]? = some t → s'.threads[i]? = some t' → ThreadSteady (i = s.activeThread) t t'

instance : PreRel (Steady (M := M) (F := F) (B := B)) where
  refl s := ⟨.refl, rfl, rfl, rfl, rfl, fun i t t' h h' => by rw [h] at h'; cases h'; exact .refl⟩
  trans s s' s'' h h' := by
    refine ⟨h.mem.trans h'.mem, h'.prog.trans h.prog, h'.fns.trans h.fns, h'.active.trans h.active,
      h'.length.trans h.length, fun i t t'' e e'' => ?_⟩
    have hlt : i < s'.threads.length := by rw [h.length]; exact (List.getElem?_eq_some_iff.1 e).1
    have e' := List.getElem?_eq_getElem hlt
    refine (h.threads i t _ e e').trans ?_
    rw [← h.active]
    exact h'.threads i _ t'' e' e''

theorem Steady.ofMem {m : ConcMem M} (h : StackKept (B := B) s.mem m) : Steady (B := B) s { s with mem := m } :=
  ⟨h, rfl, rfl, rfl, rfl, fun i t t' h h' => by rw [h] at h'; cases h'; exact .refl⟩

theorem Steady.ofThreads {s' : Machine M (AllocId × PE) F} (hm : s'.mem = s.mem) (hp : s'.prog = s.prog) (hf : s'.fnPtrs = s.fnPtrs)
    (ha : s'.activeThread = s.activeThread) (ht : s'.threads = s.threads) : Steady (B := B) s s' :=
  ⟨hm ▸ .refl, hp, hf, ha, by rw [ht], fun i t t' h h' => by rw [ht, h] at h'; cases h'; exact .refl⟩

theorem Steady.ofSet {i : Nat} {t t' : Thread (AllocId × PE) F} (h : s.threads[i]? = some t)
    (ht : ThreadSteady (i = s.activeThread) t t') : Steady (B := B) s { s with threads := s.threads.set i t' } := by
  refine ⟨.refl, rfl, rfl, rfl, by simp, fun j u u' hu hu' => ?_⟩
  by_cases hj : i = j
  · subst hj
    have hlt := (List.getElem?_eq_some_iff.1 h).1
    rw [h] at hu; cases hu
    simp only [List.getElem?_set_self hlt, Option.some.injEq] at hu'
    subst hu'; exact ht
  · simp only [List.getElem?_set_ne hj] at hu'
    rw [hu] at hu'; cases hu'; exact .refl

theorem ExprRel.steady (h : ExprRel (StackKept (B := B)) s s') : Steady (B := B) s s' := by
  refine ⟨h.mem, by rw [h.rest], by rw [h.rest], h.active, h.threads.length, fun j u u' hu hu' => ?_⟩
  rcases h.threads with e | ⟨t, f, f', rest, hg, hs, hr, e⟩
  · rw [e, hu] at hu'; cases hu'; exact .refl
  · rw [e] at hu'
    by_cases hj : s.activeThread = j
    · subst hj
      have hlt := (List.getElem?_eq_some_iff.1 hg).1
      rw [hg] at hu; cases hu
      simp only [List.getElem?_set_self hlt, Option.some.injEq] at hu'
      subst hu'
      exact ⟨rfl, id, fun n => (n rfl).elim, .inr ⟨f, f', rest, hs, rfl, hr⟩, fun n => (n rfl).elim⟩
    · rw [List.getElem?_set_ne hj, hu] at hu'; cases hu'; exact .refl

theorem Tri.steady {α : Type} {x : EM M (AllocId × PE) F α} (hx : Tri Soft (ExprRel (StackKept (B := B))) x) :
    Tri Soft (Steady (B := B)) x := hx.mono (fun _ h => h) fun _ _ h => h.steady

end

section
variable {M PE AE F : Type} [T : Target] [DecidableEq PE] [Memory M (AllocId × PE) F] [hm : SoftMem M (AllocId × PE) F]
  [B : BasicBacked M PE AE F]

macro_rules | `(tactic| tri_step) => `(tactic| first
  | exact Tri.steady tri_memLoad | exact Tri.steady tri_retagPtrM | exact Tri.steady tri_typedLoad
  | exact Tri.steady tri_placeLoad | exact Tri.steady (tri_evalValue _) | exact Tri.steady (tri_evalValues _)
  | exact Tri.steady (tri_evalPlace _))

theorem st_memStore {p : ThinPtr (AllocId × PE)} {b al at'} :
    Tri Soft (Steady (B := B)) (memStore p b al at' : EM M (AllocId × PE) F _) where
  ok s u s' h := by
    unfold memStore at h
    simp only [Res.bind_eq_ok, Except.ok.injEq, Prod.mk.injEq] at h
    obtain ⟨m, h, _, rfl⟩ := h
    exact .ofMem (.store h)
  err s e h := (tri_memStore (Rm := AnyMem)).err s e h
macro_rules | `(tactic| tri_step) => `(tactic| apply st_memStore)

theorem st_popInt : Tri Soft (Steady (B := B)) (EM.popInt : EM M (AllocId × PE) F _) where
  ok s u s' h := by
    rw [EM.popInt_eq_ok] at h
    obtain ⟨rest, _, rfl⟩ := h
    exact .ofThreads rfl rfl rfl rfl rfl
  err s e h := (tri_popInt (Rm := AnyMem)).err s e h
macro_rules | `(tactic| tri_step) => `(tactic| apply st_popInt)

theorem st_popProv : Tri Soft (Steady (B := B)) (EM.popProv : EM M (AllocId × PE) F _) where
  ok s u s' h := by
    rw [EM.popProv_eq_ok] at h
    obtain ⟨rest, _, rfl⟩ := h
    exact .ofThreads rfl rfl rfl rfl rfl
  err s e h := (tri_popProv (Rm := AnyMem)).err s e h
macro_rules | `(tactic| tri_step) => `(tactic| apply st_popProv)

theorem st_memAllocate {n al} : Tri Soft (Steady (B := B)) (memAllocate .heap n al : EM M (AllocId × PE) F _) where
  ok s u s' h := by
    obtain ⟨m, o, ae, rfl, _, e⟩ := memAllocate_allocs (B := B) h
    exact PreRel.trans _ _ _ (Steady.ofMem (.allocate (by simp) e)) (Steady.ofThreads rfl rfl rfl rfl rfl)
  err s e h := (tri_memHeap (Rm := AnyMem)).err s e h
macro_rules | `(tactic| tri_step) => `(tactic| apply st_memAllocate)

theorem st_memDeallocate {p : ThinPtr (AllocId × PE)} {n al} :
    Tri Soft (Steady (B := B)) (memDeallocate p .heap n al : EM M (AllocId × PE) F _) where
  ok s u s' h := by
    obtain ⟨m, id, x, ae, rfl, _, hx, hk, e⟩ := memDeallocate_allocs (B := B) h
    exact Steady.ofMem (.dealloc hx (by rw [hk]; decide) rfl e)
  err s e h := soft_memDeallocate h
macro_rules | `(tactic| tri_step) => `(tactic| apply st_memDeallocate)

theorem st_memEndCall {f : F} : Tri Soft (Steady (B := B)) (memEndCall f : EM M (AllocId × PE) F _) where
  ok s u s' h := by
    unfold memEndCall at h
    simp only [Res.bind_eq_ok, Except.ok.injEq, Prod.mk.injEq] at h
    obtain ⟨m, h, _, rfl⟩ := h
    simp only [ConcMem.endCall, Res.bind_eq_ok, Except.ok.injEq] at h
    obtain ⟨mm, hl, rfl⟩ := h
    exact .ofMem (.ofSame (B.endCall _ _ _ hl))
  err s e h := (tri_memEndCall (Rm := AnyMem)).err s e h
macro_rules | `(tactic| tri_step) => `(tactic| apply st_memEndCall)

theorem st_memDeinit {p : ThinPtr (AllocId × PE)} {n al} :
    Tri Soft (Steady (B := B)) (memDeinit p n al : EM M (AllocId × PE) F _) := by unfold memDeinit; tri
macro_rules | `(tactic| tri_step) => `(tactic| apply st_memDeinit)
theorem st_typedStore {p : ThinPtr (AllocId × PE)} {v ty al at'} :
    Tri Soft (Steady (B := B)) (typedStore p v ty al at' : EM M (AllocId × PE) F _) := by unfold typedStore; tri
macro_rules | `(tactic| tri_step) => `(tactic| apply st_typedStore)
theorem st_placeStore {p : Place (AllocId × PE)} {v ty} :
    Tri Soft (Steady (B := B)) (placeStore p v ty : EM M (AllocId × PE) F _) := by unfold placeStore; tri
macro_rules | `(tactic| tri_step) => `(tactic| apply st_placeStore)

theorem st_setDiscriminant {p : Place (AllocId × PE)} {ty v} :
    Tri Soft (Steady (B := B)) (setDiscriminant p ty v : EM M (AllocId × PE) F _) where
  ok s u s' h := by
    cases ty with
    | enum vs dt d sz al =>
      unfold setDiscriminant at h
      dsimp only at h
      by_cases hal : (!p.aligned) = true
      · rw [if_pos hal] at h; cases h
      · rw [if_neg hal] at h
        cases hv : Map.get? vs v with
        | none => rw [hv] at h; cases h
        | some e =>
          obtain ⟨vty, tagger⟩ := e
          rw [hv] at h
          simp only [Res.bind_eq_ok, Except.ok.injEq, Prod.mk.injEq] at h
          obtain ⟨s1, h, _, rfl⟩ := h
          refine encodeDiscriminant_rel PreRel.refl PreRel.trans ?_ tagger _ _ h
          intro s i b s' h
          simp only [Res.bind_eq_ok, Prod.exists, Except.ok.injEq] at h
          obtain ⟨q, hq, u, s2, h2, rfl⟩ := h
          exact st_memStore.ok s u _ h2
    | _ => cases h
  err s e h := (tri_setDiscriminant (Rm := AnyMem)).err s e h
macro_rules | `(tactic| tri_step) => `(tactic| apply st_setDiscriminant)

mutual
theorem st_retagVal (fe : Bool) : ∀ (v : Value (AllocId × PE)) (ty : Ty),
    Tri Soft (Steady (B := B)) (retagVal fe v ty : EM M (AllocId × PE) F _)
  | .int _, _ => by unfold retagVal; tri
  | .bool _, _ => by unfold retagVal; tri
  | .union _, _ => by unfold retagVal; tri
  | .ptr _, ty => by cases ty <;> unfold retagVal <;> tri
  | .tuple vs, ty => by
    cases ty <;> unfold retagVal <;> tri
    all_goals exact st_retagVals fe vs _
  | .variant _ v, ty => by
    cases ty <;> unfold retagVal <;> tri
    exact st_retagVal fe v _
theorem st_retagVals (fe : Bool) : ∀ (vs : List (Value (AllocId × PE))) (tys : List Ty),
    Tri Soft (Steady (B := B)) (retagVals fe vs tys : EM M (AllocId × PE) F _)
  | [], _ => by unfold retagVals; tri
  | v :: vs, tys => by
    cases tys <;> unfold retagVals <;> tri
    exacts [st_retagVal fe v _, st_retagVals fe vs _]
end
macro_rules | `(tactic| tri_step) => `(tactic| apply st_retagVal)

/-- The statements that allocate or free the storage of a local. -/
def Statement.isStorage : Statement → Bool
  | .storageLive _ => true
  | .storageDead _ => true
  | _ => false

theorem st_evalStatement {st : Statement} (h : st.isStorage = false) :
    Tri Soft (Steady (B := B)) (evalStatement st : EM M (AllocId × PE) F _) := by
  cases st with
  | storageLive l => simp [Statement.isStorage] at h
  | storageDead l => simp [Statement.isStorage] at h
  | _ => unfold evalStatement; tri

theorem st_prepare {p : Place (AllocId × PE)} {ty} :
    Tri Soft (Steady (B := B)) (prepareForInplacePassing p ty : EM M (AllocId × PE) F _) := by
  unfold prepareForInplacePassing; tri
macro_rules | `(tactic| tri_step) => `(tactic| apply st_prepare)
theorem st_evalArgument {a} : Tri Soft (Steady (B := B)) (evalArgument a : EM M (AllocId × PE) F _) := by
  unfold evalArgument; tri
macro_rules | `(tactic| tri_step) => `(tactic| apply st_evalArgument)
theorem st_evalArguments {as} : Tri Soft (Steady (B := B)) (evalArguments as : EM M (AllocId × PE) F _) := by
  induction as <;> unfold evalArguments <;> tri
macro_rules | `(tactic| tri_step) => `(tactic| apply st_evalArguments)

/-! ### Locks and joining -/

theorem st_block {t : Thread (AllocId × PE) F} {s : Machine M (AllocId × PE) F} {st : ThreadState} (hst : st ≠ .terminated)
    (h : s.threads[s.activeThread]? = some t) :
    Steady (B := B) s { s with threads := s.threads.set s.activeThread (t.withState st) } :=
  .ofSet h ⟨rfl, fun e => absurd e hst, fun n => (n rfl).elim, .inl rfl, fun n => (n rfl).elim⟩

theorem st_lockAcquire {l : Int} : Tri Soft (Steady (B := B)) (lockAcquire l : EM M (AllocId × PE) F _) where
  ok s u s' h := by
    rw [lockAcquire_eq_ok] at h
    rcases h with ⟨h0, ⟨h1, rfl⟩ | ⟨o, t, h1, h2, rfl⟩⟩
    · exact .ofThreads rfl rfl rfl rfl rfl
    · exact st_block (by simp) h2
  err s e h := (tri_lockAcquire (Rm := AnyMem) (K := fun _ => True) trivial).err s e h
macro_rules | `(tactic| tri_step) => `(tactic| apply st_lockAcquire)

theorem st_lockRelease {l : Int} : Tri Soft (Steady (B := B)) (lockRelease l : EM M (AllocId × PE) F _) where
  ok s u s' h := by
    rw [lockRelease_eq_ok] at h
    rcases h with ⟨h0, hl, ⟨h1, rfl⟩ | ⟨a, t, rest, h1, h2, h3, h4, rfl⟩⟩
    · exact .ofThreads rfl rfl rfl rfl rfl
    · refine PreRel.trans _ _ _ (Steady.ofSet h3 (t' := t.withState .enabled) ⟨rfl, (fun e => by cases e), (fun _ e => ?_), .inl rfl, fun _ => rfl⟩)
        (Steady.ofThreads rfl rfl rfl rfl rfl)
      rw [h4] at e; cases e
  err s e h := (tri_lockRelease (Rm := AnyMem) (K := fun _ => True) trivial).err s e h
macro_rules | `(tactic| tri_step) => `(tactic| apply st_lockRelease)

theorem st_lockCreate : Tri Soft (Steady (B := B)) (lockCreate : EM M (AllocId × PE) F _) where
  ok s u s' h := by cases h; exact .ofThreads rfl rfl rfl rfl rfl
  err s e h := by cases h
macro_rules | `(tactic| tri_step) => `(tactic| apply st_lockCreate)

theorem st_join {j : Int} : Tri Soft (Steady (B := B)) (join j : EM M (AllocId × PE) F _) where
  ok s u s' h := by
    rw [join_eq_ok] at h
    rcases h with ⟨h0, tj, h1, ⟨h2, rfl⟩ | ⟨h2, t, h3, rfl⟩⟩
    · exact PreRel.refl _
    · exact st_block (by simp) h3
  err s e h := (tri_join (Rm := AnyMem) (K := fun _ => True) trivial).err s e h
macro_rules | `(tactic| tri_step) => `(tactic| apply st_join)

/-! ### Intrinsics -/

theorem st_requireUb {b} : Tri Soft (Steady (B := B)) (requireUb b : EM M (AllocId × PE) F _) := by unfold requireUb; tri
macro_rules | `(tactic| tri_step) => `(tactic| apply st_requireUb)
theorem st_loadRawData {p : Pointer (AllocId × PE)} {t} : Tri Soft (Steady (B := B)) (loadRawData p t : EM M (AllocId × PE) F _) := by
  unfold loadRawData; tri
macro_rules | `(tactic| tri_step) => `(tactic| apply st_loadRawData)
theorem st_storeIf {b p v ty al} : Tri Soft (Steady (B := B)) (storeIf b p v ty al : EM M (AllocId × PE) F _) := by
  unfold storeIf; tri
macro_rules | `(tactic| tri_step) => `(tactic| apply st_storeIf)
theorem st_modify {f : Machine M (AllocId × PE) F → Machine M (AllocId × PE) F}
    (h : ∀ s, (f s).mem = s.mem ∧ (f s).prog = s.prog ∧ (f s).fnPtrs = s.fnPtrs ∧ (f s).activeThread = s.activeThread ∧ (f s).threads = s.threads) :
    Tri Soft (Steady (B := B)) (EM.modify f) :=
  .modify fun s => .ofThreads (h s).1 (h s).2.1 (h s).2.2.1 (h s).2.2.2.1 (h s).2.2.2.2

theorem st_intrinsicAssume {as t} : Tri Soft (Steady (B := B)) (intrinsicAssume as t : EM M (AllocId × PE) F _) := by
  unfold intrinsicAssume; tri
theorem st_intrinsicPrintStdout {as t} : Tri Soft (Steady (B := B)) (intrinsicPrintStdout as t : EM M (AllocId × PE) F _) := by
  unfold intrinsicPrintStdout; tri; exact st_modify fun _ => ⟨rfl, rfl, rfl, rfl, rfl⟩
theorem st_intrinsicPrintStderr {as t} : Tri Soft (Steady (B := B)) (intrinsicPrintStderr as t : EM M (AllocId × PE) F _) := by
  unfold intrinsicPrintStderr; tri; exact st_modify fun _ => ⟨rfl, rfl, rfl, rfl, rfl⟩
theorem st_intrinsicAllocate {as t} : Tri Soft (Steady (B := B)) (intrinsicAllocate as t : EM M (AllocId × PE) F _) := by
  unfold intrinsicAllocate; tri
theorem st_intrinsicDeallocate {as t} : Tri Soft (Steady (B := B)) (intrinsicDeallocate as t : EM M (AllocId × PE) F _) := by
  unfold intrinsicDeallocate; tri
theorem st_intrinsicJoin {as t} : Tri Soft (Steady (B := B)) (intrinsicJoin as t : EM M (AllocId × PE) F _) := by
  unfold intrinsicJoin; tri
theorem st_intrinsicRawEq {as t} : Tri Soft (Steady (B := B)) (intrinsicRawEq as t : EM M (AllocId × PE) F _) := by
  unfold intrinsicRawEq; tri
theorem st_intrinsicAtomicStore {as t} : Tri Soft (Steady (B := B)) (intrinsicAtomicStore as t : EM M (AllocId × PE) F _) := by
  unfold intrinsicAtomicStore; tri
theorem st_intrinsicAtomicLoad {as t} : Tri Soft (Steady (B := B)) (intrinsicAtomicLoad as t : EM M (AllocId × PE) F _) := by
  unfold intrinsicAtomicLoad; tri
theorem st_intrinsicCompareExchange {as t} : Tri Soft (Steady (B := B)) (intrinsicCompareExchange as t : EM M (AllocId × PE) F _) := by
  unfold intrinsicCompareExchange; tri
theorem st_intrinsicFetchAndOp {op as t} : Tri Soft (Steady (B := B)) (intrinsicFetchAndOp op as t : EM M (AllocId × PE) F _) := by
  unfold intrinsicFetchAndOp; tri
theorem st_intrinsicExpose {as t} : Tri Soft (Steady (B := B)) (intrinsicExpose as t : EM M (AllocId × PE) F _) := by
  unfold intrinsicExpose; tri; exact st_modify fun _ => ⟨rfl, rfl, rfl, rfl, rfl⟩
theorem st_intrinsicWithExposed {as t} : Tri Soft (Steady (B := B)) (intrinsicWithExposed as t : EM M (AllocId × PE) F _) := by
  unfold intrinsicWithExposed; tri
theorem st_intrinsicGetUnwindPayload {as t} : Tri Soft (Steady (B := B)) (intrinsicGetUnwindPayload as t : EM M (AllocId × PE) F _) := by
  unfold intrinsicGetUnwindPayload; tri
theorem st_intrinsicLock {op as t} : Tri Soft (Steady (B := B)) (intrinsicLock op as t : EM M (AllocId × PE) F _) := by
  unfold intrinsicLock; tri

/-- Every intrinsic but `Spawn` (and the two that end the execution). -/
theorem st_evalIntrinsic {op} (h1 : op ≠ .abort) (h2 : op ≠ .exit) (h3 : op ≠ .spawn) {as t} :
    Tri Soft (Steady (B := B)) (evalIntrinsic op as t : EM M (AllocId × PE) F _) := by
  unfold evalIntrinsic
  cases op with
  | abort => exact (h1 rfl).elim
  | exit => exact (h2 rfl).elim
  | spawn => exact (h3 rfl).elim
  | lock op => exact st_intrinsicLock
  | assume => exact st_intrinsicAssume
  | printStdout => exact st_intrinsicPrintStdout
  | printStderr => exact st_intrinsicPrintStderr
  | allocate => exact st_intrinsicAllocate
  | deallocate => exact st_intrinsicDeallocate
  | join => exact st_intrinsicJoin
  | rawEq => exact st_intrinsicRawEq
  | atomicStore => exact st_intrinsicAtomicStore
  | atomicLoad => exact st_intrinsicAtomicLoad
  | atomicCompareExchange => exact st_intrinsicCompareExchange
  | atomicFetchAndOp op => exact st_intrinsicFetchAndOp
  | pointerExposeProvenance => exact st_intrinsicExpose
  | pointerWithExposedProvenance => exact st_intrinsicWithExposed
  | getUnwindPayload => exact st_intrinsicGetUnwindPayload

end
end MiniRust
