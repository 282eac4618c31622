import Verif.Lemmas.Threads3
/-
Computations that print nothing and expose nothing: all but the two printing intrinsics and `PointerExposeProvenance`.
-/
set_option linter.unusedSectionVars false
namespace MiniRust
section
variable {M P F : Type} [T : Target] [DecidableEq P] [Memory M P F]
variable {s s' : Machine M P F}

/-- Nothing was printed and no provenance was exposed. -/
structure Mute (s s' : Machine M P F) : Prop where
  stdout : s'.stdout = s.stdout
  stderr : s'.stderr = s.stderr
  exposed : s'.intptrcast = s.intptrcast

instance : PreRel (Mute (M := M) (P := P) (F := F)) where
  refl s := ⟨rfl, rfl, rfl⟩
  trans s s' s'' h h' := ⟨h'.stdout.trans h.stdout, h'.stderr.trans h.stderr, h'.exposed.trans h.exposed⟩

theorem ExprRel.mute {Rm : ConcMem M → ConcMem M → Prop} (h : ExprRel Rm s s') : Mute s s' := by
  have h' := h.rest
  exact ⟨by rw [h'], by rw [h'], by rw [h']⟩

theorem Tri.mute {α : Type} {x : EM M P F α} (hx : Tri Soft (ExprRel AnyMem) x) : Tri Soft Mute x :=
  hx.mono (fun _ h => h) fun _ _ h => h.mute
end

section
variable {M P F : Type} [T : Target] [DecidableEq P] [Memory M P F] [hm : SoftMem M P F]

macro_rules | `(tactic| tri_step) => `(tactic| first
  | exact Tri.mute tri_memLoad | exact Tri.mute tri_retagPtrM | exact Tri.mute tri_typedLoad
  | exact Tri.mute tri_placeLoad | exact Tri.mute (tri_evalValue _) | exact Tri.mute (tri_evalValues _)
  | exact Tri.mute (tri_evalPlace _))

theorem mu_memStore {p : ThinPtr P} {b al at'} : Tri Soft Mute (memStore p b al at' : EM M P F _) where
  ok s u s' h := by
    unfold memStore at h
    simp only [Res.bind_eq_ok, Except.ok.injEq, Prod.mk.injEq] at h
    obtain ⟨m, h, _, rfl⟩ := h
    exact ⟨rfl, rfl, rfl⟩
  err s e h := (tri_memStore (Rm := AnyMem)).err s e h
macro_rules | `(tactic| tri_step) => `(tactic| apply mu_memStore)

theorem mu_popInt : Tri Soft Mute (EM.popInt : EM M P F _) where
  ok s u s' h := by
    rw [EM.popInt_eq_ok] at h
    obtain ⟨rest, _, rfl⟩ := h
    exact ⟨rfl, rfl, rfl⟩
  err s e h := (tri_popInt (Rm := AnyMem)).err s e h
macro_rules | `(tactic| tri_step) => `(tactic| apply mu_popInt)

theorem mu_popProv : Tri Soft Mute (EM.popProv : EM M P F _) where
  ok s u s' h := by
    rw [EM.popProv_eq_ok] at h
    obtain ⟨rest, _, rfl⟩ := h
    exact ⟨rfl, rfl, rfl⟩
  err s e h := (tri_popProv (Rm := AnyMem)).err s e h
macro_rules | `(tactic| tri_step) => `(tactic| apply mu_popProv)

theorem mu_memAllocate {k n al} : Tri Soft Mute (memAllocate k n al : EM M P F _) where
  ok s u s' h := by
    unfold memAllocate at h
    obtain ⟨a, s1, h1, h2⟩ := EM.bind_eq_ok.1 h
    simp only [Res.bind_eq_ok, Except.ok.injEq, Prod.mk.injEq, Prod.exists] at h2
    obtain ⟨p, m, h2, rfl, rfl⟩ := h2
    have := mu_popInt.ok _ _ _ h1
    exact ⟨this.1, this.2, this.3⟩
  err s e h := (tri_memHeap (Rm := AnyMem)).err s e h
macro_rules | `(tactic| tri_step) => `(tactic| apply mu_memAllocate)

theorem mu_memDeallocate {p : ThinPtr P} {k n al} : Tri Soft Mute (memDeallocate p k n al : EM M P F _) where
  ok s u s' h := by
    unfold memDeallocate at h
    simp only [Res.bind_eq_ok, Except.ok.injEq, Prod.mk.injEq] at h
    obtain ⟨m, h, _, rfl⟩ := h
    exact ⟨rfl, rfl, rfl⟩
  err s e h := soft_memDeallocate h
macro_rules | `(tactic| tri_step) => `(tactic| apply mu_memDeallocate)

theorem mu_memEndCall {f : F} : Tri Soft Mute (memEndCall f : EM M P F _) where
  ok s u s' h := by
    unfold memEndCall at h
    simp only [Res.bind_eq_ok, Except.ok.injEq, Prod.mk.injEq] at h
    obtain ⟨m, h, _, rfl⟩ := h
    exact ⟨rfl, rfl, rfl⟩
  err s e h := (tri_memEndCall (Rm := AnyMem)).err s e h
macro_rules | `(tactic| tri_step) => `(tactic| apply mu_memEndCall)

theorem mu_memDeinit {p : ThinPtr P} {n al} : Tri Soft Mute (memDeinit p n al : EM M P F _) := by
  unfold memDeinit; tri
macro_rules | `(tactic| tri_step) => `(tactic| apply mu_memDeinit)

theorem mu_setActive {g : Thread P F → Thread P F} (hg : ∀ t, (g t).state = t.state) {α : Type} {a : α} :
    Tri Soft Mute (do
      let t ← EM.read (·.getActive)
      EM.modify (·.setActive (g t))
      pure a : EM M P F α) where
  ok s u s' h := by
    simp only [EM.bind_eq_ok, EM.read_eq_ok, EM.modify_eq_ok, getActive_eq_ok, EM.pure_eq_ok] at h
    obtain ⟨t, _, ⟨h1, rfl⟩, _, _, rfl, _, rfl⟩ := h
    exact ⟨rfl, rfl, rfl⟩
  err s e h := (tri_setActive (Rm := AnyMem) hg).err s e h

theorem mu_mutateCurFrame {α : Type} {f : StackFrame P F → EM M P F (α × StackFrame P F)}
    (hf : ∀ fr, Tri Soft Mute (f fr)) : Tri Soft Mute (mutateCurFrame f) where
  ok s a s' h := by
    rw [mutateCurFrame_eq_ok] at h
    obtain ⟨t, fr, rest, fr', s1, t1, fr1, rest1, h1, h2, h3, h4, h5, rfl⟩ := h
    have := (hf _).ok _ _ _ h3
    exact ⟨this.1, this.2, this.3⟩
  err s e h := by
    rcases mutateCurFrame_err h with rfl | ⟨fr, s, h⟩
    · exact .panic
    · exact (hf _).err _ _ h
macro_rules | `(tactic| tri_step) => `(tactic| apply mu_mutateCurFrame)

theorem mu_typedStore {p : ThinPtr P} {v ty al at'} :
    Tri Soft Mute (typedStore p v ty al at' : EM M P F _) := by unfold typedStore; tri
macro_rules | `(tactic| tri_step) => `(tactic| apply mu_typedStore)
theorem mu_placeStore {p : Place P} {v ty} : Tri Soft Mute (placeStore p v ty : EM M P F _) := by unfold placeStore; tri
macro_rules | `(tactic| tri_step) => `(tactic| apply mu_placeStore)

theorem mu_setDiscriminant {p : Place P} {ty v} : Tri Soft Mute (setDiscriminant p ty v : EM M P F _) where
  ok s u s' h := by
    cases ty with
    | enum vs dt d sz al =>
      unfold setDiscriminant at h
      dsimp only at h
      by_cases hal : (!p.aligned) = true
      · rw [if_pos hal] at h; cases h
      · rw [if_neg hal] at h
        cases hv : Map.get? vs v with
        | none => rw [hv] at h; cases h
        | some e =>
          obtain ⟨vty, tagger⟩ := e
          rw [hv] at h
          simp only [Res.bind_eq_ok, Except.ok.injEq, Prod.mk.injEq] at h
          obtain ⟨s1, h, _, rfl⟩ := h
          refine encodeDiscriminant_rel PreRel.refl PreRel.trans ?_ tagger _ _ h
          intro s i b s' h
          simp only [Res.bind_eq_ok, Prod.exists, Except.ok.injEq] at h
          obtain ⟨q, hq, u, s2, h2, rfl⟩ := h
          exact mu_memStore.ok s u _ h2
    | _ => cases h
  err s e h := (tri_setDiscriminant (Rm := AnyMem)).err s e h
macro_rules | `(tactic| tri_step) => `(tactic| apply mu_setDiscriminant)

mutual
theorem mu_retagVal (fe : Bool) : ∀ (v : Value P) (ty : Ty), Tri Soft Mute (retagVal fe v ty : EM M P F _)
  | .int _, _ => by unfold retagVal; tri
  | .bool _, _ => by unfold retagVal; tri
  | .union _, _ => by unfold retagVal; tri
  | .ptr _, ty => by cases ty <;> unfold retagVal <;> tri
  | .tuple vs, ty => by
    cases ty <;> unfold retagVal <;> tri
    all_goals exact mu_retagVals fe vs _
  | .variant _ v, ty => by
    cases ty <;> unfold retagVal <;> tri
    exact mu_retagVal fe v _
theorem mu_retagVals (fe : Bool) : ∀ (vs : List (Value P)) (tys : List Ty),
    Tri Soft Mute (retagVals fe vs tys : EM M P F _)
  | [], _ => by unfold retagVals; tri
  | v :: vs, tys => by
    cases tys <;> unfold retagVals <;> tri
    exacts [mu_retagVal fe v _, mu_retagVals fe vs _]
end
macro_rules | `(tactic| tri_step) => `(tactic| apply mu_retagVal)

theorem mu_storageDead {fr : StackFrame P F} {l} : Tri Soft Mute (storageDead fr l : EM M P F _) := by
  unfold storageDead; tri
macro_rules | `(tactic| tri_step) => `(tactic| apply mu_storageDead)
theorem mu_storageLive {fr : StackFrame P F} {l} : Tri Soft Mute (storageLive fr l : EM M P F _) := by
  unfold storageLive; tri
macro_rules | `(tactic| tri_step) => `(tactic| apply mu_storageLive)
theorem mu_evalStatement {st} : Tri Soft Mute (evalStatement st : EM M P F _) := by
  cases st <;> unfold evalStatement <;> tri
macro_rules | `(tactic| tri_step) => `(tactic| apply mu_evalStatement)
theorem mu_prepare {p : Place P} {ty} : Tri Soft Mute (prepareForInplacePassing p ty : EM M P F _) := by
  unfold prepareForInplacePassing; tri
macro_rules | `(tactic| tri_step) => `(tactic| apply mu_prepare)
theorem mu_evalArgument {a} : Tri Soft Mute (evalArgument a : EM M P F _) := by
  unfold evalArgument; tri
macro_rules | `(tactic| tri_step) => `(tactic| apply mu_evalArgument)
theorem mu_evalArguments {as} : Tri Soft Mute (evalArguments as : EM M P F _) := by
  induction as <;> unfold evalArguments <;> tri
macro_rules | `(tactic| tri_step) => `(tactic| apply mu_evalArguments)
theorem mu_storageLives {ls} {fr : StackFrame P F} : Tri Soft Mute (storageLives fr ls : EM M P F _) := by
  induction ls generalizing fr <;> unfold storageLives <;> tri
  rename_i ih _; exact ih
macro_rules | `(tactic| tri_step) => `(tactic| apply mu_storageLives)
theorem mu_passArguments {fr : StackFrame P F} {ls args} :
    Tri Soft Mute (passArguments fr ls args : EM M P F _) := by
  induction ls generalizing args with
  | nil => unfold passArguments; tri
  | cons l ls ih => cases args <;> unfold passArguments <;> tri; exact ih
macro_rules | `(tactic| tri_step) => `(tactic| apply mu_passArguments)
theorem mu_createFrame {f a c t as} :
    Tri Soft Mute (createFrame f a c t as : EM M P F (StackFrame P F)) := by unfold createFrame; tri
macro_rules | `(tactic| tri_step) => `(tactic| apply mu_createFrame)
theorem mu_pushFrame {fr : StackFrame P F} : Tri Soft Mute (pushFrame fr : EM M P F _) :=
  mu_setActive (g := fun t => { t with stack := fr :: t.stack }) (fun _ => rfl) (a := ())
macro_rules | `(tactic| tri_step) => `(tactic| apply mu_pushFrame)
theorem mu_popFrame : Tri Soft Mute (popFrame : EM M P F (StackFrame P F)) where
  ok s fr s' h := by
    rw [popFrame_eq_ok] at h
    obtain ⟨t, rest, h1, h2, rfl⟩ := h
    exact ⟨rfl, rfl, rfl⟩
  err s e h := (tri_popFrame (Rm := AnyMem)).err s e h
macro_rules | `(tactic| tri_step) => `(tactic| apply mu_popFrame)
theorem mu_jumpToBlock {b} : Tri Soft Mute (jumpToBlock b : EM M P F _) := by unfold jumpToBlock; tri
macro_rules | `(tactic| tri_step) => `(tactic| apply mu_jumpToBlock)
theorem mu_jumpOrUb {b} : Tri Soft Mute (jumpOrUb b : EM M P F _) := by unfold jumpOrUb; tri
macro_rules | `(tactic| tri_step) => `(tactic| apply mu_jumpOrUb)
theorem mu_evalCall {f c as p t n u} : Tri Soft Mute (evalCall f c as p t n u : EM M P F _) := by unfold evalCall; tri
macro_rules | `(tactic| tri_step) => `(tactic| apply mu_evalCall)
theorem mu_storageDeadAll {n} {fr : StackFrame P F} : Tri Soft Mute (storageDeadAll n fr : EM M P F _) := by
  induction n generalizing fr <;> unfold storageDeadAll <;> tri
  rename_i ih _ _ _ _ _ _; exact ih
macro_rules | `(tactic| tri_step) => `(tactic| apply mu_storageDeadAll)
theorem mu_evalResumeUnwind : Tri Soft Mute (evalResumeUnwind : EM M P F _) := by unfold evalResumeUnwind; tri
macro_rules | `(tactic| tri_step) => `(tactic| apply mu_evalResumeUnwind)
theorem mu_pushPayload {p : ThinPtr P} : Tri Soft Mute (pushPayload p : EM M P F _) :=
  mu_setActive (g := fun t => { t with unwindPayloads := p :: t.unwindPayloads }) (fun _ => rfl) (a := ())
macro_rules | `(tactic| tri_step) => `(tactic| apply mu_pushPayload)
theorem mu_popPayload : Tri Soft Mute (popPayload : EM M P F _) where
  ok s u s' h := by
    rw [popPayload_eq_ok] at h
    obtain ⟨t, p, rest, h1, h2, rfl⟩ := h
    exact ⟨rfl, rfl, rfl⟩
  err s e h := (tri_popPayload (Rm := AnyMem)).err s e h
macro_rules | `(tactic| tri_step) => `(tactic| apply mu_popPayload)
theorem mu_bumpStmt : Tri Soft Mute (bumpStmt : EM M P F _) := by unfold bumpStmt; tri
macro_rules | `(tactic| tri_step) => `(tactic| apply mu_bumpStmt)

/-! ### Locks and threads -/

theorem mu_lockAcquire {l : Int} : Tri Soft Mute (lockAcquire l : EM M P F _) where
  ok s u s' h := by
    rw [lockAcquire_eq_ok] at h
    rcases h with ⟨h0, ⟨h1, rfl⟩ | ⟨o, t, h1, h2, rfl⟩⟩ <;> exact ⟨rfl, rfl, rfl⟩
  err s e h := (tri_lockAcquire (Rm := AnyMem) (K := fun _ => True) trivial).err s e h
macro_rules | `(tactic| tri_step) => `(tactic| apply mu_lockAcquire)
theorem mu_lockRelease {l : Int} : Tri Soft Mute (lockRelease l : EM M P F _) where
  ok s u s' h := by
    rw [lockRelease_eq_ok] at h
    rcases h with ⟨h0, hl, ⟨h1, rfl⟩ | ⟨a, t, rest, h1, h2, h3, h4, rfl⟩⟩ <;> exact ⟨rfl, rfl, rfl⟩
  err s e h := (tri_lockRelease (Rm := AnyMem) (K := fun _ => True) trivial).err s e h
macro_rules | `(tactic| tri_step) => `(tactic| apply mu_lockRelease)
theorem mu_lockCreate : Tri Soft Mute (lockCreate : EM M P F _) where
  ok s u s' h := by cases h; exact ⟨rfl, rfl, rfl⟩
  err s e h := by cases h
macro_rules | `(tactic| tri_step) => `(tactic| apply mu_lockCreate)
theorem mu_join {j : Int} : Tri Soft Mute (join j : EM M P F _) where
  ok s u s' h := by
    rw [join_eq_ok] at h
    rcases h with ⟨h0, tj, h1, ⟨h2, rfl⟩ | ⟨h2, t, h3, rfl⟩⟩ <;> exact ⟨rfl, rfl, rfl⟩
  err s e h := (tri_join (Rm := AnyMem) (K := fun _ => True) trivial).err s e h
macro_rules | `(tactic| tri_step) => `(tactic| apply mu_join)
theorem mu_terminate : Tri Soft Mute (terminateActiveThread : EM M P F _) where
  ok s u s' h := by
    rw [terminateActiveThread_eq_ok] at h
    obtain ⟨h0, t, h1, h2, rfl⟩ := h
    exact ⟨rfl, rfl, rfl⟩
  err s e h := (tri_terminateActiveThread (Rm := AnyMem) (K := fun _ => True) trivial).err s e h
macro_rules | `(tactic| tri_step) => `(tactic| apply mu_terminate)
theorem mu_spawn {f} {d : Value P × Ty} : Tri Soft Mute (spawn f d : EM M P F _) where
  ok s u s' h := by
    unfold spawn at h
    simp only [EM.bind_eq_ok, EM.modify_eq_ok, EM.pure_eq_ok, newThread_eq_ok] at h
    obtain ⟨_, _, ⟨fr, s1, h1, rfl, rfl⟩, _, _, rfl, rfl, rfl⟩ := h
    have := mu_createFrame.ok _ _ _ h1
    exact ⟨this.1, this.2, this.3⟩
  err s e h := (tri_spawn (Rm := AnyMem) (K := fun _ => True) trivial).err s e h
macro_rules | `(tactic| tri_step) => `(tactic| apply mu_spawn)

/-! ### Intrinsics -/

theorem mu_requireUb {b} : Tri Soft Mute (requireUb b : EM M P F _) := by unfold requireUb; tri
macro_rules | `(tactic| tri_step) => `(tactic| apply mu_requireUb)
theorem mu_loadRawData {p : Pointer P} {t} : Tri Soft Mute (loadRawData p t : EM M P F _) := by
  unfold loadRawData; tri
macro_rules | `(tactic| tri_step) => `(tactic| apply mu_loadRawData)
theorem mu_storeIf {b p v ty al} : Tri Soft Mute (storeIf b p v ty al : EM M P F _) := by unfold storeIf; tri
macro_rules | `(tactic| tri_step) => `(tactic| apply mu_storeIf)

theorem mu_intrinsicLock {op as t} : Tri Soft Mute (intrinsicLock op as t : EM M P F _) := by unfold intrinsicLock; tri
theorem mu_intrinsicAssume {as t} : Tri Soft Mute (intrinsicAssume as t : EM M P F _) := by unfold intrinsicAssume; tri
theorem mu_intrinsicAllocate {as t} : Tri Soft Mute (intrinsicAllocate as t : EM M P F _) := by unfold intrinsicAllocate; tri
theorem mu_intrinsicDeallocate {as t} : Tri Soft Mute (intrinsicDeallocate as t : EM M P F _) := by
  unfold intrinsicDeallocate; tri
theorem mu_intrinsicSpawn {as t} : Tri Soft Mute (intrinsicSpawn as t : EM M P F _) := by
  unfold intrinsicSpawn; tri
theorem mu_intrinsicJoin {as t} : Tri Soft Mute (intrinsicJoin as t : EM M P F _) := by unfold intrinsicJoin; tri
theorem mu_intrinsicRawEq {as t} : Tri Soft Mute (intrinsicRawEq as t : EM M P F _) := by unfold intrinsicRawEq; tri
theorem mu_intrinsicAtomicStore {as t} : Tri Soft Mute (intrinsicAtomicStore as t : EM M P F _) := by
  unfold intrinsicAtomicStore; tri
theorem mu_intrinsicAtomicLoad {as t} : Tri Soft Mute (intrinsicAtomicLoad as t : EM M P F _) := by
  unfold intrinsicAtomicLoad; tri
theorem mu_intrinsicCompareExchange {as t} : Tri Soft Mute (intrinsicCompareExchange as t : EM M P F _) := by
  unfold intrinsicCompareExchange; tri
theorem mu_intrinsicFetchAndOp {op as t} : Tri Soft Mute (intrinsicFetchAndOp op as t : EM M P F _) := by
  unfold intrinsicFetchAndOp; tri
theorem mu_intrinsicWithExposed {as t} : Tri Soft Mute (intrinsicWithExposed as t : EM M P F _) := by
  unfold intrinsicWithExposed; tri
theorem mu_intrinsicGetUnwindPayload {as t} : Tri Soft Mute (intrinsicGetUnwindPayload as t : EM M P F _) := by
  unfold intrinsicGetUnwindPayload; tri

/-- The intrinsics that print or expose. -/
def IntrinsicOp.loud : IntrinsicOp → Bool
  | .printStdout => true
  | .printStderr => true
  | .pointerExposeProvenance => true
  | _ => false

theorem mu_evalIntrinsic {op as t} (h : op.loud = false) {s s' : Machine M P F} {v : Value P}
    (he : evalIntrinsic op as t s = .ok (v, s')) : Mute s s' := by
  unfold evalIntrinsic at he
  cases op with
  | abort => cases he
  | exit =>
    unfold intrinsicExit at he
    simp only [EM.bind_eq_ok, EM.throw_apply, reduceCtorEq, and_false, exists_false] at he
  | printStdout => cases h
  | printStderr => cases h
  | pointerExposeProvenance => cases h
  | spawn => exact mu_intrinsicSpawn.ok _ _ _ he
  | lock op => exact mu_intrinsicLock.ok _ _ _ he
  | assume => exact mu_intrinsicAssume.ok _ _ _ he
  | allocate => exact mu_intrinsicAllocate.ok _ _ _ he
  | deallocate => exact mu_intrinsicDeallocate.ok _ _ _ he
  | join => exact mu_intrinsicJoin.ok _ _ _ he
  | rawEq => exact mu_intrinsicRawEq.ok _ _ _ he
  | atomicStore => exact mu_intrinsicAtomicStore.ok _ _ _ he
  | atomicLoad => exact mu_intrinsicAtomicLoad.ok _ _ _ he
  | atomicCompareExchange => exact mu_intrinsicCompareExchange.ok _ _ _ he
  | atomicFetchAndOp op => exact mu_intrinsicFetchAndOp.ok _ _ _ he
  | pointerWithExposedProvenance => exact mu_intrinsicWithExposed.ok _ _ _ he
  | getUnwindPayload => exact mu_intrinsicGetUnwindPayload.ok _ _ _ he

/-! ### Steps -/

theorem mu_evalReturn : Tri Soft Mute (evalReturn : EM M P F _) := by
  unfold evalReturn returnAction; tri

/-- A successful intrinsic terminator: operands are evaluated, the intrinsic runs, its result is stored. -/
theorem intrinsic_parts {op : IntrinsicOp} {as r n} {s s' : Machine M P F}
    (h : evalTerminator (.intrinsic op as r n) s = .ok ((), s')) :
    ∃ pl ty vs, ∃ (v : Value P), ∃ s1 s2 s3, evalPlace r s = .ok ((pl, ty), s1) ∧ evalValues as s1 = .ok (vs, s2) ∧
      evalIntrinsic op vs ty s2 = .ok (v, s3) ∧ Mute s s2 ∧ Mute s3 s' := by
  unfold evalTerminator at h
  obtain ⟨⟨pl, ty⟩, b1, k1, g1⟩ := EM.bind_eq_ok.1 h
  obtain ⟨vs, b2, k2, g2⟩ := EM.bind_eq_ok.1 g1
  obtain ⟨v, b3, k3, g3⟩ := EM.bind_eq_ok.1 g2
  obtain ⟨_, b4, k4, g4⟩ := EM.bind_eq_ok.1 g3
  exact ⟨pl, ty, vs, v, b1, b2, b3, k1, k2, k3,
    PreRel.trans _ _ _ ((tri_evalPlace (Rm := AnyMem) _).mute.ok _ _ _ k1) ((tri_evalValues (Rm := AnyMem) _).mute.ok _ _ _ k2),
    PreRel.trans _ _ _ (mu_placeStore.ok _ _ _ k4) (mu_jumpOrUb.ok _ _ _ g4)⟩

/-- The terminators that print or expose. -/
def Terminator.loud : Terminator → Bool
  | .intrinsic op _ _ _ => op.loud
  | _ => false

theorem mu_evalTerminator {t : Terminator} (hl : t.loud = false) {s s' : Machine M P F} {u : Unit}
    (h : evalTerminator t s = .ok (u, s')) : Mute s s' := by
  cases t with
  | intrinsic op as r n =>
    obtain ⟨pl, ty, vs, v, s1, s2, s3, _, _, h3, m1, m2⟩ := intrinsic_parts h
    exact PreRel.trans _ _ _ m1 (PreRel.trans _ _ _ (mu_evalIntrinsic hl h3) m2)
  | «return» => unfold evalTerminator at h; exact mu_evalReturn.ok _ _ _ h
  | _ =>
    refine Tri.ok (E := Soft) (R := Mute) (x := evalTerminator _) ?_ _ _ _ h
    unfold evalTerminator; tri

theorem mu_execStep {s s' : Machine M P F} {u : Unit} (hl : ∀ t, s.nextTerminator = some t → t.loud = false)
    (h : execStep s = .ok (u, s')) : Mute s s' := by
  unfold execStep at h
  simp only [EM.bind_eq_ok, EM.read_eq_ok, EM.lift_eq_ok] at h
  obtain ⟨fr, _, ⟨h1, rfl⟩, b, _, ⟨h2, rfl⟩, h⟩ := h
  split at h
  · rename_i h3
    refine mu_evalTerminator (hl _ ?_) h
    unfold Machine.nextTerminator
    rw [Map.get, unwrap_eq_ok] at h2
    rw [h1]; simp [h2, h3]
  · refine Tri.ok (E := Soft) (R := Mute) (x := do
      let stmt ← EM.lift (index b.statements fr.nextStmt)
      evalStatement stmt
      bumpStmt) ?_ _ _ _ h
    tri

/-- A step of a thread that is at a terminator. -/
theorem step_at {s s' : Machine M P F} {t : Terminator} (h : step s = .ok ((), s')) (hat : s.AtTerminator s'.activeThread t) :
    ∃ rest, s.oracle = .int s'.activeThread :: rest ∧ evalTerminator t (s.schedule s'.activeThread rest) = .ok ((), s') := by
  obtain ⟨a, th, rest, h1, h2, h3, h4, h5⟩ := step_eq_ok.1 h
  have hact : s'.activeThread = a := by
    obtain ⟨rest', h6, _⟩ := step_skel h
    rw [h1] at h6; injection h6 with h7 h8
    injection h7 with h7; exact (Int.ofNat.inj h7).symm
  rw [hact] at hat ⊢
  exact ⟨rest, h1, by rw [← execStep_atTerminator hat]; exact h4⟩

/-- A step that does not execute one of the three intrinsics. -/
theorem mu_step {s s' : Machine M P F}
    (hl : ∀ op, s.AtIntrinsic s'.activeThread op → op.loud = false) (h : step s = .ok ((), s')) : Mute s s' := by
  obtain ⟨a, t, rest, h1, h2, h3, h4, h5⟩ := step_eq_ok.1 h
  have hact : s'.activeThread = a := by
    obtain ⟨rest', h6, _⟩ := step_skel h
    rw [h1] at h6; injection h6 with h7 h8
    injection h7 with h7; exact (Int.ofNat.inj h7).symm
  rw [hact] at hl
  have hmu : Mute (s.schedule a rest) s' := by
    refine mu_execStep ?_ h4
    intro t ht
    have := nextTerminator_atTerminator ht
    cases t with
    | intrinsic op as r n => exact hl op ⟨as, r, n, this⟩
    | _ => rfl
  exact ⟨hmu.1, hmu.2, hmu.3⟩

end
end MiniRust
