import Verif.Lemmas.TBKnownExpr
import Verif.Lemmas.TBFresh
import Verif.Lemmas.KnownStep
/-
Statements, terminators, steps and the initialisation, in the logic for machines that run under Tree Borrows.
-/
set_option linter.unusedSectionVars false
namespace MiniRust
namespace TB
variable [T : Target]
variable {pd pd' pd1 pd2 : List TBFrame} {s s' s1 s2 : Mach} {α β : Type}

mutual
theorem Kt.retagVal (fe : Bool) : ∀ (v : Value TBProv) (ty : Ty) (s : Mach),
    VK s.mem.memory v → Kt pd pd s (fun _ => MiniRust.retagVal fe v ty) (fun v s' => VK s'.mem.memory v)
  | .int i, ty, s, hv => by simp only [MiniRust.retagVal]; exact .pure fun _ => hv
  | .bool i, ty, s, hv => by simp only [MiniRust.retagVal]; exact .pure fun _ => hv
  | .union i, ty, s, hv => by simp only [MiniRust.retagVal]; exact .pure fun _ => hv
  | .ptr p, ty, s, hv => by
    cases ty with
    | ptr pt =>
      simp only [MiniRust.retagVal]
      exact .bind (.retagPtrM hv) fun q s1 _ hq => .pure fun _ => hq
    | _ => simp only [MiniRust.retagVal]; exact .throw
  | .tuple vs, ty, s, hv => by
    cases ty with
    | tuple fs h u =>
      simp only [MiniRust.retagVal]
      exact .bind (Kt.retagVals fe vs _ s hv.elem) fun q s1 _ hq => .pure fun _ => .tuple hq
    | array e c =>
      simp only [MiniRust.retagVal]
      exact .bind (Kt.retagVals fe vs _ s hv.elem) fun q s1 _ hq => .pure fun _ => .tuple hq
    | _ => simp only [MiniRust.retagVal]; exact .throw
  | .variant d v, ty, s, hv => by
    cases ty with
    | enum vs a b c d =>
      simp only [MiniRust.retagVal]
      exact .bindLift fun ⟨ty, _⟩ _ => .bind (Kt.retagVal fe v ty s hv.ofVariant) fun q s1 _ hq => .pure fun _ => .variant hq
    | _ => simp only [MiniRust.retagVal]; exact .throw
theorem Kt.retagVals (fe : Bool) : ∀ (vs : List (Value TBProv)) (tys : List Ty) (s : Mach),
    (∀ v ∈ vs, VK s.mem.memory v) → Kt pd pd s (fun _ => MiniRust.retagVals fe vs tys) (fun vs s' => ∀ v ∈ vs, VK s'.mem.memory v)
  | v :: vs, ty :: tys, s, hv => by
    simp only [MiniRust.retagVals]
    refine .bind (Kt.retagVal fe v ty s (hv v (by simp))) fun w s1 g hw =>
      .bind (Kt.retagVals fe vs tys s1 fun x hx => (hv x (by simp [hx])).mono g.le) fun ws s2 g' hws => .pure fun _ => ?_
    intro x hx
    rcases List.mem_cons.1 hx with rfl | hx
    · exact hw.mono g'.le
    · exact hws x hx
  | [], _, s, hv => by simp only [MiniRust.retagVals]; exact .pure fun _ _ h => by cases h
  | _ :: _, [], s, hv => by simp only [MiniRust.retagVals]; exact .pure fun _ _ h => by cases h
end

theorem Kt.memDeinit {ptr : ThinPtr TBProv} {len align} (hp : PK s.mem.memory ptr) :
    Kt pd pd s (fun _ => MiniRust.memDeinit ptr len align) (fun _ _ => True) := .mono (.memStore hp .uninit) fun _ _ _ => trivial

theorem FK.insert {n : TBMem} {fr : StackFrame TBProv TBFrame} {l p} (h : FK n fr) (hp : PK n p) :
    FK n { fr with locals := fr.locals.insert l p } := by
  refine ⟨fun x hx => ?_, h.action⟩
  rcases Map.mem_insert_of hx with rfl | hx
  · exact hp
  · exact h.locals x hx

theorem FK.erase {n : TBMem} {fr : StackFrame TBProv TBFrame} {l} (h : FK n fr) :
    FK n { fr with locals := fr.locals.erase l } :=
  ⟨fun x hx => h.locals x (Map.mem_erase_of hx), h.action⟩

theorem Kt.storageDead {fr : StackFrame TBProv TBFrame} {l} (h : FK s.mem.memory fr) :
    Kt pd pd s (fun _ => MiniRust.storageDead fr l) (fun fr' s' => FK s'.mem.memory fr' ∧ fr'.extra = fr.extra ∧
      s'.threads = s.threads ∧ s'.activeThread = s.activeThread) := by
  unfold MiniRust.storageDead
  refine .bindLift fun ⟨size, align⟩ _ => ?_
  dsimp only
  split
  · rename_i p hp
    exact .bind (.memDeallocate (h.locals _ (Map.get?_mem hp))) fun _ s1 g e => .pure fun _ =>
      ⟨(h.mono g.le).erase, rfl, by rw [e], by rw [e]⟩
  · exact .pure fun _ => ⟨h, rfl, rfl, rfl⟩

theorem Kt.storageLive {fr : StackFrame TBProv TBFrame} {l} (h : FK s.mem.memory fr) :
    Kt pd pd s (fun _ => MiniRust.storageLive fr l) (fun fr' s' => FK s'.mem.memory fr' ∧ fr'.extra = fr.extra ∧
      s'.threads = s.threads ∧ s'.activeThread = s.activeThread) := by
  unfold MiniRust.storageLive
  exact .bind (.storageDead h) fun fr s1 _ hf => .bindLift fun ⟨size, align⟩ _ =>
    .bind (.memAllocate) fun p s2 g hp => .pure fun _ =>
      ⟨(hf.1.mono g.le).insert hp.1, hf.2.1, hp.2.1.trans hf.2.2.1, hp.2.2.trans hf.2.2.2⟩

theorem Kt.evalStatement {st : Statement} : Kt pd pd s (fun _ => MiniRust.evalStatement st) (fun _ _ => True) := by
  cases st with
  | assign d e =>
    exact .bind (.evalPlace d s) fun ⟨p, ty⟩ s1 _ hp => .bind (.evalValue e s1) fun ⟨v, _⟩ s2 g hv =>
      .placeStore (VK.mono g.le hp) hv
  | placeMention p => exact .bind (.evalPlace p s) fun _ s1 _ _ => .pure fun _ => trivial
  | setDiscriminant d v => exact .bind (.evalPlace d s) fun ⟨p, ty⟩ s1 _ hp => .setDiscriminant hp
  | validate p fe =>
    exact .bind (.evalPlace p s) fun ⟨p, ty⟩ s1 _ hp => .bind (.placeLoad hp) fun v s2 g hv =>
      .bind (.retagVal fe v ty s2 hv) fun w s3 g' hw => .placeStore (VK.mono (g.le.trans g'.le) hp) hw
  | deinit p =>
    refine .bind (.evalPlace p s) fun ⟨p, ty⟩ s1 _ hp => .ite (fun _ => .throw) fun _ => .bindLift fun n _ => ?_
    exact .memDeinit (VK.thin hp)
  | storageLive l =>
    exact .mutateCurFrame (fun _ _ _ _ h => h) fun _ _ fr hfr => .bind (.storageLive hfr) fun fr s1 _ hf => .pure fun _ => ⟨trivial, hf⟩
  | storageDead l =>
    exact .mutateCurFrame (fun _ _ _ _ h => h) fun _ _ fr hfr => .bind (.storageDead hfr) fun fr s1 _ hf => .pure fun _ => ⟨trivial, hf⟩

theorem Kt.prepare {p : Place TBProv} {ty} (hp : PlK s.mem.memory p) :
    Kt pd pd s (fun _ => MiniRust.prepareForInplacePassing p ty) (fun _ _ => True) := by
  unfold prepareForInplacePassing
  exact .bindLift fun ⟨n, a⟩ _ => .memDeinit (VK.thin hp)

theorem Kt.evalArgument {a : ArgumentExpr} : Kt pd pd s (fun _ => MiniRust.evalArgument a) (fun v s' => VK s'.mem.memory v.1) := by
  cases a with
  | byValue e => exact .evalValue e s
  | inPlace p =>
    exact .bind (.evalPlace p s) fun ⟨p, ty⟩ s1 _ hp => .bind (.placeLoad hp) fun v s2 g hv =>
      .bind (.prepare (VK.mono g.le hp)) fun _ s3 g' _ => .pure fun _ => hv.mono g'.le

theorem Kt.evalArguments : ∀ (as : List ArgumentExpr) (s : Mach),
    Kt pd pd s (fun _ => MiniRust.evalArguments as) (fun vs s' => ∀ v ∈ vs, VK s'.mem.memory v.1)
  | [], s => .pure fun _ _ h => by cases h
  | a :: as, s => by
    unfold MiniRust.evalArguments
    refine .bind (.evalArgument) fun v s1 _ hv => .bind (Kt.evalArguments as s1) fun vs s2 g hvs => .pure fun _ => ?_
    intro w hw
    rcases List.mem_cons.1 hw with rfl | hw
    · exact hv.mono g.le
    · exact hvs w hw

/-- The frame of a call that has not begun. -/
structure NewFrame (m : TBMem) (fr : StackFrame TBProv TBFrame) : Prop where
  locals : ∀ x ∈ fr.locals, Fresh m x.2
  action : AK m fr.stackPopAction
  extra : fr.extra = []

theorem NewFrame.fk {m : TBMem} {fr} (h : NewFrame m fr) : FK m fr := ⟨fun x hx => (h.locals x hx).pk, h.action⟩

theorem NewFrame.mono {m m' : TBMem} {fr} (h : NewFrame m fr) (hn : MemLe m m') (ht : Trees m m') : NewFrame m' fr :=
  ⟨fun x hx => (h.locals x hx).mono ht, h.action.mono hn, h.extra⟩

theorem Kt.storageDeadNew {fr : StackFrame TBProv TBFrame} {l} (h : NewFrame s.mem.memory fr) :
    Kt pd pd s (fun _ => MiniRust.storageDead fr l) (fun fr' s' => NewFrame s'.mem.memory fr') := by
  unfold MiniRust.storageDead
  refine .bindLift fun ⟨size, align⟩ _ => ?_
  dsimp only
  split
  · rename_i p hp
    exact .bind (.memDeallocateFresh (h.locals _ (Map.get?_mem hp))) fun _ s1 g e => .pure fun _ =>
      have h' := h.mono g.le e.2
      ⟨fun x hx => h'.locals x (Map.mem_erase_of hx), h'.action, h'.extra⟩
  · exact .pure fun _ => h

theorem Kt.storageLiveNew {fr : StackFrame TBProv TBFrame} {l} (h : NewFrame s.mem.memory fr) :
    Kt pd pd s (fun _ => MiniRust.storageLive fr l) (fun fr' s' => NewFrame s'.mem.memory fr') := by
  unfold MiniRust.storageLive
  exact .bind (.storageDeadNew h) fun fr s1 _ hf => .bindLift fun ⟨size, align⟩ _ =>
    .bind (.memAllocateFresh) fun p s2 g hp => .pure fun _ =>
      have h' := hf.mono g.le hp.2.1
      ⟨fun x hx => (Map.mem_insert_of hx).elim (fun e => e ▸ hp.2.2.1) (h'.locals x), h'.action, h'.extra⟩

theorem Kt.storageLives : ∀ (ls : List LocalName) (fr : StackFrame TBProv TBFrame) (s : Mach),
    NewFrame s.mem.memory fr → Kt pd pd s (fun _ => MiniRust.storageLives fr ls) (fun fr s' => NewFrame s'.mem.memory fr)
  | [], fr, s, h => .pure fun _ => h
  | l :: ls, fr, s, h => .bind (.storageLiveNew h) fun fr s1 _ hf => Kt.storageLives ls fr s1 hf

theorem Kt.passArguments {fr : StackFrame TBProv TBFrame} : ∀ (ls : List LocalName)
    (as : List (Value TBProv × Ty)) (s : Mach), NewFrame s.mem.memory fr → (∀ a ∈ as, VK s.mem.memory a.1) →
    Kt pd pd s (fun _ => MiniRust.passArguments fr ls as) (fun _ s' => NewFrame s'.mem.memory fr)
  | [], as, s, h, _ => by unfold MiniRust.passArguments; exact .pure fun _ => h
  | l :: ls, [], s, h, _ => by unfold MiniRust.passArguments; exact .pure fun _ => h
  | l :: ls, (v, ty) :: as, s, hf, ha => by
    unfold MiniRust.passArguments
    refine .bindLift fun ct _ => .bindLift fun c _ => .ite (fun _ => .throw) fun _ => .bindLift fun al _ => .bindLift fun p hp => ?_
    exact .bind (.typedStoreFresh (hf.locals _ (Map.get?_mem (Map.get_eq_ok.1 hp))) (ha (v, ty) (by simp)))
      fun _ s1 g e => Kt.passArguments ls as s1 (hf.mono g.le e.2) fun a h => (ha a (by simp [h])).mono g.le

theorem Kt.congr {x y : Inst → EM TBMem TBProv TBFrame α} {R : α → Mach → Prop} (h : Kt pd pd' s y R)
    (h1 : x instMemoryTBMemTBProvTBFrameOfTarget s = y instMemoryTBMemTBProvTBFrameOfTarget s) (h2 : x TBMem.guarded s = y TBMem.guarded s)
    (h3 : x TBMem.lax s = y TBMem.lax s) : Kt pd pd' s x R := by
  unfold Kt
  rw [h1, h2, h3]
  exact h

theorem Kt.createFrame {f : Function} {act conv rt as} (hact : AK s.mem.memory act)
    (ha : ∀ a ∈ as, VK s.mem.memory a.1) : Kt pd pd s (fun _ => MiniRust.createFrame f act conv rt as) (fun fr s' => NewFrame s'.mem.memory fr) := by
  refine .congr (y := fun _ => do
    let frame ← MiniRust.storageLive (StackFrame.init f act []) f.ret
    let frame ← MiniRust.storageLives frame f.args
    if conv ≠ f.callingConvention then EM.throw .ub
    else do
      let retTy ← EM.lift (f.locals.get f.ret)
      let compatible ← EM.lift (abiCompat rt retTy)
      if !compatible then EM.throw .ub
      else if f.args.length ≠ as.length then EM.throw .ub
      else do
        MiniRust.passArguments frame f.args as
        Pure.pure frame) ?_ rfl rfl rfl
  refine .bind (R := fun fr s' => NewFrame s'.mem.memory fr) (x := fun _ => MiniRust.storageLive (StackFrame.init f act []) f.ret)
    (.storageLiveNew ⟨(fun _ h => by cases h), hact, rfl⟩) fun fr s1 g hf =>
    .bind (.storageLives _ fr s1 hf) fun fr s2 g' hf => ?_
  refine .ite (fun _ => .throw) fun _ => .bindLift fun rt' _ => .bindLift fun c _ => ?_
  refine .ite (fun _ => .throw) fun _ => .ite (fun _ => .throw) fun _ => ?_
  exact .bind (.passArguments _ _ s2 hf fun a h => (ha a h).mono (g.le.trans g'.le)) fun _ s3 g'' h => .pure fun _ => h

/-- Operations that do not concern the memory model. -/
theorem Kt.plain {x : EM TBMem TBProv TBFrame α} {R : α → Mach → Prop}
    (h : Wf pd s → ∀ a s', x s = .ok (a, s') → Grow pd s pd' s' ∧ R a s') : Kt pd pd' s (fun _ => x) R :=
  fun hs => ⟨.same, h hs⟩

theorem Grow.newCall (h : Wf pd s) : Grow pd s ([] :: pd) s := by
  have hr : Run pd s ([] :: pd) s := by
    intro fs hf
    refine ⟨fs ++ [[]], .step .refl .newCall, ?_⟩
    exact List.perm_append_comm.trans (List.Perm.cons _ hf)
  exact .ctl (h.congr rfl rfl rfl rfl rfl hr h.threads) rfl hr

theorem Kt.newCall {x : Inst → EM TBMem TBProv TBFrame α} {R : α → Mach → Prop} (h : Kt ([] :: pd) pd' s x R) : Kt pd pd' s x R := by
  intro hs
  have g := Grow.newCall hs
  exact ⟨(h g.wf).1, fun a s' h' => ⟨g.trans ((h g.wf).2 a s' h').1, ((h g.wf).2 a s' h').2⟩⟩

theorem Wf.active (h : Wf pd s) {t} (e : s.getActive = .ok t) : TK s.mem.memory t :=
  h.threads t (List.mem_of_getElem? (index_eq_ok.1 e))

theorem Kt.pushFrame {fr : StackFrame TBProv TBFrame} (h : NewFrame s.mem.memory fr) :
    Kt pd pd s (fun _ => MiniRust.pushFrame fr) (fun _ _ => True) := by
  refine .newCall ?_
  unfold MiniRust.pushFrame
  refine .bindRead fun hs t ht => .modify fun _ => ⟨?_, trivial⟩
  refine .setThread hs (getActive_eq_ok.1 ht) ((hs.active ht).setFrame (hs.active ht).stack h.fk) ?_ rfl
  rw [List.map_cons, h.extra]
  exact List.perm_middle

theorem Kt.bindPop {f : Inst → StackFrame TBProv TBFrame → EM TBMem TBProv TBFrame β} {Q : β → Mach → Prop}
    (hf : ∀ fr s1, Grow pd s (fr.extra :: pd) s1 → FK s1.mem.memory fr → Kt (fr.extra :: pd) pd' s1 (fun I => f I fr) Q) :
    Kt pd pd' s (fun I => MiniRust.popFrame >>= f I) Q := by
  cases hp : (MiniRust.popFrame : EM TBMem TBProv TBFrame _) s with
  | error e =>
    intro _
    refine ⟨?_, fun a s' h => ?_⟩
    · show Agree ((MiniRust.popFrame >>= f _) s) ((MiniRust.popFrame >>= f _) s) ((MiniRust.popFrame >>= f _) s)
      rw [bind_error hp, bind_error hp, bind_error hp]; exact .same
    · have h : (MiniRust.popFrame >>= f instMemoryTBMemTBProvTBFrameOfTarget) s = .ok (a, s') := h
      rw [bind_error hp] at h; cases h
  | ok r =>
    obtain ⟨fr, s1⟩ := r
    refine .bind (pd1 := fr.extra :: pd) (R := fun a s' => a = fr ∧ FK s'.mem.memory fr) (.plain fun hs a s' h => ?_)
      fun a s' g h => by obtain ⟨rfl, h⟩ := h; exact hf a s' g h
    rw [hp] at h; cases h
    unfold MiniRust.popFrame at hp
    obtain ⟨t, s0, h1, h2⟩ := EM.bind_eq_ok.1 hp
    obtain ⟨ht, rfl⟩ := EM.read_eq_ok.1 h1
    cases e : t.stack with
    | nil => rw [e] at h2; simp at h2
    | cons fr' rest =>
      rw [e] at h2
      obtain ⟨_, s2, h3, h4⟩ := EM.bind_eq_ok.1 h2
      have e3 := EM.modify_eq_ok.1 h3
      obtain ⟨rfl, rfl⟩ := EM.pure_eq_ok.1 h4
      have h := hs.active ht
      subst e3
      refine ⟨.setThread hs (getActive_eq_ok.1 ht) (t' := { t with stack := rest })
        ⟨fun f hf => h.stack f (by rw [e]; simp [hf]), h.payloads⟩ ?_ rfl, rfl, h.stack _ (by rw [e]; simp)⟩
      rw [e, List.map_cons]
      exact List.perm_middle.symm

theorem Kt.jumpToBlock {b} : Kt pd pd s (fun _ => MiniRust.jumpToBlock b) (fun _ _ => True) :=
  .mutateCurFrame (fun _ _ _ _ h => h) fun _ fr _ hf => .pure fun _ => ⟨trivial, ⟨hf.locals, hf.action⟩, rfl, rfl, rfl⟩

theorem Kt.jumpOrUb {b} : Kt pd pd s (fun _ => MiniRust.jumpOrUb b) (fun _ _ => True) := by
  cases b with
  | none => exact .throw
  | some b => exact .jumpToBlock

theorem Kt.evalCall {f conv as} {p : Place TBProv} {rt nb ub} (hp : PlK s.mem.memory p)
    (ha : ∀ a ∈ as, VK s.mem.memory a.1) : Kt pd pd s (fun _ => MiniRust.evalCall f conv as p rt nb ub) (fun _ _ => True) := by
  unfold MiniRust.evalCall
  exact .bind (.createFrame (VK.thin hp) ha) fun fr s1 _ hf => .pushFrame hf

theorem TK.new {n : TBMem} {fr : StackFrame TBProv TBFrame} (h : FK n fr) :
    TK n { state := .enabled, stack := [fr], unwindPayloads := [] } :=
  ⟨fun f hf => by cases List.mem_singleton.1 hf; exact h, fun _ h => by cases h⟩

theorem Kt.newThread {f as} (ha : ∀ a ∈ as, VK s.mem.memory a.1) :
    Kt pd pd s (fun _ => MiniRust.newThread f as) (fun _ _ => True) := by
  unfold MiniRust.newThread
  refine .bind (.createFrame trivial ha) fun fr s1 _ hf => .newCall (.plain fun hs a s' h => ?_)
  simp only [Except.ok.injEq, Prod.mk.injEq] at h
  obtain ⟨_, rfl⟩ := h
  refine ⟨.ctl (hs.congr rfl rfl rfl rfl rfl ?_ fun t ht => ?_) rfl ?_, trivial⟩
  · refine .ctl rfl ?_
    simp only [Machine.calls, List.flatMap_append, List.flatMap_cons, List.flatMap_nil, List.map_cons, List.map_nil, hf.extra,
      List.append_nil, ← List.append_assoc]
    exact List.perm_append_comm
  · rcases List.mem_append.1 ht with ht | ht
    · exact hs.threads t ht
    · cases List.mem_singleton.1 ht; exact .new hf.fk
  · refine .ctl rfl ?_
    simp only [Machine.calls, List.flatMap_append, List.flatMap_cons, List.flatMap_nil, List.map_cons, List.map_nil, hf.extra,
      List.append_nil, ← List.append_assoc]
    exact List.perm_append_comm

theorem TK.state {n : TBMem} {t : Thread TBProv TBFrame} {st} (h : TK n t) : TK n { t with state := st } := ⟨h.stack, h.payloads⟩

theorem calls_wakeJoin {i} {ts : List (Thread TBProv TBFrame)} :
    (ts.map (Thread.wakeJoin i)).flatMap (fun t => t.stack.map (·.extra)) = ts.flatMap fun t => t.stack.map (·.extra) := by
  rw [List.flatMap_map]
  congr 1
  funext t
  unfold Thread.wakeJoin
  split <;> rfl

theorem Kt.terminateActiveThread : Kt pd pd s (fun _ => MiniRust.terminateActiveThread) (fun _ _ => True) := by
  refine .plain fun hs a s' h => ?_
  unfold MiniRust.terminateActiveThread at h
  split at h
  · cases h
  · simp only [Res.bind_eq_ok, Except.ok.injEq, Prod.mk.injEq, true_and] at h
    obtain ⟨t, ht, _, _, rfl⟩ := h
    have g := Grow.setThread (pd' := pd) hs (getActive_eq_ok.1 ht) (t' := { t with state := .terminated }) (hs.active ht).state (.refl _) rfl
    refine ⟨g.trans ?_, trivial⟩
    have hr : Run pd { s with threads := s.threads.set s.activeThread { t with state := .terminated } } pd { s with
        threads := (s.threads.set s.activeThread { t with state := .terminated }).map (Thread.wakeJoin s.activeThread)
        synchronizedThreads := syncJoined s.activeThread (s.threads.set s.activeThread { t with state := .terminated }) 0 s.synchronizedThreads } := by
      refine .ctl rfl ?_
      unfold Machine.calls
      rw [calls_wakeJoin]
    refine .ctl (g.wf.congr rfl rfl rfl rfl rfl hr fun u hu => ?_) rfl hr
    obtain ⟨w, hw, rfl⟩ := List.mem_map.1 hu
    have hw' : TK s.mem.memory w := g.wf.threads w hw
    unfold Thread.wakeJoin
    split
    · exact hw'.state
    · exact hw'

theorem Kt.storageDeadAll : ∀ (k : Nat) (fr : StackFrame TBProv TBFrame) (s : Mach),
    FK s.mem.memory fr → Kt pd pd s (fun _ => MiniRust.storageDeadAll k fr) (fun fr' s' => FK s'.mem.memory fr' ∧ fr'.extra = fr.extra)
  | 0, fr, s, h => .pure fun _ => ⟨h, rfl⟩
  | k + 1, fr, s, h => by
    unfold MiniRust.storageDeadAll
    split
    · exact .pure fun _ => ⟨h, rfl⟩
    · exact .bind (.storageDead h) fun fr s1 _ hf => .mono (Kt.storageDeadAll k fr s1 hf.1) fun _ _ h => ⟨h.1, h.2.trans hf.2.1⟩

theorem Kt.returnAction {fr : StackFrame TBProv TBFrame} {ty al v} (hf : FK s.mem.memory fr) (hv : VK s.mem.memory v) :
    Kt pd pd s (fun _ => MiniRust.returnAction fr ty al v) (fun _ _ => True) := by
  unfold MiniRust.returnAction
  split
  · exact .terminateActiveThread
  · rename_i nb ub p e
    have hp : PK s.mem.memory p := by have := hf.action; rw [e] at this; exact this
    exact .bindRead fun _ t _ => .bindLift fun _ _ => .bind (.typedStore hp hv) fun _ s1 _ _ => .jumpOrUb

theorem Kt.evalReturn : Kt pd pd s (fun _ => MiniRust.evalReturn) (fun _ _ => True) := by
  unfold MiniRust.evalReturn
  refine .bindPop fun fr s1 _ hf => .bindLift fun ct _ => .bindLift fun al _ => .bindLift fun p hp => ?_
  refine .bind (.typedLoad (hf.locals _ (Map.get?_mem (Map.get_eq_ok.1 hp)))) fun v s2 g hv =>
    .bind (.storageDeadAll _ fr s2 (hf.mono g.le)) fun fr' s3 g' hf => ?_
  rw [← hf.2]
  exact .bind (.memEndCall) fun _ s4 g'' _ => .returnAction (hf.1.mono g''.le) (hv.mono (g'.le.trans g''.le))

theorem Kt.evalResumeUnwind : Kt pd pd s (fun _ => MiniRust.evalResumeUnwind) (fun _ _ => True) := by
  unfold MiniRust.evalResumeUnwind
  refine .bindPop fun fr s1 _ hf => .bind (.storageDeadAll _ fr s1 hf) fun fr' s3 g' hf => ?_
  rw [← hf.2]
  refine .bind (.memEndCall) fun _ s4 g'' _ => ?_
  split
  · exact .throw
  · exact .jumpOrUb

/-! ### Intrinsics -/

theorem Kt.requireUb {b} : Kt pd pd s (fun _ => MiniRust.requireUb b) (fun _ _ => True) := .lift fun _ _ _ => trivial

theorem Kt.setThreadState {i st} : Kt pd pd s (fun _ => MiniRust.setThreadState i st) (fun _ _ => True) := by
  refine .plain fun hs a s' h => ?_
  simp only [MiniRust.setThreadState, Res.bind_eq_ok, Except.ok.injEq, Prod.mk.injEq, true_and] at h
  obtain ⟨t, ht, rfl⟩ := h
  have ht := index_eq_ok.1 ht
  exact ⟨.setThread hs ht (t' := { t with state := st }) (hs.threads t (List.mem_of_getElem? ht)).state (.refl _) rfl, trivial⟩

theorem Kt.idle {f : Mach → Mach} (hm : (f s).mem.memory = s.mem.memory) (he : (f s).intptrcast = s.intptrcast)
    (hg : (f s).globalPtrs = s.globalPtrs) (hf : (f s).fnPtrs = s.fnPtrs) (hv : (f s).vtablePtrs = s.vtablePtrs)
    (ht : (f s).threads = s.threads) : Kt pd pd s (fun _ => EM.modify f) (fun _ _ => True) :=
  .modify fun hs => ⟨.idle hs hm he hg hf hv ht, trivial⟩

theorem Kt.lockAcquire {l} : Kt pd pd s (fun _ => MiniRust.lockAcquire l) (fun _ _ => True) := by
  refine .plain fun hs a s' h => ?_
  unfold MiniRust.lockAcquire at h
  split at h
  · cases h
  · cases h; exact ⟨.idle hs rfl rfl rfl rfl rfl rfl, trivial⟩
  · exact (Kt.setThreadState hs).2 _ _ h

theorem Kt.lockCreate : Kt pd pd s (fun _ => MiniRust.lockCreate) (fun _ _ => True) := by
  refine .plain fun hs a s' h => ?_
  cases h; exact ⟨.idle hs rfl rfl rfl rfl rfl rfl, trivial⟩

theorem Kt.lockRelease {l} : Kt pd pd s (fun _ => MiniRust.lockRelease l) (fun _ _ => True) := by
  unfold MiniRust.lockRelease
  refine .bind (pd1 := pd) (R := fun _ _ => True) (.plain fun hs a s' h => ?_) fun st s1 _ _ => ?_
  · cases h; exact ⟨.refl hs, trivial⟩
  · split
    · refine .ite (fun _ => .throw) fun _ => .ite (fun _ => ?_) fun _ => .idle rfl rfl rfl rfl rfl rfl
      refine .bind (.popInt (R := fun _ _ => True) fun _ _ _ _ _ => trivial) fun i s2 _ _ => ?_
      split
      · exact .throw
      · exact .ite (fun _ => .throw) fun _ => .bind .setThreadState fun _ s3 _ _ => .idle rfl rfl rfl rfl rfl rfl
    · exact .throw

theorem known_thinPtrArg {n : TBMem} {a : Value TBProv × Ty} {p} (ha : VK n a.1) (h : thinPtrArg a = .ok p) : PK n p := by
  unfold thinPtrArg at h
  split at h <;> cases h
  exact VK.thin ha

theorem Kt.loadRawData {p : Pointer TBProv} {pt} (hp : VK s.mem.memory (.ptr p)) :
    Kt pd pd s (fun _ => MiniRust.loadRawData p pt) (fun _ _ => True) := by
  unfold MiniRust.loadRawData
  split
  · split
    · exact .bind (.memLoad hp.thin) fun _ _ _ _ => .lift fun _ _ _ => trivial
    · exact .throw
  · exact .throw

theorem Kt.join {i} : Kt pd pd s (fun _ => MiniRust.join i) (fun _ _ => True) := by
  refine .plain fun hs a s' h => ?_
  unfold MiniRust.join at h
  split at h
  · cases h
  · split at h
    · cases h; exact ⟨.refl hs, trivial⟩
    · exact (Kt.setThreadState hs).2 _ _ h

theorem Kt.storeIf {b} {p : ThinPtr TBProv} {v ty al} (hp : PK s.mem.memory p) (hv : VK s.mem.memory v) :
    Kt pd pd s (fun _ => MiniRust.storeIf b p v ty al) (fun _ _ => True) := by
  unfold MiniRust.storeIf
  exact .ite (fun _ => .mono (.typedStore hp hv) fun _ _ _ => trivial) fun _ => .pure fun _ => trivial

variable {as : List (Value TBProv × Ty)}

theorem Kt.spawn {f} {a : Value TBProv × Ty} (ha : VK s.mem.memory a.1) :
    Kt pd pd s (fun _ => MiniRust.spawn f a) (fun _ _ => True) := by
  unfold MiniRust.spawn
  refine .bind (.newThread fun x hx => by cases List.mem_singleton.1 hx; exact ha) fun i s1 _ _ => ?_
  exact .bind (.idle rfl rfl rfl rfl rfl rfl) fun _ _ _ _ => .pure fun _ => trivial

theorem Kt.intrinsicLock {op rt} : Kt pd pd s (fun _ => MiniRust.intrinsicLock op as rt) (fun v s' => VK s'.mem.memory v) := by
  unfold MiniRust.intrinsicLock
  split
  · exact .bind .requireUb fun _ _ _ _ => .bind .requireUb fun _ _ _ _ => .bind .lockCreate fun _ _ _ _ => .pure fun _ => .int
  · split
    · exact .bindLift fun _ _ => .bind .requireUb fun _ _ _ _ => .bind .lockAcquire fun _ _ _ _ => .pure fun _ => .unit
    · exact .throw
  · split
    · exact .bindLift fun _ _ => .bind .requireUb fun _ _ _ _ => .bind (.lockRelease) fun _ _ _ _ => .pure fun _ => .unit
    · exact .throw

theorem Wf.expose (h : Wf pd s) {p : ThinPtr TBProv} (hp : PK s.mem.memory p) :
    Wf pd { s with intptrcast := s.intptrcast.expose p } := by
  refine ⟨h.reach, h.mem, ?_, h.globals, h.fns, h.vtables, h.threads⟩
  intro q hq
  show s.mem.memory.HasNode q
  unfold IntPtrCast.expose at hq
  split at hq
  · rename_i x hx
    simp only [setInsert] at hq
    split at hq
    · exact h.exposed q hq
    · rcases List.mem_append.1 hq with hq | hq
      · exact h.exposed q hq
      · cases List.mem_singleton.1 hq
        exact hp _ hx
  · exact h.exposed q hq

theorem Kt.evalIntrinsic {op rt} (ha : ∀ a ∈ as, VK s.mem.memory a.1) :
    Kt pd pd s (fun _ => MiniRust.evalIntrinsic op as rt) (fun v s' => VK s'.mem.memory v) := by
  cases op with
  | abort => exact .throw
  | assume =>
    show Kt pd pd s (fun _ => MiniRust.intrinsicAssume as rt) _
    unfold intrinsicAssume
    split
    · exact .bindLift fun _ _ => .bind .requireUb fun _ _ _ _ => .bind .requireUb fun _ _ _ _ => .pure fun _ => .unit
    · exact .throw
  | exit => exact .bindRead fun _ _ _ => .throw
  | printStdout =>
    exact .bind .requireUb fun _ _ _ _ => .bindLift fun _ _ =>
      .bind (.idle rfl rfl rfl rfl rfl rfl) fun _ _ _ _ => .pure fun _ => .unit
  | printStderr =>
    exact .bind .requireUb fun _ _ _ _ => .bindLift fun _ _ =>
      .bind (.idle rfl rfl rfl rfl rfl rfl) fun _ _ _ _ => .pure fun _ => .unit
  | allocate =>
    show Kt pd pd s (fun _ => MiniRust.intrinsicAllocate as rt) _
    unfold intrinsicAllocate
    split
    · exact .bindLift fun _ _ => .bindLift fun _ _ => .bindLift fun _ _ => .bindLift fun _ _ => .bind .requireUb fun _ _ _ _ =>
        .bind (.memAllocate) fun p _ _ hp => .pure fun _ => .widen hp.1
    · exact .throw
  | deallocate =>
    show Kt pd pd s (fun _ => MiniRust.intrinsicDeallocate as rt) _
    unfold intrinsicDeallocate
    split
    · rename_i a _ _
      exact .bindLift fun _ hp => .bindLift fun _ _ => .bindLift fun _ _ => .bindLift fun _ _ => .bindLift fun _ _ =>
        .bind .requireUb fun _ _ g _ =>
        .bind (.memDeallocate ((known_thinPtrArg (ha a (by simp)) hp).mono g.le)) fun p _ _ hp => .pure fun _ => .unit
    · exact .throw
  | spawn =>
    show Kt pd pd s (fun _ => MiniRust.intrinsicSpawn as rt) _
    unfold intrinsicSpawn
    split
    · rename_i f a
      exact .bindRead fun _ _ _ => .bind .requireUb fun _ _ g _ => .bind .requireUb fun _ _ g' _ =>
        .bind (.spawn ((ha a (by simp)).mono (g.le.trans g'.le))) fun _ _ _ _ => .pure fun _ => .int
    · exact .throw
  | join =>
    show Kt pd pd s (fun _ => MiniRust.intrinsicJoin as rt) _
    unfold intrinsicJoin
    split
    · exact .bindLift fun _ _ => .bind .requireUb fun _ _ _ _ => .bind .join fun _ _ _ _ => .pure fun _ => .unit
    · exact .throw
  | rawEq =>
    show Kt pd pd s (fun _ => MiniRust.intrinsicRawEq as rt) _
    unfold intrinsicRawEq
    split
    · rename_i l lt r rt
      refine .bind .requireUb fun _ _ g _ => .bind .requireUb fun _ _ g' _ => ?_
      split
      · rename_i pl pr pt
        exact .bind (.loadRawData ((ha (.ptr pl, .ptr pt) (by simp)).mono (g.le.trans g'.le))) fun _ _ g'' _ =>
          .bind (.loadRawData ((ha (.ptr pr, rt) (by simp)).mono ((g.le.trans g'.le).trans g''.le))) fun _ _ _ _ => .pure fun _ => .bool
      · exact .throw
    · exact .throw
  | atomicStore =>
    show Kt pd pd s (fun _ => MiniRust.intrinsicAtomicStore as rt) _
    unfold intrinsicAtomicStore
    split
    · rename_i a v ty
      refine .bindLift fun p hp => .bindLift fun lay _ => ?_
      split
      · exact .bindLift fun _ _ => .bind .requireUb fun _ _ g _ => .bind .requireUb fun _ _ g' _ =>
          .bind (.typedStore ((known_thinPtrArg (ha a (by simp)) hp).mono (g.le.trans g'.le))
            ((ha (v, ty) (by simp)).mono (g.le.trans g'.le))) fun _ _ _ _ => .pure fun _ => .unit
      · exact .throw
    · exact .throw
  | atomicLoad =>
    show Kt pd pd s (fun _ => MiniRust.intrinsicAtomicLoad as rt) _
    unfold intrinsicAtomicLoad
    split
    · rename_i a
      exact .bindLift fun p hp => .bindLift fun _ _ => .bindLift fun _ _ => .bind .requireUb fun _ _ g _ =>
        .typedLoad ((known_thinPtrArg (ha a (by simp)) hp).mono g.le)
    · exact .throw
  | atomicCompareExchange =>
    show Kt pd pd s (fun _ => MiniRust.intrinsicCompareExchange as rt) _
    unfold intrinsicCompareExchange
    split
    · rename_i a c ct n nt
      refine .bindLift fun p hp => .bind .requireUb fun _ _ g _ => .bind .requireUb fun _ _ g' _ =>
        .bind .requireUb fun _ _ g'' _ => .bindLift fun _ _ => .bindLift fun _ _ => .bind .requireUb fun _ _ g3 _ => ?_
      have le := ((g.le.trans g'.le).trans g''.le).trans g3.le
      have hp' := known_thinPtrArg (ha a (by simp)) hp
      exact .bind (.typedLoad (hp'.mono le)) fun v _ g4 hv =>
        .bind (.storeIf (hp'.mono (le.trans g4.le)) ((ha (n, nt) (by simp)).mono (le.trans g4.le))) fun _ _ g5 _ =>
        .pure fun _ => hv.mono g5.le
    · exact .throw
  | atomicFetchAndOp op =>
    show Kt pd pd s (fun _ => MiniRust.intrinsicFetchAndOp op as rt) _
    unfold intrinsicFetchAndOp
    split
    · rename_i a o ot
      refine .bindLift fun p hp => .bind .requireUb fun _ _ g _ => ?_
      split
      · refine .bindLift fun _ _ => .bindLift fun _ _ => .bind .requireUb fun _ _ g3 _ => ?_
        have le := g.le.trans g3.le
        have hp' := known_thinPtrArg (ha a (by simp)) hp
        refine .bind (.typedLoad (hp'.mono le)) fun v _ g4 hv => .bindLift fun nx hnx =>
          .bind (.typedStore (hp'.mono (le.trans g4.le)) ?_) fun _ _ g5 _ => .pure fun _ => hv.mono g5.le
        unfold fetchOpResult at hnx
        split at hnx
        · simp only [Res.bind_eq_ok, Except.ok.injEq] at hnx
          obtain ⟨_, _, rfl⟩ := hnx
          exact .int
        · cases hnx
      · exact .throw
    · exact .throw
  | lock op => exact .intrinsicLock
  | pointerExposeProvenance =>
    show Kt pd pd s (fun _ => MiniRust.intrinsicExpose as rt) _
    unfold intrinsicExpose
    split
    · rename_i a
      refine .bindLift fun p hp => .bind .requireUb fun _ _ g _ => .bind (R := fun _ _ => True) (.modify fun hs => ⟨.ctl (hs.expose ?_) rfl (.threads rfl rfl), trivial⟩) fun _ _ _ _ => .pure fun _ => .int
      exact (known_thinPtrArg (ha a (by simp)) hp).mono g.le
    · exact .throw
  | pointerWithExposedProvenance =>
    show Kt pd pd s (fun _ => MiniRust.intrinsicWithExposed as rt) _
    unfold intrinsicWithExposed
    split
    · refine .bindLift fun p hp => .bind .requireUb fun _ _ g _ => .bind (.popProv (R := fun _ _ => True) fun _ _ => trivial) fun q s1 _ _ =>
        .bindRead fun hs r hr => .pure fun _ => .widen ?_
      intro x hx
      cases q with
      | none => simp [IntPtrCast.int2ptr] at hr; subst hr; cases hx
      | some q =>
        simp only [IntPtrCast.int2ptr, decide_eq_true_eq] at hr
        split at hr
        · cases hr
          cases hx
          exact hs.exposed _ ‹_›
        · cases hr
    · exact .throw
  | getUnwindPayload =>
    show Kt pd pd s (fun _ => MiniRust.intrinsicGetUnwindPayload as rt) _
    unfold intrinsicGetUnwindPayload
    refine .bind .requireUb fun _ _ g _ => .bind .requireUb fun _ _ g' _ => .bindRead fun hs t ht => ?_
    split
    · exact .throw
    · rename_i p ps e
      exact .pure fun _ => .widen ((hs.active ht).payloads p (by rw [e]; simp))

theorem Kt.pushPayload {p : ThinPtr TBProv} (h : PK s.mem.memory p) :
    Kt pd pd s (fun _ => MiniRust.pushPayload p) (fun _ _ => True) := by
  unfold MiniRust.pushPayload
  refine .bindRead fun hs t ht => .modify fun _ => ⟨.setThread hs (getActive_eq_ok.1 ht) (t' := { t with unwindPayloads := p :: t.unwindPayloads }) ⟨(hs.active ht).stack, fun q hq => ?_⟩ (.refl _) rfl, trivial⟩
  rcases List.mem_cons.1 hq with rfl | hq
  · exact h
  · exact (hs.active ht).payloads q hq

theorem Kt.popPayload : Kt pd pd s (fun _ => MiniRust.popPayload) (fun _ _ => True) := by
  unfold MiniRust.popPayload
  refine .bindRead fun hs t ht => ?_
  split
  · exact .throw
  · rename_i p ps e
    exact .modify fun _ => ⟨.setThread hs (getActive_eq_ok.1 ht) (t' := { t with unwindPayloads := ps }) ⟨(hs.active ht).stack, fun q hq => (hs.active ht).payloads q (by rw [e]; simp [hq])⟩ (.refl _) rfl, trivial⟩

theorem Kt.evalTerminator {t : Terminator} : Kt pd pd s (fun _ => MiniRust.evalTerminator t) (fun _ _ => True) := by
  cases t with
  | goto b => exact .jumpToBlock
  | switch v c f => exact .bind (.evalValue v s) fun ⟨v, _⟩ _ _ _ => .bindLift fun _ _ => .jumpToBlock
  | unreachable => exact .throw
  | call callee conv args ret nb ub =>
    exact .bind (.evalPlace ret s) fun ⟨p, ty⟩ s1 g1 hp => .bind (.prepare hp) fun _ s2 g2 _ =>
      .bind (.evalValue callee s2) fun ⟨v, _⟩ s3 g3 _ => .bindRead fun _ f _ =>
      .bind (.evalArguments args s3) fun as s4 g4 ha =>
      .evalCall (VK.mono ((g2.le.trans g3.le).trans g4.le) hp) ha
  | «return» => exact .evalReturn
  | startUnwind p b =>
    refine .bind (.evalValue p s) fun v s1 _ hv => .bindLift fun q hq => .bind (.pushPayload ?_) fun _ _ _ _ => .jumpToBlock
    unfold unwindPayload at hq
    split at hq <;> cases hq
    exact VK.thin hv
  | stopUnwind b => exact .bind .popPayload fun _ _ _ _ => .jumpToBlock
  | resumeUnwind => exact .evalResumeUnwind
  | «intrinsic» op args ret nb =>
    exact .bind (.evalPlace ret s) fun ⟨p, ty⟩ s1 g1 hp => .bind (.evalValues args s1) fun as s2 g2 ha =>
      .bind (.evalIntrinsic ha) fun v s3 g3 hv => .bind (.placeStore (VK.mono (g2.le.trans g3.le) hp) hv) fun _ _ _ _ =>
      .jumpOrUb

theorem Kt.bumpStmt : Kt pd pd s (fun _ => MiniRust.bumpStmt) (fun _ _ => True) :=
  .mutateCurFrame (fun _ _ _ _ h => h) fun _ fr _ hf => .pure fun _ => ⟨trivial, ⟨hf.locals, hf.action⟩, rfl, rfl, rfl⟩

theorem Kt.execStep : Kt pd pd s (fun _ => MiniRust.execStep) (fun _ _ => True) := by
  unfold MiniRust.execStep
  exact .bindRead fun _ fr _ => .bindLift fun b _ => .ite (fun _ => .evalTerminator) fun _ => .bindLift fun st _ =>
    .bind (.evalStatement) fun _ _ _ _ => .bumpStmt

theorem Kt.step : Kt pd pd s (fun _ => MiniRust.step) (fun _ _ => True) := by
  unfold MiniRust.step
  refine .bindRead fun _ e _ => .ite (fun _ => .throw) fun _ => .bind (pd1 := pd) (R := fun _ _ => True) (.plain fun hs a s' h => ?_) fun ⟨x, y⟩ s1 _ _ =>
    .bind (pd1 := pd) (R := fun _ _ => True) ?_ fun _ s2 _ _ => .bind (.execStep) fun _ s3 _ _ => .read fun _ _ _ => trivial
  · cases h
    exact ⟨.idle hs rfl rfl rfl rfl rfl rfl, trivial⟩
  · refine .bind (.popInt (R := fun _ _ => True) fun _ _ _ _ _ => trivial) fun i s3 _ _ => .plain fun hs a s' h => ?_
    split at h
    · cases h
    · split at h
      · cases h
        exact ⟨.idle hs rfl rfl rfl rfl rfl rfl, trivial⟩
      · cases h

/-! ### Initialisation -/

/-- Nothing was borrowed from the static allocations. -/
def FreshGlobals (s : Mach) : Prop := ∀ x ∈ s.globalPtrs, Fresh s.mem.memory x.2

theorem Kt.allocGlobals : ∀ (gs) (s : Mach), FreshGlobals s → Kt pd pd s (fun _ => MiniRust.allocGlobals gs) (fun _ s' => FreshGlobals s')
  | [], s, h => .pure fun _ => h
  | (n, g) :: gs, s, h => by
    unfold MiniRust.allocGlobals
    refine .bind (.memAllocateFresh) fun p s1 _ hp => .bind (R := fun _ s' => FreshGlobals s') (.modify fun hs => ⟨.ctl ?_ rfl (.threads rfl rfl), ?_⟩)
      fun _ s2 _ h => Kt.allocGlobals gs s2 h
    · refine ⟨hs.reach, hs.mem, hs.exposed, fun x hx => ?_, hs.fns, hs.vtables, hs.threads⟩
      rcases Map.mem_insert_of hx with rfl | hx
      · exact hp.1.1
      · exact hs.globals x hx
    · intro x hx
      rcases Map.mem_insert_of hx with rfl | hx
      · exact hp.2.2.1
      · rw [hp.2.2.2] at hx
        exact (h x hx).mono hp.2.1

theorem Kt.allocFunctions : ∀ (gs) (s : Mach), Kt pd pd s (fun _ => MiniRust.allocFunctions gs) (fun _ _ => True)
  | [], s => .pure fun _ => trivial
  | n :: gs, s => by
    unfold MiniRust.allocFunctions
    refine .bind (.memAllocate) fun p s1 _ hp => .bind (R := fun _ _ => True) (.modify fun hs => ⟨.ctl ?_ rfl (.threads rfl rfl), trivial⟩) fun _ s2 _ _ => Kt.allocFunctions gs s2
    refine ⟨hs.reach, hs.mem, hs.exposed, hs.globals, fun x hx => ?_, hs.vtables, hs.threads⟩
    rcases Map.mem_insert_of hx with rfl | hx
    · exact hp.1
    · exact hs.fns x hx

theorem Kt.allocVTables : ∀ (gs) (s : Mach), Kt pd pd s (fun _ => MiniRust.allocVTables gs) (fun _ _ => True)
  | [], s => .pure fun _ => trivial
  | n :: gs, s => by
    unfold MiniRust.allocVTables
    refine .bind (.memAllocate) fun p s1 _ hp => .bind (R := fun _ _ => True) (.modify fun hs => ⟨.ctl ?_ rfl (.threads rfl rfl), trivial⟩) fun _ s2 _ _ => Kt.allocVTables gs s2
    refine ⟨hs.reach, hs.mem, hs.exposed, hs.globals, hs.fns, fun x hx => ?_, hs.threads⟩
    rcases Map.mem_insert_of hx with rfl | hx
    · exact hp.1
    · exact hs.vtables x hx

theorem known_relocate (hs : Wf pd s) : ∀ (rs) (bs bs' : List (AByte TBProv)), BK s.mem.memory bs →
    s.relocate rs bs = .ok bs' → BK s.mem.memory bs'
  | [], bs, bs', h, e => by cases e; exact h
  | (i, r) :: rs, bs, bs', h, e => by
    simp only [Machine.relocate, Res.bind_eq_ok] at e
    obtain ⟨p, hp, pb, hpb, b1, hb1, e⟩ := e
    refine known_relocate hs rs b1 bs' ?_ e
    intro q hq
    rcases ProvInBytes.write hb1 hq with hq | hq
    · exact h q hq
    · exact (hs.getGlobal hp).offset q (encodePtr_prov hpb hq)

theorem Kt.fillGlobals : ∀ (gs) (s : Mach), FreshGlobals s → Kt pd pd s (fun _ => MiniRust.fillGlobals gs) (fun _ _ => True)
  | [], s, _ => .pure fun _ => trivial
  | (n, g) :: gs, s, h => by
    unfold MiniRust.fillGlobals
    refine .bindRead fun hs bs hb => .bindRead fun _ p hp =>
      .bind (.memStoreFresh (h _ (Map.get?_mem (Map.get_eq_ok.1 hp))) ?_) fun _ s1 _ e =>
      Kt.fillGlobals gs s1 (by rw [e.1]; exact fun x hx => (h x hx).mono e.2)
    refine known_relocate hs _ _ _ ?_ hb
    rintro q ⟨b, hb, i, hi⟩
    obtain ⟨x, _, rfl⟩ := List.mem_map.1 hb
    cases x <;> cases hi

theorem Kt.initMachine {prog} (h : FreshGlobals s) : Kt pd pd s (fun _ => MiniRust.initMachine prog) (fun _ _ => True) := by
  unfold MiniRust.initMachine
  exact .bind (.allocGlobals _ _ h) fun _ _ _ h => .bind (.fillGlobals _ _ h) fun _ _ _ _ =>
    .bind (.allocFunctions _ _) fun _ _ _ _ => .bind (.allocVTables _ _) fun _ _ _ _ => .bindLift fun f _ =>
    .bind (.newThread fun _ h => by cases h) fun _ _ _ _ => .pure fun _ => trivial


end TB
end MiniRust
