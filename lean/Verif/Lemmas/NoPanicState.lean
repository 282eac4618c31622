import Verif.Lemmas.NoPanicExpr
import Verif.Lemmas.Unwind
/-
Reachable states are ready for evaluation, and validity of values survives stores and allocations.
-/
set_option linter.unusedSectionVars false
namespace MiniRust
variable {M PE AE F : Type} [T : Target] [DecidableEq PE] [Memory M (AllocId × PE) F] [LawfulTarget T]
  [SoftMem M (AllocId × PE) F] [RawRetag M (AllocId × PE) F] [B : BasicBacked M PE AE F]
variable {s s' s1 s2 : Machine M (AllocId × PE) F} {prog : Program} {fn : Function}

/-- No allocation moves, changes its size or its liveness; there may be new ones. -/
structure Keep (s s' : Machine M (AllocId × PE) F) : Prop where
  prog : s'.prog = s.prog
  vtables : s'.vtablePtrs = s.vtablePtrs
  allocs : ∀ (id : Nat) (a : Alloc PE AE), (allocs (B := B) s.mem)[id]? = some a → ∃ a' : Alloc PE AE, (allocs (B := B) s'.mem)[id]? = some a' ∧
    a'.live = a.live ∧ a'.addr = a.addr ∧ a'.data.length = a.data.length

include B

theorem Keep.refl : Keep s s := ⟨rfl, rfl, fun _ a h => ⟨a, h, rfl, rfl, rfl⟩⟩
theorem Keep.trans (h : Keep s s1) (h' : Keep s1 s2) : Keep s s2 := by
  refine ⟨h'.prog.trans h.prog, h'.vtables.trans h.vtables, fun id a ha => ?_⟩
  obtain ⟨b, hb, e1, e2, e3⟩ := h.allocs id a ha
  obtain ⟨c, hc, e4, e5, e6⟩ := h'.allocs id b hb
  exact ⟨c, hc, e4.trans e1, e5.trans e2, e6.trans e3⟩

theorem Keep.cnt (h : Keep s s') : cnt s ≤ cnt s' := by
  by_cases h0 : MiniRust.cnt s = 0
  · omega
  · have hlt : MiniRust.cnt s - 1 < (MiniRust.allocs (B := B) s.mem).length := by
      show _ < MiniRust.cnt s; omega
    obtain ⟨b, hb, _⟩ := h.allocs _ _ (List.getElem?_eq_getElem hlt)
    have := (List.getElem?_eq_some_iff.1 hb).1
    have e : (MiniRust.allocs (B := B) s'.mem).length = MiniRust.cnt s' := rfl
    omega

theorem Keep.ofMem {m : ConcMem M} {o} (h : ∀ (id : Nat) (a : Alloc PE AE), (MiniRust.allocs (B := B) s.mem)[id]? = some a → ∃ a' : Alloc PE AE, (MiniRust.allocs (B := B) m)[id]? = some a' ∧
    a'.live = a.live ∧ a'.addr = a.addr ∧ a'.data.length = a.data.length) : Keep s { s with mem := m, oracle := o } := ⟨rfl, rfl, h⟩

theorem Keep.ofSame (h : SameAllocs (B := B) s.mem s'.mem) (hp : s'.prog = s.prog) (hv : s'.vtablePtrs = s.vtablePtrs) : Keep s s' := by
  refine ⟨hp, hv, fun id a ha => ?_⟩
  obtain ⟨h1, h2⟩ := h
  have hlt := (List.getElem?_eq_some_iff.1 ha).1
  have hb : (MiniRust.allocs (B := B) s'.mem)[id]? = some _ := List.getElem?_eq_getElem (by
    show _ < (B.mem s'.mem.memory).allocations.length
    rw [← h1]; exact hlt)
  obtain ⟨e1, e2, e3, e4, e5⟩ := h2 id a _ ha hb
  exact ⟨_, hb, e5.symm, e2.symm, by rw [e1]⟩

theorem Keep.ofExpr {α : Type} {x : EM M (AllocId × PE) F α} (ht : Tri Soft (ExprRel (SameAllocs (B := B))) x) {a : α}
    (h : x s = .ok (a, s')) : Keep s s' := by
  have h1 := ht.ok _ _ _ h
  exact .ofSame h1.mem (by rw [h1.rest]) (by rw [h1.rest])

theorem Keep.store {p : ThinPtr (AllocId × PE)} {bs al at' u} (h : memStore p bs al at' s = .ok (u, s')) : Keep s s' := by
  unfold MiniRust.memStore at h
  simp only [Res.bind_eq_ok, Except.ok.injEq, Prod.mk.injEq] at h
  obtain ⟨m, h, _, rfl⟩ := h
  obtain ⟨mm, h1, rfl⟩ := ConcMem.store_eq_ok.1 h
  obtain ⟨hx, e⟩ := B.store s.mem.memory p bs al
  rw [h1] at e
  have e' : (B.mem s.mem.memory).store p bs al hx = .ok (B.mem mm) := e.symm
  rw [BasicMem.store_eq_ok] at e'
  refine ⟨rfl, rfl, fun i x hx => ?_⟩
  obtain ⟨_, ⟨_, e'⟩ | ⟨_, id, pe, a, off, extra, data, hp, ha, hl, h3, h4, hx', hw, e'⟩⟩ := e'
  · refine ⟨x, ?_, rfl, rfl, rfl⟩
    show (B.mem mm).allocations[i]? = _
    rw [e']; exact hx
  · have hlt := (List.getElem?_eq_some_iff.1 ha).1
    have e2 : ∀ ac, MiniRust.allocs (B := B) (⟨mm, ac⟩ : ConcMem M) = (MiniRust.allocs (B := B) s.mem).set id { a with extra := extra, data := data } := by
      intro ac; show (B.mem mm).allocations = _; rw [e']; rfl
    by_cases hi : id = i
    · subst hi
      have hxa : a = x := by
        have hx' : (B.mem s.mem.memory).allocations[id]? = some x := hx
        rw [ha] at hx'; cases hx'; rfl
      subst hxa
      refine ⟨{ a with extra := extra, data := data }, ?_, rfl, rfl, ?_⟩
      · rw [e2]; exact List.getElem?_set_self hlt
      · exact writeSubslice_length hw
    · refine ⟨x, ?_, rfl, rfl, rfl⟩
      rw [e2, List.getElem?_set_ne hi]; exact hx

theorem Keep.allocate {k n a} {p : ThinPtr (AllocId × PE)} (h : memAllocate k n a s = .ok (p, s')) : Keep s s' := by
  obtain ⟨m, o, ae, rfl, _, e⟩ := memAllocate_allocs (B := B) h
  refine .ofMem fun i x hx => ⟨x, ?_, rfl, rfl, rfl⟩
  rw [e, List.getElem?_append_left (List.getElem?_eq_some_iff.1 hx).1]; exact hx

theorem Keep.endCall {f : F} {u} (h : memEndCall f s = .ok (u, s')) : Keep s s' := by
  unfold memEndCall at h
  simp only [Res.bind_eq_ok, Except.ok.injEq, Prod.mk.injEq] at h
  obtain ⟨m, h, _, rfl⟩ := h
  simp only [ConcMem.endCall, Res.bind_eq_ok, Except.ok.injEq] at h
  obtain ⟨mm, h, rfl⟩ := h
  exact .ofSame (B.endCall _ _ _ h) rfl rfl

theorem Keep.typedStore {p : ThinPtr (AllocId × PE)} {v ty al at' u} (h : typedStore p v ty al at' s = .ok (u, s')) : Keep s s' := by
  unfold MiniRust.typedStore at h
  simp only [EM.bind_eq_ok, EM.read_eq_ok] at h
  obtain ⟨bs, _, ⟨_, rfl⟩, h⟩ := h
  exact .store h

theorem Keep.vtableAt (k : Keep s s') {p v} (h : s.VTableAt p v) : s'.VTableAt p v := by
  obtain ⟨n, h2, h3⟩ := h
  exact ⟨n, by rw [k.vtables]; exact h2, by rw [k.prog]; exact h3⟩

theorem Keep.metaOk (he : Keep s s') {k m} (h : s.MetaOk k m) : s'.MetaOk k m := by
  cases k with
  | none => exact h
  | elementCount => exact h
  | vtablePointer t =>
    obtain ⟨p, v, h1, h2, h4⟩ := h
    exact ⟨p, v, h1, he.vtableAt h2, h4⟩

theorem Keep.accessible (k : Keep s s') {h h' : MemHistory PE} (hm : MemReach (F := F) h s.mem.memory)
    (hm' : MemReach (F := F) h' s'.mem.memory) {p : ThinPtr (AllocId × PE)} {n} (ha : Accessible h p n) : Accessible h' p n := by
  obtain ⟨id, i, h1, h2, h3, h4⟩ := ha
  obtain ⟨a, e1, e2, rfl⟩ := (live_iff hm).1 h2
  obtain ⟨b, e3, e4, e5, e6⟩ := k.allocs id a e1
  refine ⟨id, b.info, h1, (live_iff hm').2 ⟨b, e3, by rw [e4]; exact e2, rfl⟩, ?_, ?_⟩
  · show b.addr ≤ _
    rw [e5]; exact h3
  · show _ ≤ b.addr + ((b.data.length : Nat) : Int)
    rw [e5, e6]; exact h4

omit B in
theorem PointeeLayout.keep {V V' : ThinPtr (AllocId × PE) → VTable → Prop} (hv : ∀ p v, V p v → V' p v) {l : LayoutStrategy} {m} {n a}
    (h : PointeeLayout V l m n a) : PointeeLayout V' l m n a := by
  induction h with
  | sized => exact .sized
  | slice => exact .slice
  | traitObject h => exact .traitObject (hv _ _ h)
  | tuple h ih => exact .tuple ih

/-- Validity only depends on the pointers of the type. -/
theorem ValidValue.transfer {h h' : MemHistory PE} {ty : Ty} {v : Value (AllocId × PE)} (hv : s.ValidValue h ty v)
    (hD : ∀ p ptr, Component (.ptr p) ty → s.ValidPtr h ptr p → s'.ValidPtr h' ptr p) : s'.ValidValue h' ty v := by
  induction hv with
  | int h => exact .int h
  | bool => exact .bool
  | ptr h => exact .ptr (hD _ _ .refl h)
  | tuple h1 _ ih =>
    exact .tuple h1 fun i off ty v h2 h3 => ih i off ty v h2 h3 fun p ptr hc hp => hD p ptr (.field (List.mem_of_getElem? h2) hc) hp
  | array h1 _ ih =>
    exact .array h1 fun v h2 => ih v h2 fun p ptr hc hp => hD p ptr (.elem hc) hp
  | union h => exact .union h
  | variant h1 _ ih =>
    exact .variant h1 (ih fun p ptr hc hp => hD p ptr (.variant (Map.get?_mem h1) hc) hp)

theorem Keep.validPtr (k : Keep s s') {h h' : MemHistory PE} (hm : MemReach (F := F) h s.mem.memory)
    (hm' : MemReach (F := F) h' s'.mem.memory) {p : Pointer (AllocId × PE)} {ty} (hv : s.ValidPtr h p ty) : s'.ValidPtr h' p ty := by
  obtain ⟨h1, h2, h3, h4⟩ := hv
  refine ⟨h1, h2, k.metaOk h3, ?_⟩
  have hs : ∀ {x}, s.SafePtr h x p → s'.SafePtr h' x p := by
    rintro x ⟨n, a, h1, h2, h3, h4, h5, h6⟩
    exact ⟨n, a, h1.keep fun _ _ => k.vtableAt, h2, h3, h4, h5, h6.imp_right (k.accessible hm hm')⟩
  cases ty with
  | ref _ x => exact hs h4
  | box x => exact hs h4
  | raw => trivial
  | fnPtr => trivial
  | vtablePtr t => obtain ⟨v, h5, h6⟩ := h4; exact ⟨v, k.vtableAt h5, h6⟩

theorem Keep.valid (k : Keep s s') (hb : Base prog s) (hb' : Base prog s') {ty v} (h : checkValue s.valEnv ty v = .ok ()) :
    checkValue s'.valEnv ty v = .ok () := by
  obtain ⟨h0, hm⟩ := hb.mem
  obtain ⟨h1, hm'⟩ := hb'.mem
  rw [checkValue_iff hb.vt hm] at h
  rw [checkValue_iff hb'.vt hm']
  exact ValidValue.transfer h fun p ptr _ hp => k.validPtr hm hm' hp

/-- Values without references and boxes stay valid even if memory is deallocated. -/
theorem valid_detached (hb : Base prog s) (hb' : Base prog s') (hp : s'.prog = s.prog) (hv : s'.vtablePtrs = s.vtablePtrs) {ty v}
    (hn : ∀ p, Component (.ptr p) ty → p.safePointee = none) (h : checkValue s.valEnv ty v = .ok ()) :
    checkValue s'.valEnv ty v = .ok () := by
  obtain ⟨h0, hm⟩ := hb.mem
  obtain ⟨h1, hm'⟩ := hb'.mem
  rw [checkValue_iff hb.vt hm] at h
  rw [checkValue_iff hb'.vt hm']
  refine ValidValue.transfer h fun p ptr hc hval => ?_
  obtain ⟨h1, h2, h3, h4⟩ := hval
  have hvt : ∀ {q v}, s.VTableAt q v → s'.VTableAt q v := by
    rintro q v ⟨n, h2, h3⟩
    exact ⟨n, by rw [hv]; exact h2, by rw [hp]; exact h3⟩
  refine ⟨h1, h2, ?_, ?_⟩
  · revert h3
    generalize p.metaKind = k
    cases k with
    | none => exact fun h => h
    | elementCount => exact fun h => h
    | vtablePointer t =>
      rintro ⟨p, v, h1, h2, h4⟩
      exact ⟨p, v, h1, hvt h2, h4⟩
  · have := hn p hc
    cases p with
    | ref _ x => cases this
    | box x => cases this
    | raw => trivial
    | fnPtr => trivial
    | vtablePtr t => obtain ⟨v, h5, h6⟩ := h4; exact ⟨v, hvt h5, h6⟩

theorem ValueOk.keep {ty r} (h : ValueOk prog s ty r) (k : Keep s s') (hb : Base prog s) (hb' : Base prog s') : ValueOk prog s' ty r :=
  ⟨h.isTy, h.wf, k.valid hb hb' h.valid, h.known.mono made_caps k.cnt⟩
theorem PlaceOk.keep {ty r} (h : PlaceOk prog s ty r) (k : Keep s s') : PlaceOk prog s' ty r :=
  ⟨h.isTy, h.wf, h.space, k.metaOk h.metadata, VK.mono made_caps k.cnt h.known⟩

/-! ### Readiness -/

theorem Base.ofQuiet {α : Type} {x : EM M (AllocId × PE) F α} {R : α → Nat → Prop} {a : α}
    (hq : Tri Soft (Quiet (HistRel (PE := PE) F)) x) (hk : Kt made 0 s x R) (hr : Base prog s) (h : x s = .ok (a, s')) :
    Base prog s' ∧ R a (cnt s') ∧ cnt s ≤ cnt s' := by
  obtain ⟨g, hR⟩ := hk hr.known a s' h
  have q := hq.ok _ _ _ h
  obtain ⟨hist, hrun, -⟩ := q.mem
  obtain ⟨h0, hm⟩ := hr.mem
  refine ⟨⟨q.prog.trans hr.isProg, g.known, ⟨_, hm.append hrun⟩, hr.vt.congr q.prog q.vtables, ?_, ?_, ?_, ?_⟩, hR, g.le⟩
  · rw [q.globals]; exact hr.globals
  · rw [q.fns]; exact hr.fns
  · rw [q.fns]; exact hr.fnsOnly
  · rw [q.vtables]; exact hr.vtables

/-- The same for the frame. -/
def HasFrame (fn : Function) (s : Machine M (AllocId × PE) F) : Prop :=
  ∃ fr, s.curFrame = .ok fr ∧ fr.func = fn ∧ ∀ x ∈ fr.locals, InSpace x.2

theorem HasFrame.ofSteady (hf : HasFrame fn s) (h : Steady (B := B) s s') : HasFrame fn s' := by
  obtain ⟨fr, e1, e2, e3⟩ := hf
  obtain ⟨t, rest, k1, k2⟩ := curFrame_eq_ok.1 e1
  obtain ⟨t', e, k3, k4, _⟩ := h.top k1 k2
  exact ⟨_, curFrame_eq_ok.2 ⟨t', rest, k3, k4⟩, e2, e3⟩

theorem Ready.ofSteady {α : Type} {x : EM M (AllocId × PE) F α} {R : α → Nat → Prop} {a : α}
    (hq : Tri Soft (Quiet (HistRel (PE := PE) F)) x) (hs : Tri Soft (Steady (B := B)) x) (hk : Kt made 0 s x R)
    (hr : Ready prog fn s) (h : x s = .ok (a, s')) : Ready prog fn s' ∧ R a (cnt s') ∧ cnt s ≤ cnt s' := by
  obtain ⟨hb, hR, hc⟩ := Base.ofQuiet hq hk hr.toBase h
  exact ⟨⟨hb, HasFrame.ofSteady hr.frame (hs.ok _ _ _ h)⟩, hR, hc⟩

theorem slot_inSpace {h : MemHistory PE} (hm : MemReach (F := F) h s.mem.memory) {sl : Slot PE}
    (hs : SlotOk (allocs (B := B) s.mem) sl) : InSpace sl.ptr := by
  obtain ⟨ty, n, a, id, x, _, _, _, hx, _, e1, e2, _, e3⟩ := hs
  obtain ⟨h1, _, h2, _⟩ := C16_placement hm ((live_iff hm).2 ⟨x, hx, e3, rfl⟩)
  simp only [Alloc.info] at h1 h2
  constructor
  · rw [← e1]; exact h1.le
  · rw [← e1]
    have h3 : (0 : Int) ≤ (x.data.length : Nat) := Int.natCast_nonneg _
    have : x.addr ≤ x.addr + ((x.size : Nat) : Int) := by unfold Alloc.size; omega
    exact lt_of_le_of_lt this h2

theorem Reachable.base (hu : prog.KeysUnique) (hr : Reachable prog s) : Base prog s := by
  obtain ⟨h, hm⟩ := hr.memReach
  have sp := C55_statics_placed hu hr hm
  refine ⟨(Reachable.frames (B := B) hr).eq, hr.known, ⟨h, hm⟩, vtablesOk_of_reachable hu hr, fun x g hg => ?_, fun x f hf => ?_,
    fun x hx => ?_, fun x v hv => ?_⟩
  · obtain ⟨p, hp, _⟩ := sp.globals.has x _ _ ⟨g, hg, rfl, rfl⟩
    exact ⟨p, hp⟩
  · obtain ⟨p, hp, id, h1, h2⟩ := sp.functions.has x _ _ ⟨List.mem_map.2 ⟨_, Map.get?_mem hf, rfl⟩, rfl, rfl⟩
    refine ⟨p, hp, ?_⟩
    obtain ⟨h3, _, h4, _⟩ := C16_placement hm h2
    simp only at h3 h4
    constructor
    · omega
    · simpa using h4
  · obtain ⟨_, n, a, h1, _⟩ := sp.functions.only x.1 x.2 hx
    exact Map.get?_isSome_of_key h1
  · obtain ⟨p, hp, _⟩ := sp.vtables.has x _ _ ⟨List.mem_map.2 ⟨_, Map.get?_mem hv, rfl⟩, rfl, rfl⟩
    exact ⟨p, hp⟩

/-- The state after scheduling a thread. -/
theorem Base.schedule (hb : Base prog s) {a : Nat} {r} : Base prog (s.schedule a r) := by
  have e : (s.schedule a r).mem.memory = s.mem.memory := rfl
  refine ⟨hb.isProg, ?_, hb.mem, hb.vt.congr rfl rfl, hb.globals, hb.fns, hb.fnsOnly, hb.vtables⟩
  obtain ⟨h1, h2, h3, h4, h5, h6, h7⟩ := hb.known
  exact ⟨h1, h2, h3, h4, h5, h6, h7⟩

theorem Reachable.ready (hu : prog.KeysUnique) (hr : Reachable prog s) {a : Nat} {r t f rest} (ht : s.threads[a]? = some t)
    (hs : t.stack = f :: rest) : Ready prog f.func (s.schedule a r) := by
  refine ⟨(Reachable.base hu hr).schedule, f, curFrame_eq_ok.2 ⟨t, rest, ht, hs⟩, rfl, fun x hx => ?_⟩
  obtain ⟨h, hm⟩ := hr.memReach
  have hi := (Reachable.frames (B := B) hr).storage
  refine slot_inSpace (s := s) hm (sl := ⟨f.func, x.1, x.2⟩) (hi.1.ok _ ?_)
  refine List.mem_flatMap.2 ⟨t, List.mem_of_getElem? ht, ?_⟩
  rw [hs]
  refine List.mem_flatMap.2 ⟨f, by simp, List.mem_map.2 ⟨x, hx, rfl⟩⟩

end MiniRust
