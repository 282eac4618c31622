import Verif.Lemmas.FootMem
import Verif.Lemmas.ExprRel
/-
Computations on machines whose memories agree on what is read.
-/
set_option linter.unusedSectionVars false
namespace MiniRust

section
variable [T : Target] {M PE AE F α β : Type} [Memory M (AllocId × PE) F] [K : BasicBacked M PE AE F] [DecidableEq PE]

/-- The machines agree on the addresses in `B` and on those written since the accesses were last reset. If
`solo` holds, they need to agree only on what a computation of the active thread can use that does not
involve other threads, locks, output, exposed provenance and choices. -/
structure Look (B : Int → Prop) (solo : Prop) (s t : Machine M (AllocId × PE) F) : Prop where
  mem : MemAgree (fun x => B x ∨ WrittenAt s.mem.accesses x) (K.mem s.mem.memory) (K.mem t.mem.memory)
  acc : t.mem.accesses = s.mem.accesses
  reach : ∃ h : MemHistory PE, MemReach h s.mem.memory
  prog : t.prog = s.prog
  globals : t.globalPtrs = s.globalPtrs
  fns : t.fnPtrs = s.fnPtrs
  vtables : t.vtablePtrs = s.vtablePtrs
  active : t.activeThread = s.activeThread
  thread : t.threads[s.activeThread]? = s.threads[s.activeThread]?
  full : ¬ solo → t = { s with mem := t.mem }

/-- The effect of what a thread does on its own: it keeps the other threads and the rest of the machine, and
neither allocates nor deallocates memory. -/
structure Own (s s' : Machine M (AllocId × PE) F) : Prop where
  rest : s' = { s with mem := s'.mem, threads := s'.threads }
  length : s'.threads.length = s.threads.length
  threads : ∀ i, i ≠ s.activeThread → s'.threads[i]? = s.threads[i]?
  live : (K.mem s'.mem.memory).allocations.map (·.live) = (K.mem s.mem.memory).allocations.map (·.live)

theorem Own.refl (s : Machine M (AllocId × PE) F) : Own s s := ⟨rfl, rfl, fun _ _ => rfl, rfl⟩

theorem Own.trans {s s' s'' : Machine M (AllocId × PE) F} (h1 : Own s s') (h2 : Own s' s'') : Own s s'' :=
  ⟨by rw [h2.rest, h1.rest], by rw [h2.length, h1.length],
    fun i hi => by rw [h2.threads i (by rw [h1.rest]; exact hi), h1.threads i hi], by rw [h2.live, h1.live]⟩

theorem Own.ofMem {s : Machine M (AllocId × PE) F} {m : ConcMem M}
    (h : (K.mem m.memory).allocations.map (·.live) = (K.mem s.mem.memory).allocations.map (·.live)) :
    Own s { s with mem := m } := ⟨rfl, rfl, fun _ _ => rfl, h⟩

/-- The computation only adds accesses; if `solo` holds, it is one of a thread on its own; and from machines
that agree on what it reads, it does the same. -/
structure Loc (B : Int → Prop) (solo : Prop) (x : EM M (AllocId × PE) F α) : Prop where
  grow : ∀ s a s', x s = .ok (a, s') → s.mem.accesses <+: s'.mem.accesses
  own : solo → ∀ s a s', x s = .ok (a, s') → Own s s'
  sim : ∀ s t a s', Look B solo s t → x s = .ok (a, s') → (∀ y, ReadAt s'.mem.accesses y → B y) →
    ∃ t', x t = .ok (a, t') ∧ Look B solo s' t'

variable {B : Int → Prop} {solo : Prop} {s t : Machine M (AllocId × PE) F}

theorem ReadAt.mono {as bs : List Access} (h : as <+: bs) {y : Int} (hl : ReadAt as y) : ReadAt bs y := by
  obtain ⟨a, ha, h1, h2⟩ := hl
  exact ⟨a, h.subset ha, h1, h2⟩

theorem WrittenAt.mono {as bs : List Access} (h : as <+: bs) {y : Int} (hl : WrittenAt as y) : WrittenAt bs y := by
  obtain ⟨a, ha, h1, h2⟩ := hl
  exact ⟨a, h.subset ha, h1, h2⟩

/-! ### Which allocations are live -/

theorem SameData.live {m m' : BasicMem PE AE} (h : SameData m m') :
    m'.allocations.map (·.live) = m.allocations.map (·.live) := by
  apply List.ext_getElem?
  intro i
  simp only [List.getElem?_map]
  cases h1 : m.allocations[i]? with
  | none =>
    have : m'.allocations[i]? = none := by
      rw [List.getElem?_eq_none_iff] at h1 ⊢
      rw [← h.1]; exact h1
    rw [this]
  | some a =>
    have hi : i < m'.allocations.length := by rw [← h.1]; exact (List.getElem?_eq_some_iff.1 h1).1
    rw [List.getElem?_eq_getElem hi]
    have := h.2 i a _ h1 (List.getElem?_eq_getElem hi)
    simp only [Option.map_some, this.2.2.2.2]

omit [DecidableEq PE] T in
theorem live_set {l : List (Alloc PE AE)} {i : Nat} {a b : Alloc PE AE} (h : l[i]? = some a) (hb : b.live = a.live) :
    (l.set i b).map (·.live) = l.map (·.live) := by
  rw [List.map_set, hb]
  obtain ⟨hi, rfl⟩ := List.getElem?_eq_some_iff.1 h
  apply List.ext_getElem (by simp)
  intro j h1 h2
  rw [List.getElem_set]
  split
  · rename_i e; subst e; simp
  · rfl

theorem live_load {m m' : M} {p : ThinPtr (AllocId × PE)} {n al bs} (h : Memory.load m p n al = .ok (bs, m')) :
    (K.mem m').allocations.map (·.live) = (K.mem m).allocations.map (·.live) := by
  obtain ⟨hd, h1⟩ := K.load m p n al
  rw [h] at h1
  replace h1 := BasicMem.load_eq_ok.1 h1.symm
  obtain ⟨_, ⟨_, _, h1⟩ | ⟨_, id, pe, a, off, extra, _, ha, _, _, _, _, _, h1⟩⟩ := h1
  · rw [h1]
  · rw [h1]; exact live_set ha rfl

theorem live_store {m m' : M} {p : ThinPtr (AllocId × PE)} {bs al} (h : Memory.store m p bs al = .ok m') :
    (K.mem m').allocations.map (·.live) = (K.mem m).allocations.map (·.live) := by
  obtain ⟨hd, h1⟩ := K.store m p bs al
  rw [h] at h1
  replace h1 := BasicMem.store_eq_ok.1 h1.symm
  obtain ⟨_, ⟨_, h1⟩ | ⟨_, id, pe, a, off, extra, data, _, ha, _, _, _, _, _, h1⟩⟩ := h1
  · rw [h1]
  · rw [h1]; exact live_set ha rfl

/-! ### What the machines agree on -/

namespace Look
variable (L : Look B solo s t)
include L

theorem deref : t.mem.dereferenceable = s.mem.dereferenceable := by
  funext p n
  show Memory.dereferenceable t.mem.memory p n = Memory.dereferenceable s.mem.memory p n
  rw [K.dereferenceable, K.dereferenceable, agree_checkPtr L.mem]

theorem signedDeref : t.mem.signedDereferenceable = s.mem.signedDereferenceable := by
  funext p n
  have h : ∀ p n, Memory.dereferenceable t.mem.memory p n = Memory.dereferenceable s.mem.memory p n := fun p n => by
    rw [K.dereferenceable, K.dereferenceable, agree_checkPtr L.mem]
  show Memory.signedDereferenceable t.mem.memory p n = Memory.signedDereferenceable s.mem.memory p n
  unfold Memory.signedDereferenceable
  simp only [h]

theorem leak : t.mem.leakCheck = s.mem.leakCheck := by
  show Memory.leakCheck t.mem.memory = Memory.leakCheck s.mem.memory
  rw [K.leakCheck, K.leakCheck, agree_leakCheck L.mem]

theorem fnFromPtr : t.fnFromPtr = s.fnFromPtr := by
  funext v; unfold Machine.fnFromPtr; rw [L.fns, L.prog]
theorem vtableFromPtr : t.vtableFromPtr = s.vtableFromPtr := by
  funext v; unfold Machine.vtableFromPtr; rw [L.vtables, L.prog]
theorem vtableLookup : t.vtableLookup = s.vtableLookup := by
  funext v; unfold Machine.vtableLookup; rw [L.vtables, L.prog]
theorem valEnv : t.valEnv = s.valEnv := by
  unfold Machine.valEnv; rw [L.vtableFromPtr, L.vtableLookup, L.deref]
theorem getActive : t.getActive = s.getActive := by
  unfold Machine.getActive index; rw [L.active, L.thread]
theorem curFrame : t.curFrame = s.curFrame := by
  unfold Machine.curFrame; rw [L.getActive]
theorem ptrOffsetInbounds : t.ptrOffsetInbounds = s.ptrOffsetInbounds := by
  funext p o; unfold Machine.ptrOffsetInbounds; rw [L.signedDeref]
theorem evalUnOp : t.evalUnOp = s.evalUnOp := by
  funext op v
  unfold Machine.evalUnOp Machine.evalUnOpInt Machine.evalCastOp Machine.evalGetMetadata Machine.evalVTableMethodLookup
  rw [L.valEnv, L.vtableLookup, L.fns]
theorem evalBinOp : t.evalBinOp = s.evalBinOp := by
  funext op v w
  unfold Machine.evalBinOp Machine.evalPtrOffset Machine.evalPtrOffsetFrom Machine.ptrDistance Machine.evalConstructWidePointer
  rw [L.valEnv, L.signedDeref, L.ptrOffsetInbounds]
theorem decodeChecked : t.decodeChecked = s.decodeChecked := by
  funext ty bs; unfold Machine.decodeChecked; rw [L.valEnv]
theorem encodeChecked : t.encodeChecked = s.encodeChecked := by
  funext ty v; unfold Machine.encodeChecked; rw [L.valEnv]
theorem evalConstant : t.evalConstant = s.evalConstant := by
  funext c; unfold Machine.evalConstant; rw [L.globals, L.fns, L.vtables]
theorem localPlace : t.localPlace = s.localPlace := by
  funext l; unfold Machine.localPlace; rw [L.curFrame]
theorem derefPlace : t.derefPlace = s.derefPlace := by
  funext ty v; unfold Machine.derefPlace Machine.checkSafeDeref; rw [L.valEnv, L.deref]
theorem fieldPlace : t.fieldPlace = s.fieldPlace := by
  funext f r; unfold Machine.fieldPlace Machine.fieldOffset; rw [L.valEnv, L.ptrOffsetInbounds]
theorem indexPlace : t.indexPlace = s.indexPlace := by
  funext r i; unfold Machine.indexPlace; rw [L.valEnv, L.ptrOffsetInbounds]
end Look

/-! ### Composition -/

namespace Loc
variable {x : EM M (AllocId × PE) F α} {f : α → EM M (AllocId × PE) F β}

theorem pure {a : α} : Loc B solo (pure a : EM M (AllocId × PE) F α) where
  grow s a s' h := by cases h; exact List.prefix_refl _
  own _ s a s' h := by cases h; exact .refl _
  sim s t a s' L h _ := by cases h; exact ⟨t, rfl, L⟩

theorem throw {e : Err} : Loc B solo (EM.throw e : EM M (AllocId × PE) F α) where
  grow s a s' h := by cases h
  own _ s a s' h := by cases h
  sim s t a s' L h _ := by cases h

theorem bind (hx : Loc B solo x) (hf : ∀ a, Loc B solo (f a)) : Loc B solo (x >>= f) where
  grow s a s' h := by
    obtain ⟨b, s1, h1, h2⟩ := EM.bind_eq_ok.1 h
    exact (hx.grow _ _ _ h1).trans ((hf _).grow _ _ _ h2)
  own hs s a s' h := by
    obtain ⟨b, s1, h1, h2⟩ := EM.bind_eq_ok.1 h
    exact (hx.own hs _ _ _ h1).trans ((hf _).own hs _ _ _ h2)
  sim s t a s' L h hl := by
    obtain ⟨b, s1, h1, h2⟩ := EM.bind_eq_ok.1 h
    obtain ⟨t1, h3, L1⟩ := hx.sim _ _ _ _ L h1 fun y hy => hl y (hy.mono ((hf _).grow _ _ _ h2))
    obtain ⟨t2, h4, L2⟩ := (hf _).sim _ _ _ _ L1 h2 hl
    exact ⟨t2, EM.bind_eq_ok.2 ⟨b, t1, h3, h4⟩, L2⟩

theorem lift {r : Res α} : Loc B solo (EM.lift r : EM M (AllocId × PE) F α) where
  grow s a s' h := by obtain ⟨_, rfl⟩ := EM.lift_eq_ok.1 h; exact List.prefix_refl _
  own _ s a s' h := by obtain ⟨_, rfl⟩ := EM.lift_eq_ok.1 h; exact .refl _
  sim s t a s' L h _ := by obtain ⟨h1, rfl⟩ := EM.lift_eq_ok.1 h; exact ⟨t, EM.lift_eq_ok.2 ⟨h1, rfl⟩, L⟩

theorem read {g : Machine M (AllocId × PE) F → Res α} (hg : ∀ s t, Look B solo s t → g t = g s) :
    Loc B solo (EM.read g) where
  grow s a s' h := by obtain ⟨_, rfl⟩ := EM.read_eq_ok.1 h; exact List.prefix_refl _
  own _ s a s' h := by obtain ⟨_, rfl⟩ := EM.read_eq_ok.1 h; exact .refl _
  sim s t a s' L h _ := by
    obtain ⟨h1, rfl⟩ := EM.read_eq_ok.1 h
    exact ⟨t, EM.read_eq_ok.2 ⟨by rw [hg _ _ L, h1], rfl⟩, L⟩

theorem readBind {g : Machine M (AllocId × PE) F → Res α} (hg : ∀ s t, Look B solo s t → g t = g s)
    (hf : ∀ a, Loc B solo (f a)) : Loc B solo (fun s => g s >>= fun a => f a s) where
  grow s a s' h := by
    obtain ⟨b, _, h2⟩ := Res.bind_eq_ok.1 h
    exact (hf _).grow _ _ _ h2
  own hs s a s' h := by
    obtain ⟨b, _, h2⟩ := Res.bind_eq_ok.1 h
    exact (hf _).own hs _ _ _ h2
  sim s t a s' L h hl := by
    obtain ⟨b, h1, h2⟩ := Res.bind_eq_ok.1 h
    obtain ⟨t2, h4, L2⟩ := (hf _).sim _ _ _ _ L h2 hl
    exact ⟨t2, Res.bind_eq_ok.2 ⟨b, by rw [hg _ _ L, h1], h4⟩, L2⟩

theorem modify {g : Machine M (AllocId × PE) F → Machine M (AllocId × PE) F} (hm : ∀ s, (g s).mem = s.mem)
    (ho : solo → ∀ s, Own s (g s)) (hg : ∀ s t, Look B solo s t → Look B solo (g s) (g t)) : Loc B solo (EM.modify g) where
  grow s a s' h := by rw [EM.modify_eq_ok] at h; subst h; rw [hm]; exact List.prefix_refl _
  own hs s a s' h := by rw [EM.modify_eq_ok] at h; subst h; exact ho hs s
  sim s t a s' L h _ := by rw [EM.modify_eq_ok] at h; subst h; exact ⟨g t, rfl, hg _ _ L⟩

theorem ite {c : Prop} [Decidable c] {y : EM M (AllocId × PE) F α} (h1 : Loc B solo x) (h2 : Loc B solo y) :
    Loc B solo (if c then x else y) := by split <;> assumption

theorem unwrapRes (hx : Loc B solo x) : Loc B solo (EM.unwrapRes x) where
  grow s a s' h := hx.grow _ _ _ (EM.unwrapRes_eq_ok.1 h)
  own hs s a s' h := hx.own hs _ _ _ (EM.unwrapRes_eq_ok.1 h)
  sim s t a s' L h hl := by
    obtain ⟨t', h1, h2⟩ := hx.sim _ _ _ _ L (EM.unwrapRes_eq_ok.1 h) hl
    exact ⟨t', EM.unwrapRes_eq_ok.2 h1, h2⟩

theorem setActive {th : Thread (AllocId × PE) F} : Loc B solo (EM.modify (·.setActive th) : EM M (AllocId × PE) F Unit) := by
  refine .modify (fun _ => rfl) (fun _ s => ⟨rfl, List.length_set .., fun i hi => ?_, rfl⟩) fun s t L => ⟨L.mem, L.acc, L.reach, L.prog, L.globals, L.fns, L.vtables, L.active, ?_, fun h => ?_⟩
  · exact List.getElem?_set_ne (Ne.symm hi)
  · show (t.threads.set t.activeThread th)[s.activeThread]? = (s.threads.set s.activeThread th)[s.activeThread]?
    rw [L.active]
    have h := L.thread
    by_cases c : s.activeThread < s.threads.length
    · have c' : s.activeThread < t.threads.length := by
        rw [List.getElem?_eq_getElem c] at h
        exact (List.getElem?_eq_some_iff.1 h).1
      rw [List.getElem?_set_self c, List.getElem?_set_self c']
    · have c' : ¬ s.activeThread < t.threads.length := by
        intro c'
        rw [List.getElem?_eq_getElem c'] at h
        exact c (List.getElem?_eq_some_iff.1 h.symm).1
      rw [List.getElem?_eq_none (by simpa using c'), List.getElem?_eq_none (by simpa using c)]
  · have := L.full h
    show t.setActive th = { s.setActive th with mem := (t.setActive th).mem }
    unfold Machine.setActive
    rw [this]

variable [BM : ByteMem M PE AE F]

theorem memLoad {p : ThinPtr (AllocId × PE)} {n al at'} : Loc B solo (memLoad p n al at' : EM M (AllocId × PE) F _) where
  grow s a s' h := by
    obtain ⟨m, h1, rfl⟩ := memLoad_eq_ok.1 h
    obtain ⟨m', _, rfl⟩ := ConcMem.load_eq_ok.1 h1
    exact List.prefix_append _ _
  own _ s a s' h := by
    obtain ⟨m, h1, rfl⟩ := memLoad_eq_ok.1 h
    obtain ⟨m', h2, rfl⟩ := ConcMem.load_eq_ok.1 h1
    exact .ofMem (live_load h2)
  sim s t a s' L h hl := by
    obtain ⟨m, h1, rfl⟩ := memLoad_eq_ok.1 h
    obtain ⟨m', h2, rfl⟩ := ConcMem.load_eq_ok.1 h1
    obtain ⟨n', h3, h4⟩ := BM.load _ _ _ _ _ _ _ _ L.mem h2 fun x hx1 hx2 => .inl (hl x
      ⟨_, List.mem_append_right _ (List.mem_singleton.2 rfl), rfl, hx1, hx2⟩)
    refine ⟨_, memLoad_eq_ok.2 ⟨_, ConcMem.load_eq_ok.2 ⟨n', h3, rfl⟩, rfl⟩, ?_⟩
    obtain ⟨hi, hr⟩ := L.reach
    refine ⟨h4.mono ?_, by simp only [L.acc], ⟨_, .cons hr (.load h2)⟩, L.prog, L.globals, L.fns, L.vtables, L.active, L.thread, fun h => ?_⟩
    · rintro x (hx | ⟨a, ha, h5, h6⟩)
      · exact .inl hx
      · rcases List.mem_append.1 ha with ha | ha
        · exact .inr ⟨a, ha, h5, h6⟩
        · rw [List.mem_singleton.1 ha] at h5; cases h5
    · conv => lhs; rw [L.full h]

theorem memStore {p : ThinPtr (AllocId × PE)} {bs al at'} : Loc B solo (memStore p bs al at' : EM M (AllocId × PE) F _) where
  grow s a s' h := by
    obtain ⟨m, h1, rfl⟩ := memStore_eq_ok.1 h
    obtain ⟨m', _, rfl⟩ := ConcMem.store_eq_ok.1 h1
    exact List.prefix_append _ _
  own _ s a s' h := by
    obtain ⟨m, h1, rfl⟩ := memStore_eq_ok.1 h
    obtain ⟨m', h2, rfl⟩ := ConcMem.store_eq_ok.1 h1
    exact .ofMem (live_store h2)
  sim s t a s' L h hl := by
    obtain ⟨m, h1, rfl⟩ := memStore_eq_ok.1 h
    obtain ⟨m', h2, rfl⟩ := ConcMem.store_eq_ok.1 h1
    obtain ⟨hi, hr⟩ := L.reach
    obtain ⟨n', h3, h4⟩ := BM.store _ _ _ _ _ _ _ _ hr L.mem h2
    refine ⟨_, memStore_eq_ok.2 ⟨_, ConcMem.store_eq_ok.2 ⟨n', h3, rfl⟩, rfl⟩, ?_⟩
    refine ⟨h4.mono ?_, by simp only [L.acc], ⟨_, .cons hr (.store h2)⟩, L.prog, L.globals, L.fns, L.vtables, L.active, L.thread, fun h => ?_⟩
    · rintro x (hx | ⟨a, ha, h5, h6⟩)
      · exact .inl (.inl hx)
      · rcases List.mem_append.1 ha with ha | ha
        · exact .inl (.inr ⟨a, ha, h5, h6⟩)
        · rw [List.mem_singleton.1 ha] at h6; exact .inr h6
    · conv => lhs; rw [L.full h]

/-- Memory operations that are not recorded. -/
theorem memOther {x : EM M (AllocId × PE) F α} {op : M → Res (α × M)}
    (hx : ∀ s, x s = (op s.mem.memory >>= fun r => .ok (r.1, { s with mem := { s.mem with memory := r.2 } })))
    (hop : ∀ (C : Int → Prop) (m m' n : M) a, MemAgree C (K.mem m) (K.mem n) → op m = .ok (a, m') →
      ∃ n', op n = .ok (a, n') ∧ MemAgree C (K.mem m') (K.mem n'))
    (hr : ∀ (h : MemHistory PE) m m' a, MemReach h m → op m = .ok (a, m') → ∃ h : MemHistory PE, MemReach h m')
    (ho : solo → ∀ m m' a, op m = .ok (a, m') → (K.mem m').allocations.map (·.live) = (K.mem m).allocations.map (·.live)) :
    Loc B solo x where
  grow s a s' h := by
    rw [hx] at h
    obtain ⟨⟨_, _⟩, _, h2⟩ := Res.bind_eq_ok.1 h
    cases h2; exact List.prefix_refl _
  own hs s a s' h := by
    rw [hx] at h
    obtain ⟨⟨_, m'⟩, h1, h2⟩ := Res.bind_eq_ok.1 h
    cases h2; exact .ofMem (ho hs _ _ _ h1)
  sim s t a s' L h _ := by
    rw [hx] at h
    obtain ⟨⟨_, m'⟩, h1, h2⟩ := Res.bind_eq_ok.1 h
    cases h2
    obtain ⟨n', h3, h4⟩ := hop _ _ _ _ _ L.mem h1
    obtain ⟨hi, hre⟩ := L.reach
    refine ⟨{ t with mem := { t.mem with memory := n' } }, by rw [hx, h3]; rfl, h4, L.acc, hr _ _ _ _ hre h1, L.prog, L.globals, L.fns, L.vtables, L.active, L.thread, fun h => ?_⟩
    have := L.full h
    show { t with mem := { t.mem with memory := n' } } = { s with mem := { t.mem with memory := n' } }
    conv => lhs; rw [this]

theorem memDeallocate (hs : ¬ solo) {p : ThinPtr (AllocId × PE)} {k n al} : Loc B solo (memDeallocate p k n al : EM M (AllocId × PE) F _) := by
  refine .memOther (op := fun m => Memory.deallocate m p k n al >>= fun m => .ok ((), m)) (fun s => ?_) ?_ ?_ ?_
  · unfold MiniRust.memDeallocate ConcMem.deallocate
    cases Memory.deallocate s.mem.memory p k n al <;> rfl
  rotate_left 2
  · exact fun h => absurd h hs
  · intro C m m' n' a h hx
    obtain ⟨m1, h1, h2⟩ := Res.bind_eq_ok.1 hx
    cases h2
    obtain ⟨n1, h3, h4⟩ := BM.deallocate _ _ _ _ _ _ _ _ h h1
    exact ⟨n1, by rw [h3]; rfl, h4⟩
  · intro h m m' a hr hx
    obtain ⟨m1, h1, h2⟩ := Res.bind_eq_ok.1 hx
    cases h2
    exact ⟨_, .cons hr (.dealloc h1)⟩

theorem memEndCall {e : F} : Loc B solo (memEndCall e : EM M (AllocId × PE) F _) := by
  refine .memOther (op := fun m => Memory.endCall m e >>= fun m => .ok ((), m)) (fun s => ?_) ?_ ?_ ?_
  · unfold MiniRust.memEndCall ConcMem.endCall
    cases Memory.endCall s.mem.memory e <;> rfl
  rotate_left 2
  · intro _ m m' a hx
    obtain ⟨m1, h1, h2⟩ := Res.bind_eq_ok.1 hx
    cases h2
    exact SameData.live (K.endCall _ _ _ h1)
  · intro C m m' n' a h hx
    obtain ⟨m1, h1, h2⟩ := Res.bind_eq_ok.1 hx
    cases h2
    obtain ⟨n1, h3, h4⟩ := BM.endCall _ _ _ _ _ h h1
    exact ⟨n1, by rw [h3]; rfl, h4⟩
  · intro h m m' a hr hx
    obtain ⟨m1, h1, h2⟩ := Res.bind_eq_ok.1 hx
    cases h2
    exact ⟨_, .cons hr (.endCall h1)⟩

theorem popInt (hs : ¬ solo) : Loc B solo (EM.popInt : EM M (AllocId × PE) F _) where
  grow s a s' h := by obtain ⟨r, _, rfl⟩ := EM.popInt_eq_ok.1 h; exact List.prefix_refl _
  own h := absurd h hs
  sim s t a s' L h _ := by
    obtain ⟨r, h1, rfl⟩ := EM.popInt_eq_ok.1 h
    have hf := L.full hs
    refine ⟨{ t with oracle := r }, EM.popInt_eq_ok.2 ⟨r, by rw [hf]; exact h1, rfl⟩, ?_⟩
    exact ⟨L.mem, L.acc, L.reach, L.prog, L.globals, L.fns, L.vtables, L.active, L.thread, fun _ => by conv => lhs; rw [hf]⟩

theorem popProv (hs : ¬ solo) : Loc B solo (EM.popProv : EM M (AllocId × PE) F _) where
  grow s a s' h := by obtain ⟨r, _, rfl⟩ := EM.popProv_eq_ok.1 h; exact List.prefix_refl _
  own h := absurd h hs
  sim s t a s' L h _ := by
    obtain ⟨r, h1, rfl⟩ := EM.popProv_eq_ok.1 h
    have hf := L.full hs
    refine ⟨{ t with oracle := r }, EM.popProv_eq_ok.2 ⟨r, by rw [hf]; exact h1, rfl⟩, ?_⟩
    exact ⟨L.mem, L.acc, L.reach, L.prog, L.globals, L.fns, L.vtables, L.active, L.thread, fun _ => by conv => lhs; rw [hf]⟩

theorem memAllocate (hs : ¬ solo) {k n al} : Loc B solo (memAllocate k n al : EM M (AllocId × PE) F _) := by
  unfold MiniRust.memAllocate
  refine .bind (.popInt hs) fun pick => ?_
  refine .memOther (op := fun m => Memory.allocate m k n al pick) (fun s => ?_) ?_ ?_ (fun h => absurd h hs)
  · unfold ConcMem.allocate
    cases Memory.allocate s.mem.memory k n al pick <;> rfl
  · intro C m m' n' a h hx
    exact BM.allocate _ _ _ _ _ _ _ _ _ h hx
  · intro h m m' a hr hx
    exact ⟨_, .cons hr (.alloc hx)⟩

theorem mutateCurFrame {f : StackFrame (AllocId × PE) F → EM M (AllocId × PE) F (α × StackFrame (AllocId × PE) F)}
    (hf : ∀ fr, Loc B solo (f fr)) : Loc B solo (mutateCurFrame f) := by
  unfold MiniRust.mutateCurFrame
  exact .bind (.read fun _ _ L => L.curFrame) fun fr => .bind (hf fr) fun _ => .bind (.read fun _ _ L => L.getActive) fun _ =>
    .bind .lift fun _ => .bind .setActive fun _ => .pure

theorem retagPtrM {p : Pointer (AllocId × PE)} {ty e} : Loc B solo (retagPtrM p ty e : EM M (AllocId × PE) F _) := by
  unfold MiniRust.retagPtrM
  refine .mutateCurFrame fun fr => ?_
  constructor
  · intro s a s' h
    obtain ⟨⟨p', f', m'⟩, h1, h2⟩ := Res.bind_eq_ok.1 h
    cases h2
    unfold ConcMem.retagPtr at h1
    obtain ⟨⟨p1, f1, m1⟩, h3, h4⟩ := Res.bind_eq_ok.1 h1
    cases h4
    exact List.prefix_refl _
  · intro _ s a s' h
    obtain ⟨⟨p', f', m'⟩, h1, h2⟩ := Res.bind_eq_ok.1 h
    cases h2
    unfold ConcMem.retagPtr at h1
    obtain ⟨⟨p1, f1, m1⟩, h3, h4⟩ := Res.bind_eq_ok.1 h1
    cases h4
    exact .ofMem (SameData.live (K.retag _ _ _ _ _ _ _ _ _ h3))
  · intro s t a s' L h _
    obtain ⟨⟨p', f', m'⟩, h1, h2⟩ := Res.bind_eq_ok.1 h
    cases h2
    unfold ConcMem.retagPtr at h1
    obtain ⟨⟨p1, f1, m1⟩, h3, h4⟩ := Res.bind_eq_ok.1 h1
    cases h4
    obtain ⟨n1, h5, h6⟩ := BM.retag _ _ _ _ _ _ _ _ _ _ _ L.mem h3
    obtain ⟨hi, hre⟩ := L.reach
    refine ⟨{ t with mem := { t.mem with memory := n1 } }, ?_, h6, L.acc, ⟨_, .cons hre (.retag h3)⟩, L.prog, L.globals, L.fns, L.vtables, L.active, L.thread, fun h => ?_⟩
    · show (t.mem.retagPtr _ _ _ _ t.vtableLookup >>= _) = _
      rw [L.vtableLookup]
      unfold ConcMem.retagPtr
      rw [h5]
      rfl
    · have := L.full h
      conv => lhs; rw [this]

/-! ### Expressions -/

theorem typedLoad {p : ThinPtr (AllocId × PE)} {ty al at'} : Loc B solo (typedLoad p ty al at' : EM M (AllocId × PE) F _) :=
  .bind .lift fun _ => .bind .memLoad fun _ => .read fun _ _ L => by rw [L.decodeChecked]

theorem typedStore {p : ThinPtr (AllocId × PE)} {v ty al at'} : Loc B solo (typedStore p v ty al at' : EM M (AllocId × PE) F _) :=
  .bind (.read fun _ _ L => by rw [L.encodeChecked]) fun _ => .memStore

theorem placeLoad {p : Place (AllocId × PE)} {ty} : Loc B solo (placeLoad p ty : EM M (AllocId × PE) F _) := .ite .throw .typedLoad

theorem addrOf {p : Place (AllocId × PE)} {ty} : Loc B solo (addrOf p ty : EM M (AllocId × PE) F _) :=
  .bind (.read fun _ _ L => by rw [L.valEnv]) fun _ => .bind .retagPtrM fun _ => .pure

omit BM in
mutual
theorem decodeDiscriminant {acc : Machine M (AllocId × PE) F → Nat → Nat → Res (List (AByte (AllocId × PE)) × _)}
    (hacc : ∀ i n, Loc B solo (fun s => acc s i n)) : ∀ d, Loc B solo (fun s => decodeDiscriminant acc d s)
  | .known d => by simp only [MiniRust.decodeDiscriminant]; exact Loc.pure
  | .invalid => by simp only [MiniRust.decodeDiscriminant]; exact Loc.pure
  | .branch offset vt fb ch => by
    have : (fun s => MiniRust.decodeDiscriminant acc (.branch offset vt fb ch) s) =
        ((show EM M (AllocId × PE) F _ from fun s => acc s offset vt.size) >>= fun bytes s => match decodeInt vt bytes with
          | .error .none => .ok (none, s)
          | .error e => .error e
          | .ok val => match decodeDiscriminantChildren acc ch val s with
            | some r => r
            | none => MiniRust.decodeDiscriminant acc fb s : EM M (AllocId × PE) F (Option Int)) := by
      funext s
      simp only [MiniRust.decodeDiscriminant]
      cases h : acc s offset vt.size with
      | error e =>
        symm
        exact EM.bind_of_error (x := (show EM M (AllocId × PE) F _ from fun s => acc s offset vt.size)) h
      | ok r =>
        symm
        refine Eq.trans (EM.bind_of_ok (M := M) (P := AllocId × PE) (F := F) (x := fun s => acc s offset vt.size) (a := r.1) (s' := r.2) h) ?_
        dsimp only
        cases decodeInt vt r.1 with
        | error e => cases e <;> rfl
        | ok v =>
          dsimp only
          cases decodeDiscriminantChildren acc ch v r.2 <;> rfl
    rw [this]
    refine .bind (hacc _ _) fun bytes => ?_
    cases hd : decodeInt vt bytes with
    | error e =>
      cases e
      case none => exact Loc.pure
      all_goals exact Loc.throw
    | ok val =>
      simp only
      rcases children hacc ch val with h | ⟨d, h1, h2⟩
      · simp only [h]; exact decodeDiscriminant hacc fb
      · simp only [h1]; exact h2
theorem children {acc : Machine M (AllocId × PE) F → Nat → Nat → Res (List (AByte (AllocId × PE)) × _)}
    (hacc : ∀ i n, Loc B solo (fun s => acc s i n)) :
    ∀ ch val, (∀ s, decodeDiscriminantChildren acc ch val s = none) ∨
      ∃ x : EM M (AllocId × PE) F (Option Int),
        (∀ s, decodeDiscriminantChildren acc ch val s = some (x s)) ∧ Loc B solo x
  | [], val => .inl fun s => by simp only [decodeDiscriminantChildren]
  | ((a, b), d) :: ch, val => by
    simp only [decodeDiscriminantChildren]
    by_cases h : a ≤ val ∧ val < b
    · simp only [h, and_self, if_true]
      exact .inr ⟨_, fun s => rfl, decodeDiscriminant hacc d⟩
    · simp only [h, if_false]
      exact children hacc ch val
end

theorem getDiscriminant {p : Place (AllocId × PE)} {ty} : Loc B solo (getDiscriminant p ty : EM M (AllocId × PE) F _) := by
  unfold MiniRust.getDiscriminant
  split
  · refine .ite .throw (.bind (.decodeDiscriminant (fun i n => .readBind (fun _ _ L => by rw [L.ptrOffsetInbounds]) fun _ => .memLoad) _) fun d => ?_)
    cases d
    · exact .throw
    · exact .pure
  · exact .throw

mutual
theorem evalValue : ∀ e, Loc B solo (evalValue e : EM M (AllocId × PE) F _)
  | .constant _ _ => by unfold MiniRust.evalValue; exact .bind (.read fun _ _ L => by rw [L.evalConstant]) fun _ => .pure
  | .tuple es _ => by
    unfold MiniRust.evalValue
    exact .bind (evalValues es) fun _ => .pure
  | .union _ e ty => by
    unfold MiniRust.evalValue
    split
    · exact .bind .lift fun _ => .bind (evalValue e) fun _ => .bind .lift fun _ => .pure
    · exact .throw
  | .variant _ e _ => by
    unfold MiniRust.evalValue
    exact .bind (evalValue e) fun _ => .pure
  | .getDiscriminant p => by
    unfold MiniRust.evalValue
    exact .bind (evalPlace p) fun _ => .getDiscriminant
  | .load p => by
    unfold MiniRust.evalValue
    exact .bind (evalPlace p) fun _ => .bind .placeLoad fun _ => .pure
  | .addrOf p _ => by
    unfold MiniRust.evalValue
    exact .bind (evalPlace p) fun _ => .addrOf
  | .unOp _ e => by
    unfold MiniRust.evalValue
    exact .bind (evalValue e) fun _ => .read fun _ _ L => by rw [L.evalUnOp]
  | .binOp _ e e' => by
    unfold MiniRust.evalValue
    exact .bind (evalValue e) fun _ => .bind (evalValue e') fun _ => .read fun _ _ L => by rw [L.evalBinOp]
theorem evalValues : ∀ es, Loc B solo (evalValues es : EM M (AllocId × PE) F _)
  | [] => by unfold MiniRust.evalValues; exact .pure
  | e :: es => by
    unfold MiniRust.evalValues
    exact .bind (evalValue e) fun _ => .bind (evalValues es) fun _ => .pure
theorem evalPlace : ∀ e, Loc B solo (evalPlace e : EM M (AllocId × PE) F _)
  | .local _ => by unfold MiniRust.evalPlace; exact .read fun _ _ L => by rw [L.localPlace]
  | .deref e _ => by
    unfold MiniRust.evalPlace
    exact .bind (evalValue e) fun _ => .read fun _ _ L => by rw [L.derefPlace]
  | .field p _ => by
    unfold MiniRust.evalPlace
    exact .bind (evalPlace p) fun _ => .read fun _ _ L => by rw [L.fieldPlace]
  | .index p e => by
    unfold MiniRust.evalPlace
    exact .bind (evalPlace p) fun _ => .bind (evalValue e) fun _ => .read fun _ _ L => by rw [L.indexPlace]
  | .downcast p _ => by
    unfold MiniRust.evalPlace
    exact .bind (evalPlace p) fun _ => .lift
end

end Loc
end
end MiniRust
