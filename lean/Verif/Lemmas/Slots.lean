import Verif.Lemmas.KnownReach
/-
The storage of locals. A slot is one live local of one frame together with the pointer to its storage.
-/
set_option linter.unusedSectionVars false
namespace MiniRust

namespace Map
variable {K V : Type} [DecidableEq K]
theorem erase_of_none : ∀ {m : Map K V} {k : K}, m.get? k = none → m.erase k = m
  | [], _, _ => rfl
  | (k', v) :: m, k, h => by
    simp only [get?] at h
    split at h
    · cases h
    · rename_i hn
      simp only [erase, if_neg hn, erase_of_none h]

theorem perm_erase : ∀ {m : Map K V} {k : K} {v : V}, m.get? k = some v → m.Perm ((k, v) :: m.erase k)
  | (k', v') :: m, k, v, h => by
    simp only [get?] at h
    split at h
    · rename_i hk
      cases h; subst hk
      simp only [erase, if_true]
      exact .refl _
    · rename_i hn
      simp only [erase, if_neg hn]
      exact (List.Perm.cons _ (perm_erase h)).trans (.swap _ _ _)

theorem insert_of_none : ∀ {m : Map K V} {k : K} {v : V}, m.get? k = none → m.insert k v = m ++ [(k, v)]
  | [], _, _, _ => rfl
  | (k', v') :: m, k, v, h => by
    simp only [get?] at h
    split at h
    · cases h
    · rename_i hn
      simp only [insert, if_neg hn, insert_of_none h, List.cons_append]

theorem get?_eq_none_iff {m : Map K V} {k : K} : m.get? k = none ↔ k ∉ m.keys := by
  rw [← get?_isSome_iff]
  cases m.get? k <;> simp

theorem keys_erase_nodup {m : Map K V} {k : K} (h : m.keys.Nodup) : (m.erase k).keys.Nodup := by
  cases hg : m.get? k with
  | none => rw [erase_of_none hg]; exact h
  | some v =>
    have := ((perm_erase hg).map (fun e : K × V => e.1)).nodup_iff.1 h
    exact (List.nodup_cons.1 this).2

theorem not_mem_erase {m : Map K V} {k : K} (h : m.keys.Nodup) : k ∉ (m.erase k).keys := by
  cases hg : m.get? k with
  | none => rw [erase_of_none hg]; exact get?_eq_none_iff.1 hg
  | some v =>
    have := ((perm_erase hg).map (fun e : K × V => e.1)).nodup_iff.1 h
    exact (List.nodup_cons.1 this).1

theorem mem_keys_erase {m : Map K V} {k q : K} (hq : q ≠ k) : q ∈ (m.erase k).keys ↔ q ∈ m.keys := by
  cases hg : m.get? k with
  | none => rw [erase_of_none hg]
  | some v =>
    have := ((perm_erase hg).map (fun e : K × V => e.1)).mem_iff (a := q)
    simp only [List.map_cons, List.mem_cons, hq, false_or] at this
    exact this.symm

theorem keys_insert_nodup {m : Map K V} {k : K} {v : V} (h : m.keys.Nodup) (hk : k ∉ m.keys) :
    (m.insert k v).keys.Nodup := by
  rw [insert_of_none (get?_eq_none_iff.2 hk)]
  unfold keys at *
  rw [List.map_append, List.nodup_append]
  refine ⟨h, by simp, ?_⟩
  intro a ha b hb
  simp only [List.map_cons, List.map_nil, List.mem_singleton] at hb
  subst hb; rintro rfl; exact hk ha
end Map

section
variable {M PE AE F : Type} [T : Target] [DecidableEq PE] [Memory M (AllocId × PE) F] [B : BasicBacked M PE AE F]

/-- A live local of a frame of `func`, with the pointer to its storage. -/
structure Slot (PE : Type) where
  func : Function
  l : LocalName
  ptr : ThinPtr (AllocId × PE)

/-- The allocation of a slot. -/
def Slot.id (sl : Slot PE) : Option AllocId := sl.ptr.prov.map (·.1)

/-- The slot has a live stack allocation with the layout of the local's type, starting at its pointer. -/
def SlotOk (al : List (Alloc PE AE)) (sl : Slot PE) : Prop :=
  ∃ ty n a id x, sl.func.locals.get? sl.l = some ty ∧ ty.layout = .ok (.sized n a) ∧ sl.id = some id ∧
    al[id]? = some x ∧ x.kind = .stack ∧ x.addr = sl.ptr.addr ∧ x.data.length = n ∧ x.align = a ∧ x.live = true

/-- All slots of the list are backed by their own allocation. -/
structure SlotsOk (al : List (Alloc PE AE)) (S : List (Slot PE)) : Prop where
  ok : ∀ sl ∈ S, SlotOk al sl
  nodup : (S.map Slot.id).Nodup

/-- The slots of a frame. -/
def slotsOf (fr : StackFrame (AllocId × PE) F) : List (Slot PE) := fr.locals.map fun e => ⟨fr.func, e.1, e.2⟩

/-- The slots of a stack. -/
def stackSlots (st : List (StackFrame (AllocId × PE) F)) : List (Slot PE) := st.flatMap slotsOf

/-- The slots of all threads. -/
def threadSlots (ts : List (Thread (AllocId × PE) F)) : List (Slot PE) := ts.flatMap fun t => stackSlots t.stack

/-- The allocations of a memory. -/
def allocs (m : ConcMem M) : List (Alloc PE AE) := (B.mem m.memory).allocations

theorem SlotsOk.perm {al : List (Alloc PE AE)} {S S' : List (Slot PE)} (h : SlotsOk al S) (hp : S.Perm S') :
    SlotsOk al S' :=
  ⟨fun sl hs => h.ok sl (hp.mem_iff.2 hs), (hp.map _).nodup_iff.1 h.nodup⟩

theorem SlotsOk.congr {al al' : List (Alloc PE AE)} {S : List (Slot PE)} (h : SlotsOk al S)
    (hk : ∀ sl ∈ S, ∀ id x, sl.id = some id → al[id]? = some x → x.kind = .stack → ∃ x', al'[id]? = some x' ∧
      x'.kind = .stack ∧ x'.addr = x.addr ∧ x'.data.length = x.data.length ∧ x'.align = x.align ∧ x'.live = x.live) :
    SlotsOk al' S := by
  refine ⟨fun sl hs => ?_, h.nodup⟩
  obtain ⟨ty, n, a, id, x, h1, h2, h3, h4, h5, h6, h7, h8, h9⟩ := h.ok sl hs
  obtain ⟨x', g1, g2, g3, g4, g5, g6⟩ := hk sl hs id x h3 h4 h5
  exact ⟨ty, n, a, id, x', h1, h2, h3, g1, g2, g3.trans h6, g4.trans h7, g5.trans h8, g6.trans h9⟩

/-- Every live stack allocation is the storage of a slot. -/
def SlotsAll (al : List (Alloc PE AE)) (S : List (Slot PE)) : Prop :=
  ∀ (id : Nat) (x : Alloc PE AE), al[id]? = some x → x.kind = .stack → x.live = true → ∃ sl ∈ S, sl.id = some id

theorem SlotsAll.perm {al : List (Alloc PE AE)} {S S' : List (Slot PE)} (h : SlotsAll al S) (hp : S.Perm S') :
    SlotsAll al S' := fun id x h1 h2 h3 =>
  have ⟨sl, hs, e⟩ := h id x h1 h2 h3
  ⟨sl, hp.mem_iff.1 hs, e⟩

/-- Every stack allocation stays where it is, as large as it is, and alive if it was; no live stack
allocation is added. -/
structure StackKept (m m' : ConcMem M) : Prop where
  fwd : ∀ (id : Nat) (x : Alloc PE AE), (allocs m)[id]? = some x → x.kind = .stack → ∃ x' : Alloc PE AE, (allocs m')[id]? = some x' ∧
    x'.kind = .stack ∧ x'.addr = x.addr ∧ x'.data.length = x.data.length ∧ x'.align = x.align ∧ x'.live = x.live
  bwd : ∀ (id : Nat) (x' : Alloc PE AE), (allocs m')[id]? = some x' → x'.kind = .stack → x'.live = true →
    ∃ x : Alloc PE AE, (allocs m)[id]? = some x ∧ x.kind = .stack ∧ x.live = true

theorem StackKept.refl {m : ConcMem M} : StackKept (B := B) m m :=
  ⟨fun _ x h hk => ⟨x, h, hk, rfl, rfl, rfl, rfl⟩, fun _ x h hk hl => ⟨x, h, hk, hl⟩⟩

theorem StackKept.trans {m m' m'' : ConcMem M} (h : StackKept (B := B) m m') (h' : StackKept (B := B) m' m'') :
    StackKept (B := B) m m'' := by
  refine ⟨fun id x hx hk => ?_, fun id x hx hk hl => ?_⟩
  · obtain ⟨x1, a1, a2, a3, a4, a5, a6⟩ := h.fwd id x hx hk
    obtain ⟨x2, b1, b2, b3, b4, b5, b6⟩ := h'.fwd id x1 a1 a2
    exact ⟨x2, b1, b2, b3.trans a3, b4.trans a4, b5.trans a5, b6.trans a6⟩
  · obtain ⟨x1, a1, a2, a3⟩ := h'.bwd id x hx hk hl
    exact h.bwd id x1 a1 a2 a3

theorem StackKept.ofSame {m m' : ConcMem M} (h : SameData (B.mem m.memory) (B.mem m'.memory)) : StackKept (B := B) m m' := by
  refine ⟨fun id x hx hk => ?_, fun id x hx hk hl => ?_⟩
  · have hlt : id < (B.mem m'.memory).allocations.length := by
      rw [← h.1]; exact (List.getElem?_eq_some_iff.1 hx).1
    have := h.2 id x _ hx (List.getElem?_eq_getElem hlt)
    exact ⟨_, List.getElem?_eq_getElem hlt, this.2.2.2.1 ▸ hk, this.2.1.symm, by rw [this.1], this.2.2.1.symm,
      this.2.2.2.2.symm⟩
  · have hlt : id < (B.mem m.memory).allocations.length := by
      rw [h.1]; exact (List.getElem?_eq_some_iff.1 hx).1
    have := h.2 id _ x (List.getElem?_eq_getElem hlt) hx
    exact ⟨_, List.getElem?_eq_getElem hlt, this.2.2.2.1 ▸ hk, this.2.2.2.2.trans hl⟩

theorem SlotsOk.kept {m m' : ConcMem M} {S : List (Slot PE)} (h : SlotsOk (allocs (B := B) m) S)
    (hk : StackKept (B := B) m m') : SlotsOk (allocs (B := B) m') S :=
  h.congr fun _ _ id x _ hx hk' => hk.fwd id x hx hk'

theorem SlotsAll.kept {m m' : ConcMem M} {S : List (Slot PE)} (h : SlotsAll (allocs (B := B) m) S)
    (hk : StackKept (B := B) m m') : SlotsAll (allocs (B := B) m') S := fun id x h1 h2 h3 =>
  have ⟨y, k1, k2, k3⟩ := hk.bwd id x h1 h2 h3
  h id y k1 k2 k3

instance : ReadRel (P := AllocId × PE) (F := F) (StackKept (M := M) (B := B)) where
  refl m := .refl
  trans m m' m'' h1 h2 := h1.trans h2
  load m m' p n al at' bytes h0 := .ofSame ((inferInstance : ReadRel (P := AllocId × PE) (F := F) (SameAllocs (M := M) (B := B))).load _ _ _ _ _ _ _ h0)
  retag m m' f f' p p' pty e vt h0 := .ofSame ((inferInstance : ReadRel (P := AllocId × PE) (F := F) (SameAllocs (M := M) (B := B))).retag _ _ _ _ _ _ _ _ _ h0)

/-! ### Memory operations -/

theorem memAllocate_allocs {s s' : Machine M (AllocId × PE) F} {k n a} {p : ThinPtr (AllocId × PE)}
    (h : memAllocate k n a s = .ok (p, s')) :
    ∃ m o ae, s' = { s with mem := m, oracle := o } ∧ p.prov.map (·.1) = some (allocs (B := B) s.mem).length ∧
      allocs (B := B) m = allocs s.mem ++ [⟨List.replicate n .uninit, p.addr, a, k, true, ae⟩] := by
  unfold MiniRust.memAllocate at h
  obtain ⟨pick, s1, h0, h⟩ := EM.bind_eq_ok.1 h
  obtain ⟨rest, _, rfl⟩ := EM.popInt_eq_ok.1 h0
  simp only [Res.bind_eq_ok, Prod.exists, Except.ok.injEq, Prod.mk.injEq] at h
  obtain ⟨p', m, hm, rfl, rfl⟩ := h
  simp only [ConcMem.allocate, Res.bind_eq_ok, Prod.exists, Except.ok.injEq, Prod.mk.injEq] at hm
  obtain ⟨p'', mm, hl, rfl, rfl⟩ := hm
  obtain ⟨pe, ae, e⟩ := B.allocate s.mem.memory k n a pick
  rw [hl] at e
  have e' : (B.mem s.mem.memory).allocate k n a pe ae pick = .ok (p'', B.mem mm) := e.symm
  rw [BasicMem.allocate_eq_ok] at e'
  obtain ⟨_, _, rfl, e2⟩ := e'
  exact ⟨_, _, ae, rfl, rfl, by show (B.mem mm).allocations = _; rw [e2]; rfl⟩

theorem memDeallocate_allocs {s s' : Machine M (AllocId × PE) F} {ptr : ThinPtr (AllocId × PE)} {k n a u}
    (h : memDeallocate ptr k n a s = .ok (u, s')) :
    ∃ m id x ae, s' = { s with mem := m } ∧ ptr.prov.map (·.1) = some id ∧ (allocs (B := B) s.mem)[id]? = some x ∧
      x.kind = k ∧ allocs (B := B) m = (allocs s.mem).set id { x with extra := ae, live := false } := by
  unfold MiniRust.memDeallocate at h
  simp only [Res.bind_eq_ok, Except.ok.injEq, Prod.mk.injEq] at h
  obtain ⟨m, hm, _, rfl⟩ := h
  simp only [ConcMem.deallocate, Res.bind_eq_ok, Except.ok.injEq] at hm
  obtain ⟨mm, hl, rfl⟩ := hm
  obtain ⟨hx, e⟩ := B.deallocate s.mem.memory ptr k n a
  rw [hl] at e
  have e' : (B.mem s.mem.memory).deallocate ptr k n a hx = .ok (B.mem mm) := e.symm
  rw [BasicMem.deallocate_eq_ok] at e'
  obtain ⟨id, pe, x, extra, hpr, ha, hl', h1, h2, h3, h4, hw, e2⟩ := e'
  refine ⟨_, id, x, extra, rfl, by rw [hpr]; rfl, ha, ?_, ?_⟩
  · exact h2.symm
  · show (B.mem mm).allocations = _; rw [e2]; rfl

theorem StackKept.store {m m' : ConcMem M} {p : ThinPtr (AllocId × PE)} {b al at'} (h : m.store p b al at' = .ok m') :
    StackKept (B := B) m m' := by
  obtain ⟨mm, h1, rfl⟩ := ConcMem.store_eq_ok.1 h
  obtain ⟨hx, e⟩ := B.store m.memory p b al
  rw [h1] at e
  have e' : (B.mem m.memory).store p b al hx = .ok (B.mem mm) := e.symm
  rw [BasicMem.store_eq_ok] at e'
  obtain ⟨_, ⟨_, e'⟩ | ⟨_, id, pe, a, off, extra, data, hp, ha, hl, h3, h4, hx', hw, e'⟩⟩ := e'
  · have e2 : ∀ ac, allocs (B := B) (⟨mm, ac⟩ : ConcMem M) = allocs m := by
      intro ac; show (B.mem mm).allocations = _; rw [e']; rfl
    refine ⟨fun i x hx hk => ⟨x, by rw [e2]; exact hx, hk, rfl, rfl, rfl, rfl⟩, fun i x hx hk hl => ⟨x, ?_, hk, hl⟩⟩
    rw [e2] at hx; exact hx
  · have e2 : ∀ ac, allocs (B := B) (⟨mm, ac⟩ : ConcMem M) = (allocs m).set id { a with extra := extra, data := data } := by
      intro ac; show (B.mem mm).allocations = _; rw [e']; rfl
    have hlt := (List.getElem?_eq_some_iff.1 ha).1
    refine ⟨fun i x hx hk => ?_, fun i x hx hk hl => ?_⟩
    · by_cases hi : id = i
      · subst hi
        have hxa : a = x := by
          have hx' : (B.mem m.memory).allocations[id]? = some x := hx
          rw [ha] at hx'; cases hx'; rfl
        subst hxa
        refine ⟨{ a with extra := extra, data := data }, ?_, hk, rfl, ?_, rfl, rfl⟩
        · rw [e2]; exact List.getElem?_set_self hlt
        · exact writeSubslice_length hw
      · refine ⟨x, ?_, hk, rfl, rfl, rfl, rfl⟩
        rw [e2, List.getElem?_set_ne hi]; exact hx
    · rw [e2] at hx
      by_cases hi : id = i
      · subst hi
        rw [List.getElem?_set_self (show id < (allocs (B := B) m).length from hlt)] at hx
        cases hx
        exact ⟨a, ha, hk, hl⟩
      · rw [List.getElem?_set_ne hi] at hx
        exact ⟨x, hx, hk, hl⟩

theorem StackKept.allocate {m m' : ConcMem M} {y : Alloc PE AE} (hy : y.kind ≠ .stack)
    (e : allocs (B := B) m' = allocs m ++ [y]) : StackKept (B := B) m m' := by
  refine ⟨fun i x hx hk => ?_, fun i x hx hk hl => ?_⟩
  · exact ⟨x, by rw [e, List.getElem?_append_left (List.getElem?_eq_some_iff.1 hx).1]; exact hx, hk, rfl, rfl, rfl, rfl⟩
  · rw [e] at hx
    by_cases hi : i < (allocs (B := B) m).length
    · rw [List.getElem?_append_left hi] at hx
      exact ⟨x, hx, hk, hl⟩
    · rw [List.getElem?_append_right (Nat.le_of_not_lt hi)] at hx
      cases List.mem_singleton.1 (List.mem_of_getElem? hx)
      exact absurd hk hy

theorem StackKept.dealloc {m m' : ConcMem M} {id} {x y : Alloc PE AE} (hx : (allocs (B := B) m)[id]? = some x)
    (hk : x.kind ≠ .stack) (hl : y.live = false) (e : allocs (B := B) m' = (allocs m).set id y) : StackKept (B := B) m m' := by
  refine ⟨fun i z hz hkz => ?_, fun i z hz hkz hlz => ?_⟩
  · have hi : id ≠ i := by
      rintro rfl
      rw [hx] at hz; cases hz; exact hk hkz
    exact ⟨z, by rw [e, List.getElem?_set_ne hi]; exact hz, hkz, rfl, rfl, rfl, rfl⟩
  · rw [e] at hz
    by_cases hi : id = i
    · subst hi
      rw [List.getElem?_set_self (List.getElem?_eq_some_iff.1 hx).1] at hz
      cases hz
      rw [hl] at hlz; cases hlz
    · rw [List.getElem?_set_ne hi] at hz
      exact ⟨z, hz, hkz, hlz⟩

/-! ### Storage of locals -/

variable {s s' : Machine M (AllocId × PE) F} {fr fr' : StackFrame (AllocId × PE) F} {l : LocalName}

theorem localLayout_eq_ok {n : Nat} {a : Align} :
    fr.localLayout l = .ok (n, a) ↔ ∃ ty, fr.func.locals.get? l = some ty ∧ ty.layout = .ok (.sized n a) := by
  unfold StackFrame.localLayout
  simp only [Res.bind_eq_ok, Map.get_eq_ok, Except.ok.injEq, Prod.mk.injEq]
  constructor
  · rintro ⟨ty, h1, lay, h2, n', h3, a', h4, rfl, rfl⟩
    refine ⟨ty, h1, ?_⟩
    rw [h2]
    cases lay with
    | sized s a => simp [LayoutStrategy.expectSize, LayoutStrategy.expectAlign] at h3 h4; rw [h3, h4]
    | _ => simp [LayoutStrategy.expectSize, panic] at h3
  · rintro ⟨ty, h1, h2⟩
    exact ⟨ty, h1, _, h2, n, rfl, a, rfl, rfl, rfl⟩

/-- What an operation on the storage of locals does to all slots. -/
structure SlotTrans (m m' : ConcMem M) (S S' : List (Slot PE)) : Prop where
  ok : ∀ R, SlotsOk (allocs (B := B) m) (S ++ R) → SlotsOk (allocs (B := B) m') (S' ++ R)
  all : ∀ R, SlotsOk (allocs (B := B) m) (S ++ R) → SlotsAll (allocs (B := B) m) (S ++ R) →
    SlotsAll (allocs (B := B) m') (S' ++ R)

theorem SlotTrans.trans {m m' m'' : ConcMem M} {S S' S'' : List (Slot PE)} (h : SlotTrans (B := B) m m' S S')
    (h' : SlotTrans (B := B) m' m'' S' S'') : SlotTrans (B := B) m m'' S S'' :=
  ⟨fun R hR => h'.ok R (h.ok R hR), fun R hR hA => h'.all R (h.ok R hR) (h.all R hR hA)⟩

theorem SlotTrans.ofKept {m m' : ConcMem M} {S : List (Slot PE)} (h : StackKept (B := B) m m') : SlotTrans (B := B) m m' S S :=
  ⟨fun _ hR => hR.kept h, fun _ _ hA => hA.kept h⟩

theorem slotsOf_perm {e : LocalName × ThinPtr (AllocId × PE)} {L} (h : fr.locals.Perm (e :: L)) :
    (slotsOf fr).Perm (⟨fr.func, e.1, e.2⟩ :: slotsOf { fr with locals := L }) := by
  unfold slotsOf
  exact h.map _

include B in
theorem storageDead_trans (h : storageDead fr l s = .ok (fr', s')) :
    ∃ m, s' = { s with mem := m } ∧ fr' = { fr with locals := fr.locals.erase l } ∧
      SlotTrans (B := B) s.mem m (slotsOf fr) (slotsOf fr') := by
  unfold MiniRust.storageDead at h
  simp only [EM.bind_eq_ok, EM.lift_eq_ok, Prod.exists] at h
  obtain ⟨n, a, _, ⟨hlay, rfl⟩, h⟩ := h
  cases hg : fr.locals.get? l with
  | none =>
    rw [hg] at h
    simp only [EM.pure_eq_ok] at h
    obtain ⟨h1, h2⟩ := h
    subst h1 h2
    exact ⟨_, rfl, by rw [Map.erase_of_none hg], .ofKept .refl⟩
  | some ptr =>
    rw [hg] at h
    simp only [EM.bind_eq_ok, EM.pure_eq_ok] at h
    obtain ⟨_, _, hd, rfl, rfl⟩ := h
    obtain ⟨m, id, x, ae, rfl, hid, hx, hk, e⟩ := memDeallocate_allocs (B := B) hd
    refine ⟨m, rfl, rfl, ?_⟩
    refine ⟨fun R hR => ?_, fun R hR hA => ?_⟩
    · have hp := hR.perm ((slotsOf_perm (Map.perm_erase hg)).append_right R)
      have hn := hp.nodup
      simp only [List.cons_append, List.map_cons, List.nodup_cons] at hn
      refine SlotsOk.congr ⟨fun sl hs => hp.ok sl (List.mem_cons_of_mem _ hs), hn.2⟩ ?_
      intro sl hs i y hi hy hk
      have hne : id ≠ i := by
        rintro rfl
        apply hn.1
        refine List.mem_map.2 ⟨sl, hs, ?_⟩
        rw [hi]; exact hid.symm
      exact ⟨y, by rw [e, List.getElem?_set_ne hne]; exact hy, hk, rfl, rfl, rfl, rfl⟩
    · intro i y hy hk hl
      rw [e] at hy
      by_cases hi : id = i
      · subst hi
        rw [List.getElem?_set_self (List.getElem?_eq_some_iff.1 hx).1] at hy
        cases hy
        cases hl
      · rw [List.getElem?_set_ne hi] at hy
        obtain ⟨sl, hs, hsl⟩ := hA.perm ((slotsOf_perm (Map.perm_erase hg)).append_right R) i y hy hk hl
        rcases List.mem_cons.1 hs with rfl | hs
        · have : ptr.prov.map (·.1) = some i := hsl
          rw [hid] at this
          exact absurd (Option.some.inj this) hi
        · exact ⟨sl, hs, hsl⟩

include B in
theorem storageLive_trans (hnd : fr.locals.keys.Nodup) (h : storageLive fr l s = .ok (fr', s')) :
    ∃ m o ptr, s' = { s with mem := m, oracle := o } ∧ fr' = { fr with locals := (fr.locals.erase l).insert l ptr } ∧
      SlotTrans (B := B) s.mem m (slotsOf fr) (slotsOf fr') := by
  unfold MiniRust.storageLive at h
  simp only [EM.bind_eq_ok, EM.lift_eq_ok, Prod.exists, EM.pure_eq_ok] at h
  obtain ⟨fr1, s1, h1, n, a, _, ⟨hlay, rfl⟩, ptr, s2, h2, rfl, rfl⟩ := h
  obtain ⟨m, rfl, rfl, ht⟩ := storageDead_trans h1
  obtain ⟨m2, o, ae, rfl, hid, e⟩ := memAllocate_allocs (B := B) h2
  refine ⟨m2, o, ptr, rfl, rfl, ht.trans ?_⟩
  obtain ⟨ty, hty, hl⟩ := localLayout_eq_ok.1 hlay
  have hnone := Map.get?_eq_none_iff.2 (Map.not_mem_erase (k := l) hnd)
  have hperm : (slotsOf { fr with locals := (fr.locals.erase l).insert l ptr }).Perm
      (⟨fr.func, l, ptr⟩ :: slotsOf { fr with locals := fr.locals.erase l }) := by
    refine slotsOf_perm (fr := { fr with locals := (fr.locals.erase l).insert l ptr }) (e := (l, ptr)) ?_
    show ((fr.locals.erase l).insert l ptr).Perm _
    rw [Map.insert_of_none hnone]
    exact List.perm_append_comm
  refine ⟨fun R hR => ?_, fun R hR hA => ?_⟩
  · have hk2 : SlotsOk (allocs (B := B) m2) _ := hR.congr fun sl _ id x _ hx hk => ⟨x, by
      rw [e, List.getElem?_append_left (List.getElem?_eq_some_iff.1 hx).1]; exact hx, hk, rfl, rfl, rfl, rfl⟩
    refine SlotsOk.perm ?_ (hperm.append_right R).symm
    refine ⟨?_, ?_⟩
    · intro sl hs
      rcases List.mem_cons.1 hs with rfl | hs
      · refine ⟨ty, n, a, _, ⟨List.replicate n .uninit, ptr.addr, a, .stack, true, ae⟩, hty, hl, hid, ?_, rfl, rfl,
          by simp, rfl, rfl⟩
        · rw [e, List.getElem?_append_right (Nat.le_refl _)]; simp
      · exact hk2.ok sl hs
    · simp only [List.cons_append, List.map_cons, List.nodup_cons]
      refine ⟨?_, hk2.nodup⟩
      intro hm
      obtain ⟨sl, hs, hsl⟩ := List.mem_map.1 hm
      obtain ⟨_, _, _, id, x, _, _, h3, h4, _⟩ := hR.ok sl hs
      rw [hsl] at h3
      have h3' : ptr.prov.map (·.1) = some id := h3
      rw [hid] at h3'
      cases h3'
      exact absurd (List.getElem?_eq_some_iff.1 h4).1 (Nat.lt_irrefl _)
  · refine SlotsAll.perm ?_ (hperm.append_right R).symm
    intro i x hx hk hlv
    rw [e] at hx
    by_cases hi : i < (allocs (B := B) m).length
    · rw [List.getElem?_append_left hi] at hx
      obtain ⟨sl, hs, hsl⟩ := hA i x hx hk hlv
      exact ⟨sl, List.mem_cons_of_mem _ hs, hsl⟩
    · refine ⟨_, List.mem_cons_self .., ?_⟩
      have h1 := (List.getElem?_eq_some_iff.1 hx).1
      simp only [List.length_append, List.length_singleton] at h1
      have : i = (allocs (B := B) m).length := by omega
      subst this
      exact hid

end
end MiniRust
