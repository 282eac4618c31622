import Verif.Lemmas.TBInv
/-
Forgetting the borrow information is a simulation of Tree Borrows by the basic memory model.
-/
set_option linter.unusedSectionVars false
namespace MiniRust

/-- One allocation without its tree. -/
def Alloc.erase (a : Alloc Path Node) : Alloc Unit Unit :=
  { data := a.data.map AByte.erase, addr := a.addr, align := a.align, kind := a.kind, live := a.live, extra := () }

theorem TBMem.erase_allocations (m : TBMem) : m.erase.allocations = m.mem.allocations.map Alloc.erase := rfl

theorem Alloc.erase_size (a : Alloc Path Node) : a.erase.size = a.size := by simp [Alloc.erase, Alloc.size]

theorem TBMem.erase_getElem? (m : TBMem) (id : Nat) :
    m.erase.allocations[id]? = (m.mem.allocations[id]?).map Alloc.erase := by
  rw [TBMem.erase_allocations, List.getElem?_map]

theorem TBMem.erase_set {m : TBMem} {id : Nat} {a : Alloc Path Node} :
    TBMem.erase ⟨⟨m.mem.allocations.set id a⟩⟩ = ⟨m.erase.allocations.set id a.erase⟩ := by
  rw [TBMem.erase_allocations, ← List.map_set]; rfl

theorem writeSubslice_map {α β : Type} {f : α → β} {l src r : List α} {off : Nat} (h : writeSubslice l off src = .ok r) :
    writeSubslice (l.map f) off (src.map f) = .ok (r.map f) := by
  rw [writeSubslice_eq_ok] at h ⊢
  obtain ⟨h1, rfl⟩ := h
  exact ⟨by simpa using h1, by simp [List.map_take, List.map_drop]⟩

/-- Allocations with the same data and parameters erase to the same. -/
theorem sameData_erase {m m' : TBMem} (h : SameData m.mem m'.mem) : m'.erase = m.erase := by
  have : m'.erase.allocations = m.erase.allocations := by
    apply List.ext_getElem?
    intro i
    rw [TBMem.erase_getElem?, TBMem.erase_getElem?]
    cases ha : m.mem.allocations[i]? with
    | none =>
      have : m.mem.allocations.length ≤ i := by simpa using ha
      rw [List.getElem?_eq_none (by rw [← h.1]; exact this)]
    | some a =>
      have hlt := (List.getElem?_eq_some_iff.1 ha).1
      have hb := List.getElem?_eq_getElem (l := m'.mem.allocations) (i := i) (by rw [← h.1]; exact hlt)
      have := h.2 i a _ ha hb
      rw [hb]
      simp only [Option.map_some, Option.some.injEq, Alloc.erase]
      simp [this]
  cases h1 : m'.erase
  cases h2 : m.erase
  rw [h1, h2] at this
  simp at this
  rw [this]

section
variable [T : Target]

theorem pickable_erase (m : TBMem) (size : Nat) (align : Align) (addr : Int) :
    m.erase.pickable size align addr = m.mem.pickable size align addr := by
  have : (m.erase.allocations.any fun a => a.live && a.overlaps addr size) =
      m.mem.allocations.any (fun a => a.live && a.overlaps addr size) := by
    rw [TBMem.erase_allocations, List.any_map]
    congr 1
    funext a
    simp only [Function.comp, Alloc.overlaps, Alloc.erase_size]
    rfl
  simp [BasicMem.pickable, this]

theorem checkPtr_erase (m : TBMem) (ptr : ThinPtr TBProv) (len : Nat) :
    m.erase.checkPtr ptr.erase len = (m.mem.checkPtr ptr len).map (fun o => o.map fun r => (r.1, (), r.2.2)) := by
  unfold BasicMem.checkPtr
  split
  · rfl
  · cases hp : ptr.prov with
    | none => simp [ThinPtr.erase, hp]; rfl
    | some pv =>
      obtain ⟨id, pe⟩ := pv
      simp only [ThinPtr.erase, hp, Option.map_some, TBProv.erase, index]
      rw [TBMem.erase_getElem?]
      cases m.mem.allocations[id]? with
      | none => rfl
      | some a =>
        have hs : (Alloc.erase a).size = a.size := Alloc.erase_size a
        have hl : (Alloc.erase a).live = a.live := rfl
        have hd : (Alloc.erase a).addr = a.addr := rfl
        show (if !(Alloc.erase a).live then (.error .ub : Res _) else _) = Except.map _ (if !a.live then (.error .ub : Res _) else _)
        rw [hl]
        cases a.live with
        | false => rfl
        | true =>
          simp only [Bool.not_true, Bool.false_eq_true, if_false, hs, hd]
          split
          · rfl
          · cases sizeFromBytes (ptr.addr - a.addr) <;> rfl

theorem leakCheck_erase (m : TBMem) : m.erase.leakCheck = m.mem.leakCheck := by
  unfold BasicMem.leakCheck
  rw [TBMem.erase_allocations]
  induction m.mem.allocations with
  | nil => rfl
  | cons a as ih => 
    simp only [List.map_cons, BasicMem.leakLoop, ih]
    rfl

theorem allocate_erase {m m' : TBMem} {kind size align pick p}
    (h : Memory.allocate m kind size align pick = .ok (p, m')) :
    Memory.allocate m.erase kind size align pick = .ok (p.erase, m'.erase) := by
  rw [tb_allocate_eq_ok, BasicMem.allocate_eq_ok] at h
  obtain ⟨h1, h2, rfl, h3⟩ := h
  simp only [Memory.allocate]
  rw [BasicMem.allocate_eq_ok]
  refine ⟨h1, by rw [pickable_erase]; exact h2, ?_, ?_⟩
  · simp [ThinPtr.erase, TBProv.erase, TBMem.erase_allocations]
  · have : m'.erase.allocations = m'.mem.allocations.map Alloc.erase := rfl
    rw [h3] at this
    cases h4 : m'.erase
    rw [h4] at this
    simp only [List.map_append] at this
    rw [this]
    simp [TBMem.erase_allocations, Alloc.erase, AByte.erase]

theorem deallocate_erase {m m' : TBMem} {ptr : ThinPtr TBProv} {kind size align}
    (h : Memory.deallocate m ptr kind size align = .ok m') :
    Memory.deallocate m.erase ptr.erase kind size align = .ok m'.erase := by
  rw [tb_deallocate_eq_ok, BasicMem.deallocate_eq_ok] at h
  obtain ⟨id, pe, a, extra, hp, ha, hl, h1, h2, h3, h4, hx, hm⟩ := h
  simp only [Memory.deallocate]
  rw [BasicMem.deallocate_eq_ok]
  refine ⟨id, (), a.erase, (), by simp [ThinPtr.erase, hp, TBProv.erase], by rw [TBMem.erase_getElem?, ha]; rfl, hl, h1, h2,
    by rw [Alloc.erase_size]; exact h3, h4, rfl, ?_⟩
  have : m' = ⟨⟨m.mem.allocations.set id { a with extra := extra, live := false }⟩⟩ := by rw [← hm]
  rw [this, TBMem.erase_set]; rfl

theorem store_erase {m m' : TBMem} {ptr : ThinPtr TBProv} {bytes align}
    (h : Memory.store m ptr bytes align = .ok m') :
    Memory.store m.erase ptr.erase (bytes.map AByte.erase) align = .ok m'.erase := by
  rw [tb_store_eq_ok, BasicMem.store_eq_ok] at h
  simp only [Memory.store]
  rw [BasicMem.store_eq_ok]
  obtain ⟨hal, ⟨rfl, hm⟩ | ⟨hne, id, pe, a, off, extra, data, hp, ha, hl, h1, h2, hx, hw, hm⟩⟩ := h
  · refine ⟨hal, .inl ⟨rfl, ?_⟩⟩
    have : m' = m := by obtain ⟨x⟩ := m'; obtain ⟨y⟩ := m; simp at hm; rw [hm]
    rw [this]
  · refine ⟨hal, .inr ⟨by simpa using hne, id, (), a.erase, off, (), data.map AByte.erase, by simp [ThinPtr.erase, hp, TBProv.erase],
      by rw [TBMem.erase_getElem?, ha]; rfl, hl, h1, by rw [Alloc.erase_size]; simpa using h2, rfl, writeSubslice_map hw, ?_⟩⟩
    have : m' = ⟨⟨m.mem.allocations.set id { a with extra := extra, data := data }⟩⟩ := by rw [← hm]
    rw [this, TBMem.erase_set]; rfl

theorem load_erase {m m' : TBMem} {ptr : ThinPtr TBProv} {len align bytes}
    (h : Memory.load m ptr len align = .ok (bytes, m')) :
    Memory.load m.erase ptr.erase len align = .ok (bytes.map AByte.erase, m'.erase) := by
  rw [tb_load_eq_ok, BasicMem.load_eq_ok] at h
  simp only [Memory.load]
  rw [BasicMem.load_eq_ok]
  obtain ⟨hal, ⟨hz, rfl, hm⟩ | ⟨hne, id, pe, a, off, extra, hp, ha, hl, h1, h2, hx, rfl, hm⟩⟩ := h
  · refine ⟨hal, .inl ⟨hz, rfl, ?_⟩⟩
    have : m' = m := by obtain ⟨x⟩ := m'; obtain ⟨y⟩ := m; simp at hm; rw [hm]
    rw [this]
  · refine ⟨hal, .inr ⟨hne, id, (), a.erase, off, (), by simp [ThinPtr.erase, hp, TBProv.erase],
      by rw [TBMem.erase_getElem?, ha]; rfl, hl, h1, by rw [Alloc.erase_size]; exact h2, rfl,
      by simp [Alloc.erase, List.map_take, List.map_drop], ?_⟩⟩
    have : m' = ⟨⟨m.mem.allocations.set id { a with extra := extra }⟩⟩ := by rw [← hm]
    rw [this, TBMem.erase_set]; rfl

theorem retag_erase {m m' : TBMem} {f f' : TBFrame} {ptr ptr' : Pointer TBProv} {pty entry vt}
    (h : Memory.retagPtr m f ptr pty entry vt = .ok (ptr', f', m')) : ptr'.erase = ptr.erase ∧ m'.erase = m.erase := by
  refine ⟨?_, sameData_erase (BasicBacked.retag (M := TBMem) m m' f f' ptr ptr' pty entry vt h)⟩
  rcases retag_ok h with ⟨_, rfl, _, rfl⟩ | ⟨s, thin, hs, hr, rfl⟩
  · rfl
  · rcases reborrow_ok hr with ⟨_, h, _, _⟩ | ⟨id, parent, a, off, perms, root, path, root', hp, ha, _, _,
        _, _, _, _, _, _, _, _, h⟩
    · rw [h]; rfl
    · simp [ThinPtr.widen, Pointer.erase, ThinPtr.erase, hp, h, TBProv.erase]

end
end MiniRust
