import Verif.Lemmas.FootStep
import Verif.Lemmas.MachineMem
/-
What a step writes, and the order of the steps of two threads.
-/
set_option linter.unusedSectionVars false
namespace MiniRust

section
variable [T : Target] {M PE AE F : Type} [Memory M (AllocId × PE) F] [K : BasicBacked M PE AE F] [DecidableEq PE]

/-- How an allocation can change while these accesses are made. -/
structure Touched (as : List Access) (a b : Alloc PE AE) : Prop where
  addr : b.addr = a.addr
  align : b.align = a.align
  kind : b.kind = a.kind
  size : b.size = a.size
  dead : a.live = false → b.live = false ∧ b.data = a.data
  bytes : ∀ i : Nat, b.data[i]? ≠ a.data[i]? → WrittenAt as (a.addr + i)

omit [DecidableEq PE] T in
theorem Touched.refl {as : List Access} (a : Alloc PE AE) : Touched as a a :=
  ⟨rfl, rfl, rfl, rfl, fun h => ⟨h, rfl⟩, fun _ h => absurd rfl h⟩

omit [DecidableEq PE] in
theorem Touched.trans {as bs : List Access} {a b c : Alloc PE AE} (h1 : Touched as a b) (h2 : Touched bs b c)
    (hp : as <+: bs) : Touched bs a c := by
  refine ⟨h2.addr.trans h1.addr, h2.align.trans h1.align, h2.kind.trans h1.kind, h2.size.trans h1.size, fun h => ?_, fun i h => ?_⟩
  · obtain ⟨h3, h4⟩ := h1.dead h
    obtain ⟨h5, h6⟩ := h2.dead h3
    exact ⟨h5, h6.trans h4⟩
  · by_cases e : c.data[i]? = b.data[i]?
    · rw [e] at h; exact (h1.bytes i h).mono hp
    · rw [← h1.addr]; exact h2.bytes i e

/-- How the memory can change. -/
structure Wrote (m m' : ConcMem M) : Prop where
  grow : m.accesses <+: m'.accesses
  allocs : ∀ (id : Nat) a, (K.mem m.memory).allocations[id]? = some a →
    ∃ b, (K.mem m'.memory).allocations[id]? = some b ∧ Touched m'.accesses a b

theorem Wrote.ofSame {m m' : ConcMem M} (h : SameData (K.mem m.memory) (K.mem m'.memory)) (ha : m'.accesses = m.accesses) :
    Wrote m m' := by
  refine ⟨by rw [ha]; exact List.prefix_refl _, fun id a h1 => ?_⟩
  have hi : id < (K.mem m'.memory).allocations.length := by rw [← h.1]; exact (List.getElem?_eq_some_iff.1 h1).1
  obtain ⟨e1, e2, e3, e4, e5⟩ := h.2 id a _ h1 (List.getElem?_eq_getElem hi)
  exact ⟨_, List.getElem?_eq_getElem hi, e2.symm, e3.symm, e4.symm, by unfold Alloc.size; rw [e1],
    fun h => ⟨by rw [← e5]; exact h, e1.symm⟩, fun i h => absurd (by rw [e1]) h⟩

omit [DecidableEq PE] T in
theorem touched_set {as : List Access} {l : List (Alloc PE AE)} {i : Nat} {a b : Alloc PE AE} (h : l[i]? = some a) (hb : Touched as a b)
    (id : Nat) (c : Alloc PE AE) (hc : l[id]? = some c) : ∃ d, (l.set i b)[id]? = some d ∧ Touched as c d := by
  rw [List.getElem?_set]
  by_cases e : i = id
  · subst e
    rw [hc] at h; cases h
    rw [if_pos rfl, if_pos (List.getElem?_eq_some_iff.1 hc).1]
    exact ⟨b, rfl, hb⟩
  · rw [if_neg e]; exact ⟨c, hc, .refl _⟩

theorem Wrote.allocate {m m' : ConcMem M} {k n al pick} {p : ThinPtr (AllocId × PE)} (h : m.allocate k n al pick = .ok (p, m')) :
    Wrote m m' := by
  unfold ConcMem.allocate at h
  obtain ⟨⟨p1, m1⟩, h1, h2⟩ := Res.bind_eq_ok.1 h
  cases h2
  refine ⟨List.prefix_refl _, fun id a ha => ?_⟩
  obtain ⟨pe, ae, h3⟩ := K.allocate m.memory k n al pick
  rw [h1] at h3
  obtain ⟨_, _, _, h4⟩ := BasicMem.allocate_eq_ok.1 h3.symm
  rw [h4]
  exact ⟨a, by rw [List.getElem?_append_left (List.getElem?_eq_some_iff.1 ha).1]; exact ha, .refl _⟩

theorem Wrote.deallocate {m m' : ConcMem M} {p : ThinPtr (AllocId × PE)} {k n al} (h : m.deallocate p k n al = .ok m') :
    Wrote m m' := by
  unfold ConcMem.deallocate at h
  obtain ⟨m1, h1, h2⟩ := Res.bind_eq_ok.1 h
  cases h2
  refine ⟨List.prefix_refl _, ?_⟩
  obtain ⟨hd, h3⟩ := K.deallocate m.memory p k n al
  rw [h1] at h3
  obtain ⟨id, pe, a, extra, hpp, ha, hl, _, _, _, _, hx, h4⟩ := BasicMem.deallocate_eq_ok.1 h3.symm
  rw [h4]
  refine touched_set ha ?_
  exact ⟨rfl, rfl, rfl, rfl, fun h => ⟨rfl, rfl⟩, fun _ h => absurd rfl h⟩

instance : FullRel (P := AllocId × PE) (F := F) (Wrote (M := M)) where
  refl m := ⟨List.prefix_refl _, fun _ a h => ⟨a, h, .refl _⟩⟩
  trans m m' m'' h1 h2 := by
    refine ⟨h1.grow.trans h2.grow, fun id a h => ?_⟩
    obtain ⟨b, h3, h4⟩ := h1.allocs id a h
    obtain ⟨c, h5, h6⟩ := h2.allocs id b h3
    exact ⟨c, h5, h4.trans h6 h2.grow⟩
  load m m' p n al at' bytes h := by
    obtain ⟨m1, h1, rfl⟩ := ConcMem.load_eq_ok.1 h
    refine ⟨List.prefix_append _ _, fun id a ha => ?_⟩
    obtain ⟨hd, h2⟩ := K.load m.memory p n al
    rw [h1] at h2
    obtain ⟨_, ⟨_, _, h3⟩ | ⟨_, id', pe, a', off, extra, _, ha', _, _, _, _, _, h3⟩⟩ := BasicMem.load_eq_ok.1 h2.symm
    · rw [h3]; exact ⟨a, ha, .refl _⟩
    · rw [h3]
      refine touched_set ha' ?_ id a ha
      exact ⟨rfl, rfl, rfl, rfl, fun h => ⟨h, rfl⟩, fun _ h => absurd rfl h⟩
  retag m m' f f' p p' pty e vt h := by
    unfold ConcMem.retagPtr at h
    obtain ⟨⟨_, _, m1⟩, h1, h2⟩ := Res.bind_eq_ok.1 h
    cases h2
    exact .ofSame (K.retag _ _ _ _ _ _ _ _ _ h1) rfl
  store m m' p b al at' h := by
    obtain ⟨m1, h1, rfl⟩ := ConcMem.store_eq_ok.1 h
    refine ⟨List.prefix_append _ _, fun id a ha => ?_⟩
    obtain ⟨hd, h2⟩ := K.store m.memory p b al
    rw [h1] at h2
    obtain ⟨_, ⟨_, h3⟩ | ⟨_, id', pe, a', off, extra, data, _, ha', hl, h4, h5, _, hw, h3⟩⟩ := BasicMem.store_eq_ok.1 h2.symm
    · rw [h3]; exact ⟨a, ha, .refl _⟩
    · rw [h3]
      refine touched_set ha' ?_ id a ha
      refine ⟨rfl, rfl, rfl, ?_, fun h => ?_, fun i h => ?_⟩
      · exact writeSubslice_length hw
      · rw [hl] at h; cases h
      · refine ⟨_, List.mem_append_right _ (List.mem_singleton.2 rfl), rfl, ?_⟩
        show p.addr ≤ a'.addr + i ∧ a'.addr + i < p.addr + b.length
        by_contra hc
        apply h
        show data[i]? = a'.data[i]?
        rw [writeSubslice_getElem? hw]
        split
        · exfalso; apply hc; rw [h4]; push_cast; omega
        · rfl
  allocate m m' k n al pick p _ h := .allocate h
  heap m m' n al pick p h := .allocate h
  deallocate m m' p n al h := .deallocate h
  free m m' p n al h := .deallocate h
  endCall m m' f h := by
    unfold ConcMem.endCall at h
    obtain ⟨m1, h1, h2⟩ := Res.bind_eq_ok.1 h
    cases h2
    exact .ofSame (K.endCall _ _ _ h1) rfl

end
end MiniRust
