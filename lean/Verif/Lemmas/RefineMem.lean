import Verif.Lemmas.Refine
import Verif.Lemmas.SoftMem
import Verif.Lemmas.Memory
/-
The operations of a memory model on top of a basic memory do no more than those of the basic memory.
-/
set_option linter.unusedSectionVars false
namespace MiniRust

theorem Soft.excused {e : Err} (h : Soft e) : e.Excused := by
  rcases h with h | h | h
  · exact .inl h
  · exact .inr (.inl h)
  · exact .inr (.inr (.inl h))

theorem Refines.of_soft {α β : Type} {R : α → β → Prop} {x : Res α} {y : Res β} (hs : ResE Soft x)
    (h : ∀ a, x = .ok a → ∃ b, y = .ok b ∧ R a b) : Refines R x y := by
  cases x with
  | ok a => exact h a rfl
  | error e => exact .inl (hs.err e rfl).excused

section
variable {PE AE QE QA : Type} [Plain QE] [PlainAlloc QA]

theorem AllocBelow.size {a : Alloc PE AE} {b : Alloc QE QA} (h : AllocBelow a b) : a.size = b.size :=
  h.data.length_eq

theorem MemBelow.sameData {m m' : BasicMem PE AE} {n : BasicMem QE QA} (h : MemBelow m n) (hs : SameData m m') :
    MemBelow m' n := by
  unfold MemBelow at *
  rw [List.forall₂_iff_get] at *
  refine ⟨by rw [← hs.1, h.1], fun i h1 h2 => ?_⟩
  have h1' : i < m.allocations.length := by rw [hs.1]; exact h1
  have ha := h.2 i h1' h2
  have he := hs.2 i (m.allocations.get ⟨i, h1'⟩) (m'.allocations.get ⟨i, h1⟩)
    (by simp [List.getElem?_eq_getElem h1']) (by simp [List.getElem?_eq_getElem h1])
  simp only [List.get_eq_getElem] at *
  obtain ⟨e1, e2, e3, e4, e5⟩ := he
  exact ⟨by rw [← e1]; exact ha.data, by rw [← e2]; exact ha.addr, by rw [← e3]; exact ha.align,
    by rw [← e4]; exact ha.kind, by rw [← e5]; exact ha.live, ha.extra⟩

theorem checkPtr_below' {m : BasicMem PE AE} {n : BasicMem QE QA} (h : MemBelow m n) {p q} (hp : ThinBelow p q)
    (len : Nat) : Refines (fun _ _ => True) (m.checkPtr p len) (n.checkPtr q len) := by
  unfold BasicMem.checkPtr
  split
  · exact .ok trivial
  · cases hpp : p.prov with
    | none => exact .ub
    | some pv =>
      have hq := hp.2
      rw [hpp] at hq
      rw [hq.some]
      obtain ⟨id, pe⟩ := pv
      simp only [dropExtra]
      refine .bind (.index h id) fun a b hab => ?_
      rw [hab.live, hab.addr, hab.size, hp.1]
      split
      · exact .ub
      · split
        · exact .ub
        · exact .bind .eq fun _ _ _ => .ok trivial

theorem leakCheck_below {m : BasicMem PE AE} {n : BasicMem QE QA} (h : MemBelow m n) : m.leakCheck = n.leakCheck := by
  unfold BasicMem.leakCheck
  obtain ⟨l⟩ := m
  obtain ⟨l'⟩ := n
  replace h : List.Forall₂ AllocBelow l l' := h
  show BasicMem.leakLoop l = BasicMem.leakLoop l'
  induction h with
  | nil => rfl
  | cons hab _ ih => simp only [BasicMem.leakLoop, hab.live, hab.kind, ih]

variable [T : Target]

theorem pickable_below {m : BasicMem PE AE} {n : BasicMem QE QA} (h : MemBelow m n) (size : Nat) (align : Align)
    (addr : Int) : m.pickable size align addr = n.pickable size align addr := by
  have : (m.allocations.any fun a => a.live && a.overlaps addr size) =
      n.allocations.any (fun a => a.live && a.overlaps addr size) := by
    obtain ⟨l⟩ := m
    obtain ⟨l'⟩ := n
    replace h : List.Forall₂ AllocBelow l l' := h
    simp only
    induction h with
    | nil => rfl
    | cons hab _ ih =>
      simp only [List.any_cons]
      rw [ih]
      simp only [hab.live, Alloc.overlaps, hab.addr, hab.size]
  simp [BasicMem.pickable, this]

end

section
variable {M PE AE F : Type} [T : Target] [Memory M (AllocId × PE) F] [S : SoftMem M (AllocId × PE) F]
  [B : BasicBacked M PE AE F] {m : M} {N QE QA G : Type} [Memory N (AllocId × QE) G]
  [Plain QE] [PlainAlloc QA] [PlainFrame G] [C : QuietMem N QE QA G] {n : N} (h : MemBelow (B.mem m) (C.mem n))
include h

theorem mem_allocate_below (kind : AllocKind) (size : Nat) (align : Align) (pick : Int) :
    Refines (fun x y => ThinBelow x.1 y.1 ∧ MemBelow (B.mem x.2) (C.mem y.2)) (Memory.allocate m kind size align pick)
      (Memory.allocate n kind size align pick) := by
  refine .of_soft (S.allocate _ _ _ _ _) fun ⟨p, m'⟩ hx => ?_
  obtain ⟨pe, ae, he⟩ := B.allocate m kind size align pick
  rw [hx] at he
  have he : (B.mem m).allocate kind size align pe ae pick = .ok (p, B.mem m') := he.symm
  rw [BasicMem.allocate_eq_ok] at he
  obtain ⟨h1, h2, rfl, h3⟩ := he
  obtain ⟨n', h4, h5⟩ := C.allocate n kind size align pick _ _
    (BasicMem.allocate_eq_ok.2 ⟨h1, by rw [← pickable_below h]; exact h2, rfl, rfl⟩)
  refine ⟨(_, _), h4, ⟨rfl, .inr ?_⟩, ?_⟩
  · simp [dropExtra, List.Forall₂.length_eq h]
  · show MemBelow (B.mem m') (C.mem n')
    rw [h3, h5]
    refine forall₂_append h (.cons ⟨forall₂_replicate trivial _, rfl, rfl, rfl, rfl, ?_⟩ .nil)
    simp [Alloc.size]

theorem mem_deallocate_below {p q} (hp : ThinBelow p q) (kind : AllocKind) (size : Nat) (align : Align) :
    Refines (fun x y => MemBelow (B.mem x) (C.mem y)) (Memory.deallocate m p kind size align)
      (Memory.deallocate n q kind size align) := by
  refine .of_soft (S.deallocate _ _ _ _ _) fun m' hx => ?_
  obtain ⟨hd, he⟩ := B.deallocate m p kind size align
  rw [hx] at he
  have he : (B.mem m).deallocate p kind size align hd = .ok (B.mem m') := he.symm
  rw [BasicMem.deallocate_eq_ok] at he
  obtain ⟨id, pe, a, extra, hpp, ha, hl, h1, h2, h3, h4, hx, hm⟩ := he
  obtain ⟨b, hb, hab⟩ := forall₂_get h ha
  have hq := hp.2
  rw [hpp] at hq
  obtain ⟨hd', hh, hn⟩ := C.deallocate n q kind size align
  obtain ⟨n', h5, h6⟩ := hn _ (BasicMem.deallocate_eq_ok.2 ⟨id, _, b, _, hq.some, hb, by rw [← hab.live]; exact hl,
    by rw [← hp.1, h1, hab.addr], by rw [h2, hab.kind], by rw [h3, hab.size], by rw [h4, hab.align],
    by rw [hab.extra, ← hab.size, ← h3]; exact hh, rfl⟩)
  refine ⟨n', h5, ?_⟩
  rw [hm, h6]
  refine forall₂_set h ?_ id
  exact ⟨hab.data, hab.addr, hab.align, hab.kind, rfl, by rw [h3, hab.size]; rfl⟩

theorem mem_store_below {p q} (hp : ThinBelow p q) {bs cs} (hb : BytesBelow bs cs) (align : Align) :
    Refines (fun x y => MemBelow (B.mem x) (C.mem y)) (Memory.store m p bs align) (Memory.store n q cs align) := by
  refine .of_soft (S.store _ _ _ _) fun m' hx => ?_
  obtain ⟨hd, he⟩ := B.store m p bs align
  rw [hx] at he
  have he : (B.mem m).store p bs align hd = .ok (B.mem m') := he.symm
  rw [BasicMem.store_eq_ok] at he
  obtain ⟨hal, ⟨rfl, hm⟩ | ⟨hne, id, pe, a, off, extra, data, hpp, ha, hl, h1, h2, hx, hw, hm⟩⟩ := he
  · cases hb
    obtain ⟨hd', hh, hn⟩ := C.store n q [] align
    obtain ⟨n', h5, h6⟩ := hn _ (BasicMem.store_eq_ok.2 ⟨by rw [← hp.1]; exact hal, .inl ⟨rfl, rfl⟩⟩)
    exact ⟨n', h5, by rw [hm, h6]; exact h⟩
  · obtain ⟨b, hb', hab⟩ := forall₂_get h ha
    have hq := hp.2
    rw [hpp] at hq
    have hw' := Refines.writeSubslice hab.data hb off
    rw [hw] at hw'
    obtain ⟨data', hw', hdd⟩ := hw'
    obtain ⟨hd', hh, hn⟩ := C.store n q cs align
    have hcs : cs ≠ [] := by intro hc; subst hc; cases hb; exact hne rfl
    have hsz : off + cs.length ≤ b.size := by rw [← List.Forall₂.length_eq hb, ← hab.size]; exact h2
    obtain ⟨n', h5, h6⟩ := hn _ (BasicMem.store_eq_ok.2 ⟨by rw [← hp.1]; exact hal, .inr ⟨hcs, id, _, b, off, _, data', hq.some, hb',
      by rw [← hab.live]; exact hl, by rw [← hp.1, h1, hab.addr],
      hsz, by rw [hab.extra]; exact hh _ _ hsz, hw', rfl⟩⟩)
    refine ⟨n', h5, ?_⟩
    rw [hm, h6]
    refine forall₂_set h ?_ id
    refine ⟨hdd, hab.addr, hab.align, hab.kind, hab.live, ?_⟩
    show _ = PlainAlloc.fresh data'.length
    rw [← List.Forall₂.length_eq hdd, writeSubslice_length hw, List.Forall₂.length_eq hab.data]
    rfl

theorem mem_load_below {p q} (hp : ThinBelow p q) (len : Nat) (align : Align) :
    Refines (fun x y => BytesBelow x.1 y.1 ∧ MemBelow (B.mem x.2) (C.mem y.2)) (Memory.load m p len align)
      (Memory.load n q len align) := by
  refine .of_soft (S.load _ _ _ _) fun ⟨bs, m'⟩ hx => ?_
  obtain ⟨hd, he⟩ := B.load m p len align
  rw [hx] at he
  have he : (B.mem m).load p len align hd = .ok (bs, B.mem m') := he.symm
  rw [BasicMem.load_eq_ok] at he
  obtain ⟨hal, ⟨hz, rfl, hm⟩ | ⟨hne, id, pe, a, off, extra, hpp, ha, hl, h1, h2, hx, rfl, hm⟩⟩ := he
  · obtain ⟨hd', hh, hn⟩ := C.load n q len align
    obtain ⟨n', h5, h6⟩ := hn _ _ (BasicMem.load_eq_ok.2 ⟨by rw [← hp.1]; exact hal, .inl ⟨hz, rfl, rfl⟩⟩)
    refine ⟨([], n'), h5, .nil, ?_⟩
    show MemBelow (B.mem m') (C.mem n')
    rw [hm, h6]; exact h
  · obtain ⟨b, hb', hab⟩ := forall₂_get h ha
    have hq := hp.2
    rw [hpp] at hq
    obtain ⟨hd', hh, hn⟩ := C.load n q len align
    have hsz : off + len ≤ b.size := by rw [← hab.size]; exact h2
    obtain ⟨n', h5, h6⟩ := hn _ _ (BasicMem.load_eq_ok.2 ⟨by rw [← hp.1]; exact hal, .inr ⟨hne, id, _, b, off, _, hq.some, hb',
      by rw [← hab.live]; exact hl, by rw [← hp.1, h1, hab.addr],
      hsz, by rw [hab.extra]; exact hh _ _ hsz, rfl, rfl⟩⟩)
    refine ⟨(_, n'), h5, List.forall₂_take _ (List.forall₂_drop _ hab.data), ?_⟩
    show MemBelow (B.mem m') (C.mem n')
    rw [hm, h6]
    refine forall₂_set h ?_ id
    exact ⟨hab.data, hab.addr, hab.align, hab.kind, hab.live, rfl⟩

omit S in
theorem mem_deref_below {p q} (hp : ThinBelow p q) (len : Nat) :
    Refines Eq (Memory.dereferenceable m p len) (Memory.dereferenceable n q len) := by
  rw [B.dereferenceable, C.dereferenceable]
  have := checkPtr_below' h hp len
  generalize (B.mem m).checkPtr p len = r at this
  cases r with
  | ok a => obtain ⟨b, hb, _⟩ := this; rw [hb]; exact .ok rfl
  | error e =>
    rcases this with this | this
    · exact .inl this
    · rw [this]; exact .err

theorem mem_retag_below {x y} (hp : PtrBelow x y) (f : F) (pty : PtrType) (hq : Plain.quiet QE pty) (entry : Bool)
    {vt : ThinPtr (AllocId × PE) → Res VTable} (hv : ∀ p, ResE Soft (vt p)) (vt' : ThinPtr (AllocId × QE) → Res VTable) :
    Refines (fun x y => PtrBelow x.1 y.1 ∧ y.2.1 = PlainFrame.fresh ∧ MemBelow (B.mem x.2.2) (C.mem y.2.2)) (Memory.retagPtr m f x pty entry vt)
      (Memory.retagPtr n PlainFrame.fresh y pty entry vt') := by
  refine .of_soft (S.retag _ _ _ _ _ _ hv) fun ⟨x', f', m'⟩ hx =>
    ⟨(y, PlainFrame.fresh, n), C.retag _ _ _ _ _ hq, ?_, rfl, h.sameData (B.retag _ _ _ _ _ _ _ _ _ hx)⟩
  obtain ⟨h1, h2, h3⟩ := B.retagSame _ _ _ _ _ _ _ _ _ hx
  refine ⟨⟨by rw [h2]; exact hp.1.1, ?_⟩, by rw [h1]; exact hp.2⟩
  have hb := hp.1.2
  cases hx' : x'.thin.prov with
  | none => exact .inl rfl
  | some pv =>
    obtain ⟨id, pe⟩ := pv
    obtain ⟨pe', he⟩ := (h3 id).1 ⟨pe, hx'⟩
    rw [he] at hb
    rw [hb.some]
    exact .inr rfl

theorem mem_endCall_below (f : F) :
    Refines (fun x y => MemBelow (B.mem x) (C.mem y)) (Memory.endCall m f) (Memory.endCall n PlainFrame.fresh) :=
  .of_soft (S.endCall _ _) fun _ hx => ⟨n, C.endCall n, h.sameData (B.endCall _ _ _ hx)⟩

omit S in
theorem mem_leak_below : Refines Eq (Memory.leakCheck m) (Memory.leakCheck n) := by
  rw [B.leakCheck, C.leakCheck, leakCheck_below h]
  exact .eq
end
end MiniRust
