import Verif.Lemmas.TBOps
/-
Reads commute; repeating an access changes nothing.
-/
set_option linter.unusedSectionVars false
namespace MiniRust

theorem read_comm : ∀ (X : Permission) (r1 r2 : NodeRelation),
    okB (X.transition .read r1) (fun Y => okB (Y.transition .read r2) (fun Z =>
      match X.transition .read r2 with
      | .ok Y' => decide (Y'.transition .read r1 = .ok Z)
      | .error _ => false)) = true := by decide +kernel

theorem read_comm' {X Y Z : Permission} {r1 r2} (h1 : X.transition .read r1 = .ok Y)
    (h2 : Y.transition .read r2 = .ok Z) :
    ∃ Y', X.transition .read r2 = .ok Y' ∧ Y'.transition .read r1 = .ok Z := by
  have h := read_comm X r1 r2
  simp only [h1, okB, h2] at h
  split at h
  · rename_i Y' hY'
    exact ⟨Y', hY', by simpa using h⟩
  · simp at h

theorem transition_idem : ∀ (X : Permission) (kind : AccessKind) (r : NodeRelation),
    okB (X.transition kind r) (fun Y => decide (Y.transition kind r = .ok Y)) = true := by decide +kernel

theorem transition_idem' {X Y : Permission} {kind r} (h : X.transition kind r = .ok Y) :
    Y.transition kind r = .ok Y := by
  simpa using okB_ok (transition_idem X kind r) h

/-- What a list of permissions after an access is, given by a total description. -/
theorem PStep.unique {rel kind off n} {ps qs qs' : List Permission} (h : PStep rel kind off n ps qs)
    (h' : PStep rel kind off n ps qs') : qs = qs' := by
  apply List.ext_getElem?
  intro k
  have h1 := h.2 k
  have h2 := h'.2 k
  split at h1
  · rename_i hk
    rw [if_pos hk] at h2
    obtain ⟨p, p', a, b, c⟩ := h1
    obtain ⟨q, q', a', b', c'⟩ := h2
    rw [a] at a'; cases a'
    rw [b] at b'; cases b'
    rw [c, c']
  · rename_i hk
    rw [if_neg hk] at h2
    rw [h1, h2]

/-- One permission under an access of a range. -/
def stepAt (rel : NodeRelation) (kind : AccessKind) (off n k : Nat) (X Y : Permission) : Prop :=
  if off ≤ k ∧ k < off + n then X.transition kind rel = .ok Y else Y = X

theorem PStep.at {rel kind off n ps qs} (h : PStep rel kind off n ps qs) {k : Nat} {X} (hX : ps[k]? = some X) :
    ∃ Y, qs[k]? = some Y ∧ stepAt rel kind off n k X Y := by
  have h1 := h.2 k
  unfold stepAt
  split at h1
  · rename_i hk
    obtain ⟨p, p', a, b, c⟩ := h1
    rw [a] at hX; cases hX
    exact ⟨p', c, by rw [if_pos hk]; exact b⟩
  · rename_i hk
    exact ⟨X, by rw [h1, hX], by rw [if_neg hk]⟩

theorem PStep.of_at {rel kind off n} {ps qs : List Permission} (hl : qs.length = ps.length)
    (hr : n ≠ 0 → off + n ≤ ps.length)
    (h : ∀ (k : Nat) X, ps[k]? = some X → ∃ Y, qs[k]? = some Y ∧ stepAt rel kind off n k X Y) : PStep rel kind off n ps qs := by
  refine ⟨hl, fun k => ?_⟩
  split
  · rename_i hk
    have hlt : k < ps.length := by have := hr (by omega); omega
    obtain ⟨Y, hY, hs⟩ := h k ps[k] (List.getElem?_eq_getElem hlt)
    unfold stepAt at hs
    rw [if_pos hk] at hs
    exact ⟨_, Y, List.getElem?_eq_getElem hlt, hs, hY⟩
  · rename_i hk
    by_cases hlt : k < ps.length
    · obtain ⟨Y, hY, hs⟩ := h k ps[k] (List.getElem?_eq_getElem hlt)
      unfold stepAt at hs
      rw [if_neg hk] at hs
      rw [hY, hs, List.getElem?_eq_getElem hlt]
    · rw [List.getElem?_eq_none (by omega), List.getElem?_eq_none (by omega)]

theorem PStep.range {rel kind off n ps qs} (h : PStep rel kind off n ps qs) : n ≠ 0 → off + n ≤ ps.length := by
  intro hn
  have h1 := h.2 (off + n - 1)
  rw [if_pos (by omega)] at h1
  obtain ⟨p, _, a, _⟩ := h1
  have := (List.getElem?_eq_some_iff.1 a).1
  omega

theorem stepAt_comm {r1 r2 o1 n1 o2 n2 k X Y Z} (h1 : stepAt r1 .read o1 n1 k X Y) (h2 : stepAt r2 .read o2 n2 k Y Z) :
    ∃ Y', stepAt r2 .read o2 n2 k X Y' ∧ stepAt r1 .read o1 n1 k Y' Z := by
  unfold stepAt at *
  by_cases c1 : o1 ≤ k ∧ k < o1 + n1 <;> by_cases c2 : o2 ≤ k ∧ k < o2 + n2
  · rw [if_pos c1] at h1; rw [if_pos c2] at h2
    obtain ⟨Y', a, b⟩ := read_comm' h1 h2
    exact ⟨Y', by rw [if_pos c2]; exact a, by rw [if_pos c1]; exact b⟩
  · rw [if_pos c1] at h1; rw [if_neg c2] at h2
    subst h2
    exact ⟨X, by rw [if_neg c2], by rw [if_pos c1]; exact h1⟩
  · rw [if_neg c1] at h1; rw [if_pos c2] at h2
    subst h1
    exact ⟨Z, by rw [if_pos c2]; exact h2, by rw [if_neg c1]⟩
  · rw [if_neg c1] at h1; rw [if_neg c2] at h2
    subst h1; subst h2
    exact ⟨Z, by rw [if_neg c2], by rw [if_neg c1]⟩

/-- A tree access is determined by what it does to each node. -/
theorem Node.access_of_data {n n' : Node} {path kind off size}
    (h : ∀ q, (n.data q = none ∧ n'.data q = none) ∨ ∃ ps pr ps', n.data q = some (ps, pr) ∧
      n'.data q = some (ps', pr) ∧ PStep (relAt path q) kind off size ps ps') :
    n.access path kind off size = .ok n' := by
  obtain ⟨n2, h2⟩ := Node.access_total (kind := kind) (off := off) (size := size) n path (by
    intro q ps pr hd k hk1 hk2
    rcases h q with ⟨h1, _⟩ | ⟨ps1, pr1, ps', h1, _, hp⟩
    · rw [hd] at h1; cases h1
    · rw [hd] at h1; cases h1
      have := hp.2 k
      rw [if_pos ⟨hk1, hk2⟩] at this
      obtain ⟨p, p', a, b, _⟩ := this
      exact ⟨p, p', a, b⟩)
  rw [h2]
  congr 1
  apply Node.ext_data
  intro q
  rcases Node.access_ok h2 q with ⟨a, b⟩ | ⟨ps, pr, ps', a, b, c⟩
  · rcases h q with ⟨_, b'⟩ | ⟨ps1, pr1, ps', h1, _, hp⟩
    · rw [b, b']
    · rw [a] at h1; cases h1
  · rcases h q with ⟨a', _⟩ | ⟨ps1, pr1, ps1', h1, h3, hp⟩
    · rw [a] at a'; cases a'
    · rw [a] at h1; cases h1
      rw [b, h3, c.unique hp]

/-- Two reads of a tree commute. -/
theorem Node.read_comm {n n1 n2 : Node} {p1 p2 : Option Path} {o1 l1 o2 l2 : Nat}
    (h1 : n.access p1 .read o1 l1 = .ok n1) (h2 : n1.access p2 .read o2 l2 = .ok n2) :
    ∃ n1', n.access p2 .read o2 l2 = .ok n1' ∧ n1'.access p1 .read o1 l1 = .ok n2 := by
  have key : ∀ q ps pr, n.data q = some (ps, pr) → ∃ ps1 ps2, n1.data q = some (ps1, pr) ∧ n2.data q = some (ps2, pr) ∧
      PStep (relAt p1 q) .read o1 l1 ps ps1 ∧ PStep (relAt p2 q) .read o2 l2 ps1 ps2 := by
    intro q ps pr hd
    rcases Node.access_ok h1 q with ⟨a, b⟩ | ⟨ps0, pr0, ps1, a, b, c⟩
    · rw [hd] at a; cases a
    · rw [hd] at a; cases a
      rcases Node.access_ok h2 q with ⟨a', b'⟩ | ⟨ps0', pr0', ps2, a', b', c'⟩
      · rw [b] at a'; cases a'
      · rw [b] at a'; cases a'
        exact ⟨ps1, ps2, b, b', c, c'⟩
  obtain ⟨n1', h1'⟩ := Node.access_total (kind := .read) (off := o2) (size := l2) n p2 (by
    intro q ps pr hd k hk1 hk2
    obtain ⟨ps1, ps2, e1, e2, s1, s2⟩ := key q ps pr hd
    have hlt : k < ps.length := by
      have := s2.range (by omega); rw [s1.1] at this; omega
    obtain ⟨Y, hY, sY⟩ := s1.at (List.getElem?_eq_getElem hlt)
    obtain ⟨Z, hZ, sZ⟩ := s2.at hY
    obtain ⟨Y', sY', _⟩ := stepAt_comm sY sZ
    unfold stepAt at sY'
    rw [if_pos ⟨hk1, hk2⟩] at sY'
    exact ⟨_, Y', List.getElem?_eq_getElem hlt, sY'⟩)
  refine ⟨n1', h1', Node.access_of_data (fun q => ?_)⟩
  rcases Node.access_ok h1' q with ⟨a, b⟩ | ⟨ps, pr, ps1', a, b, c⟩
  · left
    refine ⟨b, ?_⟩
    rcases Node.access_ok h1 q with ⟨_, b1⟩ | ⟨_, _, _, a1, _, _⟩
    · rcases Node.access_ok h2 q with ⟨_, b2⟩ | ⟨_, _, _, a2, _, _⟩
      · exact b2
      · rw [b1] at a2; cases a2
    · rw [a] at a1; cases a1
  · right
    obtain ⟨ps1, ps2, e1, e2, s1, s2⟩ := key q ps pr a
    refine ⟨ps1', pr, ps2, b, e2, PStep.of_at ?_ ?_ ?_⟩
    · rw [s2.1, s1.1, c.1]
    · intro hn; rw [c.1]; exact s1.range hn
    · intro k X hX
      have hlt : k < ps.length := by
        have := (List.getElem?_eq_some_iff.1 hX).1; rw [c.1] at this; exact this
      obtain ⟨Y, hY, sY⟩ := s1.at (List.getElem?_eq_getElem hlt)
      obtain ⟨Z, hZ, sZ⟩ := s2.at hY
      obtain ⟨Y', sY', sZ'⟩ := stepAt_comm sY sZ
      obtain ⟨W, hW, sW⟩ := c.at (List.getElem?_eq_getElem hlt)
      rw [hX] at hW; cases hW
      refine ⟨Z, hZ, ?_⟩
      have : X = Y' := by
        unfold stepAt at sW sY'
        split at sW
        · rename_i hk
          rw [if_pos hk] at sY'
          rw [sW] at sY'; cases sY'; rfl
        · rename_i hk
          rw [if_neg hk] at sY'
          rw [sW, sY']
      rw [this]; exact sZ'

theorem Node.access_idem {n n' : Node} {p : Option Path} {kind o l} (h : n.access p kind o l = .ok n') :
    n'.access p kind o l = .ok n' := by
  refine Node.access_of_data (fun q => ?_)
  rcases Node.access_ok h q with ⟨a, b⟩ | ⟨ps, pr, ps', a, b, c⟩
  · exact .inl ⟨b, b⟩
  · refine .inr ⟨ps', pr, ps', b, b, PStep.of_at rfl ?_ ?_⟩
    · intro hn; rw [c.1]; exact c.range hn
    · intro k X hX
      have hlt : k < ps.length := by
        have := (List.getElem?_eq_some_iff.1 hX).1; rw [c.1] at this; exact this
      obtain ⟨W, hW, sW⟩ := c.at (List.getElem?_eq_getElem hlt)
      rw [hX] at hW; cases hW
      refine ⟨X, hX, ?_⟩
      unfold stepAt at *
      split
      · rename_i hk
        rw [if_pos hk] at sW
        exact transition_idem' sW
      · rfl

section
variable [T : Target]

/-- Loads commute. -/
theorem tb_load_comm_ok {m m1 m2 : TBMem} {p1 p2 : ThinPtr TBProv} {l1 l2 : Nat} {a1 a2 b1 b2}
    (h1 : Memory.load m p1 l1 a1 = .ok (b1, m1)) (h2 : Memory.load m1 p2 l2 a2 = .ok (b2, m2)) :
    ∃ m1', Memory.load m p2 l2 a2 = .ok (b2, m1') ∧ Memory.load m1' p1 l1 a1 = .ok (b1, m2) := by
  rw [tb_load_eq_ok, BasicMem.load_eq_ok] at h1 h2
  obtain ⟨hal1, h1⟩ := h1
  obtain ⟨hal2, h2⟩ := h2
  obtain ⟨⟨as⟩⟩ := m
  obtain ⟨⟨as1⟩⟩ := m1
  obtain ⟨⟨as2⟩⟩ := m2
  simp only [BasicMem.mk.injEq] at h1 h2
  simp only [tb_load_eq_ok, BasicMem.load_eq_ok]
  rcases h1 with ⟨hl1, rfl, rfl⟩ | ⟨hl1, id1, pe1, al1, off1, x1, hp1, ha1, hlv1, ho1, hs1, hx1, rfl, rfl⟩
  · exact ⟨⟨⟨as2⟩⟩, ⟨hal2, by simpa using h2⟩, hal1, .inl ⟨hl1, rfl, rfl⟩⟩
  · rcases h2 with ⟨hl2, rfl, rfl⟩ | ⟨hl2, id2, pe2, al2, off2, x2, hp2, ha2, hlv2, ho2, hs2, hx2, rfl, rfl⟩
    · exact ⟨⟨⟨as⟩⟩, ⟨hal2, .inl ⟨hl2, rfl, rfl⟩⟩, hal1,
        .inr ⟨hl1, id1, pe1, al1, off1, x1, hp1, ha1, hlv1, ho1, hs1, hx1, rfl, rfl⟩⟩
    · have hlt := (List.getElem?_eq_some_iff.1 ha1).1
      by_cases hid : id1 = id2
      · subst hid
        simp [hlt] at ha2
        subst ha2
        obtain ⟨x1', hx1', hx2'⟩ := Node.read_comm hx1 hx2
        refine ⟨⟨⟨as.set id1 { al1 with extra := x1' }⟩⟩, ⟨hal2, .inr ⟨hl2, id1, pe2, al1, off2, x1', hp2, ha1, hlv1,
          ho2, hs2, hx1', rfl, rfl⟩⟩, hal1, .inr ⟨hl1, id1, pe1, { al1 with extra := x1' }, off1, x2, hp1, by simp [hlt], hlv1,
          ho1, hs1, hx2', rfl, by simp⟩⟩
      · rw [List.getElem?_set_ne hid] at ha2
        refine ⟨⟨⟨as.set id2 { al2 with extra := x2 }⟩⟩, ⟨hal2, .inr ⟨hl2, id2, pe2, al2, off2, x2, hp2, ha2, hlv2,
          ho2, hs2, hx2, rfl, rfl⟩⟩, hal1, .inr ⟨hl1, id1, pe1, al1, off1, x1, hp1, ?_, hlv1,
          ho1, hs1, hx1, rfl, ?_⟩⟩
        · rw [List.getElem?_set_ne (Ne.symm hid)]; exact ha1
        · simp only; rw [List.set_comm _ _ hid]

theorem tb_load_idem {m m' : TBMem} {p : ThinPtr TBProv} {l : Nat} {a b}
    (h : Memory.load m p l a = .ok (b, m')) : Memory.load m' p l a = .ok (b, m') := by
  rw [tb_load_eq_ok, BasicMem.load_eq_ok] at h ⊢
  obtain ⟨hal, h⟩ := h
  obtain ⟨⟨as⟩⟩ := m
  obtain ⟨⟨as'⟩⟩ := m'
  simp only [BasicMem.mk.injEq] at h ⊢
  refine ⟨hal, ?_⟩
  rcases h with ⟨hl, rfl, rfl⟩ | ⟨hl, id, pe, al, off, x, hp, ha, hlv, ho, hs, hx, rfl, rfl⟩
  · exact .inl (by simp [hl])
  · have hlt := (List.getElem?_eq_some_iff.1 ha).1
    exact .inr ⟨hl, id, pe, { al with extra := x }, off, x, hp, by simp [hlt], hlv, ho, hs, Node.access_idem hx, rfl, by simp⟩

theorem tb_store_idem {m m' : TBMem} {p : ThinPtr TBProv} {bytes : List (AByte TBProv)} {a}
    (h : Memory.store m p bytes a = .ok m') : Memory.store m' p bytes a = .ok m' := by
  rw [tb_store_eq_ok, BasicMem.store_eq_ok] at h ⊢
  obtain ⟨hal, h⟩ := h
  obtain ⟨⟨as⟩⟩ := m
  obtain ⟨⟨as'⟩⟩ := m'
  simp only [BasicMem.mk.injEq] at h ⊢
  refine ⟨hal, ?_⟩
  rcases h with ⟨hl, rfl⟩ | ⟨hl, id, pe, al, off, x, d, hp, ha, hlv, ho, hs, hx, hd, rfl⟩
  · exact .inl (by simp [hl])
  · have hlt := (List.getElem?_eq_some_iff.1 ha).1
    have hlen : d.length = al.data.length := writeSubslice_length hd
    refine .inr ⟨hl, id, pe, { al with extra := x, data := d }, off, x, d, hp, by simp [hlt], hlv, ho, ?_,
      Node.access_idem hx, ?_, by simp⟩
    · simp only [Alloc.size] at hs ⊢; omega
    · have hs' : off + bytes.length ≤ d.length := by simp only [Alloc.size] at hs; omega
      have h1 := writeSubslice_isOk (l := d) (src := bytes) (off := off) hs'
      simp only
      rw [h1]
      congr 1
      apply List.ext_getElem?
      intro i
      rw [writeSubslice_getElem? h1]
      split
      · rename_i hi
        rw [writeSubslice_getElem? hd, if_pos hi]
      · rfl

end
end MiniRust
