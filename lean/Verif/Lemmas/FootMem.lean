import Verif.Spec.Footprint
import Verif.Lemmas.Refine
import Verif.Lemmas.TBInv
import Verif.Props.Memory
/-
Operations on memories that agree on some addresses.
-/
set_option linter.unusedSectionVars false
namespace MiniRust

section
variable {PE AE : Type} {C D : Int → Prop}

theorem AllocAgree.refl (a : Alloc PE AE) : AllocAgree C a a :=
  ⟨rfl, rfl, rfl, rfl, rfl, rfl, fun _ _ _ => rfl⟩

theorem MemAgree.refl (m : BasicMem PE AE) : MemAgree C m m := by
  unfold MemAgree
  exact List.forall₂_same.2 fun a _ => AllocAgree.refl a

theorem AllocAgree.mono {a b : Alloc PE AE} (h : AllocAgree C a b) (hd : ∀ x, D x → C x) : AllocAgree D a b :=
  ⟨h.addr, h.align, h.kind, h.live, h.extra, h.size, fun hl i hi => h.bytes hl i (hd _ hi)⟩

theorem MemAgree.mono {m n : BasicMem PE AE} (h : MemAgree C m n) (hd : ∀ x, D x → C x) : MemAgree D m n :=
  List.Forall₂.imp (fun _ _ h => h.mono hd) h

theorem agree_checkPtr {m n : BasicMem PE AE} (h : MemAgree C m n) (p : ThinPtr (AllocId × PE)) (len : Nat) :
    n.checkPtr p len = m.checkPtr p len := by
  unfold BasicMem.checkPtr
  split
  · rfl
  · cases p.prov with
    | none => rfl
    | some pv =>
      obtain ⟨id, pe⟩ := pv
      simp only
      cases ha : m.allocations[id]? with
      | none =>
        rw [show index m.allocations id = .error .panic by simp [index, ha],
          show index n.allocations id = .error .panic by simp [index, forall₂_get' h ha]]
      | some a =>
        obtain ⟨b, hb, hab⟩ := forall₂_get h ha
        rw [index_eq_ok.2 ha, index_eq_ok.2 hb]
        simp only [Res.bind_ok, hab.live, hab.addr, hab.size]

theorem agree_leakCheck {m n : BasicMem PE AE} (h : MemAgree C m n) : n.leakCheck = m.leakCheck := by
  unfold BasicMem.leakCheck
  obtain ⟨l⟩ := m
  obtain ⟨l'⟩ := n
  replace h : List.Forall₂ (AllocAgree C) l l' := h
  show BasicMem.leakLoop l' = BasicMem.leakLoop l
  induction h with
  | nil => rfl
  | cons hab _ ih => simp only [BasicMem.leakLoop, hab.live, hab.kind, ih]

theorem agree_pickable [T : Target] {m n : BasicMem PE AE} (h : MemAgree C m n) (size : Nat) (align : Align)
    (addr : Int) : n.pickable size align addr = m.pickable size align addr := by
  have : (n.allocations.any fun a => a.live && a.overlaps addr size) =
      m.allocations.any (fun a => a.live && a.overlaps addr size) := by
    obtain ⟨l⟩ := m
    obtain ⟨l'⟩ := n
    replace h : List.Forall₂ (AllocAgree C) l l' := h
    simp only
    induction h with
    | nil => rfl
    | cons hab _ ih =>
      simp only [List.any_cons]
      rw [ih]
      simp only [hab.live, Alloc.overlaps, hab.addr, hab.size]
  simp [BasicMem.pickable, this]

theorem agree_allocate [T : Target] {m m' n : BasicMem PE AE} (h : MemAgree C m n) {kind size align pe ae pick p}
    (hx : m.allocate kind size align pe ae pick = .ok (p, m')) :
    ∃ n', n.allocate kind size align pe ae pick = .ok (p, n') ∧ MemAgree C m' n' := by
  rw [BasicMem.allocate_eq_ok] at hx
  obtain ⟨h1, h2, rfl, rfl⟩ := hx
  refine ⟨_, BasicMem.allocate_eq_ok.2 ⟨h1, by rw [agree_pickable h]; exact h2, ?_, rfl⟩, ?_⟩
  · rw [List.Forall₂.length_eq h]
  · exact forall₂_append h (.cons (AllocAgree.refl _) .nil)

theorem agree_deallocate {m m' n : BasicMem PE AE} (h : MemAgree C m n) {p kind size align hd}
    (hx : m.deallocate p kind size align hd = .ok m') :
    ∃ n', n.deallocate p kind size align hd = .ok n' ∧ MemAgree C m' n' := by
  rw [BasicMem.deallocate_eq_ok] at hx
  obtain ⟨id, pe, a, extra, hpp, ha, hl, h1, h2, h3, h4, hx, rfl⟩ := hx
  obtain ⟨b, hb, hab⟩ := forall₂_get h ha
  refine ⟨_, BasicMem.deallocate_eq_ok.2 ⟨id, pe, b, extra, hpp, hb, by rw [hab.live]; exact hl,
    by rw [hab.addr]; exact h1, by rw [hab.kind]; exact h2, by rw [hab.size]; exact h3, by rw [hab.align]; exact h4,
    by rw [hab.extra]; exact hx, rfl⟩, ?_⟩
  refine forall₂_set h ?_ id
  exact ⟨hab.addr, hab.align, hab.kind, rfl, rfl, hab.size, fun hf => by cases hf⟩

theorem agree_load {m m' n : BasicMem PE AE} (h : MemAgree C m n) {p len align hd bs}
    (hx : m.load p len align hd = .ok (bs, m')) (hC : ∀ x, p.addr ≤ x → x < p.addr + len → C x) :
    ∃ n', n.load p len align hd = .ok (bs, n') ∧ MemAgree C m' n' := by
  rw [BasicMem.load_eq_ok] at hx
  obtain ⟨hal, ⟨hz, rfl, rfl⟩ | ⟨hne, id, pe, a, off, extra, hpp, ha, hl, h1, h2, hx, rfl, rfl⟩⟩ := hx
  · exact ⟨n, BasicMem.load_eq_ok.2 ⟨hal, .inl ⟨hz, rfl, rfl⟩⟩, h⟩
  · obtain ⟨b, hb, hab⟩ := forall₂_get h ha
    refine ⟨_, BasicMem.load_eq_ok.2 ⟨hal, .inr ⟨hne, id, pe, b, off, extra, hpp, hb, by rw [hab.live]; exact hl,
      by rw [hab.addr]; exact h1, by rw [hab.size]; exact h2, by rw [hab.extra]; exact hx, ?_, rfl⟩⟩, ?_⟩
    · apply List.ext_getElem?
      intro i
      simp only [List.getElem?_take, List.getElem?_drop]
      split
      · rw [hab.bytes hl]
        exact hC _ (by rw [h1]; push_cast; omega) (by rw [h1]; push_cast; omega)
      · rfl
    · refine forall₂_set h ?_ id
      exact ⟨hab.addr, hab.align, hab.kind, hab.live, rfl, hab.size, hab.bytes⟩

theorem forall₂_set' {α β : Type} {R S : α → β → Prop} {l : List α} {l' : List β} (h : List.Forall₂ R l l')
    {a : α} {b : β} {i : Nat} (hi : S a b)
    (hs : ∀ (j : Nat) x y, j ≠ i → l[j]? = some x → l'[j]? = some y → R x y → S x y) :
    List.Forall₂ S (l.set i a) (l'.set i b) := by
  rw [List.forall₂_iff_get] at *
  refine ⟨by simp [h.1], fun j h1 h2 => ?_⟩
  simp only [List.get_eq_getElem, List.getElem_set]
  split
  · exact hi
  · rename_i hne
    have h1' : j < l.length := by simpa using h1
    have h2' : j < l'.length := by simpa using h2
    exact hs j _ _ (Ne.symm hne) (List.getElem?_eq_getElem h1') (List.getElem?_eq_getElem h2') (h.2 j h1' h2')

theorem agree_store {m m' n : BasicMem PE AE} (h : MemAgree C m n) {p bs align hd}
    (hdis : ∀ (i j : Nat) a b, i ≠ j → m.allocations[i]? = some a → m.allocations[j]? = some b →
      a.live = true → b.live = true → a.addr ≠ b.addr ∧ (a.addr + a.size ≤ b.addr ∨ b.addr + b.size ≤ a.addr))
    (hx : m.store p bs align hd = .ok m') :
    ∃ n', n.store p bs align hd = .ok n' ∧
      MemAgree (fun x => C x ∨ (p.addr ≤ x ∧ x < p.addr + bs.length)) m' n' := by
  rw [BasicMem.store_eq_ok] at hx
  obtain ⟨hal, ⟨rfl, rfl⟩ | ⟨hne, id, pe, a, off, extra, data, hpp, ha, hl, h1, h2, hx, hw, rfl⟩⟩ := hx
  · refine ⟨n, BasicMem.store_eq_ok.2 ⟨hal, .inl ⟨rfl, rfl⟩⟩, h.mono ?_⟩
    rintro x (hx | ⟨h1, h2⟩)
    · exact hx
    · simp only [List.length_nil] at h2; omega
  · obtain ⟨b, hb, hab⟩ := forall₂_get h ha
    have hbl : b.data.length = a.data.length := hab.size
    have h2' : off + bs.length ≤ b.data.length := by rw [hbl]; exact h2
    have hw' := writeSubslice_isOk h2'
    generalize b.data.take off ++ bs ++ b.data.drop (off + bs.length) = data' at hw'
    refine ⟨_, BasicMem.store_eq_ok.2 ⟨hal, .inr ⟨hne, id, pe, b, off, extra, _, hpp, hb, by rw [hab.live]; exact hl,
      by rw [hab.addr]; exact h1, by rw [hab.size]; exact h2, by rw [hab.extra]; exact hx, hw', rfl⟩⟩, ?_⟩
    refine forall₂_set' h ?_ ?_
    · refine ⟨hab.addr, hab.align, hab.kind, hab.live, rfl, ?_, ?_⟩
      · show data'.length = data.length
        rw [writeSubslice_length hw, writeSubslice_length hw', hbl]
      · intro _ i hi
        show data'[i]? = data[i]?
        rw [writeSubslice_getElem? hw, writeSubslice_getElem? hw']
        split
        · rfl
        · rename_i hno
          refine hab.bytes hl i ?_
          rcases hi with hi | ⟨hi1, hi2⟩
          · exact hi
          · exfalso
            change p.addr ≤ a.addr + i at hi1
            change a.addr + i < p.addr + bs.length at hi2
            omega
    · intro j x y hj hx' hy hxy
      refine ⟨hxy.addr, hxy.align, hxy.kind, hxy.live, hxy.extra, hxy.size, fun hlx i hi => ?_⟩
      by_cases c : i < x.size
      · refine hxy.bytes hlx i ?_
        rcases hi with hi | ⟨hi1, hi2⟩
        · exact hi
        · exfalso
          rcases (hdis j id x a hj hx' ha hlx hl).2 with hd' | hd' <;> omega
      · have e1 : x.data[i]? = none := List.getElem?_eq_none (by change ¬ i < x.data.length at c; omega)
        have e2 : y.data[i]? = none := List.getElem?_eq_none (by
          have : y.data.length = x.data.length := hxy.size
          change ¬ i < x.data.length at c; omega)
        rw [e1, e2]

end

/-! ### Memory models -/

/-- A memory model whose operations, except for loads, do not look at the contents of memory. -/
class ByteMem [T : Target] (M : Type) (PE AE F : outParam Type) [Memory M (AllocId × PE) F] [K : BasicBacked M PE AE F] : Prop where
  allocate : ∀ (C : Int → Prop) (m m' n : M) kind size align pick p, MemAgree C (K.mem m) (K.mem n) →
    Memory.allocate m kind size align pick = .ok (p, m') →
    ∃ n', Memory.allocate n kind size align pick = .ok (p, n') ∧ MemAgree C (K.mem m') (K.mem n')
  deallocate : ∀ (C : Int → Prop) (m m' n : M) ptr kind size align, MemAgree C (K.mem m) (K.mem n) →
    Memory.deallocate m ptr kind size align = .ok m' →
    ∃ n', Memory.deallocate n ptr kind size align = .ok n' ∧ MemAgree C (K.mem m') (K.mem n')
  store : ∀ (C : Int → Prop) (m m' n : M) (h : MemHistory PE) ptr bytes align, MemReach h m → MemAgree C (K.mem m) (K.mem n) →
    Memory.store m ptr bytes align = .ok m' →
    ∃ n', Memory.store n ptr bytes align = .ok n' ∧
      MemAgree (fun x => C x ∨ (ptr.addr ≤ x ∧ x < ptr.addr + bytes.length)) (K.mem m') (K.mem n')
  load : ∀ (C : Int → Prop) (m m' n : M) ptr len align bytes, MemAgree C (K.mem m) (K.mem n) →
    Memory.load m ptr len align = .ok (bytes, m') → (∀ x, ptr.addr ≤ x → x < ptr.addr + len → C x) →
    ∃ n', Memory.load n ptr len align = .ok (bytes, n') ∧ MemAgree C (K.mem m') (K.mem n')
  retag : ∀ (C : Int → Prop) (m m' n : M) f f' ptr ptr' pty entry vt, MemAgree C (K.mem m) (K.mem n) →
    Memory.retagPtr m f ptr pty entry vt = .ok (ptr', f', m') →
    ∃ n', Memory.retagPtr n f ptr pty entry vt = .ok (ptr', f', n') ∧ MemAgree C (K.mem m') (K.mem n')
  endCall : ∀ (C : Int → Prop) (m m' n : M) (f : F), MemAgree C (K.mem m) (K.mem n) →
    Memory.endCall m f = .ok m' → ∃ n', Memory.endCall n f = .ok n' ∧ MemAgree C (K.mem m') (K.mem n')

instance [T : Target] : ByteMem (BasicMem Unit Unit) Unit Unit Unit where
  allocate C m m' n kind size align pick p h hx := agree_allocate h hx
  deallocate C m m' n ptr kind size align h hx := agree_deallocate h hx
  store C m m' n hi ptr bytes align hr h hx := agree_store h hr.rep.disjoint hx
  load C m m' n ptr len align bytes h hx hC := agree_load h hx hC
  retag C m m' n f f' ptr ptr' pty entry vt h hx := by cases hx; exact ⟨n, rfl, h⟩
  endCall C m m' n f h hx := by cases hx; exact ⟨n, rfl, h⟩

theorem agree_reborrow {C : Int → Prop} {m m' n : TBMem} (h : MemAgree C m.mem n.mem) {p p' : ThinPtr TBProv} {st f f'}
    (hx : m.reborrow p st f = .ok (p', f', m')) :
    ∃ n', n.reborrow p st f = .ok (p', f', n') ∧ MemAgree C m'.mem n'.mem := by
  unfold TBMem.reborrow at hx ⊢
  dsimp only at hx ⊢
  rw [agree_checkPtr h]
  obtain ⟨_, h1, hx⟩ := Res.bind_eq_ok.1 hx
  rw [h1]
  simp only [Res.bind_ok]
  cases hp : p.prov with
  | none =>
    rw [hp] at hx
    obtain ⟨_, h2, hx⟩ := Res.bind_eq_ok.1 hx
    cases hx
    simp only
    rw [h2]
    exact ⟨n, rfl, h⟩
  | some pv =>
    obtain ⟨id, path⟩ := pv
    rw [hp] at hx
    obtain ⟨a, h2, hx⟩ := Res.bind_eq_ok.1 hx
    obtain ⟨b, hb, hab⟩ := forall₂_get h (index_eq_ok.1 h2)
    obtain ⟨off, h3, hx⟩ := Res.bind_eq_ok.1 hx
    obtain ⟨perms, h4, hx⟩ := Res.bind_eq_ok.1 hx
    obtain ⟨_, h5, hx⟩ := Res.bind_eq_ok.1 hx
    obtain ⟨⟨root, cp⟩, h6, hx⟩ := Res.bind_eq_ok.1 hx
    obtain ⟨root', h7, hx⟩ := Res.bind_eq_ok.1 hx
    cases hx
    simp only
    rw [index_eq_ok.2 hb]
    simp only [Res.bind_ok]
    rw [hab.addr, h3]
    simp only [Res.bind_ok]
    rw [hab.size, h4]
    simp only [Res.bind_ok]
    rw [h5]
    simp only [Res.bind_ok]
    rw [hab.extra, h6]
    simp only [Res.bind_ok]
    rw [h7]
    refine ⟨_, rfl, forall₂_set h ?_ _⟩
    exact ⟨by first | rfl | exact hab.addr, hab.align, hab.kind, by first | rfl | exact hab.live, rfl, hab.size, hab.bytes⟩

theorem agree_releaseProtector {C : Int → Prop} {m m' n : TBMem} (h : MemAgree C m.mem n.mem) {pv : TBProv}
    (hx : m.releaseProtector pv = .ok m') : ∃ n', n.releaseProtector pv = .ok n' ∧ MemAgree C m'.mem n'.mem := by
  obtain ⟨id, path⟩ := pv
  unfold TBMem.releaseProtector at hx ⊢
  obtain ⟨a, h2, hx⟩ := Res.bind_eq_ok.1 hx
  obtain ⟨b, hb, hab⟩ := forall₂_get h (index_eq_ok.1 h2)
  obtain ⟨⟨root, acc⟩, h3, hx⟩ := Res.bind_eq_ok.1 hx
  simp only at hx ⊢
  rw [index_eq_ok.2 hb]
  simp only [Res.bind_ok]
  rw [hab.extra, h3]
  simp only [Res.bind_ok]
  rw [hab.live]
  split at hx
  · rename_i hl
    rw [if_pos hl]
    cases hx
    refine ⟨_, rfl, forall₂_set h ?_ _⟩
    exact ⟨by first | rfl | exact hab.addr, hab.align, hab.kind, by first | rfl | exact hab.live, rfl, hab.size, hab.bytes⟩
  · rename_i hl
    rw [if_neg hl]
    obtain ⟨root', h4, hx⟩ := Res.bind_eq_ok.1 hx
    cases hx
    rw [h4]
    refine ⟨_, rfl, forall₂_set h ?_ _⟩
    exact ⟨by first | rfl | exact hab.addr, hab.align, hab.kind, by first | rfl | exact hab.live, rfl, hab.size, hab.bytes⟩

theorem agree_endCall {C : Int → Prop} : ∀ {m m' n : TBMem} (f : TBFrame), MemAgree C m.mem n.mem →
    m.endCall f = .ok m' → ∃ n', n.endCall f = .ok n' ∧ MemAgree C m'.mem n'.mem
  | _, _, n, [], h, hx => by cases hx; exact ⟨n, rfl, h⟩
  | _, _, _, p :: f, h, hx => by
    unfold TBMem.endCall at hx ⊢
    obtain ⟨m1, h1, hx⟩ := Res.bind_eq_ok.1 hx
    obtain ⟨n1, h2, h3⟩ := agree_releaseProtector h h1
    rw [h2]
    exact agree_endCall f h3 hx

instance [T : Target] : ByteMem TBMem Path Node TBFrame where
  allocate C m m' n kind size align pick p h hx := by
    replace h : MemAgree C m.mem n.mem := h
    obtain ⟨⟨p1, b⟩, h1, hx⟩ := Res.bind_eq_ok.1 hx
    cases hx
    obtain ⟨n', h2, h3⟩ := agree_allocate h h1
    refine ⟨⟨n'⟩, ?_, h3⟩
    show (n.mem.allocate kind size align [] (TBMem.newRoot size) pick >>= _) = _
    rw [h2]; rfl
  deallocate C m m' n ptr kind size align h hx := by
    replace h : MemAgree C m.mem n.mem := h
    obtain ⟨b, h1, hx⟩ := Res.bind_eq_ok.1 hx
    cases hx
    obtain ⟨n', h2, h3⟩ := agree_deallocate h h1
    refine ⟨⟨n'⟩, ?_, h3⟩
    show (n.mem.deallocate ptr kind size align (TBMem.deallocHandler size) >>= _) = _
    rw [h2]; rfl
  store C m m' n hi ptr bytes align hr h hx := by
    replace h : MemAgree C m.mem n.mem := h
    obtain ⟨b, h1, hx⟩ := Res.bind_eq_ok.1 hx
    cases hx
    obtain ⟨n', h2, h3⟩ := agree_store h hr.rep.disjoint h1
    refine ⟨⟨n'⟩, ?_, h3⟩
    show (n.mem.store ptr bytes align _ >>= _) = _
    rw [h2]; rfl
  load C m m' n ptr len align bytes h hx hC := by
    replace h : MemAgree C m.mem n.mem := h
    obtain ⟨⟨bs, b⟩, h1, hx⟩ := Res.bind_eq_ok.1 hx
    cases hx
    obtain ⟨n', h2, h3⟩ := agree_load h h1 hC
    refine ⟨⟨n'⟩, ?_, h3⟩
    show (n.mem.load ptr len align _ >>= _) = _
    rw [h2]; rfl
  retag C m m' n f f' ptr ptr' pty entry vt h hx := by
    replace h : MemAgree C m.mem n.mem := h
    replace hx : TBMem.retagPtr m f ptr pty entry vt = .ok (ptr', f', m') := hx
    show ∃ n', TBMem.retagPtr n f ptr pty entry vt = .ok (ptr', f', n') ∧ _
    unfold TBMem.retagPtr at hx ⊢
    obtain ⟨st, h1, hx⟩ := Res.bind_eq_ok.1 hx
    rw [h1]
    simp only [Res.bind_ok]
    cases st with
    | none => cases hx; exact ⟨n, rfl, h⟩
    | some st =>
      obtain ⟨⟨thin, f1, m1⟩, h2, hx⟩ := Res.bind_eq_ok.1 hx
      cases hx
      obtain ⟨n1, h3, h4⟩ := agree_reborrow h h2
      simp only
      rw [h3]
      exact ⟨n1, rfl, h4⟩
  endCall C m m' n f h hx := agree_endCall f h hx

end MiniRust
