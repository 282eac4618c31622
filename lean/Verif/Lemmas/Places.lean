import Verif.Lemmas.SelfAssign
import Verif.Lemmas.KnownReach
/-
The bytes at a place, and the bytes of its parts.
-/
set_option linter.unusedSectionVars false
namespace MiniRust

namespace BasicMem
variable {PE AE : Type}

/-- The `n` bytes at the pointer are accessible through it and are `bytes`. -/
def At (m : BasicMem PE AE) (p : ThinPtr (AllocId × PE)) (n : Nat) (bytes : List (AByte (AllocId × PE))) : Prop :=
  (n = 0 ∧ bytes = []) ∨
  (n ≠ 0 ∧ ∃ id pe a off, p.prov = some (id, pe) ∧ m.allocations[id]? = some a ∧ a.live = true ∧
    p.addr = a.addr + (off : Nat) ∧ off + n ≤ a.data.length ∧ bytes = (a.data.drop off).take n)

theorem At.length {m : BasicMem PE AE} {p n bytes} (h : m.At p n bytes) : bytes.length = n := by
  rcases h with ⟨rfl, rfl⟩ | ⟨_, id, pe, a, off, _, _, _, _, h, rfl⟩
  · rfl
  · simp; omega

theorem At.unique {m : BasicMem PE AE} {p n b b'} (h : m.At p n b) (h' : m.At p n b') : b = b' := by
  rcases h with ⟨rfl, rfl⟩ | ⟨h0, id, pe, a, off, hp, ha, _, ho, _, rfl⟩
  · rcases h' with ⟨_, rfl⟩ | ⟨h, _⟩
    · rfl
    · exact absurd rfl h
  · rcases h' with ⟨h, _⟩ | ⟨_, id', pe', a', off', hp', ha', _, ho', _, rfl⟩
    · exact absurd h h0
    · rw [hp] at hp'; cases hp'
      rw [ha] at ha'; cases ha'
      have : off = off' := by omega
      rw [this]

theorem At.same {m m' : BasicMem PE AE} {p n b} (h : m.At p n b) (hs : SameData m m') : m'.At p n b := by
  rcases h with h | ⟨h0, id, pe, a, off, hp, ha, hl, ho, hn, rfl⟩
  · exact .inl h
  · obtain ⟨hlen, hs⟩ := hs
    have hid : id < m'.allocations.length := by rw [← hlen]; exact (List.getElem?_eq_some_iff.1 ha).1
    obtain ⟨h1, h2, _, _, h5⟩ := hs id a _ ha (List.getElem?_eq_getElem hid)
    exact .inr ⟨h0, id, pe, _, off, hp, List.getElem?_eq_getElem hid, by rw [← h5]; exact hl, by rw [← h2]; exact ho,
      by rw [← h1]; exact hn, by rw [← h1]⟩

theorem At.part {m : BasicMem PE AE} {p n b} (h : m.At p n b) {k n' : Nat} (hk : k + n' ≤ n) :
    m.At ⟨p.addr + k, p.prov⟩ n' ((b.drop k).take n') := by
  by_cases h1 : n' = 0
  · subst h1; exact .inl ⟨rfl, by simp⟩
  · rcases h with ⟨rfl, rfl⟩ | ⟨h0, id, pe, a, off, hp, ha, hl, ho, hn, rfl⟩
    · omega
    · refine .inr ⟨h1, id, pe, a, off + k, hp, ha, hl, ?_, by omega, ?_⟩
      · simp only [ho]; omega
      · rw [List.drop_take, List.take_take, List.drop_drop]
        congr 1; omega

theorem at_of_load {m m' : BasicMem PE AE} {p n al hx b} (h : m.load p n al hx = .ok (b, m')) : m.At p n b := by
  rw [load_eq_ok] at h
  obtain ⟨_, ⟨h0, hb, _⟩ | ⟨h0, id, pe, a, off, ex, hp, ha, hl, ho, hn, _, hb, _⟩⟩ := h
  · exact .inl ⟨h0, hb⟩
  · exact .inr ⟨h0, id, pe, a, off, hp, ha, hl, ho, hn, hb⟩

theorem load_of_at {m : BasicMem Unit Unit} {p n b} (h : m.At p n b) :
    m.load p n Align.one (fun _ _ _ => .ok ()) = .ok (b, m) := by
  have hal : Aligned Align.one p.addr := by unfold Aligned Align.one; simp
  rcases h with ⟨rfl, rfl⟩ | ⟨h0, id, pe, a, off, hp, ha, hl, ho, hn, rfl⟩
  · exact load_eq_ok.2 ⟨hal, .inl ⟨rfl, rfl, rfl⟩⟩
  · have h : m.load p n Align.one (fun _ _ _ => .ok ()) = .ok ((a.data.drop off).take n, _) :=
      load_eq_ok.2 ⟨hal, .inr ⟨h0, id, pe, a, off, (), hp, ha, hl, ho, hn, rfl, rfl, rfl⟩⟩
    rw [h, load_unit h]

theorem at_of_store {m m' : BasicMem PE AE} {p bs al hx} (h : m.store p bs al hx = .ok m') : m'.At p bs.length bs := by
  rw [store_eq_ok] at h
  obtain ⟨_, ⟨rfl, rfl⟩ | ⟨h0, id, pe, a, off, ex, d, hp, ha, hl, ho, hn, _, hd, rfl⟩⟩ := h
  · exact .inl ⟨rfl, rfl⟩
  · have hid : id < m.allocations.length := (List.getElem?_eq_some_iff.1 ha).1
    have hlen := writeSubslice_length hd
    have hs := subslice_writeSubslice_same hd
    rw [subslice_eq_ok] at hs
    refine .inr ⟨by simpa using h0, id, pe, { a with extra := ex, data := d }, off, hp, by simp [hid], hl, ho, ?_, hs.2⟩
    simp only [Alloc.size] at hn
    simp only; omega

/-- A store inside a range of bytes overwrites its part of the range. -/
theorem At.storePart {m m' : BasicMem PE AE} {p q n b bs al hx} (hb : m.At p n b) (h : m.store q bs al hx = .ok m')
    {k : Nat} (ha : q.addr = p.addr + k) (hpr : q.prov = p.prov) (hk : k + bs.length ≤ n) :
    ∃ b', writeSubslice b k bs = .ok b' ∧ m'.At p n b' := by
  have hbl := hb.length
  refine ⟨_, writeSubslice_isOk (by omega), ?_⟩
  rw [store_eq_ok] at h
  obtain ⟨_, ⟨rfl, rfl⟩ | ⟨h0, id, pe, a, off, ex, d, hp, ha', hl, ho, hn, _, hd, rfl⟩⟩ := h
  · simpa using hb
  · have hid : id < m.allocations.length := (List.getElem?_eq_some_iff.1 ha').1
    have hlen := writeSubslice_length hd
    rcases hb with ⟨rfl, rfl⟩ | ⟨h1, id', pe', a2, off', hp', ha2, hl', ho', hn', rfl⟩
    · have : bs.length ≠ 0 := by simpa using h0
      omega
    · rw [hpr, hp'] at hp; cases hp
      rw [ha2] at ha'; cases ha'
      have e : off = off' + k := by omega
      subst e
      refine .inr ⟨h1, id, pe, { a with extra := ex, data := d }, off', hp', by simp [hid], hl, ho', by simp only; omega, ?_⟩
      have hg := writeSubslice_getElem? hd
      have hg' := writeSubslice_getElem? (writeSubslice_isOk (l := (a.data.drop off').take n) (src := bs) (off := k) (by omega))
      apply List.ext_getElem?
      intro i
      rw [hg']
      simp only [List.getElem?_take, List.getElem?_drop, hg]
      split_ifs <;> first | rfl | omega | (congr 1; omega)

/-- A store elsewhere does not change a range of bytes. -/
theorem At.storeOther {m m' : BasicMem PE AE} {p q n b bs al hx} (hb : m.At p n b) (h : m.store q bs al hx = .ok m')
    (hd : p.addr + n ≤ q.addr ∨ q.addr + bs.length ≤ p.addr) : m'.At p n b := by
  rw [store_eq_ok] at h
  obtain ⟨_, ⟨rfl, rfl⟩ | ⟨h0, id, pe, a, off, ex, d, hp, ha', hl, ho, hn, _, hw, rfl⟩⟩ := h
  · exact hb
  · have hid : id < m.allocations.length := (List.getElem?_eq_some_iff.1 ha').1
    have hlen := writeSubslice_length hw
    rcases hb with hb | ⟨h1, id', pe', a2, off', hp', ha2, hl', ho', hn', rfl⟩
    · exact .inl hb
    · by_cases he : id = id'
      · subst he
        rw [ha2] at ha'; cases ha'
        refine .inr ⟨h1, id, pe', { a with extra := ex, data := d }, off', hp', by simp [hid], hl, ho', by simp only; omega, ?_⟩
        have hg := writeSubslice_getElem? hw
        have hz : bs.length ≠ 0 := by simpa using h0
        apply List.ext_getElem?
        intro i
        simp only [List.getElem?_take, List.getElem?_drop, hg]
        split_ifs <;> first | rfl | omega
      · exact .inr ⟨h1, id', pe', a2, off', hp', by simp [List.getElem?_set_ne he, ha2], hl', ho', hn', rfl⟩

end BasicMem
/-! ### Parts of representations -/
section
variable {P : Type} [DecidableEq P] [Target]

theorem decodeFields_get {fs : List (Nat × Ty)} {bytes : List (AByte P)} {vs : List (Value P)}
    (h : decodeFields fs bytes = .ok vs) : vs.length = fs.length ∧
    ∀ (k : Nat) off t, fs[k]? = some (off, t) → ∃ v n, vs[k]? = some v ∧ t.size = .ok n ∧ off + n ≤ bytes.length ∧
      decode t ((bytes.drop off).take n) = .ok v := by
  induction fs generalizing vs with
  | nil => simp [decodeFields] at h; subst h; simp
  | cons f fs ih =>
    obtain ⟨o, ty⟩ := f
    simp only [decodeFields, Res.bind_eq_ok, Except.ok.injEq] at h
    obtain ⟨n, hn, b, hb, v, hv, vs', hvs, rfl⟩ := h
    obtain ⟨h1, h2⟩ := ih hvs
    refine ⟨by simp [h1], ?_⟩
    intro k off t hk
    cases k with
    | zero =>
      simp only [List.getElem?_cons_zero, Option.some.injEq, Prod.mk.injEq] at hk
      obtain ⟨rfl, rfl⟩ := hk
      obtain ⟨h3, rfl⟩ := subslice_eq_ok.1 hb
      exact ⟨v, n, rfl, hn, h3, hv⟩
    | succ k =>
      simp only [List.getElem?_cons_succ] at hk ⊢
      exact h2 k off t hk

theorem decodeElems_get {dec : List (AByte P) → Res (Value P)} {n k : Nat} {bytes : List (AByte P)} {vs : List (Value P)}
    (h : decodeElems dec n k bytes = .ok vs) : vs.length = k ∧
    ∀ j, j < k → ∃ v, vs[j]? = some v ∧ j * n + n ≤ bytes.length ∧ dec ((bytes.drop (j * n)).take n) = .ok v := by
  induction k generalizing bytes vs with
  | zero => simp [decodeElems] at h; subst h; simp
  | succ k ih =>
    simp only [decodeElems, Res.bind_eq_ok, Except.ok.injEq] at h
    obtain ⟨b, hb, v, hv, vs', hvs, rfl⟩ := h
    obtain ⟨h1, h2⟩ := ih hvs
    obtain ⟨h3, rfl⟩ := subslice_eq_ok.1 hb
    refine ⟨by simp [h1], ?_⟩
    intro j hj
    cases j with
    | zero => exact ⟨v, rfl, by simpa using h3, by simpa using hv⟩
    | succ j =>
      obtain ⟨w, hw, hl, hd⟩ := h2 j (by omega)
      refine ⟨w, by simpa using hw, ?_, ?_⟩
      · simp only [List.length_drop] at hl
        rw [Nat.add_mul]; omega
      · rw [List.drop_drop] at hd
        rw [Nat.add_mul, Nat.one_mul, Nat.add_comm]; exact hd

theorem decode_tuple_get {fs h} {bytes : List (AByte P)} {vs : List (Value P)}
    (hd : decode (.tuple fs h none) bytes = .ok (.tuple vs)) : decodeFields fs bytes = .ok vs := by
  simp only [decode, Res.bind_eq_ok, rassert_eq_ok, Except.ok.injEq, Value.tuple.injEq] at hd
  obtain ⟨_, _, vs', h1, rfl⟩ := hd
  exact h1

theorem decode_array_get {e n} {bytes : List (AByte P)} {vs : List (Value P)}
    (hd : decode (.array e n) bytes = .ok (.tuple vs)) :
    ∃ k, e.size = .ok k ∧ decodeElems (fun bs => decode e bs) k n.toNat bytes = .ok vs := by
  simp only [decode, Res.bind_eq_ok, rassert_eq_ok, Except.ok.injEq, Value.tuple.injEq] at hd
  obtain ⟨k, h0, _, _, _, _, vs', h1, rfl⟩ := hd
  exact ⟨k, h0, h1⟩

theorem decode_enum_get {variants dt disc n al} {bytes : List (AByte P)} {d : Int} {v : Value P}
    (hd : decode (.enum variants dt disc n al) bytes = .ok (.variant d v)) :
    ∃ t tg, Map.get? variants d = some (t, tg) ∧ decode t bytes = .ok v := by
  simp only [decode, Res.bind_eq_ok, rassert_eq_ok] at hd
  obtain ⟨_, _, ⟨o, u⟩, _, hd⟩ := hd
  cases o with
  | none => cases hd
  | some d' =>
    simp only [Res.bind_eq_ok, Except.ok.injEq, Value.variant.injEq] at hd
    obtain ⟨w, hw, rfl, rfl⟩ := hd
    rw [decodeVariant_eq] at hw
    split at hw
    · cases hw
    · rename_i x hx
      exact ⟨x.1, x.2, hx, hw⟩

/-! ### Overwriting parts -/

theorem writeSubslice_part {α : Type} {b b' bs : List α} {off : Nat} (h : writeSubslice b off bs = .ok b') {o n : Nat}
    (hd : o + n ≤ off ∨ off + bs.length ≤ o) : (b'.drop o).take n = (b.drop o).take n := by
  have hg := writeSubslice_getElem? h
  apply List.ext_getElem?
  intro i
  simp only [List.getElem?_take, List.getElem?_drop, hg]
  split_ifs <;> first | rfl | omega

theorem writeSubslice_here {α : Type} {b b' bs : List α} {off : Nat} (h : writeSubslice b off bs = .ok b') :
    (b'.drop off).take bs.length = bs := (subslice_eq_ok.1 (subslice_writeSubslice_same h)).2.symm

theorem decodeFields_of {fs : List (Nat × Ty)} {bytes : List (AByte P)} {vs : List (Value P)} (hl : vs.length = fs.length)
    (h : ∀ (k : Nat) off t, fs[k]? = some (off, t) → ∃ v n, vs[k]? = some v ∧ t.size = .ok n ∧ off + n ≤ bytes.length ∧
      decode t ((bytes.drop off).take n) = .ok v) : decodeFields fs bytes = .ok vs := by
  induction fs generalizing vs with
  | nil => simp only [List.length_nil, List.length_eq_zero_iff] at hl; subst hl; simp [decodeFields]
  | cons f fs ih =>
    obtain ⟨o, ty⟩ := f
    cases vs with
    | nil => simp at hl
    | cons v vs =>
      obtain ⟨v', n, h1, h2, h3, h4⟩ := h 0 o ty rfl
      simp only [List.getElem?_cons_zero, Option.some.injEq] at h1
      subst h1
      have h5 := ih (vs := vs) (by simpa using hl) fun k off t hk => by simpa using h (k + 1) off t (by simpa using hk)
      simp only [decodeFields, h2, Res.bind_ok, subslice_eq_ok.2 ⟨h3, rfl⟩, h4, h5]

theorem decodeElems_of {dec : List (AByte P) → Res (Value P)} {n k : Nat} {bytes : List (AByte P)} {vs : List (Value P)}
    (hl : vs.length = k) (h : ∀ j, j < k → ∃ v, vs[j]? = some v ∧ j * n + n ≤ bytes.length ∧
      dec ((bytes.drop (j * n)).take n) = .ok v) : decodeElems dec n k bytes = .ok vs := by
  induction k generalizing bytes vs with
  | zero => simp only [List.length_eq_zero_iff] at hl; subst hl; simp [decodeElems]
  | succ k ih =>
    cases vs with
    | nil => simp at hl
    | cons v vs =>
      obtain ⟨v', h1, h2, h3⟩ := h 0 (by omega)
      simp only [List.getElem?_cons_zero, Option.some.injEq] at h1
      subst h1
      simp only [Nat.zero_mul, Nat.zero_add, List.drop_zero] at h2 h3
      have h5 := ih (bytes := bytes.drop n) (vs := vs) (by simpa using hl) fun j hj => by
        obtain ⟨v', h1, h2, h3⟩ := h (j + 1) (by omega)
        rw [Nat.add_mul, Nat.one_mul] at h2 h3
        refine ⟨v', by simpa using h1, ?_, ?_⟩
        · simp only [List.length_drop]; omega
        · rw [List.drop_drop, Nat.add_comm]; exact h3
      simp only [decodeElems, subslice_eq_ok.2 ⟨show 0 + n ≤ bytes.length by omega, rfl⟩, Res.bind_ok, List.drop_zero, h3, h5]

theorem pairwise_get {α : Type} {R : α → α → Prop} (hs : ∀ a b, R a b → R b a) {l : List α} (h : l.Pairwise R) {i j : Nat} {a b : α}
    (hij : i ≠ j) (hi : l[i]? = some a) (hj : l[j]? = some b) : R a b := by
  obtain ⟨h1, rfl⟩ := List.getElem?_eq_some_iff.1 hi
  obtain ⟨h2, rfl⟩ := List.getElem?_eq_some_iff.1 hj
  rw [List.pairwise_iff_getElem] at h
  rcases Nat.lt_or_gt_of_ne hij with hlt | hlt
  · exact h _ _ h1 h2 hlt
  · exact hs _ _ (h _ _ h2 h1 hlt)

/-- Overwriting the bytes of a field replaces the field. -/
theorem decode_tuple_set {fs head} (hg : (Ty.tuple fs head none).Good) {b b' bs : List (AByte P)} {vs : List (Value P)} {k : Nat} {off t v}
    (hd : decode (.tuple fs head none) b = .ok (.tuple vs)) (hk : fs[k]? = some (off, t)) (hb : writeSubslice b off bs = .ok b')
    (hv : decode t bs = .ok v) (hn : bs.length = t.sz) : decode (.tuple fs head none) b' = .ok (.tuple (vs.set k v)) := by
  obtain ⟨g1, g2⟩ := decodeFields_get (decode_tuple_get hd)
  have hlen := writeSubslice_length hb
  cases hg with
  | tuple q1 q2 q3 =>
    simp only [decode, Res.bind_eq_ok, rassert_eq_ok, Except.ok.injEq, Value.tuple.injEq] at hd ⊢
    obtain ⟨_, hl, _⟩ := hd
    refine ⟨(), by rw [hlen]; exact hl, _, ?_, rfl⟩
    refine decodeFields_of (by simpa using g1) fun j o t' hj => ?_
    obtain ⟨w, n, h1, h2, h3, h4⟩ := g2 j o t' hj
    have hgt' := (q1 _ (List.mem_of_getElem? hj)).size
    rw [h2] at hgt'; cases hgt'
    by_cases hjk : k = j
    · subst hjk
      rw [hk] at hj; cases hj
      have hkl : k < vs.length := (List.getElem?_eq_some_iff.1 h1).1
      refine ⟨v, _, by simp [hkl], h2, by omega, ?_⟩
      rw [← hn, writeSubslice_here hb]; exact hv
    · refine ⟨w, _, by rw [List.getElem?_set_ne hjk]; exact h1, h2, by omega, ?_⟩
      rw [writeSubslice_part hb]
      · exact h4
      · have := pairwise_get (fun a b h => Disj.symm h) q2 hjk hk hj
        simp only [Disj] at this
        simp only
        omega

/-- Overwriting the bytes of an element replaces the element. -/
theorem decode_array_set {e n} (hg : e.Good) {b b' bs : List (AByte P)} {vs : List (Value P)} {k : Nat} {v}
    (hd : decode (.array e n) b = .ok (.tuple vs)) (hk : k < n) (hb : writeSubslice b (k * e.sz) bs = .ok b')
    (hv : decode e bs = .ok v) (hn : bs.length = e.sz) : decode (.array e n) b' = .ok (.tuple (vs.set k v)) := by
  obtain ⟨m, h0, h1⟩ := decode_array_get hd
  rw [hg.size] at h0; cases h0
  obtain ⟨g1, g2⟩ := decodeElems_get h1
  have hlen := writeSubslice_length hb
  simp only [decode, Res.bind_eq_ok, rassert_eq_ok, Except.ok.injEq, Value.tuple.injEq] at hd ⊢
  obtain ⟨m, h0, sz, h2, _, h3, _⟩ := hd
  rw [hg.size] at h0; cases h0
  refine ⟨_, hg.size, sz, h2, (), by rw [hlen]; exact h3, _, ?_, rfl⟩
  refine decodeElems_of (by simpa using g1) fun j hj => ?_
  obtain ⟨w, h4, h5, h6⟩ := g2 j hj
  by_cases hjk : k = j
  · subst hjk
    refine ⟨v, by simp [g1, hj], by omega, ?_⟩
    have := writeSubslice_here hb
    rw [hn] at this
    rw [this]; exact hv
  · refine ⟨w, by rw [List.getElem?_set_ne hjk]; exact h4, by omega, ?_⟩
    rw [writeSubslice_part hb]
    · exact h6
    · rw [hn]
      rcases Nat.lt_or_gt_of_ne hjk with h | h
      · right
        calc k * e.sz + e.sz = (k + 1) * e.sz := by rw [Nat.add_mul, Nat.one_mul]
          _ ≤ j * e.sz := Nat.mul_le_mul_right _ h
      · left
        calc j * e.sz + e.sz = (j + 1) * e.sz := by rw [Nat.add_mul, Nat.one_mul]
          _ ≤ k * e.sz := Nat.mul_le_mul_right _ h
end

end MiniRust
