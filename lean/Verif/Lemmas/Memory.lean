import Verif.Spec.Memory
import Verif.Lemmas.Basic
/-
Lemmas about the basic memory and about histories of memory operations.
-/
namespace MiniRust

theorem index_eq_ok {α : Type} {l : List α} {i : Nat} {a : α} :
    index l i = .ok a ↔ l[i]? = some a := by simp [index]

theorem index_eq_error {α : Type} {l : List α} {i : Nat} {e : Err} :
    index l i = .error e ↔ l.length ≤ i ∧ e = .panic := by simp [index]

@[simp] theorem sizeFromBytes_eq_some {i : Int} {n : Nat} : sizeFromBytes i = some n ↔ i = n := by
  unfold sizeFromBytes; split <;> simp <;> omega

theorem Align.isAligned_iff (a : Align) (x : Int) : a.isAligned x = true ↔ Aligned a x := by
  simp only [Align.isAligned, Aligned, Align.bytes, Int.dvd_iff_emod_eq_zero]
  exact decide_eq_true_iff

namespace BasicMem
variable {PE AE : Type}

theorem pickable_iff [T : Target] {m : BasicMem PE AE} {size : Nat} {align : Align} {addr : Int} :
    m.pickable size align addr = true ↔
      0 < addr ∧ Aligned align addr ∧ addr + size < 2 ^ (8 * T.ptrSize) ∧
      ∀ a ∈ m.allocations, a.live = true →
        a.addr ≠ addr ∧ (a.addr + a.size ≤ addr ∨ addr + size ≤ a.addr) := by
  unfold pickable
  rw [← Align.isAligned_iff]
  split
  · simp; omega
  split
  · simp_all
  split
  · rename_i h1 _ h
    simp [inBounds] at h
    simp; intro _ _ h'; omega
  split
  · rename_i h
    rw [List.any_eq_true] at h
    obtain ⟨a, ha, hl⟩ := h
    simp only [Bool.and_eq_true, Alloc.overlaps] at hl
    simp only [Bool.false_eq_true, false_iff, not_and]
    intro _ _ _ hall
    have := hall a ha hl.1
    have h2 := hl.2
    split at h2
    · simp at h2; omega
    · omega
  · rename_i h1 h2 h3 h
    simp only [inBounds, Bool.not_eq_true', decide_eq_false_iff_not] at h3
    simp only [true_iff]
    refine ⟨by omega, by simpa using h2, ?_, ?_⟩
    · omega
    · intro a ha hl
      rw [Bool.not_eq_true, List.any_eq_false] at h
      have := h a ha
      simp only [hl, Bool.true_and, Alloc.overlaps] at this
      split at this
      · rename_i hh; simp at this; exact ⟨this, hh⟩
      · simp at this

theorem allocate_eq_ok [T : Target] {m m' : BasicMem PE AE} {kind size align pe ae pick p} :
    m.allocate kind size align pe ae pick = .ok (p, m') ↔
      T.validSize size = true ∧ m.pickable size align pick = true ∧
      p = { addr := pick, prov := some (m.allocations.length, pe) } ∧
      m' = ⟨m.allocations ++ [⟨List.replicate size .uninit, pick, align, kind, true, ae⟩]⟩ := by
  unfold allocate
  split
  · simp_all
  split
  · simp_all
  · rename_i h1 h2
    have h1' : T.validSize size = true := by simpa using h1
    have h2' : m.pickable size align pick = true := by simpa using h2
    simp only [h1', h2', true_and, Except.ok.injEq, Prod.mk.injEq]
    exact ⟨fun ⟨a, b⟩ => ⟨a.symm, b.symm⟩, fun ⟨a, b⟩ => ⟨a.symm, b.symm⟩⟩

theorem deallocate_eq_ok {m m' : BasicMem PE AE} {ptr kind size align hx} :
    m.deallocate ptr kind size align hx = .ok m' ↔
      ∃ id pe a extra, ptr.prov = some (id, pe) ∧ m.allocations[id]? = some a ∧ a.live = true ∧
        ptr.addr = a.addr ∧ kind = a.kind ∧ size = a.size ∧ align = a.align ∧
        hx a.extra pe = .ok extra ∧
        m' = ⟨m.allocations.set id { a with extra := extra, live := false }⟩ := by
  unfold deallocate
  cases hp : ptr.prov with
  | none => simp
  | some ip =>
    obtain ⟨id, pe⟩ := ip
    simp only [Res.bind_eq_ok, index_eq_ok]
    constructor
    · rintro ⟨a, ha, h⟩
      split at h
      · simp at h
      split at h
      · simp at h
      split at h
      · simp at h
      split at h
      · simp at h
      split at h
      · simp at h
      rw [Res.bind_eq_ok] at h
      obtain ⟨ex, hex, h⟩ := h
      exact ⟨id, pe, a, ex, rfl, ha, by simp_all, by simp_all, by simp_all, by simp_all,
        by simp_all, hex, by simpa using h.symm⟩
    · rintro ⟨id', pe', a, extra, he, ha, hl, h1, h2, h3, h4, hx, rfl⟩
      cases he
      refine ⟨a, ha, ?_⟩
      simp [hl, h1, h2, h3, h4, hx]

/-- `check_ptr` succeeds with a position exactly for non-empty accesses inside a live allocation. -/
theorem checkPtr_eq_some {m : BasicMem PE AE} {ptr len r} :
    m.checkPtr ptr len = .ok (some r) ↔
      len ≠ 0 ∧ ∃ id pe a off, r = (id, pe, off) ∧ ptr.prov = some (id, pe) ∧
        m.allocations[id]? = some a ∧ a.live = true ∧ ptr.addr = a.addr + (off : Nat) ∧
        off + len ≤ a.size := by
  unfold checkPtr
  split
  · simp_all
  rename_i hlen
  cases hp : ptr.prov with
  | none => simp
  | some ip =>
    obtain ⟨id, pe⟩ := ip
    simp only [Res.bind_eq_ok, index_eq_ok]
    constructor
    · rintro ⟨a, ha, h⟩
      split at h
      · simp at h
      split at h
      · simp at h
      rename_i hl hb
      rw [Res.bind_eq_ok] at h
      obtain ⟨off, hoff, h⟩ := h
      simp at hoff h hl
      exact ⟨hlen, id, pe, a, off, h.symm, rfl, ha, hl, by omega, by omega⟩
    · rintro ⟨_, id', pe', a, off, rfl, he, ha, hl, h1, h2⟩
      cases he
      refine ⟨a, ha, ?_⟩
      have h3 : ptr.addr - a.addr = off := by omega
      have h4 : ¬ (((off : Int)) < 0 ∨ (off : Int) + (len : Int) > (a.size : Int)) := by omega
      have h5 : sizeFromBytes (off : Int) = some off := by simp
      simp only [hl, h3, h4, h5]
      simp

theorem checkPtr_eq_none {m : BasicMem PE AE} {ptr len} :
    m.checkPtr ptr len = .ok none ↔ len = 0 := by
  unfold checkPtr
  split
  · simp_all
  rename_i hlen
  simp only [hlen, iff_false]
  split
  · simp
  · simp only [Res.bind_eq_ok, not_exists, not_and]
    intro a _
    split
    · simp
    split
    · simp
    · simp [Res.bind_eq_ok]

/-- A failing `check_ptr` is UB when the provenance is that of some allocation. -/
theorem checkPtr_error {m : BasicMem PE AE} {ptr len e}
    (hg : ∀ id pe, ptr.prov = some (id, pe) → id < m.allocations.length)
    (h : m.checkPtr ptr len = .error e) : e = .ub := by
  unfold checkPtr at h
  split at h
  · simp at h
  cases hp : ptr.prov with
  | none => simp [hp] at h; exact h.symm
  | some ip =>
    obtain ⟨id, pe⟩ := ip
    simp only [hp, Res.bind_eq_error, index_eq_error] at h
    rcases h with ⟨h, -⟩ | ⟨a, _, h⟩
    · have := hg _ _ hp; omega
    · split at h
      · simp at h; exact h.symm
      split at h
      · simp at h; exact h.symm
      · rename_i hb
        simp [Res.bind_eq_error, sizeFromBytes] at h
        omega

theorem store_eq_ok {m m' : BasicMem PE AE} {ptr bytes align hx} :
    m.store ptr bytes align hx = .ok m' ↔
      Aligned align ptr.addr ∧
      ((bytes = [] ∧ m' = m) ∨
       (bytes ≠ [] ∧ ∃ id pe a off extra data, ptr.prov = some (id, pe) ∧
          m.allocations[id]? = some a ∧ a.live = true ∧ ptr.addr = a.addr + (off : Nat) ∧
          off + bytes.length ≤ a.size ∧ hx a.extra pe off = .ok extra ∧
          writeSubslice a.data off bytes = .ok data ∧
          m' = ⟨m.allocations.set id { a with extra := extra, data := data }⟩)) := by
  unfold store
  rw [← Align.isAligned_iff]
  split
  · simp_all
  rename_i hal
  simp only [Bool.not_eq_true', Bool.not_eq_false] at hal
  simp only [hal, true_and, Res.bind_eq_ok]
  constructor
  · rintro ⟨r, hr, h⟩
    cases r with
    | none =>
      rw [checkPtr_eq_none] at hr
      simp at hr h
      exact .inl ⟨hr, h.symm⟩
    | some r =>
      rw [checkPtr_eq_some] at hr
      obtain ⟨hn, id, pe, a, off, rfl, hp, ha, hl, h1, h2⟩ := hr
      simp only [Res.bind_eq_ok, index_eq_ok] at h
      obtain ⟨a', ha', ex, hex, d, hd, h⟩ := h
      rw [ha] at ha'; cases ha'
      refine .inr ⟨by simpa using hn, id, pe, a, off, ex, d, hp, ha, hl, h1, h2, hex, hd, by simpa using h.symm⟩
  · rintro (⟨rfl, rfl⟩ | ⟨hn, id, pe, a, off, ex, d, hp, ha, hl, h1, h2, hex, hd, rfl⟩)
    · exact ⟨none, checkPtr_eq_none.2 rfl, rfl⟩
    · refine ⟨some (id, pe, off), checkPtr_eq_some.2 ⟨by simpa using hn, id, pe, a, off, rfl, hp, ha, hl, h1, h2⟩, ?_⟩
      simp [index, ha, hex, hd]

theorem load_eq_ok {m m' : BasicMem PE AE} {ptr len align hx bytes} :
    m.load ptr len align hx = .ok (bytes, m') ↔
      Aligned align ptr.addr ∧
      ((len = 0 ∧ bytes = [] ∧ m' = m) ∨
       (len ≠ 0 ∧ ∃ id pe a off extra, ptr.prov = some (id, pe) ∧
          m.allocations[id]? = some a ∧ a.live = true ∧ ptr.addr = a.addr + (off : Nat) ∧
          off + len ≤ a.size ∧ hx a.extra pe off = .ok extra ∧
          bytes = (a.data.drop off).take len ∧
          m' = ⟨m.allocations.set id { a with extra := extra }⟩)) := by
  unfold load
  rw [← Align.isAligned_iff]
  split
  · simp_all
  rename_i hal
  simp only [Bool.not_eq_true', Bool.not_eq_false] at hal
  simp only [hal, true_and, Res.bind_eq_ok]
  constructor
  · rintro ⟨r, hr, h⟩
    cases r with
    | none =>
      rw [checkPtr_eq_none] at hr
      simp at hr h
      exact .inl ⟨hr, h.1, h.2.symm⟩
    | some r =>
      rw [checkPtr_eq_some] at hr
      obtain ⟨hn, id, pe, a, off, rfl, hp, ha, hl, h1, h2⟩ := hr
      simp only [Res.bind_eq_ok, index_eq_ok] at h
      obtain ⟨a', ha', ex, hex, d, hd, h⟩ := h
      rw [ha] at ha'; cases ha'
      simp at h
      rw [subslice_eq_ok] at hd
      refine .inr ⟨by simpa using hn, id, pe, a, off, ex, hp, ha, hl, h1, h2, hex, by rw [← h.1, hd.2], h.2.symm⟩
  · rintro (⟨rfl, rfl, rfl⟩ | ⟨hn, id, pe, a, off, ex, hp, ha, hl, h1, h2, hex, rfl, rfl⟩)
    · exact ⟨none, checkPtr_eq_none.2 rfl, rfl⟩
    · refine ⟨some (id, pe, off), checkPtr_eq_some.2 ⟨by simpa using hn, id, pe, a, off, rfl, hp, ha, hl, h1, h2⟩, ?_⟩
      have := subslice_isOk (l := a.data) (off := off) (len := len) h2
      simp [index, ha, hex, this]

theorem leakLoop_eq {l : List (Alloc PE AE)} :
    leakLoop l = if ∃ a ∈ l, a.live = true ∧ a.kind = .heap then .error .memoryLeak else .ok () := by
  induction l with
  | nil => simp [leakLoop]
  | cons a as ih =>
    unfold leakLoop
    by_cases hl : a.live = true
    · cases hk : a.kind <;> simp [hl, hk, ih]
    · simp [hl, ih]

end BasicMem

end MiniRust

namespace MiniRust.BasicMem
variable {PE AE : Type}

/-- The access check that `load` and `store` make before looking at the extra state. -/
def Fits (m : BasicMem PE AE) (ptr : ThinPtr (AllocId × PE)) (len : Nat) : Prop :=
  ∃ id pe a off, ptr.prov = some (id, pe) ∧ m.allocations[id]? = some a ∧ a.live = true ∧
    ptr.addr = a.addr + (off : Nat) ∧ off + len ≤ a.size

/-- The provenance of the pointer is that of some allocation. -/
def KnownId (m : BasicMem PE AE) (ptr : ThinPtr (AllocId × PE)) : Prop :=
  ∀ id pe, ptr.prov = some (id, pe) → id < m.allocations.length

theorem checkPtr_ub {m : BasicMem PE AE} {ptr len} (hg : m.KnownId ptr)
    (h : ¬ (len = 0 ∨ m.Fits ptr len)) : m.checkPtr ptr len = .error .ub := by
  cases hc : m.checkPtr ptr len with
  | error e => rw [checkPtr_error hg hc]
  | ok r =>
    exfalso; apply h
    cases r with
    | none => exact .inl (checkPtr_eq_none.1 hc)
    | some r =>
      obtain ⟨_, id, pe, a, off, _, h1⟩ := checkPtr_eq_some.1 hc
      exact .inr ⟨id, pe, a, off, h1⟩

theorem checkPtr_ok {m : BasicMem PE AE} {ptr len} (h : len = 0 ∨ m.Fits ptr len) :
    ∃ r, m.checkPtr ptr len = .ok r := by
  by_cases hl : len = 0
  · exact ⟨none, checkPtr_eq_none.2 hl⟩
  · obtain ⟨id, pe, a, off, h⟩ := h.resolve_left hl
    exact ⟨some (id, pe, off), checkPtr_eq_some.2 ⟨hl, id, pe, a, off, rfl, h⟩⟩

theorem load_ub {m : BasicMem PE AE} {ptr len align hx} (hg : m.KnownId ptr)
    (h : ¬ (Aligned align ptr.addr ∧ (len = 0 ∨ m.Fits ptr len))) :
    m.load ptr len align hx = .error .ub := by
  unfold load
  split
  · rfl
  · rename_i hal
    simp only [Bool.not_eq_true', Bool.not_eq_false, Align.isAligned_iff] at hal
    rw [checkPtr_ub hg (fun hh => h ⟨hal, hh⟩)]
    rfl

theorem store_ub {m : BasicMem PE AE} {ptr bytes align hx} (hg : m.KnownId ptr)
    (h : ¬ (Aligned align ptr.addr ∧ (bytes.length = 0 ∨ m.Fits ptr bytes.length))) :
    m.store ptr bytes align hx = .error .ub := by
  unfold store
  split
  · rfl
  · rename_i hal
    simp only [Bool.not_eq_true', Bool.not_eq_false, Align.isAligned_iff] at hal
    rw [checkPtr_ub hg (fun hh => h ⟨hal, hh⟩)]
    rfl

/-- The checks `deallocate` makes before looking at the extra state. -/
def CanFree (m : BasicMem PE AE) (ptr : ThinPtr (AllocId × PE)) (kind : AllocKind) (size : Nat)
    (align : Align) : Prop :=
  ∃ id pe a, ptr.prov = some (id, pe) ∧ m.allocations[id]? = some a ∧ a.live = true ∧
    ptr.addr = a.addr ∧ kind = a.kind ∧ size = a.size ∧ align = a.align

theorem deallocate_ub {m : BasicMem PE AE} {ptr kind size align hx} (hg : m.KnownId ptr)
    (h : ¬ m.CanFree ptr kind size align) : m.deallocate ptr kind size align hx = .error .ub := by
  unfold deallocate
  cases hp : ptr.prov with
  | none => rfl
  | some ip =>
    obtain ⟨id, pe⟩ := ip
    have hlt := hg id pe hp
    have ha : m.allocations[id]? = some m.allocations[id] := by simp [hlt]
    simp only [index_eq_ok.2 ha, Res.bind_ok]
    split
    · rfl
    split
    · rfl
    split
    · rfl
    split
    · rfl
    split
    · rfl
    exfalso; apply h
    refine ⟨id, pe, _, hp, ha, ?_⟩
    simp_all

end MiniRust.BasicMem
