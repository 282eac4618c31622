import Verif.Lemmas.EM
import Verif.Lemmas.LeSpec
import Verif.Props.Memory
import Verif.Spec.SelfAssign
/-
Lemmas for C09: the effect on memory of loads and stores.
-/
set_option linter.unusedSectionVars false
namespace MiniRust

namespace BasicMem
variable {PE AE : Type} [DecidableEq PE]

/-- Storing something less defined than what was loaded from the same place makes the memory less
or equally defined. -/
theorem store_le_of_load {m m1 m2 : BasicMem PE AE} {p n al bytes bytes' hx hy al'}
    (hl : m.load p n al hx = .ok (bytes, m1)) (hle : BytesLe bytes' bytes)
    (hs : m1.store p bytes' al' hy = .ok m2) : MemBytesLe m2 m := by
  rw [load_eq_ok] at hl
  rw [store_eq_ok] at hs
  obtain ⟨_, hl⟩ := hl
  obtain ⟨_, hs⟩ := hs
  have hlen := hle.1
  have hrefl : ∀ (m : BasicMem PE AE), MemBytesLe m m := fun m =>
    ⟨rfl, fun i a b ha hb => by rw [ha] at hb; cases hb; exact ⟨BytesLe.refl _, rfl, rfl, rfl, rfl⟩⟩
  rcases hl with ⟨_, rfl, rfl⟩ | ⟨hn, id, pe, a, off, ex, hp, ha, hlv, hoff, hfit, _, rfl, rfl⟩
  · rcases hs with ⟨_, rfl⟩ | ⟨hne, _⟩
    · exact hrefl _
    · exact absurd (List.length_eq_zero_iff.1 hlen) hne
  · have hlen' : bytes'.length = n := by
      rw [hlen]; simp only [List.length_take, List.length_drop]
      simp only [Alloc.size] at hfit; omega
    rcases hs with ⟨hb, _⟩ | ⟨hne, id', pe', a', off', ex', d, hp', ha', _, hoff', _, _, hd, rfl⟩
    · rw [hb] at hlen'; simp at hlen'; omega
    · rw [hp] at hp'; cases hp'
      have hid : id < m.allocations.length := (List.getElem?_eq_some_iff.1 ha).1
      simp only [List.getElem?_set_self hid, Option.some.injEq] at ha'
      subst ha'
      have hoo : off = off' := by simp only at hoff'; omega
      subst hoo
      refine ⟨by simp, ?_⟩
      intro i x y hx hy
      by_cases hi : id = i
      · subst hi
        rw [ha] at hy; cases hy
        simp only [List.set_set, List.getElem?_set_self hid, Option.some.injEq] at hx
        subst hx
        refine ⟨⟨writeSubslice_length hd, ?_⟩, rfl, rfl, rfl, rfl⟩
        intro j u w hu hw
        simp only at hu
        rw [writeSubslice_getElem? hd] at hu
        split at hu
        · rename_i hj
          refine hle.2 (j - off) u w hu ?_
          rw [List.getElem?_take, if_pos (by omega), List.getElem?_drop]
          rw [← hw]; congr 1; omega
        · rw [hw] at hu; cases hu; exact ByteLe.refl _
      · simp only [List.set_set, List.getElem?_set_ne hi] at hx
        rw [hx] at hy; cases hy
        exact ⟨BytesLe.refl _, rfl, rfl, rfl, rfl⟩

/-- A load directly after a store of the same length through the same pointer returns the bytes. -/
theorem load_after_store {m m1 m2 : BasicMem PE AE} {p al bytes r n hx hy al'}
    (hs : m.store p bytes al hx = .ok m1) (hn : bytes.length = n)
    (hl : m1.load p n al' hy = .ok (r, m2)) : r = bytes := by
  rw [load_eq_ok] at hl
  rw [store_eq_ok] at hs
  obtain ⟨_, hl⟩ := hl
  obtain ⟨_, hs⟩ := hs
  rcases hs with ⟨rfl, rfl⟩ | ⟨hne, id, pe, a, off, ex, d, hp, ha, _, hoff, hfit, _, hd, rfl⟩
  · rcases hl with ⟨_, rfl, _⟩ | ⟨h, _⟩
    · rfl
    · exact absurd hn.symm h
  · rcases hl with ⟨h, _⟩ | ⟨_, id', pe', a', off', ex', hp', ha', _, hoff', _, _, rfl, _⟩
    · exact absurd (List.length_eq_zero_iff.1 (hn.trans h)) hne
    · rw [hp] at hp'; cases hp'
      have hid : id < m.allocations.length := (List.getElem?_eq_some_iff.1 ha).1
      simp only [List.getElem?_set_self hid, Option.some.injEq] at ha'
      subst ha'
      have hoo : off = off' := by simp only at hoff'; omega
      subst hoo
      have := subslice_writeSubslice_same hd
      rw [subslice_eq_ok] at this
      rw [← hn]; exact this.2.symm

theorem Fits_store {m m1 : BasicMem PE AE} {p al bytes hx} (hs : m.store p bytes al hx = .ok m1)
    (q : ThinPtr (AllocId × PE)) (n : Nat) : m1.checkPtr q n = m.checkPtr q n := by
  rw [store_eq_ok] at hs
  obtain ⟨_, ⟨_, rfl⟩ | ⟨_, id, pe, a, off, ex, d, hp, ha, hlv, hoff, hfit, _, hd, rfl⟩⟩ := hs
  · rfl
  · have hid : id < m.allocations.length := (List.getElem?_eq_some_iff.1 ha).1
    have hlen := writeSubslice_length hd
    unfold checkPtr
    split
    · rfl
    · split
      · rfl
      · rename_i id' pe' _
        by_cases h : id = id'
        · subst h
          simp only [index, List.getElem?_set_self hid, ha, unwrap_some, Res.bind_ok, Alloc.size, hlen]
          rfl
        · simp only [index, List.getElem?_set_ne h]

theorem load_unit {m m1 : BasicMem Unit Unit} {p n al hx bytes}
    (h : m.load p n al hx = .ok (bytes, m1)) : m1 = m := by
  rw [load_eq_ok] at h
  obtain ⟨_, ⟨_, _, rfl⟩ | ⟨_, id, pe, a, off, ex, hp, ha, hlv, hoff, hfit, _, _, rfl⟩⟩ := h
  · rfl
  · have : m.allocations.set id { a with extra := ex } = m.allocations := by
      apply List.ext_getElem?
      intro i
      by_cases h : id = i
      · subst h
        rw [List.getElem?_set_self (List.getElem?_eq_some_iff.1 ha).1, ha]
      · rw [List.getElem?_set_ne h]
    rw [this]

/-- In the basic memory model a store succeeds wherever a load of the same length does. -/
theorem store_of_load {m m1 : BasicMem Unit Unit} {p n al hx bytes} {bytes' : List (AByte (AllocId × Unit))}
    (h : m.load p n al hx = .ok (bytes, m1)) (hn : bytes'.length = n) :
    ∃ m2, m.store p bytes' al (fun _ _ _ => .ok ()) = .ok m2 := by
  rw [load_eq_ok] at h
  obtain ⟨hal, ⟨h0, _, rfl⟩ | ⟨h0, id, pe, a, off, ex, hp, ha, hlv, hoff, hfit, _, _, rfl⟩⟩ := h
  · exact ⟨_, store_eq_ok.2 ⟨hal, .inl ⟨List.length_eq_zero_iff.1 (hn.trans h0), rfl⟩⟩⟩
  · have hf : off + bytes'.length ≤ a.data.length := by simp only [Alloc.size] at hfit; omega
    refine ⟨_, store_eq_ok.2 ⟨hal, .inr ⟨?_, id, pe, a, off, (), _, hp, ha, hlv, hoff, hf, rfl,
      writeSubslice_isOk hf, rfl⟩⟩⟩
    rintro rfl; exact h0 hn.symm

theorem load_of_store {m m1 : BasicMem Unit Unit} {p al hx n} {bytes : List (AByte (AllocId × Unit))}
    (h : m.store p bytes al hx = .ok m1) (hn : bytes.length = n) :
    ∃ r m2, m1.load p n al (fun _ _ _ => .ok ()) = .ok (r, m2) := by
  rw [store_eq_ok] at h
  obtain ⟨hal, ⟨rfl, rfl⟩ | ⟨h0, id, pe, a, off, ex, d, hp, ha, hlv, hoff, hfit, _, hd, rfl⟩⟩ := h
  · exact ⟨_, _, load_eq_ok.2 ⟨hal, .inl ⟨hn.symm, rfl, rfl⟩⟩⟩
  · have hid : id < m.allocations.length := (List.getElem?_eq_some_iff.1 ha).1
    have hlen := writeSubslice_length hd
    refine ⟨_, _, load_eq_ok.2 ⟨hal, .inr ⟨?_, id, pe, { a with extra := ex, data := d }, off, (), hp,
      by simp [hid], hlv, hoff, ?_, rfl, rfl, rfl⟩⟩⟩
    · rintro rfl; exact h0 (List.length_eq_zero_iff.1 hn)
    · simp only [Alloc.size] at hfit ⊢; omega

end BasicMem
end MiniRust
