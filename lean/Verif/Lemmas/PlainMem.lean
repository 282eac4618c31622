import Verif.Lemmas.NoPanic
/-
The basic memory model accepts what `PlainMem` asks for, and both memory models leave raw pointers alone when they
are retagged.
-/
namespace MiniRust

instance [Target] : RawRetag (BasicMem Unit Unit) (AllocId × Unit) Unit where
  raw m m' f f' ptr ptr' pty e vt _ h := by
    simp only [Memory.retagPtr, Except.ok.injEq, Prod.mk.injEq] at h
    exact h.1.symm

instance [Target] : RawRetag TBMem TBProv TBFrame where
  raw m m' f f' ptr ptr' pty e vt hp h := by
    simp only [Memory.retagPtr, TBMem.retagPtr, ReborrowSettings.new] at h
    cases pty with
    | ref mu pt => cases hp
    | box pt => cases hp
    | raw mk => cases h; rfl
    | fnPtr => cases h; rfl
    | vtablePtr t => cases h; rfl

theorem BasicMem.store_plain {m : BasicMem Unit Unit} {p bs al} (hal : Aligned al p.addr) (hf : bs.length = 0 ∨ m.Fits p bs.length) :
    ∃ m', m.store p bs al (fun _ _ _ => .ok ()) = .ok m' := by
  unfold BasicMem.store
  rw [if_neg (by simpa [Align.isAligned_iff] using hal)]
  obtain ⟨r, hr⟩ := BasicMem.checkPtr_ok hf
  rw [hr]
  cases r with
  | none => exact ⟨m, rfl⟩
  | some r =>
    obtain ⟨_, id, pe, a, off, rfl, hp, ha, hl, ho, hb⟩ := BasicMem.checkPtr_eq_some.1 hr
    simp only [Res.bind_ok, index_eq_ok.2 ha]
    unfold writeSubslice
    rw [if_pos (by simpa [Alloc.size] using hb)]
    exact ⟨_, rfl⟩

theorem BasicMem.load_plain {m : BasicMem Unit Unit} {p n al} (hal : Aligned al p.addr) (hf : n = 0 ∨ m.Fits p n) :
    ∃ r, m.load p n al (fun _ _ _ => .ok ()) = .ok r := by
  unfold BasicMem.load
  rw [if_neg (by simpa [Align.isAligned_iff] using hal)]
  obtain ⟨r, hr⟩ := BasicMem.checkPtr_ok hf
  rw [hr]
  cases r with
  | none => exact ⟨([], m), rfl⟩
  | some r =>
    obtain ⟨_, id, pe, a, off, rfl, hp, ha, hl, ho, hb⟩ := BasicMem.checkPtr_eq_some.1 hr
    simp only [Res.bind_ok, index_eq_ok.2 ha]
    unfold subslice
    rw [if_pos (by simpa [Alloc.size] using hb)]
    exact ⟨_, rfl⟩

/-- The basic memory model satisfies `PlainMem`. -/
theorem BasicMem.plain [T : Target] : PlainMem (BasicMem Unit Unit) where
  load m p n al hk := by
    show m.load p n al (fun _ _ _ => .ok ()) ≠ _
    have hk : m.KnownId p := hk
    intro h
    by_cases hc : Aligned al p.addr ∧ (n = 0 ∨ m.Fits p n)
    · obtain ⟨r, hr⟩ := BasicMem.load_plain hc.1 hc.2
      rw [hr] at h; cases h
    · rw [BasicMem.load_ub hk hc] at h; cases h
  store m p bs al hk := by
    show m.store p bs al (fun _ _ _ => .ok ()) ≠ _
    have hk : m.KnownId p := hk
    intro h
    by_cases hc : Aligned al p.addr ∧ (bs.length = 0 ∨ m.Fits p bs.length)
    · obtain ⟨r, hr⟩ := BasicMem.store_plain hc.1 hc.2
      rw [hr] at h; cases h
    · rw [BasicMem.store_ub hk hc] at h; cases h
  storeOk m p bs al hal hf := BasicMem.store_plain hal hf
  allocate m k n al pick := by
    show m.allocate k n al () () pick ≠ _
    unfold BasicMem.allocate
    intro h
    split at h
    · cases h
    split at h <;> cases h
  deallocate m p k n al hk := by
    show m.deallocate p k n al (fun _ _ => .ok ()) ≠ _
    have hk : m.KnownId p := hk
    intro h
    by_cases hc : m.CanFree p k n al
    · obtain ⟨id, pe, a, hp, ha, hl, h1, h2, h3, h4⟩ := hc
      unfold BasicMem.deallocate at h
      simp [hp, index_eq_ok.2 ha, hl, h1, h2, h3, h4] at h
    · rw [BasicMem.deallocate_ub hk hc] at h; cases h
  retag m f p t e vt _ h := by cases h
  endCall m f h := by cases h

end MiniRust
