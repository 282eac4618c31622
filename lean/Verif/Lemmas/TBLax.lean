import Verif.Lemmas.TBKnownReach
import Verif.Lemmas.NoPanicStep
import Verif.Lemmas.NoPanicInit
import Verif.Lemmas.PlainMem
/-
Tree Borrows where violations are ignored: it panics only in the ways that the proofs about panics rule out.
-/
set_option linter.unusedSectionVars false
namespace MiniRust
variable [T : Target]

theorem soft_orElse {α : Type} {r : Res α} {a : α} : ResE Soft (orElse r a) := by
  cases r <;> exact .ok

theorem orElse_eq {α : Type} (r : Res α) (a : α) : ∃ b, orElse r a = .ok b ∧ (r = .ok b ∨ b = a) := by
  cases r with
  | error e => exact ⟨a, rfl, .inr rfl⟩
  | ok b => exact ⟨b, rfl, .inl rfl⟩

theorem TBMem.laxSoft : @SoftMem TBMem TBProv TBFrame TBMem.lax :=
  @SoftMem.mk TBMem TBProv TBFrame TBMem.lax
    (fun _ _ _ _ _ => .bind soft_bm_allocate fun _ => .ok)
    (fun _ _ _ _ _ => .bind (soft_bm_deallocate fun _ _ => soft_orElse) fun _ => .ok)
    (fun _ _ _ _ => .bind (soft_bm_store fun _ _ _ => soft_orElse) fun _ => .ok)
    (fun _ _ _ _ => .bind (soft_bm_load fun _ _ _ => soft_orElse) fun _ => .ok)
    (fun _ _ _ => .bind soft_bm_checkPtr fun _ => .ok)
    (fun _ _ _ _ _ _ hvt => .bind (soft_reborrowSettings hvt) fun _ => soft_orElse)
    (fun _ _ => soft_orElse)
    (fun _ => bm_leakCheck)

theorem lax_retag_eq_ok {m : TBMem} {f p t e vt r} (h : TBMem.lax.retagPtr m f p t e vt = .ok r) :
    TBMem.retagPtr m f p t e vt = .ok r ∨ r = (p, f, m) := by
  obtain ⟨_, _, h⟩ := Res.bind_eq_ok.1 h
  obtain ⟨b, h1, h2⟩ := orElse_eq (TBMem.retagPtr m f p t e vt) (p, f, m)
  rw [h1] at h
  cases h
  exact h2

theorem TBMem.laxRaw : @RawRetag TBMem TBProv TBFrame TBMem.lax :=
  @RawRetag.mk TBMem TBProv TBFrame TBMem.lax fun m m' f f' ptr ptr' pty e vt hp h => by
    rcases lax_retag_eq_ok h with h | h
    · exact RawRetag.raw (F := TBFrame) m m' f f' ptr ptr' pty e vt hp h
    · cases h; rfl

@[reducible] def TBMem.laxBacked : @BasicBacked T TBMem Path Node TBFrame TBMem.lax :=
  @BasicBacked.mk T TBMem Path Node TBFrame TBMem.lax
    (fun m => m.mem)
    rfl
    (fun m kind size align pick => ⟨[], TBMem.newRoot size, by
      show _ <$> (do let (p, mem) ← m.mem.allocate kind size align [] (TBMem.newRoot size) pick; Except.ok (p, TBMem.mk mem)) = _
      cases m.mem.allocate kind size align [] (TBMem.newRoot size) pick <;> rfl⟩)
    (fun m ptr kind size align => ⟨fun n p => orElse (TBMem.deallocHandler size n p) n, by
      show _ <$> (do let mem ← m.mem.deallocate ptr kind size align _; Except.ok (TBMem.mk mem)) = _
      cases m.mem.deallocate ptr kind size align (fun n p => orElse (TBMem.deallocHandler size n p) n) <;> rfl⟩)
    (fun m ptr bytes align => ⟨fun n p o => orElse (TBMem.accessHandler .write bytes.length n p o) n, by
      show _ <$> (do let mem ← m.mem.store ptr bytes align _; Except.ok (TBMem.mk mem)) = _
      cases m.mem.store ptr bytes align (fun n p o => orElse (TBMem.accessHandler .write bytes.length n p o) n) <;> rfl⟩)
    (fun m ptr len align => ⟨fun n p o => orElse (TBMem.accessHandler .read len n p o) n, by
      show _ <$> (do let (bytes, mem) ← m.mem.load ptr len align _; Except.ok (bytes, TBMem.mk mem)) = _
      cases m.mem.load ptr len align (fun n p o => orElse (TBMem.accessHandler .read len n p o) n) <;> rfl⟩)
    (fun m ptr len => by
      show (do let _ ← m.mem.checkPtr ptr len; (.ok () : Res Unit)) = _
      cases m.mem.checkPtr ptr len <;> rfl)
    (fun m m' f f' ptr ptr' pty entry vt h => by
      rcases lax_retag_eq_ok h with h | h
      · exact BasicBacked.retag (F := TBFrame) m m' f f' ptr ptr' pty entry vt h
      · cases h; exact .refl)
    (fun m m' f f' ptr ptr' pty entry vt h => by
      rcases lax_retag_eq_ok h with h | h
      · exact BasicBacked.retagSame (F := TBFrame) m m' f f' ptr ptr' pty entry vt h
      · cases h; exact ⟨rfl, rfl, fun _ => .rfl⟩)
    (fun m m' f h => by
      obtain ⟨b, h1, h2⟩ := orElse_eq (TBMem.endCall m f) m
      rw [show TBMem.lax.endCall m f = _ from h1] at h
      cases h
      rcases h2 with h2 | rfl
      · exact endCall_sameData h2
      · exact .refl)
    (fun m => rfl)

theorem settings_ok {ptr : Pointer TBProv} {pty entry vt} (h : ∀ info, pty.safePointee = some info →
    ∃ mask, info.unsafeCells.freezeMask vt info.layout ptr.metadata = .ok mask) : ∃ st, ReborrowSettings.new ptr pty entry vt = .ok st := by
  unfold ReborrowSettings.new
  cases hs : pty.safePointee with
  | none => exact ⟨none, rfl⟩
  | some info =>
    obtain ⟨mask, hm⟩ := h info hs
    simp only [hm, Res.bind_ok]
    split
    · split
      · exact ⟨_, rfl⟩
      · exact ⟨_, rfl⟩
    · exact ⟨_, rfl⟩

section
variable {PE AE : Type} {m : BasicMem PE AE} {p : ThinPtr (AllocId × PE)}

theorem BasicMem.load_total {n al} {hx : AE → PE → Nat → Res AE} (hh : ∀ x p o, ∃ y, hx x p o = .ok y)
    (hal : Aligned al p.addr) (hf : n = 0 ∨ m.Fits p n) : ∃ r, m.load p n al hx = .ok r := by
  unfold BasicMem.load
  rw [if_neg (by simpa [Align.isAligned_iff] using hal)]
  obtain ⟨r, hr⟩ := BasicMem.checkPtr_ok hf
  rw [hr]
  cases r with
  | none => exact ⟨([], m), rfl⟩
  | some r =>
    obtain ⟨_, id, pe, a, off, rfl, hp, ha, hl, ho, hb⟩ := BasicMem.checkPtr_eq_some.1 hr
    obtain ⟨y, hy⟩ := hh a.extra pe off
    simp only [Res.bind_ok, index_eq_ok.2 ha, hy]
    unfold subslice
    rw [if_pos (by simpa [Alloc.size] using hb)]
    exact ⟨_, rfl⟩

theorem BasicMem.store_total {bs al} {hx : AE → PE → Nat → Res AE} (hh : ∀ x p o, ∃ y, hx x p o = .ok y)
    (hal : Aligned al p.addr) (hf : bs.length = 0 ∨ m.Fits p bs.length) : ∃ m', m.store p bs al hx = .ok m' := by
  unfold BasicMem.store
  rw [if_neg (by simpa [Align.isAligned_iff] using hal)]
  obtain ⟨r, hr⟩ := BasicMem.checkPtr_ok hf
  rw [hr]
  cases r with
  | none => exact ⟨m, rfl⟩
  | some r =>
    obtain ⟨_, id, pe, a, off, rfl, hp, ha, hl, ho, hb⟩ := BasicMem.checkPtr_eq_some.1 hr
    obtain ⟨y, hy⟩ := hh a.extra pe off
    simp only [Res.bind_ok, index_eq_ok.2 ha, hy]
    unfold writeSubslice
    rw [if_pos (by simpa [Alloc.size] using hb)]
    exact ⟨_, rfl⟩

theorem BasicMem.deallocate_total {k n al} {hx : AE → PE → Res AE} (hh : ∀ x p, ∃ y, hx x p = .ok y)
    (hc : m.CanFree p k n al) : ∃ m', m.deallocate p k n al hx = .ok m' := by
  obtain ⟨id, pe, a, hp, ha, hl, h1, h2, h3, h4⟩ := hc
  obtain ⟨y, hy⟩ := hh a.extra pe
  unfold BasicMem.deallocate
  simp [hp, index_eq_ok.2 ha, hl, h1, h2, h3, h4, hy]
end

theorem orElse_total {α : Type} (r : Res α) (a : α) : ∃ b, orElse r a = .ok b := by
  obtain ⟨b, h, _⟩ := orElse_eq r a
  exact ⟨b, h⟩

theorem TBMem.laxPlain : @PlainMem T TBMem Path Node TBFrame TBMem.lax TBMem.laxBacked := by
  refine @PlainMem.mk T TBMem Path Node TBFrame TBMem.lax TBMem.laxBacked ?_ ?_ ?_ ?_ ?_ ?_ ?_
  · intro m p n al hk h
    have hk : m.mem.KnownId p := hk
    rcases Res.bind_eq_error.1 h with h | ⟨⟨_, _⟩, _, h⟩
    · by_cases hc : Aligned al p.addr ∧ (n = 0 ∨ m.mem.Fits p n)
      · obtain ⟨r, hr⟩ := BasicMem.load_total (hx := fun x p o => orElse (TBMem.accessHandler .read n x p o) x) (fun _ _ _ => orElse_total _ _) hc.1 hc.2
        rw [hr] at h; cases h
      · rw [BasicMem.load_ub hk hc] at h; cases h
    · cases h
  · intro m p bs al hk h
    have hk : m.mem.KnownId p := hk
    rcases Res.bind_eq_error.1 h with h | ⟨_, _, h⟩
    · by_cases hc : Aligned al p.addr ∧ (bs.length = 0 ∨ m.mem.Fits p bs.length)
      · obtain ⟨r, hr⟩ := BasicMem.store_total (hx := fun x p o => orElse (TBMem.accessHandler .write bs.length x p o) x) (fun _ _ _ => orElse_total _ _) hc.1 hc.2
        rw [hr] at h; cases h
      · rw [BasicMem.store_ub hk hc] at h; cases h
    · cases h
  · intro m p bs al hal hf
    obtain ⟨r, hr⟩ := BasicMem.store_total (m := m.mem) (hx := fun x p o => orElse (TBMem.accessHandler .write bs.length x p o) x) (fun _ _ _ => orElse_total _ _) hal hf
    exact ⟨⟨r⟩, Res.bind_eq_ok.2 ⟨_, hr, rfl⟩⟩
  · intro m k n al pick h
    rcases Res.bind_eq_error.1 h with h | ⟨⟨_, _⟩, _, h⟩
    · unfold BasicMem.allocate at h
      split at h
      · cases h
      · split at h <;> cases h
    · cases h
  · intro m p k n al hk h
    have hk : m.mem.KnownId p := hk
    rcases Res.bind_eq_error.1 h with h | ⟨_, _, h⟩
    · by_cases hc : m.mem.CanFree p k n al
      · obtain ⟨r, hr⟩ := BasicMem.deallocate_total (hx := fun x p => orElse (TBMem.deallocHandler n x p) x) (fun _ _ => orElse_total _ _) hc
        rw [hr] at h; cases h
      · rw [BasicMem.deallocate_ub hk hc] at h; cases h
    · cases h
  · intro m f p t e vt hm h
    obtain ⟨st, hst⟩ := settings_ok (entry := e) hm
    rcases Res.bind_eq_error.1 h with h | ⟨_, _, h⟩
    · rw [hst] at h; cases h
    · obtain ⟨b, h1, _⟩ := orElse_eq (TBMem.retagPtr m f p t e vt) (p, f, m)
      rw [h1] at h; cases h
  · intro m f h
    obtain ⟨b, h1, _⟩ := orElse_eq (TBMem.endCall m f) m
    rw [show TBMem.lax.endCall m f = _ from h1] at h
    cases h

end MiniRust
