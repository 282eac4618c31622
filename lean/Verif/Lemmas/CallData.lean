import Verif.Lemmas.Unwind
/-
Memory contents around calls and returns.
-/
set_option linter.unusedSectionVars false
namespace MiniRust
section
variable {M PE AE F : Type} [T : Target] [DecidableEq PE] [Memory M (AllocId × PE) F] [hm : SoftMem M (AllocId × PE) F]
  [B : BasicBacked M PE AE F]
variable {s s' : Machine M (AllocId × PE) F} {prog : Program}

/-- The bytes at `p` in the allocations. -/
def AllocBytes (al : List (Alloc PE AE)) (p : ThinPtr (AllocId × PE)) (bytes : List (AByte (AllocId × PE))) : Prop :=
  bytes = [] ∨ ∃ id pe x off, p.prov = some (id, pe) ∧ al[id]? = some x ∧ x.live = true ∧ p.addr = x.addr + (off : Nat) ∧
    subslice x.data off bytes.length = .ok bytes

theorem AllocBytes.contains {h : MemHistory PE} {m : M} (hr : MemReach h m) {p : ThinPtr (AllocId × PE)} {bytes}
    (hb : AllocBytes (B.mem m).allocations p bytes) : Contains h p bytes := by
  intro k b hk
  rcases hb with rfl | ⟨id, pe, x, off, h1, h2, h3, h4, h5⟩
  · simp at hk
  have r := MemReach.rep (B := B) hr
  have hlt := (List.getElem?_eq_some_iff.1 hk).1
  have h5' := subslice_eq_ok.1 h5
  refine ⟨id, x.info, ⟨pe, h1⟩, (live_iff (B := B) hr).2 ⟨x, h2, h3, rfl⟩, ?_⟩
  have := r.bytes id x (off + k) h2 (by show off + k < x.data.length; omega)
  have e := subslice_getElem? h5 k
  rw [if_pos hlt, hk] at e
  rw [← e] at this
  rw [h4, Option.some.inj this]
  congr 1
  push_cast; omega

theorem store_bytes {m m' : ConcMem M} {p : ThinPtr (AllocId × PE)} {bytes al at'} (h : m.store p bytes al at' = .ok m') :
    AllocBytes (allocs (B := B) m') p bytes := by
  obtain ⟨mm, h1, rfl⟩ := ConcMem.store_eq_ok.1 h
  obtain ⟨hx, e⟩ := B.store m.memory p bytes al
  rw [h1] at e
  have e' : (B.mem m.memory).store p bytes al hx = .ok (B.mem mm) := e.symm
  rw [BasicMem.store_eq_ok] at e'
  obtain ⟨_, ⟨e0, _⟩ | ⟨_, id, pe, a, off, extra, data, hp, ha, hl, h3, h4, hx', hw, e'⟩⟩ := e'
  · exact .inl e0
  · refine .inr ⟨id, pe, { a with extra := extra, data := data }, off, hp, ?_, hl, h3, subslice_writeSubslice_same hw⟩
    show (B.mem mm).allocations[id]? = _
    rw [e']
    exact List.getElem?_set_self (List.getElem?_eq_some_iff.1 ha).1

/-- Bytes in another allocation stay. -/
theorem store_other {m m' : ConcMem M} {p q : ThinPtr (AllocId × PE)} {bytes bs al at'} (h : m.store p bytes al at' = .ok m')
    (hne : p.prov.map (·.1) ≠ q.prov.map (·.1)) (hb : AllocBytes (allocs (B := B) m) q bs) : AllocBytes (allocs (B := B) m') q bs := by
  obtain ⟨mm, h1, rfl⟩ := ConcMem.store_eq_ok.1 h
  obtain ⟨hx, e⟩ := B.store m.memory p bytes al
  rw [h1] at e
  have e' : (B.mem m.memory).store p bytes al hx = .ok (B.mem mm) := e.symm
  rw [BasicMem.store_eq_ok] at e'
  rcases hb with hb | ⟨qi, qe, x, qo, g1, g2, g3, g4, g5⟩
  · exact .inl hb
  refine .inr ⟨qi, qe, x, qo, g1, ?_, g3, g4, g5⟩
  have g2' : (B.mem m.memory).allocations[qi]? = some x := g2
  obtain ⟨_, ⟨_, e'⟩ | ⟨_, id, pe, a, off, extra, data, hp, ha, hl, h3, h4, hx', hw, e'⟩⟩ := e'
  · show (B.mem mm).allocations[qi]? = _
    rw [e']; exact g2'
  · have hi : id ≠ qi := by
      rintro rfl
      apply hne
      rw [hp, g1]; rfl
    show (B.mem mm).allocations[qi]? = _
    rw [e']
    show (List.set _ _ _)[qi]? = _
    rw [List.getElem?_set_ne hi]; exact g2'

theorem load_bytes {m m' : ConcMem M} {p : ThinPtr (AllocId × PE)} {bytes n al at'} (h : m.load p n al at' = .ok (bytes, m')) :
    bytes.length = n ∧ AllocBytes (allocs (B := B) m) p bytes := by
  obtain ⟨mm, h1, rfl⟩ := ConcMem.load_eq_ok.1 h
  obtain ⟨hx, e⟩ := B.load m.memory p n al
  rw [h1] at e
  have e' : (B.mem m.memory).load p n al hx = .ok (bytes, B.mem mm) := e.symm
  rw [BasicMem.load_eq_ok] at e'
  obtain ⟨_, ⟨e0, e1, _⟩ | ⟨_, id, pe, a, off, extra, hp, ha, hl, h3, h4, hx', hw, e'⟩⟩ := e'
  · exact ⟨by rw [e0, e1]; rfl, .inl e1⟩
  · have h4' : off + n ≤ a.data.length := h4
    have hlen : bytes.length = n := by rw [hw]; simp; omega
    refine ⟨hlen, .inr ⟨id, pe, a, off, hp, ha, hl, h3, ?_⟩⟩
    rw [hlen, subslice_eq_ok]; exact ⟨h4', hw⟩

/-- What passing arguments leaves in the memory. -/
theorem passArguments_bytes {fr : StackFrame (AllocId × PE) F} {R : List (Slot PE)} : ∀ {ls : List LocalName} {as} {s s' : Machine M (AllocId × PE) F} {u},
    ls.Nodup → as.length = ls.length → SlotsOk (allocs (B := B) s.mem) (slotsOf fr ++ R) → passArguments fr ls as s = .ok (u, s') →
    (∀ q, (∀ l ∈ ls, ∀ p, fr.locals.get? l = some p → p.prov.map (·.1) ≠ q.prov.map (·.1)) → ∀ bs, AllocBytes (allocs (B := B) s.mem) q bs →
      AllocBytes (allocs (B := B) s'.mem) q bs) ∧
    ∀ (i : Nat) l v ty, ls[i]? = some l → as[i]? = some (v, ty) → ∃ cty p bytes, fr.func.locals.get? l = some cty ∧ abiCompat ty cty = .ok true ∧
      fr.locals.get? l = some p ∧ encode ty v = .ok bytes ∧ AllocBytes (allocs (B := B) s'.mem) p bytes
  | [], as, s, s', u, _, hl, _, h => by
    unfold MiniRust.passArguments at h
    cases h; exact ⟨fun q _ bs hb => hb, by simp⟩
  | l :: ls, [], s, s', u, _, hl, _, h => by simp at hl
  | l :: ls, (v, ty) :: as, s, s', u, hnd, hl, hso, h => by
    unfold MiniRust.passArguments at h
    simp only [EM.bind_eq_ok, EM.lift_eq_ok] at h
    obtain ⟨cty, _, ⟨hcty, rfl⟩, c, _, ⟨hc, rfl⟩, h⟩ := h
    split at h
    · cases h
    rename_i hcc
    simp only [Bool.not_eq_true', Bool.not_eq_false] at hcc
    subst hcc
    simp only [EM.bind_eq_ok, EM.lift_eq_ok, EM.unwrapRes_eq_ok] at h
    obtain ⟨al, _, ⟨_, rfl⟩, p, _, ⟨hp, rfl⟩, _, s1, h1, h2⟩ := h
    have hst := (st_typedStore (B := B)).ok _ _ _ h1
    obtain ⟨bytes, m, hv, henc, hsto, rfl⟩ := typedStore_eq_ok.1 h1
    have hp' := Map.get_eq_ok.1 hp
    obtain ⟨ih1, ih2⟩ := passArguments_bytes (List.nodup_cons.1 hnd).2 (by simpa using hl) (hso.kept hst.mem) h2
    refine ⟨fun q hq bs hb => ?_, ?_⟩
    · exact ih1 q (fun l' hl' p' hp' => hq l' (List.mem_cons_of_mem _ hl') p' hp') bs
        (store_other hsto (hq l (List.mem_cons_self ..) p hp') hb)
    · intro i l' v' ty' hi1 hi2
      cases i with
      | zero =>
        simp only [List.getElem?_cons_zero, Option.some.injEq, Prod.mk.injEq] at hi1 hi2
        obtain ⟨rfl, rfl⟩ := hi2
        subst hi1
        refine ⟨cty, p, bytes, Map.get_eq_ok.1 hcty, hc, hp', henc, ?_⟩
        refine ih1 p ?_ bytes (store_bytes hsto)
        intro l2 hl2 p2 hp2 heq
        -- distinct locals have distinct allocations
        have hne : l2 ≠ l := fun e => (List.nodup_cons.1 hnd).1 (e ▸ hl2)
        have hn := hso.nodup
        rw [List.map_append, List.nodup_append] at hn
        have hn1 := hn.1
        unfold slotsOf at hn1
        rw [List.map_map] at hn1
        have m1 := Map.get?_mem hp2
        have m2 := Map.get?_mem hp'
        have := List.inj_on_of_nodup_map hn1 m1 m2 heq
        exact hne (congrArg Prod.fst this)
      | succ i =>
        simp only [List.getElem?_cons_succ] at hi1 hi2
        exact ih2 i l' v' ty' hi1 hi2

/-- What a new frame contains. -/
theorem createFrame_bytes {f act conv rt as} {g : StackFrame (AllocId × PE) F} {R : List (Slot PE)} (hnd : f.args.Nodup)
    (hso : SlotsOk (allocs (B := B) s.mem) R) (h : createFrame f act conv rt as s = .ok (g, s')) :
    f.callingConvention = conv ∧ (∃ cty, f.locals.get? f.ret = some cty ∧ abiCompat rt cty = .ok true) ∧ as.length = f.args.length ∧
    ∀ (i : Nat) l v ty, f.args[i]? = some l → as[i]? = some (v, ty) → ∃ cty p bytes, f.locals.get? l = some cty ∧ abiCompat ty cty = .ok true ∧
      g.locals.get? l = some p ∧ encode ty v = .ok bytes ∧ AllocBytes (allocs (B := B) s'.mem) p bytes := by
  unfold MiniRust.createFrame at h
  simp only [EM.bind_eq_ok] at h
  obtain ⟨fr1, s1, h1, fr2, s2, h2, h⟩ := h
  obtain ⟨m1, o1, ptr, rfl, rfl, t1⟩ := storageLive_trans (B := B) (by simp [StackFrame.init, Map.keys]) h1
  obtain ⟨m2, o2, L, rfl, rfl, hL, hk, t2⟩ := storageLives_trans (B := B) (by simp [StackFrame.init, Map.keys, Map.erase, Map.insert]) h2
  split at h
  · cases h
  rename_i hconv
  simp only [EM.bind_eq_ok, EM.lift_eq_ok] at h
  obtain ⟨rt', _, ⟨hrt, rfl⟩, c, _, ⟨hc, rfl⟩, h⟩ := h
  split at h
  · cases h
  rename_i hcc
  simp only [Bool.not_eq_true', Bool.not_eq_false] at hcc
  subst hcc
  split at h
  · cases h
  rename_i hlen
  simp only [EM.bind_eq_ok, EM.pure_eq_ok] at h
  obtain ⟨_, s3, h3, rfl, rfl⟩ := h
  simp only [ne_eq, not_not] at hconv hlen
  refine ⟨hconv.symm, ⟨rt', Map.get_eq_ok.1 hrt, hc⟩, hlen.symm, ?_⟩
  have := (passArguments_bytes (B := B) (R := R) hnd hlen.symm ((t1.trans t2).ok R hso) h3).2
  exact this

end
end MiniRust
