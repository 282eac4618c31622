import Verif.Lemmas.TBOps
import Verif.Lemmas.FreezeMask
/-
What retagging does to the permissions of the new reference.
-/
set_option linter.unusedSectionVars false
namespace MiniRust

theorem settings_spec {P : Type} {ptr : Pointer P} {pty entry vt s info}
    (h : ReborrowSettings.new ptr pty entry vt = .ok (some s)) (hi : pty.safePointee = some info) :
    ∃ mask, info.unsafeCells.freezeMask vt info.layout ptr.metadata = .ok mask ∧
      s.inside = mask.map (initialPermission pty.isShared entry) ∧
      s.outside = initialPermission pty.isShared entry info.freeze ∧
      s.protected_ = if entry then pty.entryProtector else .no := by
  unfold ReborrowSettings.new at h
  split at h
  · simp at h
  rename_i info' hi'
  rw [hi] at hi'; cases hi'
  simp only at h
  split at h
  · split at h
    · simp at h
    simp only [Res.bind_eq_ok] at h
    obtain ⟨mask, hm, h⟩ := h
    simp only [Except.ok.injEq, Option.some.injEq] at h
    subst h
    refine ⟨mask, hm, ?_, ?_, ?_⟩
    · apply List.map_congr_left
      intro b _
      cases entry <;> cases b <;> rfl
    · simp only; cases entry <;> cases info.freeze <;> rfl
    · cases entry <;> rfl
  · rw [if_neg (by simp)] at h
    simp only [Res.bind_eq_ok] at h
    obtain ⟨mask, hm, h⟩ := h
    simp only [Except.ok.injEq, Option.some.injEq] at h
    subst h
    refine ⟨mask, hm, ?_, ?_, ?_⟩
    · apply List.map_congr_left
      intro b _
      cases pty with
      | ref mu p => cases mu <;> cases entry <;> cases b <;> rfl
      | _ => cases entry <;> cases b <;> rfl
    · simp only
      cases pty with
      | ref mu p => cases mu <;> cases entry <;> cases info.freeze <;> rfl
      | _ => cases entry <;> cases info.freeze <;> rfl
    · cases pty with
      | ref mu p => cases mu <;> cases entry <;> rfl
      | _ => cases entry <;> rfl

theorem settings_retags {P : Type} {ptr : Pointer P} {pty entry vt r}
    (h : ReborrowSettings.new ptr pty entry vt = .ok r) (hr : pty.Retags) : ∃ s, r = some s := by
  obtain ⟨⟨info, hi⟩, hu⟩ := hr
  unfold ReborrowSettings.new at h
  simp only [hi] at h
  have hc : (match pty with | .ref .mut pointee => !pointee.unpin | _ => false) = false := by
    cases pty with
    | ref mu p =>
      cases mu with
      | «mut» => simp [hu p rfl]
      | imm => rfl
    | _ => rfl
  split at h
  · simp only [Bool.not_eq_eq_eq_not, Bool.not_false] at hc
    simp only [hc] at h
    simp only [Bool.not_true, Bool.false_eq_true, if_false, Res.bind_eq_ok, Except.ok.injEq] at h
    obtain ⟨mask, hm, h⟩ := h
    exact ⟨_, h.symm⟩
  · simp only [Bool.false_eq_true, if_false, Res.bind_eq_ok, Except.ok.injEq] at h
    obtain ⟨mask, hm, h⟩ := h
    exact ⟨_, h.symm⟩

theorem settings_no_retag {P : Type} {ptr : Pointer P} {pty entry vt}
    (hr : ¬ pty.Retags) : ReborrowSettings.new ptr pty entry vt = .ok none := by
  unfold ReborrowSettings.new
  cases pty with
  | ref mu p =>
    cases mu with
    | imm => exact absurd ⟨⟨p, rfl⟩, by simp⟩ hr
    | «mut» =>
      by_cases hu : p.unpin = true
      · exact absurd ⟨⟨p, rfl⟩, by simp [hu]⟩ hr
      · simp only [Bool.not_eq_true] at hu
        simp [PtrType.safePointee, hu]
  | box p => exact absurd ⟨⟨p, rfl⟩, by simp⟩ hr
  | _ => rfl

/-- A freshly created permission after the initial access. -/
theorem initialPermission_read : ∀ shared entry frozen : Bool,
    (initialPermission shared entry frozen).initAccess = none ∧
      usedPermission shared entry frozen = initialPermission shared entry frozen ∨
    (initialPermission shared entry frozen).initAccess = some .read ∧
    (initialPermission shared entry frozen).transition .read .localNode = .ok (usedPermission shared entry frozen) := by
  decide +kernel

theorem initAccess_perm {path n n' pos X q k Y} (h : TBMem.initAccess path n pos X = .ok n') (hq : n.perm q k = some Y)
    (hk : k ≠ pos) : n'.perm q k = some Y := by
  unfold TBMem.initAccess at h
  split at h
  · obtain ⟨Y', hY', _, h2⟩ := Node.access_perm' h hq
    rw [hY', h2 (by omega)]
  · cases h; exact hq

theorem initAccesses_other {path off q k Y perms} : ∀ {n n' idx}, TBMem.initAccesses path off n idx perms = .ok n' →
    n.perm q k = some Y → (k < off + idx ∨ off + idx + perms.length ≤ k) → n'.perm q k = some Y := by
  induction perms with
  | nil => intro n n' idx h hq _; cases h; exact hq
  | cons X perms ih =>
    intro n n' idx h hq hk
    simp only [TBMem.initAccesses, Res.bind_eq_ok] at h
    obtain ⟨n1, h1, h⟩ := h
    simp only [List.length_cons] at hk
    exact ih h (initAccess_perm h1 hq (by omega)) (by omega)

/-- The permissions of the new node itself. -/
theorem initAccesses_self {path off shared entry} {mask : List Bool} : ∀ {n n' idx},
    TBMem.initAccesses path off n idx (mask.map (initialPermission shared entry)) = .ok n' →
    (∀ (j : Nat) b, mask[j]? = some b → n.perm path (off + idx + j) = some (initialPermission shared entry b)) →
    ∀ (j : Nat) b, mask[j]? = some b → n'.perm path (off + idx + j) = some (usedPermission shared entry b) := by
  induction mask with
  | nil => intro n n' idx h _ j b hj; simp at hj
  | cons c mask ih =>
    intro n n' idx h hn j b hj
    simp only [List.map_cons, TBMem.initAccesses, Res.bind_eq_ok] at h
    obtain ⟨n1, h1, h⟩ := h
    cases j with
    | zero =>
      simp at hj; subst hj
      have h0 := hn 0 c rfl
      have : n1.perm path (off + idx + 0) = some (usedPermission shared entry c) := by
        unfold TBMem.initAccess at h1
        rcases initialPermission_read shared entry c with ⟨ha, hb⟩ | ⟨ha, hb⟩
        · rw [ha] at h1; cases h1; rw [h0, hb]
        · rw [ha] at h1
          obtain ⟨X', hX', h2, _⟩ := Node.access_perm' h1 h0
          have h2 := h2 (by omega)
          rw [relationTo_local (List.prefix_refl _), hb] at h2
          cases h2; exact hX'
      exact initAccesses_other h this (by omega)
    | succ j =>
      have := ih h (by
        intro i b' hi
        have h0 := hn (i + 1) b' (by simpa using hi)
        have e : off + (idx + 1) + i = off + idx + (i + 1) := by omega
        rw [e]
        exact initAccess_perm h1 h0 (by omega)) j b (by simpa using hj)
      have e : off + (idx + 1) + j = off + idx + (j + 1) := by omega
      rw [e] at this
      exact this

section
variable [T : Target]

theorem retag_newRef {m m' : TBMem} {S} (I : TInv m S) {f f' : TBFrame} {ptr ptr' : Pointer TBProv} {pty entry vt info mask id parent}
    (h : Memory.retagPtr m f ptr pty entry vt = .ok (ptr', f', m')) (hr : pty.Retags)
    (hi : pty.safePointee = some info) (hm : info.unsafeCells.freezeMask vt info.layout ptr.metadata = .ok mask)
    (hp : ptr.thin.prov = some (id, parent)) :
    ∃ child, NewRef m m' ptr ptr' pty entry info mask id parent child := by
  rcases retag_ok h with ⟨hs, _⟩ | ⟨s, thin, hs, hb, rfl⟩
  · obtain ⟨s, hs'⟩ := settings_retags hs hr; cases hs'
  obtain ⟨mask', hm', hin, hout, hpr⟩ := settings_spec hs hi
  rw [hm] at hm'; cases hm'
  have hb' := hb
  unfold TBMem.reborrow at hb'
  rw [Res.bind_eq_ok] at hb'
  obtain ⟨_, hchk, hb'⟩ := hb'
  simp only [hp] at hb'
  simp only [Res.bind_eq_ok, index_eq_ok, unwrap_eq_ok, rassert_eq_ok] at hb'
  obtain ⟨a, ha, off, hoff, perms, hperms, _, hmatch, ⟨root, path⟩, hadd, root', hinit, hb'⟩ := hb'
  simp only [Except.ok.injEq, Prod.mk.injEq] at hb'
  obtain ⟨rfl, _, rfl⟩ := hb'
  rw [sizeFromBytes_eq_some] at hoff
  obtain ⟨i, rfl, hnone, hpar, hd⟩ := Node.addNode_ok hadd
  have hlt := (List.getElem?_eq_some_iff.1 ha).1
  have haddr : ptr.thin.addr = a.addr + (off : Nat) := by omega
  have hper : ∀ k : Nat, perms[k]? = if off ≤ k ∧ k < off + s.inside.length then s.inside[k - off]? else
      if k < a.size then some s.outside else none := by
    intro k
    unfold TBMem.newPermissions at hperms
    simp only at hperms
    split at hperms
    · rw [writeSubslice_getElem? hperms, List.getElem?_replicate]
    · cases hperms
      rw [List.getElem?_replicate, if_neg (c := off ≤ k ∧ _) (by omega)]
  have hroot : ∀ k : Nat, root.perm (parent ++ [i]) k = perms[k]? := by
    intro k
    exact Node.perm_of_data (by rw [hd, if_pos rfl]) k
  rw [hin] at hinit
  have hlen : s.inside.length = mask.length := by rw [hin]; simp
  have hself := initAccesses_self hinit (by
    intro j b hj
    have hjl := (List.getElem?_eq_some_iff.1 hj).1
    rw [hroot, hper, if_pos (by omega), hin]
    simp only [List.getElem?_map]
    have : off + 0 + j - off = j := by omega
    rw [this, hj]; rfl)
  refine ⟨parent ++ [i], hp, rfl, rfl, rfl, ⟨i, rfl⟩, ?_, ?_, ?_, ?_⟩
  · rw [hasNode_iff]
    rintro ⟨a', d, ha', hd'⟩
    simp only at ha' hd'
    rw [ha] at ha'; cases ha'
    rw [hnone] at hd'; cases hd'
  · rw [protectorOf_eq_some]
    have hle : TreeLe a.live root root' := by
      have hfr : ∀ p ∈ perms, freshPerm p = true := by
        have := settings_fresh hs
        intro p hp
        obtain ⟨k, hk⟩ := List.mem_iff_getElem?.1 hp
        rw [hper] at hk
        split at hk
        · exact this.1 p (List.mem_of_getElem? hk)
        · split at hk
          · cases hk; exact this.2.1
          · cases hk
      have hpl : perms.length = a.size := by
        unfold TBMem.newPermissions at hperms
        simp only at hperms
        split at hperms
        · rw [writeSubslice_length hperms]; simp
        · cases hperms; simp
      by_cases hz : s.inside = []
      · rw [hin] at hz
        rw [hz] at hinit
        cases hinit; exact .refl
      · have hl : a.live = true := by
          rcases reborrow_ok hb with ⟨h0, _⟩ | ⟨id', parent', a', off', perms', _, _, _, hp', ha', _, _, _, _, _, hlv, _⟩
          · rw [hp] at h0; cases h0
          · rw [hp] at hp'; cases hp'
            rw [ha] at ha'; cases ha'
            exact (hlv hz).1
        have It := (I.tree id a ha).add hadd hpl (by simpa [List.all_eq_true] using hmatch) hfr
        rw [hl] at It
        exact (initAccesses_inv It hinit).2 _
    obtain ⟨ps', pr', hd', hpr', _⟩ := hle (parent ++ [i]) perms s.protected_ (by rw [hd, if_pos rfl])
    -- accesses do not change protectors
    have hsame : pr' = s.protected_ := by
      have : ∀ {perms' : List Permission} {n n' : Node} {idx q qs pr}, TBMem.initAccesses (parent ++ [i]) off n idx perms' = .ok n' →
          n.data q = some (qs, pr) → ∃ qs', n'.data q = some (qs', pr) := by
        intro perms'
        induction perms' with
        | nil => intro n n' idx q qs pr h hd; cases h; exact ⟨qs, hd⟩
        | cons X perms' ih =>
          intro n n' idx q qs pr h hd
          simp only [TBMem.initAccesses, Res.bind_eq_ok] at h
          obtain ⟨n1, h1, h⟩ := h
          unfold TBMem.initAccess at h1
          split at h1
          · obtain ⟨qs1, hd1, _⟩ := Node.access_data' h1 hd
            exact ih h hd1
          · cases h1; exact ih h hd
      obtain ⟨qs', hq⟩ := this hinit (q := parent ++ [i]) (qs := perms) (pr := s.protected_) (by rw [hd, if_pos rfl])
      rw [hd'] at hq; cases hq; rfl
    subst hsame
    exact ⟨{ a with extra := root' }, ps', by simp [hlt], by rw [hd', hpr]⟩
  · intro k b hk
    rw [permAt_eq_some]
    refine ⟨{ a with extra := root' }, off + k, by simp [hlt], by simp [haddr]; omega, ?_⟩
    simpa using hself k b hk
  · intro addr X hX ho
    obtain ⟨a', k, ha', rfl, hk⟩ := permAt_eq_some.1 hX
    simp [hlt] at ha'
    subst ha'
    simp only at hk ho
    have hk0 : root.perm (parent ++ [i]) k = some X ∨ ∃ Y, root.perm (parent ++ [i]) k = some Y ∧ root'.perm (parent ++ [i]) k = some Y := by
      cases hr : root.perm (parent ++ [i]) k with
      | some Y =>
        right
        exact ⟨Y, rfl, initAccesses_other hinit hr (by simp; omega)⟩
      | none =>
        exfalso
        -- the length of the permissions does not change
        have : ∀ {perms' : List Permission} {n n' : Node} {idx}, TBMem.initAccesses (parent ++ [i]) off n idx perms' = .ok n' →
            n.perm (parent ++ [i]) k = none → n'.perm (parent ++ [i]) k = none := by
          intro perms'
          induction perms' with
          | nil => intro n n' idx h hd; cases h; exact hd
          | cons X perms' ih =>
            intro n n' idx h hd
            simp only [TBMem.initAccesses, Res.bind_eq_ok] at h
            obtain ⟨n1, h1, h⟩ := h
            unfold TBMem.initAccess at h1
            split at h1
            · refine ih h ?_
              cases hn : n1.perm (parent ++ [i]) k with
              | none => rfl
              | some Z =>
                obtain ⟨Z', hZ', _⟩ := Node.access_perm h1 hn
                rw [hd] at hZ'; cases hZ'
            · cases h1; exact ih h hd
        rw [this hinit hr] at hk; cases hk
    have hX0 : root.perm (parent ++ [i]) k = some X := by
      rcases hk0 with h | ⟨Y, h1, h2⟩
      · exact h
      · rw [h2] at hk; cases hk; exact h1
    rw [hroot, hper, if_neg (by omega)] at hX0
    split at hX0
    · cases hX0; exact hout
    · cases hX0

end
end MiniRust

namespace MiniRust
section
variable [T : Target]

theorem settings_total {P : Type} {ptr : Pointer P} {pty entry vt info mask}
    (hi : pty.safePointee = some info) (hm : info.unsafeCells.freezeMask vt info.layout ptr.metadata = .ok mask) :
    ∃ r, ReborrowSettings.new ptr pty entry vt = .ok r := by
  unfold ReborrowSettings.new
  simp only [hi]
  simp only [hm, Res.bind_ok]
  split
  · split <;> exact ⟨_, rfl⟩
  · exact ⟨_, rfl⟩

theorem initAccesses_cases {path off perms} {size S} : ∀ {n idx}, TreeInv size true n S →
    off + idx + perms.length ≤ size →
    TBMem.initAccesses path off n idx perms = .error .ub ∨ ∃ n', TBMem.initAccesses path off n idx perms = .ok n' := by
  induction perms with
  | nil => intro n idx _ _; exact .inr ⟨n, rfl⟩
  | cons X perms ih =>
    intro n idx I hl
    simp only [List.length_cons] at hl
    simp only [TBMem.initAccesses]
    cases h1 : TBMem.initAccess path n (off + idx) X with
    | error e =>
      left
      have he : e = .ub := by
        unfold TBMem.initAccess at h1
        split at h1
        · exact Node.access_err n _ e (fun q ps pr hd => by rw [I.len q ps pr hd]; omega) h1
        · cases h1
      rw [he]; rfl
    | ok n1 =>
      have I1 : TreeInv size true n1 S := by
        unfold TBMem.initAccess at h1
        split at h1
        · exact I.access h1
        · cases h1; exact I
      exact ih I1 (by omega)

theorem retag_cases {m : TBMem} {S} (I : TInv m S) {f : TBFrame} {ptr : Pointer TBProv} {pty entry vt}
    (hv : m.ValidPtr ptr.thin)
    (hm : ∀ info, pty.safePointee = some info → ∃ mask, info.unsafeCells.freezeMask vt info.layout ptr.metadata = .ok mask ∧
      (mask = [] → ∀ id p a, ptr.thin.prov = some (id, p) → m.mem.allocations[id]? = some a → a.addr ≤ ptr.thin.addr)) :
    Memory.retagPtr m f ptr pty entry vt = .error .ub ∨ ∃ r, Memory.retagPtr m f ptr pty entry vt = .ok r := by
  by_cases hr : pty.Retags
  swap
  · right
    have := settings_no_retag (ptr := ptr) (entry := entry) (vt := vt) hr
    exact ⟨(ptr, f, m), by simp [Memory.retagPtr, TBMem.retagPtr, this]⟩
  obtain ⟨info, hi⟩ := hr.1
  obtain ⟨mask, hmask, hz⟩ := hm info hi
  obtain ⟨r, hs⟩ := settings_total (entry := entry) hi hmask
  obtain ⟨s, rfl⟩ := settings_retags hs hr
  obtain ⟨mask', hm', hin, hout, hpr⟩ := settings_spec hs hi
  rw [hmask] at hm'; cases hm'
  obtain ⟨hf1, hf2, hf3, hf4⟩ := settings_fresh hs
  suffices h : m.reborrow ptr.thin s f = .error .ub ∨ ∃ r, m.reborrow ptr.thin s f = .ok r by
    simp only [Memory.retagPtr, TBMem.retagPtr, hs, Res.bind_ok]
    rcases h with h | ⟨⟨t, f', m'⟩, h⟩
    · left; rw [h]; rfl
    · right; rw [h]; exact ⟨_, rfl⟩
  have hlen : s.inside.length = mask.length := by rw [hin]; simp
  have hk : m.mem.KnownId ptr.thin := by
    intro id p hp
    obtain ⟨a, d, ha, _⟩ := hasNode_iff.1 (hv _ hp)
    exact (List.getElem?_eq_some_iff.1 ha).1
  unfold TBMem.reborrow
  by_cases hc : s.inside.length = 0 ∨ m.mem.Fits ptr.thin s.inside.length
  swap
  · left
    simp only [BasicMem.checkPtr_ub hk hc]; rfl
  obtain ⟨c, hchk⟩ := BasicMem.checkPtr_ok hc
  simp only [hchk, Res.bind_ok]
  cases hp : ptr.thin.prov with
  | none =>
    right
    have hl0 : s.inside.length = 0 := by
      rcases hc with hc | ⟨id, pe, a, off, h, _⟩
      · exact hc
      · rw [hp] at h; cases h
    exact ⟨(ptr.thin, f, m), by simp [hl0, rassert]⟩
  | some pv =>
    obtain ⟨id, parent⟩ := pv
    obtain ⟨a, d, ha, hd⟩ := hasNode_iff.1 (hv _ hp)
    simp only at ha hd
    have hoff : ∃ off : Nat, ptr.thin.addr = a.addr + (off : Nat) ∧ (s.inside ≠ [] → a.live = true ∧ off + s.inside.length ≤ a.size) := by
      by_cases h0 : s.inside.length = 0
      · have := hz (List.length_eq_zero_iff.1 (by omega)) id parent a hp ha
        exact ⟨(ptr.thin.addr - a.addr).toNat, by omega, fun h => absurd (List.length_eq_zero_iff.1 h0) h⟩
      · obtain ⟨id', pe, a', off, h, ha', hlv, h1, h2⟩ := hc.resolve_left h0
        rw [hp] at h; cases h
        rw [ha] at ha'; cases ha'
        exact ⟨off, h1, fun _ => ⟨hlv, h2⟩⟩
    obtain ⟨off, haddr, hfit⟩ := hoff
    have hsz : sizeFromBytes (ptr.thin.addr - a.addr) = some off := by
      rw [sizeFromBytes_eq_some]; omega
    have hperms : ∃ perms, TBMem.newPermissions a.size off s = .ok perms ∧ perms.length = a.size ∧
        ∀ p ∈ perms, p ∈ s.inside ∨ p = s.outside := by
      unfold TBMem.newPermissions
      simp only
      split
      · rename_i h
        have := (hfit (by intro h0; simp [h0] at h)).2
        refine ⟨_, writeSubslice_isOk (by simpa using this), by simp; omega, ?_⟩
        intro p hp
        simp only [List.mem_append] at hp
        rcases hp with (hp | hp) | hp
        · exact .inr (List.eq_of_mem_replicate (List.mem_of_mem_take hp))
        · exact .inl hp
        · exact .inr (List.eq_of_mem_replicate (List.mem_of_mem_drop hp))
      · exact ⟨_, rfl, by simp, fun p hp => .inr (List.eq_of_mem_replicate hp)⟩
    obtain ⟨perms, hperms, hpl, hpm⟩ := hperms
    have hmatch : ∀ p ∈ perms, p.matchesProtector s.protected_ = true := by
      intro p hp
      rcases hpm p hp with h | rfl
      · exact hf3 p h
      · exact hf4
    have hfresh : ∀ p ∈ perms, freshPerm p = true := by
      intro p hp
      rcases hpm p hp with h | rfl
      · exact hf1 p h
      · exact hf2
    obtain ⟨root, path, hadd⟩ := Node.addNode_total (n := a.extra) (parent := parent) (c := Node.mk [] perms s.protected_) (by simp [hd])
    have hall : (perms.all fun x => x.matchesProtector s.protected_) = true := by simpa [List.all_eq_true] using hmatch
    have hinit : TBMem.initAccesses path off root 0 s.inside = .error .ub ∨ ∃ n', TBMem.initAccesses path off root 0 s.inside = .ok n' := by
      by_cases h0 : s.inside = []
      · rw [h0]; exact .inr ⟨root, rfl⟩
      · obtain ⟨hl, hb⟩ := hfit h0
        have It := (I.tree id a ha).add hadd hpl hmatch hfresh
        rw [hl] at It
        exact initAccesses_cases It (by omega)
    simp only [index, ha, Res.bind_ok, hsz, unwrap, hperms, hall, rassert, hadd]
    rcases hinit with h | ⟨n', h⟩
    · left; simp [h]
    · right; simp [h]

end
end MiniRust
