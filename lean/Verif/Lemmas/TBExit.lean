import Verif.Lemmas.TBOps
/-
The effect of releasing the protectors at the end of a call on the permissions of all references.
-/
namespace MiniRust

theorem below_iff {p q : Path} : Node.Below (some p) q ↔ p <+: q := by
  constructor
  · rintro ⟨p', hp', h⟩; cases hp'; exact h
  · intro h; exact ⟨p, rfl, h⟩

theorem unprotect_exit : ∀ P : PermissionProt, Permission.unprot P.unprotect.1 = (Permission.prot P).unprotected ∧
    P.unprotect.2 = (Permission.prot P).exitAccess := by decide +kernel

/-- The exact effect of releasing one protector of a live allocation. -/
theorem release_effect {m m' : TBMem} {id : Nat} {q : Path} {a : Alloc Path Node}
    (h : m.releaseProtector (id, q) = .ok m') (ha : m.mem.allocations[id]? = some a) (hl : a.live = true) :
    (∀ j, j ≠ id → m'.mem.allocations[j]? = m.mem.allocations[j]?) ∧
    (∀ addr X, m.permAt (id, q) addr = some X →
      m'.permAt (id, q) addr = some X.unprotected ∧
      (∀ x Y, m.permAt (id, x) addr = some Y → x ≠ q → AncestorOrSelf q x → m'.permAt (id, x) addr = some Y) ∧
      (∀ x Y, m.permAt (id, x) addr = some Y → ¬ AncestorOrSelf q x →
        match X.exitAccess with
        | none => m'.permAt (id, x) addr = some Y
        | some k => ∃ Y', Y.transition k (relationTo q x) = .ok Y' ∧ m'.permAt (id, x) addr = some Y')) := by
  unfold TBMem.releaseProtector at h
  simp only [Res.bind_eq_ok, index_eq_ok] at h
  obtain ⟨a', ha', ⟨n1, accs⟩, h1, h⟩ := h
  rw [ha] at ha'; cases ha'
  rw [if_neg (by simp [hl]), Res.bind_eq_ok] at h
  obtain ⟨n2, h2, h⟩ := h
  simp only [Except.ok.injEq] at h
  subst h
  have hlt : id < m.mem.allocations.length := (List.getElem?_eq_some_iff.1 ha).1
  refine ⟨fun j hj => by simp [List.getElem?_set_ne (Ne.symm hj)], ?_⟩
  intro addr X hX
  obtain ⟨qs, pr0, hdp, hpr, haccs, hd⟩ := accessNode_unprotect h1
  obtain ⟨b, off, hb, rfl, hk⟩ := permAt_eq_some.1 hX
  simp only at hb hk
  rw [ha] at hb; cases hb
  have toPerm : ∀ x Z, n2.perm x off = some Z → (⟨⟨m.mem.allocations.set id { a with extra := n2 }⟩⟩ : TBMem).permAt (id, x)
      (a.addr + (off : Nat)) = some Z := by
    intro x Z hZ
    exact permAt_eq_some.2 ⟨{ a with extra := n2 }, off, by simp [hlt], rfl, hZ⟩
  have ofPerm : ∀ x Y, m.permAt (id, x) (a.addr + (off : Nat)) = some Y → a.extra.perm x off = some Y := by
    intro x Y hY
    obtain ⟨b, off', hb, he, hk2⟩ := permAt_eq_some.1 hY
    simp only at hb hk2
    rw [ha] at hb; cases hb
    have : off' = off := by omega
    subst this
    exact hk2
  obtain ⟨psq, prq, hdq, hkq⟩ := Node.perm_eq_some.1 hk
  rw [hdp] at hdq; cases hdq
  simp only [List.getElem?_map, Option.map_eq_some_iff] at hkq
  obtain ⟨P, hP, rfl⟩ := hkq
  have hacc : accs[off]? = some (Permission.prot P).exitAccess := by
    rw [haccs]; simp [hP, (unprotect_exit P).2]
  refine ⟨toPerm _ _ ?_, ?_, ?_⟩
  · rcases Node.releaseProtector_ok h2 q with hx | ⟨ps1, pr1, ps', pr', e1, e2, e3, e4, e5, e6⟩
    · rw [hd, if_pos rfl] at hx; cases hx.1
    rw [hd, if_pos rfl] at e1; cases e1
    obtain ⟨rfl, rfl⟩ := e3 rfl
    exact Node.perm_eq_some.2 ⟨_, _, e2, by simp [hP, (unprotect_exit P).1]⟩
  · intro x Y hY hne hb
    obtain ⟨ps, pr, hdx, hkx⟩ := Node.perm_eq_some.1 (ofPerm x Y hY)
    rcases Node.releaseProtector_ok h2 x with hx | ⟨ps1, pr1, ps', pr', e1, e2, e3, e4, e5, e6⟩
    · rw [hd, if_neg hne, hdx] at hx; cases hx.1
    rw [hd, if_neg hne, hdx] at e1; cases e1
    exact toPerm _ _ (Node.perm_eq_some.2 ⟨_, _, e2, by rw [e5 (below_iff.2 hb)]; exact hkx⟩)
  · intro x Y hY hb
    have hne : x ≠ q := by rintro rfl; exact hb (List.prefix_refl _)
    obtain ⟨ps, pr, hdx, hkx⟩ := Node.perm_eq_some.1 (ofPerm x Y hY)
    rcases Node.releaseProtector_ok h2 x with hx | ⟨ps1, pr1, ps', pr', e1, e2, e3, e4, e5, e6⟩
    · rw [hd, if_neg hne, hdx] at hx; cases hx.1
    rw [hd, if_neg hne, hdx] at e1; cases e1
    have hs := (e6 (fun h => hb (below_iff.1 h))).2 off
    rw [hacc] at hs
    cases hx : (Permission.prot P).exitAccess with
    | none =>
      rw [hx] at hs
      simp only at hs ⊢
      exact toPerm _ _ (Node.perm_eq_some.2 ⟨_, _, e2, by rw [hs]; exact hkx⟩)
    | some k =>
      rw [hx] at hs
      simp only at hs ⊢
      obtain ⟨Z, Z', g1, g2, g3⟩ := hs
      rw [hkx] at g1; cases g1
      exact ⟨Z', by rw [← Node.relAt_some]; exact g2, toPerm _ _ (Node.perm_eq_some.2 ⟨_, _, e2, g3⟩)⟩

/-- Not interior mutable as far as foreign writes are concerned. -/
def Permission.plain (X : Permission) : Bool :=
  decide (X ≠ .unprot .cell ∧ X ≠ .prot .cell ∧ X ≠ .unprot .reservedIm)

theorem plain_step : ∀ (X : Permission) (kind rel), X.plain = true →
    okB (X.transition kind rel) (·.plain) = true := by decide +kernel
theorem plain_unprotect : ∀ (P : PermissionProt), (Permission.prot P).plain = true →
    (Permission.unprot P.unprotect.1).plain = true := by decide +kernel
theorem plain_foreign_write : ∀ (X : Permission), X.plain = true →
    okB (X.transition .write .foreign) (·.isDisabled) = true := by decide +kernel

theorem PMoves.plain {X Y} (h : PMoves X Y) (hx : X.plain = true) : Y.plain = true := by
  induction h with
  | refl => exact hx
  | trans _ ht ih => exact okB_ok (f := fun X : Permission => X.plain) (plain_step _ _ _ ih) ht
  | unprotect _ ih => exact plain_unprotect _ ih

/-- The end of a call disables, at each byte written through one of its protected references, all the references
that are not related to that reference. -/
theorem endCall_disables {f : TBFrame} : ∀ {m m' : TBMem} {S}, TInv m (f ++ S) → TBMem.endCall m f = .ok m' →
    ∀ {id : Nat} {q x : Path} {addr : Int} {X Y : Permission} {a : Alloc Path Node}, (id, q) ∈ f →
    m.mem.allocations[id]? = some a → a.live = true →
    m.permAt (id, q) addr = some X → X.usedWrite = true → ¬ AncestorOrSelf q x → ¬ AncestorOrSelf x q →
    m.permAt (id, x) addr = some Y → Y.plain = true → ∃ Z, m'.permAt (id, x) addr = some Z ∧ Z.isDisabled = true := by
  induction f with
  | nil => intro m m' S _ _ id q x addr X Y a hq; cases hq
  | cons pv f ih =>
    intro m m' S I h id q x addr X Y a hq ha hl hX hu hqx hxq hY hpl
    obtain ⟨m1, h1, I1, hle1⟩ := TInv.release (S := f ++ S) I
    obtain ⟨m2, h2, I2, hle2⟩ := TInv.endCall I1
    have hm : m2 = m' := by
      have : TBMem.endCall m (pv :: f) = .ok m2 := by simp [TBMem.endCall, h1, h2]
      rw [this] at h; cases h; rfl
    subst hm
    by_cases hpv : pv = (id, q)
    · subst hpv
      have hX' : X = .prot .unique := by simpa [Permission.usedWrite] using hu
      have := ((release_effect h1 ha hl).2 addr X hX).2.2 x Y hY hqx
      rw [hX'] at this
      simp only [Permission.exitAccess] at this
      obtain ⟨Y', ht, hY'⟩ := this
      rw [relationTo_foreign hxq] at ht
      have hd := okB_ok (f := fun X : Permission => X.isDisabled) (plain_foreign_write Y hpl) ht
      obtain ⟨Z, hZ, hm, _⟩ := hle2.permAt hY'
      exact ⟨Z, hZ, hm.disabled hd⟩
    · have hq' : (id, q) ∈ f := by
        rcases List.mem_cons.1 hq with h | h
        · exact absurd h.symm hpv
        · exact h
      obtain ⟨X1, hX1, hmX, htX⟩ := hle1.permAt hX
      obtain ⟨Y1, hY1, hmY, _⟩ := hle1.permAt hY
      obtain ⟨a1, off, ha1, _⟩ := permAt_eq_some.1 hX1
      simp only at ha1
      have hl1 : a1.live = true := by
        obtain ⟨_, _, hb, _, hb'⟩ := releaseProtector_mem_ok h1
        subst hb'
        simp only [List.getElem?_set] at ha1
        split at ha1
        · rename_i he
          split at ha1
          · cases ha1
            rw [he] at hb; rw [ha] at hb; cases hb; exact hl
          · cases ha1
        · rw [ha] at ha1; cases ha1; exact hl
      obtain ⟨qs, pr, hd, hy⟩ := (I1.tree id a1 ha1).prot q (by simp [hq'])
      have hpr : m1.protectorOf (id, q) = some pr := protectorOf_eq_some.2 ⟨a1, _, ha1, hd⟩
      exact ih I1 h2 hq' ha1 hl1 hX1 ((htX a1 pr ha1 hl1 hpr hy).usedWrite hu) hqx hxq hY1 (hmY.plain hpl)

end MiniRust
