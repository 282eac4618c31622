import Verif.Lemmas.TBExit
import Verif.Lemmas.TBComm
import Verif.Spec.TBValues
/-
Lemmas about the values behind references.
-/
set_option linter.unusedSectionVars false
namespace MiniRust
section
variable [T : Target]

theorem TBTrace.run {s es s'} (h : TBTrace s es s') : TBRun s s' := by
  induction h with
  | nil => exact .refl
  | snoc _ hs ih => exact ih.step hs

theorem byteAt_eq_some {m : TBMem} {id : AllocId} {addr : Int} {b} :
    m.byteAt id addr = some b ↔ ∃ a off, m.mem.allocations[id]? = some a ∧ addr = a.addr + (off : Nat) ∧
      a.data[off]? = some b := by
  unfold TBMem.byteAt
  cases ha : m.mem.allocations[id]? with
  | none => simp
  | some a =>
    simp only [Option.bind_some, Option.some.injEq]
    constructor
    · intro h
      split at h
      · exact ⟨a, _, rfl, by omega, h⟩
      · simp at h
    · rintro ⟨a', off, rfl, rfl, h⟩
      rw [if_pos (by omega)]
      have : (a.addr + (off : Int) - a.addr).toNat = off := by omega
      rw [this]; exact h

/-- A load returns the bytes in memory. -/
theorem tb_load_byteAt {m m' : TBMem} {ptr : ThinPtr TBProv} {len : Nat} {align rd id p}
    (h : Memory.load m ptr len align = .ok (rd, m')) (hp : ptr.prov = some (id, p)) :
    rd.length = len ∧ ∀ k, k < len → rd[k]? = m.byteAt id (ptr.addr + (k : Nat)) := by
  rw [tb_load_eq_ok, BasicMem.load_eq_ok] at h
  obtain ⟨_, ⟨rfl, rfl, _⟩ | ⟨hne, id', pe, a, off, extra, hp', ha, hl, h1, h2, hx, rfl, hm⟩⟩ := h
  · exact ⟨rfl, fun k hk => by omega⟩
  · rw [hp] at hp'; cases hp'
    simp only [Alloc.size] at h2
    refine ⟨by simp; omega, fun k hk => ?_⟩
    rw [List.getElem?_take, if_pos hk, List.getElem?_drop]
    have : off + k < a.data.length := by omega
    rw [List.getElem?_eq_getElem this]
    exact (byteAt_eq_some.2 ⟨a, off + k, ha, by push_cast; omega, List.getElem?_eq_getElem this⟩).symm

theorem sameData_byteAt {m m' : TBMem} (h : SameData m.mem m'.mem) (id : AllocId) (addr : Int) {b}
    (hb : m.byteAt id addr = some b) : m'.byteAt id addr = some b := by
  obtain ⟨a, off, ha, rfl, hk⟩ := byteAt_eq_some.1 hb
  have hlt : id < m'.mem.allocations.length := by rw [← h.1]; exact (List.getElem?_eq_some_iff.1 ha).1
  have ha' := List.getElem?_eq_getElem hlt
  have := h.2 id a _ ha ha'
  exact byteAt_eq_some.2 ⟨_, off, ha', by rw [this.2.1], by rw [← this.1]; exact hk⟩

/-- Only stores change bytes. -/
theorem TBStep.byteAt {s s' e} (h : TBStep s e s') {id : AllocId} {addr : Int} {b} (hb : s.mem.byteAt id addr = some b) :
    s'.mem.byteAt id addr = some b ∨ ∃ ptr bytes align p, e = .store ptr bytes align ∧ ptr.prov = some (id, p) ∧
      ptr.addr ≤ addr ∧ addr < ptr.addr + (bytes.length : Nat) := by
  cases h with
  | alloc h =>
    left
    rw [tb_allocate_eq_ok, BasicMem.allocate_eq_ok] at h
    obtain ⟨_, _, _, hm⟩ := h
    obtain ⟨a, off, ha, rfl, hk⟩ := byteAt_eq_some.1 hb
    refine byteAt_eq_some.2 ⟨a, off, ?_, rfl, hk⟩
    rw [hm]
    simp only
    rw [List.getElem?_append_left (List.getElem?_eq_some_iff.1 ha).1]
    exact ha
  | dealloc h =>
    left
    rw [tb_deallocate_eq_ok, BasicMem.deallocate_eq_ok] at h
    obtain ⟨id', pe, a', extra, hp, ha', hl, h1, h2, h3, h4, hx, hm⟩ := h
    obtain ⟨a, off, ha, rfl, hk⟩ := byteAt_eq_some.1 hb
    rw [byteAt_eq_some, hm]
    by_cases hi : id' = id
    · subst hi
      simp only at ha ha'
      rw [ha'] at ha; cases ha
      have hlt := (List.getElem?_eq_some_iff.1 ha').1
      exact ⟨{ a' with extra := extra, live := false }, off, by simp [hlt], rfl, hk⟩
    · exact ⟨a, off, by simp only; rw [List.getElem?_set_ne hi]; exact ha, rfl, hk⟩
  | store h =>
    rename_i m m' fs ptr bytes align
    rw [tb_store_eq_ok, BasicMem.store_eq_ok] at h
    obtain ⟨_, ⟨h, hm⟩ | ⟨hne, id', pe, a', off', extra, data, hp', ha', hl, h1, h2, hx, hw, hm⟩⟩ := h
    · left
      have : m' = m := by cases m; cases m'; simpa using hm
      rw [this]; exact hb
    · obtain ⟨a, off, ha, rfl, hk⟩ := byteAt_eq_some.1 hb
      simp only at ha
      by_cases hi : id' = id
      · subst hi
        rw [ha'] at ha; cases ha
        by_cases hr : off' ≤ off ∧ off < off' + bytes.length
        · right
          exact ⟨ptr, bytes, align, pe, rfl, hp', by omega, by omega⟩
        · left
          have hlt := (List.getElem?_eq_some_iff.1 ha').1
          refine byteAt_eq_some.2 ⟨{ a' with extra := extra, data := data }, off, by simp [hm, hlt], rfl, ?_⟩
          rw [writeSubslice_getElem? hw, if_neg hr]
          exact hk
      · left
        refine byteAt_eq_some.2 ⟨a, off, ?_, rfl, hk⟩
        rw [hm]
        simp only
        rw [List.getElem?_set_ne hi]
        exact ha
  | load h =>
    left
    rw [tb_load_eq_ok, BasicMem.load_eq_ok] at h
    obtain ⟨_, ⟨_, _, hm⟩ | ⟨hne, id', pe, a', off', extra, hp', ha', hl, h1, h2, hx, _, hm⟩⟩ := h
    · exact sameData_byteAt (by rw [hm]; exact SameData.refl) id addr hb
    · exact sameData_byteAt (by rw [hm]; exact SameData.set ha') id addr hb
  | retag hf h =>
    left
    exact sameData_byteAt (BasicBacked.retag _ _ _ _ _ _ _ _ _ h) id addr hb
  | newCall => exact .inl hb
  | endCall hf h =>
    left
    exact sameData_byteAt (endCall_sameData h) id addr hb

/-! ### Stable values -/

/-- Not shareable. -/
def Permission.solid (X : Permission) : Bool :=
  match X with
  | .unprot .cell | .prot .cell | .unprot .reservedIm => false
  | _ => true

theorem solid_iff {X : Permission} : X.solid = true ↔ ¬ X.Shareable := by
  unfold Permission.Shareable
  revert X
  decide +kernel

theorem solid_step : ∀ (X : Permission) (kind rel), X.solid = true →
    okB (X.transition kind rel) (·.solid) = true := by decide +kernel
theorem solid_unprotect : ∀ (P : PermissionProt), (Permission.prot P).solid = true →
    (Permission.unprot P.unprotect.1).solid = true := by decide +kernel
theorem solid_foreign_write : ∀ (X : Permission), X.solid = true →
    okB (X.transition .write .foreign) (·.isDisabled) = true := by decide +kernel
theorem solid_local_write : ∀ (X : Permission), (X ≠ .unprot .cell ∧ X ≠ .prot .cell) →
    okB (X.transition .write .localNode) (·.solid) = true := by decide +kernel

theorem PMoves.solid {X Y} (h : PMoves X Y) (hx : X.solid = true) : Y.solid = true := by
  induction h with
  | refl => exact hx
  | trans _ ht ih => exact okB_ok (f := fun X : Permission => X.solid) (solid_step _ _ _ ih) ht
  | unprotect _ ih => exact solid_unprotect _ ih

/-- Along a trace without stores through the reference, the byte stays the same, or the reference was invalidated. -/
theorem TBTrace.stable {s es s'} (h : TBTrace s es s') (I : TInv s.mem s.frames.flatten) {id : AllocId} {q : Path} {addr : Int} {b X}
    (hb : s.mem.byteAt id addr = some b) (hX : s.mem.permAt (id, q) addr = some X) (hs : X.solid = true)
    (hn : ∀ e ∈ es, ¬ e.StoresVia id q) :
    s'.mem.byteAt id addr = some b ∨ ∃ X', s'.mem.permAt (id, q) addr = some X' ∧ X'.isDisabled = true := by
  induction h with
  | nil => exact .inl hb
  | snoc ht hstep ih =>
    obtain ⟨I1, hle⟩ := ht.run.inv I
    obtain ⟨I2, hle2⟩ := hstep.inv I1
    obtain ⟨X1, hX1, hm1, _⟩ := hle.permAt hX
    obtain ⟨X2, hX2, hm2, _⟩ := hle2.permAt hX1
    rcases ih (fun e he => hn e (List.mem_append_left _ he)) with h | ⟨X', h1, h2⟩
    · rcases hstep.byteAt h with h | ⟨ptr, bytes, align, p, he, hp, g1, g2⟩
      · exact .inl h
      · right
        subst he
        have hq : ¬ AncestorOrSelf q p := fun hq => hn _ (List.mem_append_right _ (List.mem_singleton.2 rfl))
          ⟨ptr, bytes, align, p, rfl, hp, hq⟩
        cases hstep with
        | store hst =>
          obtain ⟨X', hX', ht'⟩ := tb_store_perm hst hp g1 g2 hX1
          rw [relationTo_foreign hq] at ht'
          exact ⟨X', hX', okB_ok (f := fun X : Permission => X.isDisabled) (solid_foreign_write _ (hm1.solid hs)) ht'⟩
    · right
      rw [hX1] at h1; cases h1
      exact ⟨X2, hX2, hm2.disabled h2⟩

/-! ### Read-only references -/

def Permission.readOnly (X : Permission) : Bool :=
  match X with
  | .unprot .frozen | .prot (.frozen _) | .unprot .disabled | .prot .disabled => true
  | _ => false

theorem readOnly_iff {X : Permission} : X.readOnly = true ↔ X.ReadOnly := by
  unfold Permission.ReadOnly
  rcases X with (_ | _ | _ | _ | _ | _) | (_ | _ | _ | _ | _) <;> simp [Permission.readOnly]

theorem readOnly_step : ∀ (X : Permission) (kind rel), X.readOnly = true →
    okB (X.transition kind rel) (·.readOnly) = true := by decide +kernel
theorem readOnly_unprotect : ∀ (P : PermissionProt), (Permission.prot P).readOnly = true →
    (Permission.unprot P.unprotect.1).readOnly = true := by decide +kernel
theorem readOnly_write : ∀ (X : Permission) (rel), X.readOnly = true →
    okB (X.transition .write rel) (·.isDisabled) = true := by decide +kernel

theorem PMoves.readOnly {X Y} (h : PMoves X Y) (hx : X.readOnly = true) : Y.readOnly = true := by
  induction h with
  | refl => exact hx
  | trans _ ht ih => exact okB_ok (f := fun X : Permission => X.readOnly) (readOnly_step _ _ _ ih) ht
  | unprotect _ ih => exact readOnly_unprotect _ ih

/-- The byte behind a read-only reference stays the same, or the reference was invalidated. -/
theorem TBRun.readOnly {s s'} (h : TBRun s s') (I : TInv s.mem s.frames.flatten) {id : AllocId} {q : Path} {addr : Int} {b X}
    (hb : s.mem.byteAt id addr = some b) (hX : s.mem.permAt (id, q) addr = some X) (hs : X.readOnly = true) :
    s'.mem.byteAt id addr = some b ∨ ∃ X', s'.mem.permAt (id, q) addr = some X' ∧ X'.isDisabled = true := by
  induction h with
  | refl => exact .inl hb
  | step ht hstep ih =>
    obtain ⟨I1, hle⟩ := ht.inv I
    obtain ⟨I2, hle2⟩ := hstep.inv I1
    obtain ⟨X1, hX1, hm1, _⟩ := hle.permAt hX
    obtain ⟨X2, hX2, hm2, _⟩ := hle2.permAt hX1
    rcases ih with h | ⟨X', h1, h2⟩
    · rcases hstep.byteAt h with h | ⟨ptr, bytes, align, p, he, hp, g1, g2⟩
      · exact .inl h
      · right
        subst he
        cases hstep with
        | store hst =>
          obtain ⟨X', hX', ht'⟩ := tb_store_perm hst hp g1 g2 hX1
          exact ⟨X', hX', okB_ok (f := fun X : Permission => X.isDisabled) (readOnly_write _ _ (hm1.readOnly hs)) ht'⟩
    · right
      rw [hX1] at h1; cases h1
      exact ⟨X2, hX2, hm2.disabled h2⟩

/-! ### Loads through protected references -/

/-- Nothing was written at offset `k` through a protected reference derived from `q`. -/
def Node.Quiet (n : Node) (q : Path) (k : Nat) : Prop :=
  ∀ d Y, q <+: d → d ≠ q → n.perm d k = some Y → Y ≠ .prot .unique

def TBMem.Quiet (m : TBMem) (id : AllocId) (q : Path) (addr : Int) : Prop :=
  ∀ d Y, q <+: d → d ≠ q → m.permAt (id, d) addr = some Y → Y ≠ .prot .unique

theorem foreign_not_unique : ∀ (X : Permission) (kind), okB (X.transition kind .foreign) (fun Y => decide (Y ≠ .prot .unique)) = true := by
  decide +kernel
theorem read_not_unique : ∀ (X : Permission) (rel), X ≠ .prot .unique →
    okB (X.transition .read rel) (fun Y => decide (Y ≠ .prot .unique)) = true := by
  decide +kernel
theorem fresh_not_unique : ∀ (X : Permission), freshPerm X = true → X ≠ .prot .unique := by decide +kernel
theorem initAccess_read : ∀ (X : Permission) (kind), X.initAccess = some kind → kind = .read := by decide +kernel
theorem exit_not_write : ∀ (P : PermissionProt), P ≠ .unique → P.unprotect.2 ≠ some .write := by decide +kernel

theorem Node.Quiet.read {n n' : Node} {q p k off len} (hq : n.Quiet q k) (h : n.access (some p) .read off len = .ok n') :
    n'.Quiet q k := by
  intro d Y h1 h2 hY
  obtain ⟨X, hX, h3, h4⟩ := Node.access_perm h hY
  have := hq d X h1 h2 hX
  by_cases hr : off ≤ k ∧ k < off + len
  · exact of_decide_eq_true (okB_ok (f := fun Y : Permission => decide (Y ≠ .prot .unique)) (read_not_unique X _ this) (h3 hr))
  · rw [h4 hr]; exact this

theorem Node.Quiet.foreign {n n' : Node} {q p k off len kind} (hq : n.Quiet q k) (h : n.access (some p) kind off len = .ok n')
    (hp : ¬ q <+: p) : n'.Quiet q k := by
  intro d Y h1 h2 hY
  obtain ⟨X, hX, h3, h4⟩ := Node.access_perm h hY
  have := hq d X h1 h2 hX
  by_cases hr : off ≤ k ∧ k < off + len
  · have ht := h3 hr
    rw [relationTo_foreign (fun hd => hp (h1.trans hd))] at ht
    exact of_decide_eq_true (okB_ok (f := fun Y : Permission => decide (Y ≠ .prot .unique)) (foreign_not_unique X _) ht)
  · rw [h4 hr]; exact this

theorem Node.Quiet.initAccesses {q k path off perms} : ∀ {n n' : Node} {idx}, n.Quiet q k →
    TBMem.initAccesses path off n idx perms = .ok n' → n'.Quiet q k := by
  induction perms with
  | nil =>
    intro n n' idx hq h
    simp only [TBMem.initAccesses, Except.ok.injEq] at h
    subst h; exact hq
  | cons p ps ih =>
    intro n n' idx hq h
    simp only [TBMem.initAccesses, Res.bind_eq_ok] at h
    obtain ⟨n1, h1, h2⟩ := h
    unfold TBMem.initAccess at h1
    split at h1
    · rename_i acc hacc
      have : acc = .read := initAccess_read _ _ hacc
      subst this
      exact ih (hq.read h1) h2
    · simp only [Except.ok.injEq] at h1
      subst h1
      exact ih hq h2

theorem Node.Quiet.addNode {n n' : Node} {q k parent path ps pr} (hq : n.Quiet q k)
    (h : n.addNode parent (.mk [] ps pr) = .ok (n', path)) (hf : ∀ p ∈ ps, freshPerm p = true) : n'.Quiet q k := by
  obtain ⟨i, rfl, hnone, _, hd⟩ := Node.addNode_ok h
  intro d Y h1 h2 hY
  obtain ⟨ps', pr', hd', hk⟩ := Node.perm_eq_some.1 hY
  rw [hd] at hd'
  split at hd'
  · cases hd'
    exact fresh_not_unique _ (hf _ (List.mem_of_getElem? hk))
  · exact hq d Y h1 h2 (Node.perm_eq_some.2 ⟨_, _, hd', hk⟩)

theorem Node.Quiet.release {n n1 n2 : Node} {q p k accs} (hq : n.Quiet q k)
    (h : n.accessNode TBMem.unprotectNode p = .ok (n1, accs)) (h2 : n1.releaseProtector (some p) accs = .ok n2) :
    n2.Quiet q k := by
  obtain ⟨qs, pr0, hdp, hpr, haccs, hd⟩ := accessNode_unprotect h
  intro d Y g1 g2 hY
  obtain ⟨ps', pr', hd', hk⟩ := Node.perm_eq_some.1 hY
  rcases Node.releaseProtector_ok h2 d with hx | ⟨ps1, pr1, ps2, pr2, e1, e2, e3, e4, e5, e6⟩
  · rw [hd'] at hx; cases hx.2
  rw [hd'] at e2; cases e2
  by_cases hdp' : d = p
  · subst hdp'
    rw [hd, if_pos rfl] at e1; cases e1
    obtain ⟨rfl, rfl⟩ := e3 rfl
    simp only [List.getElem?_map, Option.map_eq_some_iff] at hk
    obtain ⟨P, _, rfl⟩ := hk
    exact fun h => by cases h
  · rw [hd, if_neg hdp'] at e1
    have hold : ∀ X, ps1[k]? = some X → X ≠ .prot .unique := fun X hX =>
      hq d X g1 g2 (Node.perm_eq_some.2 ⟨_, _, e1, hX⟩)
    by_cases hb : Node.Below (some p) d
    · rw [e5 hb] at hk
      exact hold _ hk
    · have hs := (e6 hb).2 k
      split at hs
      · rename_i kind hacc
        obtain ⟨X, X', hX, ht, hX'⟩ := hs
        rw [hk] at hX'; cases hX'
        rw [Node.relAt_some] at ht
        by_cases hl : d <+: p
        · have hne : kind ≠ .write := by
            rintro rfl
            have hqp : q <+: p := g1.trans hl
            have hqp' : p ≠ q := by
              rintro rfl
              exact hb (below_iff.2 g1)
            rw [haccs] at hacc
            simp only [List.getElem?_map] at hacc
            cases hq' : qs[k]? with
            | none => simp [hq'] at hacc
            | some P =>
              simp only [hq', Option.map_some, Option.getD_some, Option.some.injEq] at hacc
              have := hq p (.prot P) hqp hqp' (Node.perm_eq_some.2 ⟨_, _, hdp, by simp [hq']⟩)
              exact exit_not_write P (fun h => this (by rw [h])) hacc
          have hkind : kind = .read := by cases kind; rfl; exact absurd rfl hne
          subst hkind
          exact of_decide_eq_true (okB_ok (f := fun Y : Permission => decide (Y ≠ .prot .unique)) (read_not_unique X _ (hold X hX)) ht)
        · rw [relationTo_foreign hl] at ht
          exact of_decide_eq_true (okB_ok (f := fun Y : Permission => decide (Y ≠ .prot .unique)) (foreign_not_unique X _) ht)
      · rw [hs] at hk
        exact hold _ hk

theorem TBMem.Quiet.set {m : TBMem} {id id' : AllocId} {q addr a x} {a' : Alloc Path Node} (hq : m.Quiet id q addr)
    (ha : m.mem.allocations[id']? = some a) (hx : a'.extra = x) (haddr : a'.addr = a.addr)
    (h : ∀ k, a.extra.Quiet q k → x.Quiet q k) :
    TBMem.Quiet ⟨⟨m.mem.allocations.set id' a'⟩⟩ id q addr := by
  intro d Y h1 h2 hY
  obtain ⟨b, off, hb, rfl, hk⟩ := permAt_eq_some.1 hY
  have hlt := (List.getElem?_eq_some_iff.1 ha).1
  by_cases hi : id' = id
  · subst hi
    simp only [List.getElem?_set_self hlt, Option.some.injEq] at hb
    subst hb
    rw [hx] at hk
    refine h off (fun d' Y' g1 g2 gY => ?_) d Y h1 h2 hk
    exact hq d' Y' g1 g2 (permAt_eq_some.2 ⟨a, off, ha, by rw [haddr], gY⟩)
  · simp only [List.getElem?_set_ne hi] at hb
    exact hq d Y h1 h2 (permAt_eq_some.2 ⟨b, off, hb, rfl, hk⟩)

theorem TBMem.Quiet.release {m m' : TBMem} {id : AllocId} {q addr pv} (hq : m.Quiet id q addr)
    (hl : m.LiveAlloc id) (h : m.releaseProtector pv = .ok m') : m'.Quiet id q addr ∧ m'.LiveAlloc id := by
  obtain ⟨id', p⟩ := pv
  have h' := h
  unfold TBMem.releaseProtector at h
  simp only [Res.bind_eq_ok, index_eq_ok] at h
  obtain ⟨a, ha, ⟨n1, accs⟩, h1, h⟩ := h
  obtain ⟨b, hb, hbl⟩ := hl
  have hlt := (List.getElem?_eq_some_iff.1 ha).1
  refine ⟨?_, ?_⟩
  · split at h
    · rename_i hl
      simp only [Except.ok.injEq] at h
      subst h
      have hi : id' ≠ id := by rintro rfl; rw [ha] at hb; cases hb; simp [hbl] at hl
      intro d Y g1 g2 hY
      obtain ⟨b', off, hb', rfl, hk⟩ := permAt_eq_some.1 hY
      simp only [List.getElem?_set_ne hi] at hb'
      exact hq d Y g1 g2 (permAt_eq_some.2 ⟨b', off, hb', rfl, hk⟩)
    · rw [Res.bind_eq_ok] at h
      obtain ⟨n2, h2, h⟩ := h
      simp only [Except.ok.injEq] at h
      subst h
      exact hq.set (x := n2) ha rfl rfl (fun k hk => hk.release h1 h2)
  · obtain ⟨a', root, ha', _, rfl⟩ := releaseProtector_mem_ok h'
    simp only at ha'
    rw [ha] at ha'; cases ha'
    by_cases hi : id' = id
    · subst hi
      rw [ha] at hb; cases hb
      exact ⟨{ a with extra := root }, by simp [hlt], hbl⟩
    · exact ⟨b, by simp only; rw [List.getElem?_set_ne hi]; exact hb, hbl⟩

theorem TBMem.Quiet.endCall {id : AllocId} {q addr} {f : TBFrame} : ∀ {m m' : TBMem}, m.Quiet id q addr →
    m.LiveAlloc id → TBMem.endCall m f = .ok m' → m'.Quiet id q addr := by
  induction f with
  | nil => intro m m' hq _ h; simp only [TBMem.endCall, Except.ok.injEq] at h; subst h; exact hq
  | cons pv f ih =>
    intro m m' hq hl h
    simp only [TBMem.endCall, Res.bind_eq_ok] at h
    obtain ⟨m1, h1, h2⟩ := h
    obtain ⟨hq1, hl1⟩ := hq.release hl h1
    exact ih hq1 hl1 h2

theorem TBStep.liveAlloc {s s' e} (h : TBStep s e s') {id : AllocId} (hk : id < s.mem.mem.allocations.length)
    (hl : s'.mem.LiveAlloc id) : s.mem.LiveAlloc id := by
  have ha := List.getElem?_eq_getElem hk
  refine ⟨_, ha, ?_⟩
  obtain ⟨b, hb, hbl⟩ := hl
  have same : ∀ m' : TBMem, SameData s.mem.mem m'.mem → m'.mem.allocations[id]? = some b →
      (s.mem.mem.allocations[id]'hk).live = true := by
    intro m' hsd hb'
    rw [(hsd.2 id _ _ ha hb').2.2.2.2]; exact hbl
  cases h with
  | alloc h =>
    rw [tb_allocate_eq_ok, BasicMem.allocate_eq_ok] at h
    obtain ⟨_, _, _, hm⟩ := h
    simp only [hm] at hb
    rw [List.getElem?_append_left hk, ha] at hb
    cases hb; exact hbl
  | dealloc h =>
    rw [tb_deallocate_eq_ok, BasicMem.deallocate_eq_ok] at h
    obtain ⟨id', pe, a', extra, hp, ha', hl, h1, h2, h3, h4, hx, hm⟩ := h
    simp only [hm] at hb
    by_cases hi : id' = id
    · subst hi
      simp only at ha hk
      rw [ha] at ha'; cases ha'; exact hl
    · simp only [List.getElem?_set_ne hi] at hb
      simp only at ha
      rw [ha] at hb; cases hb; exact hbl
  | store h =>
    rw [tb_store_eq_ok, BasicMem.store_eq_ok] at h
    obtain ⟨_, ⟨h, hm⟩ | ⟨hne, id', pe, a', off', extra, data, hp', ha', hl, h1, h2, hx, hw, hm⟩⟩ := h
    · simp only [hm] at hb
      simp only at ha
      rw [ha] at hb; cases hb; exact hbl
    · simp only [hm] at hb
      simp only at ha hk
      by_cases hi : id' = id
      · subst hi
        rw [ha] at ha'; cases ha'; exact hl
      · simp only [List.getElem?_set_ne hi] at hb
        rw [ha] at hb; cases hb; exact hbl
  | load h =>
    rw [tb_load_eq_ok, BasicMem.load_eq_ok] at h
    obtain ⟨_, ⟨_, _, hm⟩ | ⟨hne, id', pe, a', off', extra, hp', ha', hl, h1, h2, hx, _, hm⟩⟩ := h
    · exact same _ (by rw [hm]; exact SameData.refl) hb
    · exact same _ (by rw [hm]; exact SameData.set ha') hb
  | retag hf h => exact same _ (BasicBacked.retag _ _ _ _ _ _ _ _ _ h) hb
  | newCall => exact same _ SameData.refl hb
  | endCall hf h => exact same _ (endCall_sameData h) hb

theorem TBStep.quiet {s s' e} (h : TBStep s e s') {id : AllocId} {q addr} (hq : s.mem.Quiet id q addr)
    (hk' : id < s.mem.mem.allocations.length) (hl : s'.mem.LiveAlloc id) (hn : ¬ e.StoresVia id q) : s'.mem.Quiet id q addr := by
  have hlive := h.liveAlloc hk' hl
  cases h with
  | alloc h =>
    rw [tb_allocate_eq_ok, BasicMem.allocate_eq_ok] at h
    obtain ⟨_, _, _, hm⟩ := h
    intro d Y h1 h2 hY
    obtain ⟨b, off, hb, rfl, hkk⟩ := permAt_eq_some.1 hY
    simp only [hm] at hb
    simp only at hk'
    rw [List.getElem?_append_left hk'] at hb
    exact hq d Y h1 h2 (permAt_eq_some.2 ⟨b, off, hb, rfl, hkk⟩)
  | dealloc h =>
    rw [tb_deallocate_eq_ok, BasicMem.deallocate_eq_ok] at h
    obtain ⟨id', pe, a', extra, hp, ha', hl', h1, h2, h3, h4, hx, hm⟩ := h
    have hlt := (List.getElem?_eq_some_iff.1 ha').1
    obtain ⟨b, hb, hbl⟩ := hl
    simp only [hm] at hb
    by_cases hi : id' = id
    · subst hi
      simp only [List.getElem?_set_self hlt, Option.some.injEq] at hb
      subst hb; simp at hbl
    · intro d Y g1 g2 hY
      obtain ⟨b', off, hb', rfl, hk⟩ := permAt_eq_some.1 hY
      simp only [hm, List.getElem?_set_ne hi] at hb'
      exact hq d Y g1 g2 (permAt_eq_some.2 ⟨b', off, hb', rfl, hk⟩)
  | store h =>
    rename_i m m' fs ptr bytes align
    rw [tb_store_eq_ok, BasicMem.store_eq_ok] at h
    obtain ⟨_, ⟨h, hm⟩ | ⟨hne, id', pe, a', off', extra, data, hp', ha', hl', h1, h2, hx, hw, hm⟩⟩ := h
    · have : m' = m := by cases m; cases m'; simpa using hm
      subst this; exact hq
    · have : m' = ⟨⟨m.mem.allocations.set id' { a' with extra := extra, data := data }⟩⟩ := by cases m'; simpa using hm
      subst this
      by_cases hi : id' = id
      · subst hi
        refine hq.set (x := extra) ha' rfl rfl (fun k hk => hk.foreign hx (fun hp => hn ⟨ptr, bytes, align, pe, rfl, hp', hp⟩))
      · intro d Y g1 g2 hY
        obtain ⟨b', off, hb', rfl, hk⟩ := permAt_eq_some.1 hY
        simp only [List.getElem?_set_ne hi] at hb'
        exact hq d Y g1 g2 (permAt_eq_some.2 ⟨b', off, hb', rfl, hk⟩)
  | load h =>
    rename_i m m' fs ptr len align bytes
    rw [tb_load_eq_ok, BasicMem.load_eq_ok] at h
    obtain ⟨_, ⟨_, _, hm⟩ | ⟨hne, id', pe, a', off', extra, hp', ha', hl', h1, h2, hx, _, hm⟩⟩ := h
    · have : m' = m := by cases m; cases m'; simpa using hm
      subst this; exact hq
    · have : m' = ⟨⟨m.mem.allocations.set id' { a' with extra := extra }⟩⟩ := by cases m'; simpa using hm
      subst this
      exact hq.set (x := extra) ha' rfl rfl (fun k hk => hk.read hx)
  | retag hf h =>
    rcases retag_ok h with ⟨_, _, _, rfl⟩ | ⟨st, thin, hs, hr, rfl⟩
    · exact hq
    rcases reborrow_ok hr with ⟨_, _, _, rfl⟩ | ⟨id', parent, a, off, perms, root, path, root', _, ha, _, _, hperm, _, _, _, hadd, hinit, rfl, _, _⟩
    · exact hq
    have hfresh := settings_fresh hs
    exact hq.set (x := root') ha rfl rfl (fun k hk =>
      (hk.addNode hadd (fun p hp => (hperm p hp).elim (hfresh.1 p) (fun h => h ▸ hfresh.2.1))).initAccesses hinit)
  | newCall => exact hq
  | endCall hf h => exact hq.endCall hlive h

theorem TBTrace.quiet {s es s'} (h : TBTrace s es s') (I : TInv s.mem s.frames.flatten) {id : AllocId} {q addr}
    (hq : s.mem.Quiet id q addr) (hk : s.mem.HasNode (id, q)) (hl : s'.mem.LiveAlloc id)
    (hn : ∀ e ∈ es, ¬ e.StoresVia id q) : s'.mem.Quiet id q addr := by
  induction h with
  | nil => exact hq
  | @snoc s1 _ _ _ ht hs ih =>
    obtain ⟨I1, hle⟩ := ht.run.inv I
    have hk1 := hle.hasNode hk
    have hlt : id < s1.mem.mem.allocations.length := by
      obtain ⟨n, hn, _⟩ := hk1
      simp only [TBMem.tree?, Option.map_eq_some_iff] at hn
      obtain ⟨a, ha, _⟩ := hn
      exact (List.getElem?_eq_some_iff.1 ha).1
    exact hs.quiet (ih (hs.liveAlloc hlt hl) (fun e he => hn e (List.mem_append_left _ he))) hlt hl
      (hn _ (List.mem_append_right _ (List.mem_singleton.2 rfl)))

theorem pair_read : ∀ (X Y : Permission) (rel), X.usedRead = true → pairOK X Y rel = true →
    (Y.transition .read rel).isOk = true := by decide +kernel
theorem usedRead_read : ∀ (X : Permission), X.usedRead = true → (X.transition .read .localNode).isOk = true := by decide +kernel
theorem not_unique_read : ∀ (X : Permission), X ≠ .prot .unique → (X.transition .read .foreign).isOk = true := by decide +kernel
theorem read_foreign_not_unique : ∀ (X : Permission), okB (X.transition .read .foreign) (fun Y => decide (Y ≠ .prot .unique)) = true := by
  decide +kernel

/-- A load through a protected reference that was used succeeds. -/
theorem load_protected {m : TBMem} {S} (I : TInv m S) {ptr : ThinPtr TBProv} {len : Nat} {align id q}
    (hp : ptr.prov = some (id, q)) (hS : (id, q) ∈ S) (hl : m.LiveAlloc id) (hal : Aligned align ptr.addr)
    (hX : ∀ k, k < len → ∃ X, m.permAt (id, q) (ptr.addr + (k : Nat)) = some X ∧ X.usedRead = true)
    (hq : ∀ k, k < len → m.Quiet id q (ptr.addr + (k : Nat))) :
    ∃ bytes m', Memory.load m ptr len align = .ok (bytes, m') := by
  by_cases hlen : len = 0
  · exact ⟨[], m, by rw [tb_load_eq_ok, BasicMem.load_eq_ok]; exact ⟨hal, .inl ⟨hlen, rfl, rfl⟩⟩⟩
  obtain ⟨a, ha, hlv⟩ := hl
  have J := I.tree id a ha
  obtain ⟨X0, hX0, _⟩ := hX 0 (by omega)
  obtain ⟨a0, off, ha0, haddr, hk0⟩ := permAt_eq_some.1 hX0
  simp only at ha0
  rw [ha] at ha0; cases ha0
  have haddr : ptr.addr = a.addr + (off : Nat) := by simpa using haddr
  have hperm : ∀ k, k < len → ∃ X, a.extra.perm q (off + k) = some X ∧ X.usedRead = true := by
    intro k hk
    obtain ⟨X, hX, hu⟩ := hX k hk
    obtain ⟨a1, off1, ha1, haddr1, hk1⟩ := permAt_eq_some.1 hX
    simp only at ha1
    rw [ha] at ha1; cases ha1
    have : off1 = off + k := by omega
    subst this
    exact ⟨X, hk1, hu⟩
  have hin : off + len ≤ a.size := by
    obtain ⟨X, hX, _⟩ := hperm (len - 1) (by omega)
    obtain ⟨ps, pr, hd, hk⟩ := Node.perm_eq_some.1 hX
    have := J.len _ _ _ hd
    have := (List.getElem?_eq_some_iff.1 hk).1
    omega
  obtain ⟨n', hn'⟩ := Node.access_total (kind := .read) (off := off) (size := len) a.extra (some q) (by
    intro y ps pr hd k hk1 hk2
    have hlen' := J.len _ _ _ hd
    have hlt : k < ps.length := by omega
    have hY : a.extra.perm y k = some ps[k] := Node.perm_eq_some.2 ⟨_, _, hd, List.getElem?_eq_getElem hlt⟩
    refine ⟨ps[k], ?_⟩
    have hok : (ps[k].transition .read (relationTo q y)).isOk = true := by
      obtain ⟨X, hX, hu⟩ := hperm (k - off) (by omega)
      rw [show off + (k - off) = k by omega] at hX
      by_cases hqy : q <+: y
      · by_cases he : y = q
        · subst he
          rw [hX] at hY; cases hY
          rw [show relationTo y y = .localNode from relationTo_local (List.prefix_refl _)]
          exact usedRead_read _ hu
        · have := hq (k - off) (by omega) y ps[k] hqy he (permAt_eq_some.2 ⟨a, k, ha, by omega, hY⟩)
          rw [relationTo_foreign (fun hyq => he (List.IsPrefix.eq_of_length hyq
            (Nat.le_antisymm hyq.length_le hqy.length_le)))]
          exact not_unique_read _ this
      · exact pair_read _ _ _ hu (J.pair hlv q y X ps[k] k hS hqy hX hY)
    cases hr : ps[k].transition .read (relationTo q y) with
    | error e => rw [hr] at hok; cases hok
    | ok p' => exact ⟨p', List.getElem?_eq_getElem hlt, by rw [Node.relAt_some]; exact hr⟩)
  exact ⟨(a.data.drop off).take len, ⟨⟨m.mem.allocations.set id { a with extra := n' }⟩⟩, by
    rw [tb_load_eq_ok, BasicMem.load_eq_ok]
    exact ⟨hal, .inr ⟨hlen, id, q, a, off, n', hp, ha, hlv, haddr, hin, hn', rfl, rfl⟩⟩⟩

/-- After a load through a reference, nothing derived from it is `unique` and protected. -/
theorem load_quiet {m m' : TBMem} {ptr : ThinPtr TBProv} {len : Nat} {align rd id q}
    (h : Memory.load m ptr len align = .ok (rd, m')) (hp : ptr.prov = some (id, q)) {k : Nat} (hk : k < len) :
    m'.Quiet id q (ptr.addr + (k : Nat)) := by
  rw [tb_load_eq_ok, BasicMem.load_eq_ok] at h
  obtain ⟨_, ⟨rfl, _, hm⟩ | ⟨hne, id', pe, a', off', extra, hp', ha', hl', h1, h2, hx, _, hm⟩⟩ := h
  · omega
  rw [hp] at hp'; cases hp'
  intro d Y g1 g2 hY
  obtain ⟨b, off, hb, hoff, hkk⟩ := permAt_eq_some.1 hY
  have hlt := (List.getElem?_eq_some_iff.1 ha').1
  simp only [hm, List.getElem?_set_self hlt, Option.some.injEq] at hb
  subst hb
  obtain ⟨X, hX, h3, h4⟩ := Node.access_perm hx hkk
  simp only at hoff
  have ht := h3 (by omega)
  rw [relationTo_foreign (fun hyq => g2 (List.IsPrefix.eq_of_length hyq
            (Nat.le_antisymm hyq.length_le g1.length_le)))] at ht
  exact of_decide_eq_true (okB_ok (f := fun Y : Permission => decide (Y ≠ .prot .unique)) (read_foreign_not_unique X) ht)

/-- A reference that does not exist yet has no derived references. -/
theorem fresh_quiet {m : TBMem} {id : AllocId} {q} (h : ¬ m.HasNode (id, q)) (addr : Int) : m.Quiet id q addr := by
  intro d Y h1 h2 hY
  exfalso
  obtain ⟨a, off, ha, rfl, hk⟩ := permAt_eq_some.1 hY
  obtain ⟨ps, pr, hd, _⟩ := Node.perm_eq_some.1 hk
  obtain ⟨t, rfl⟩ := h1
  simp only at ha hd
  exact h ⟨a.extra, by simp [TBMem.tree?, ha], Node.data_prefix (r := t) (by rw [hd]; rfl)⟩

/-- After a store, the stored bytes are in memory. -/
theorem tb_store_byteAt {m m' : TBMem} {ptr : ThinPtr TBProv} {bytes align id p}
    (h : Memory.store m ptr bytes align = .ok m') (hp : ptr.prov = some (id, p)) {k : Nat} (hk : k < bytes.length) :
    m'.byteAt id (ptr.addr + (k : Nat)) = bytes[k]? := by
  rw [tb_store_eq_ok, BasicMem.store_eq_ok] at h
  obtain ⟨_, ⟨rfl, _⟩ | ⟨hne, id', pe, a', off', extra, data, hp', ha', hl', h1, h2, hx, hw, hm⟩⟩ := h
  · simp at hk
  rw [hp] at hp'; cases hp'
  have hlt := (List.getElem?_eq_some_iff.1 ha').1
  rw [List.getElem?_eq_getElem hk]
  refine byteAt_eq_some.2 ⟨{ a' with extra := extra, data := data }, off' + k, by simp [hm, hlt], by push_cast; omega, ?_⟩
  rw [writeSubslice_getElem? hw, if_pos (by omega), show off' + k - off' = k by omega, List.getElem?_eq_getElem hk]

theorem disabled_read : ∀ (X : Permission), X.isDisabled = true → X.transition .read .localNode = .error .ub := by decide +kernel
theorem usedRead_not_disabled : ∀ (X : Permission), X.usedRead = true → X.isDisabled = false := by decide +kernel
theorem usedRead_solid : ∀ (X : Permission), X.usedRead = true → X.solid = true := by decide +kernel

/-- A reference that still has a protector belongs to a call in progress. -/
theorem protected_mem {m : TBMem} {S} (I : TInv m S) {id : AllocId} {q pr} (hpr : m.protectorOf (id, q) = some pr) (hy : pr ≠ .no)
    (hl : m.LiveAlloc id) : (id, q) ∈ S := by
  obtain ⟨a, ps, ha, hd⟩ := protectorOf_eq_some.1 hpr
  obtain ⟨a', ha', hlv⟩ := hl
  simp only at ha hd
  rw [ha] at ha'; cases ha'
  refine Classical.byContradiction fun hS => ?_
  exact hy ((I.tree id a ha).unprot hlv q ps pr hd hS).1

/-- While a reference is protected, it keeps being used. -/
theorem protected_used {m m' : TBMem} (hle : MemLe m m') {id : AllocId} {q pr X} {addr : Int}
    (hX : m.permAt (id, q) addr = some X) (hu : X.usedRead = true) (hpr : m'.protectorOf (id, q) = some pr) (hy : pr ≠ .no)
    (hl : m'.LiveAlloc id) : ∃ X', m'.permAt (id, q) addr = some X' ∧ X'.usedRead = true := by
  obtain ⟨X', hX', _, ht⟩ := hle.permAt hX
  obtain ⟨a, ha, hlv⟩ := hl
  exact ⟨X', hX', (ht a pr ha hlv hpr (by simpa [Protected.yes] using hy)).usedRead hu⟩

end
end MiniRust
