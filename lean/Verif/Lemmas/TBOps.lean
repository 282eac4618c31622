import Verif.Lemmas.TBInv
/-
Lemmas used for the Tree Borrows properties: errors of operations, and single permissions.
-/
set_option linter.unusedSectionVars false
namespace MiniRust

/-! ### Single permissions of a memory -/

theorem permAt_eq_some {m : TBMem} {pv : TBProv} {addr : Int} {X : Permission} :
    m.permAt pv addr = some X ↔ ∃ a off, m.mem.allocations[pv.1]? = some a ∧ addr = a.addr + (off : Nat) ∧
      a.extra.perm pv.2 off = some X := by
  unfold TBMem.permAt
  cases ha : m.mem.allocations[pv.1]? with
  | none => simp
  | some a =>
    simp only [Option.bind_some, Option.some.injEq]
    constructor
    · intro h
      split at h
      · exact ⟨a, _, rfl, by omega, h⟩
      · simp at h
    · rintro ⟨a', off, rfl, rfl, h⟩
      rw [if_pos (by omega)]
      have : (a.addr + (off : Int) - a.addr).toNat = off := by omega
      rw [this]; exact h

theorem protectorOf_eq_some {m : TBMem} {pv : TBProv} {pr : Protected} :
    m.protectorOf pv = some pr ↔ ∃ a ps, m.mem.allocations[pv.1]? = some a ∧ a.extra.data pv.2 = some (ps, pr) := by
  unfold TBMem.protectorOf TBMem.tree?
  cases ha : m.mem.allocations[pv.1]? with
  | none => simp
  | some a =>
    simp only [Option.map_some, Option.bind_some, Option.some.injEq]
    cases hd : a.extra.data pv.2 with
    | none => simp [hd]
    | some d =>
      obtain ⟨ps, pr'⟩ := d
      simp [hd]

theorem hasNode_iff {m : TBMem} {pv : TBProv} :
    m.HasNode pv ↔ ∃ a d, m.mem.allocations[pv.1]? = some a ∧ a.extra.data pv.2 = some d := by
  unfold TBMem.HasNode TBMem.tree?
  constructor
  · rintro ⟨n, h1, h2⟩
    rw [Option.map_eq_some_iff] at h1
    obtain ⟨a, ha, rfl⟩ := h1
    rw [Option.isSome_iff_exists] at h2
    obtain ⟨d, hd⟩ := h2
    exact ⟨a, d, ha, hd⟩
  · rintro ⟨a, d, ha, hd⟩
    exact ⟨a.extra, by simp [ha], by simp [hd]⟩

theorem MemLe.hasNode {m m' : TBMem} {pv} (h : MemLe m m') (hn : m.HasNode pv) : m'.HasNode pv := by
  rw [hasNode_iff] at hn ⊢
  obtain ⟨a, ⟨ps, pr⟩, ha, hd⟩ := hn
  obtain ⟨a', ha', _, _, _, hle⟩ := h _ _ ha
  obtain ⟨ps', pr', hd', _⟩ := hle _ _ _ hd
  exact ⟨a', _, ha', hd'⟩

/-- How one permission evolves. -/
theorem MemLe.permAt {m m' : TBMem} {pv addr X} (h : MemLe m m') (hx : m.permAt pv addr = some X) :
    ∃ X', m'.permAt pv addr = some X' ∧ PMoves X X' ∧
      (∀ a pr, m'.mem.allocations[pv.1]? = some a → a.live = true → m'.protectorOf pv = some pr → pr.yes = true → TMoves X X') := by
  obtain ⟨a, off, ha, rfl, hp⟩ := permAt_eq_some.1 hx
  obtain ⟨ps, pr, hd, hk⟩ := Node.perm_eq_some.1 hp
  obtain ⟨a', ha', haddr, _, _, hle⟩ := h _ _ ha
  obtain ⟨ps', pr', hd', _, hall⟩ := hle _ _ _ hd
  obtain ⟨X', hX', hm, ht⟩ := hall _ _ hk
  refine ⟨X', permAt_eq_some.2 ⟨a', off, ha', by rw [haddr], Node.perm_eq_some.2 ⟨ps', pr', hd', hX'⟩⟩, hm, ?_⟩
  intro a2 pr2 ha2 hl hpr hy
  rw [ha'] at ha2; cases ha2
  obtain ⟨a3, ps3, ha3, hd3⟩ := protectorOf_eq_some.1 hpr
  rw [ha'] at ha3; cases ha3
  rw [hd'] at hd3; cases hd3
  exact ht hl hy

/-! ### Closed sets of permissions -/

instance {α : Type} [DecidableEq α] : DecidableEq (Res α) := fun a b =>
  match a, b with
  | .ok x, .ok y => if h : x = y then isTrue (h ▸ rfl) else isFalse (fun h' => h (by cases h'; rfl))
  | .error x, .error y => if h : x = y then isTrue (h ▸ rfl) else isFalse (fun h' => h (by cases h'; rfl))
  | .ok _, .error _ => isFalse (fun h => by cases h)
  | .error _, .ok _ => isFalse (fun h => by cases h)

def Permission.isDisabled (X : Permission) : Bool := decide (X = .unprot .disabled ∨ X = .prot .disabled)

theorem disabled_step : ∀ (X : Permission) (kind rel), X.isDisabled = true →
    okB (X.transition kind rel) (·.isDisabled) = true := by decide +kernel
theorem disabled_unprotect : ∀ (P : PermissionProt), (Permission.prot P).isDisabled = true →
    (Permission.unprot P.unprotect.1).isDisabled = true := by decide +kernel
theorem disabled_local : ∀ (X : Permission) (kind), X.isDisabled = true → X.transition kind .localNode = .error .ub := by
  decide +kernel

theorem PMoves.disabled {X Y} (h : PMoves X Y) (hx : X.isDisabled = true) : Y.isDisabled = true := by
  induction h with
  | refl => exact hx
  | trans _ ht ih => exact okB_ok (f := fun X : Permission => X.isDisabled) (disabled_step _ _ _ ih) ht
  | unprotect _ ih => exact disabled_unprotect _ ih

/-- Protected, not interior mutable, and used at least for reading. -/
def Permission.usedRead (X : Permission) : Bool :=
  match X with
  | .prot .unique => true
  | .prot (.reserved true _) => true
  | .prot (.frozen true) => true
  | _ => false

/-- Protected, not interior mutable, and written. -/
def Permission.usedWrite (X : Permission) : Bool := decide (X = .prot .unique)

theorem usedRead_step : ∀ (X : Permission) (kind rel), X.usedRead = true →
    okB (X.transition kind rel) (·.usedRead) = true := by decide +kernel
theorem usedWrite_step : ∀ (X : Permission) (kind rel), X.usedWrite = true →
    okB (X.transition kind rel) (·.usedWrite) = true := by decide +kernel
theorem usedRead_intro : ∀ (P : PermissionProt) (kind : AccessKind), P ≠ .cell →
    okB ((Permission.prot P).transition kind .localNode) (·.usedRead) = true := by decide +kernel
theorem usedWrite_intro : ∀ (P : PermissionProt), P ≠ .cell →
    okB ((Permission.prot P).transition .write .localNode) (·.usedWrite) = true := by decide +kernel
theorem usedRead_foreign : ∀ (X : Permission), X.usedRead = true → X.transition .write .foreign = .error .ub := by
  decide +kernel
theorem usedWrite_foreign : ∀ (X : Permission) (kind), X.usedWrite = true → X.transition kind .foreign = .error .ub := by
  decide +kernel
theorem usedRead_prevents : ∀ (X : Permission), X.usedRead = true → X.preventsDeallocation = true := by decide +kernel
theorem usedWrite_usedRead : ∀ (X : Permission), X.usedWrite = true → X.usedRead = true := by decide +kernel

theorem TMoves.usedRead {X Y} (h : TMoves X Y) (hx : X.usedRead = true) : Y.usedRead = true := by
  induction h with
  | refl => exact hx
  | trans _ ht ih => exact okB_ok (f := fun X : Permission => X.usedRead) (usedRead_step _ _ _ ih) ht
theorem TMoves.usedWrite {X Y} (h : TMoves X Y) (hx : X.usedWrite = true) : Y.usedWrite = true := by
  induction h with
  | refl => exact hx
  | trans _ ht ih => exact okB_ok (f := fun X : Permission => X.usedWrite) (usedWrite_step _ _ _ ih) ht

/-! ### Errors of the operations -/

section
variable [T : Target]

theorem TInv.len {m S} (I : TInv m S) {id : Nat} {a} (ha : m.mem.allocations[id]? = some a) {q ps pr}
    (hd : a.extra.data q = some (ps, pr)) : ps.length = a.size := (I.tree id a ha).len q ps pr hd

theorem tb_load_cases {m : TBMem} {S} (I : TInv m S) {ptr : ThinPtr TBProv} (hk : m.mem.KnownId ptr) {len align} :
    Memory.load m ptr len align = .error .ub ∨ ∃ bytes m', Memory.load m ptr len align = .ok (bytes, m') := by
  by_cases hc : Aligned align ptr.addr ∧ (len = 0 ∨ m.mem.Fits ptr len)
  · by_cases hl : len = 0
    · right
      refine ⟨[], m, ?_⟩
      rw [tb_load_eq_ok, BasicMem.load_eq_ok]
      exact ⟨hc.1, .inl ⟨hl, rfl, rfl⟩⟩
    · obtain ⟨id, pe, a, off, hp, ha, hlv, h1, h2⟩ := hc.2.resolve_left hl
      cases hx : a.extra.access (some pe) .read off len with
      | ok extra =>
        right
        refine ⟨(a.data.drop off).take len, ⟨⟨m.mem.allocations.set id { a with extra := extra }⟩⟩, ?_⟩
        rw [tb_load_eq_ok, BasicMem.load_eq_ok]
        exact ⟨hc.1, .inr ⟨hl, id, pe, a, off, extra, hp, ha, hlv, h1, h2, hx, rfl, rfl⟩⟩
      | error e =>
        left
        have he := Node.access_err a.extra (some pe) e (fun q ps pr hd => by rw [I.len ha hd]; exact h2) hx
        subst he
        have hch := BasicMem.checkPtr_eq_some (m := m.mem) (ptr := ptr) (len := len) (r := (id, pe, off)) |>.2
          ⟨hl, id, pe, a, off, rfl, hp, ha, hlv, h1, h2⟩
        have hal := (Align.isAligned_iff align ptr.addr).2 hc.1
        simp [Memory.load, BasicMem.load, hal, hch, index, ha, TBMem.accessHandler, hx]
  · left
    have := BasicMem.load_ub (hx := TBMem.accessHandler .read len) hk hc
    simp only [Memory.load, this]; rfl

theorem tb_store_cases {m : TBMem} {S} (I : TInv m S) {ptr : ThinPtr TBProv} (hk : m.mem.KnownId ptr) {bytes align} :
    Memory.store m ptr bytes align = .error .ub ∨ ∃ m', Memory.store m ptr bytes align = .ok m' := by
  by_cases hc : Aligned align ptr.addr ∧ (bytes.length = 0 ∨ m.mem.Fits ptr bytes.length)
  · by_cases hl : bytes.length = 0
    · right
      refine ⟨m, ?_⟩
      rw [tb_store_eq_ok, BasicMem.store_eq_ok]
      exact ⟨hc.1, .inl ⟨List.length_eq_zero_iff.1 hl, rfl⟩⟩
    · obtain ⟨id, pe, a, off, hp, ha, hlv, h1, h2⟩ := hc.2.resolve_left hl
      cases hx : a.extra.access (some pe) .write off bytes.length with
      | ok extra =>
        right
        have hw := writeSubslice_isOk (l := a.data) (src := bytes) (off := off) h2
        refine ⟨⟨⟨m.mem.allocations.set id { a with extra := extra, data := a.data.take off ++ bytes ++ a.data.drop (off + bytes.length) }⟩⟩, ?_⟩
        · rw [tb_store_eq_ok, BasicMem.store_eq_ok]
          exact ⟨hc.1, .inr ⟨fun h => hl (by simp [h]), id, pe, a, off, extra, _, hp, ha, hlv, h1, h2, hx, hw, rfl⟩⟩
      | error e =>
        left
        have he := Node.access_err a.extra (some pe) e (fun q ps pr hd => by rw [I.len ha hd]; exact h2) hx
        subst he
        have hch := BasicMem.checkPtr_eq_some (m := m.mem) (ptr := ptr) (len := bytes.length) (r := (id, pe, off)) |>.2
          ⟨hl, id, pe, a, off, rfl, hp, ha, hlv, h1, h2⟩
        have hal := (Align.isAligned_iff align ptr.addr).2 hc.1
        simp [Memory.store, BasicMem.store, hal, hch, index, ha, TBMem.accessHandler, hx]
  · left
    have := BasicMem.store_ub (hx := TBMem.accessHandler .write bytes.length) hk hc
    simp only [Memory.store, this]; rfl

theorem tb_dealloc_cases {m : TBMem} {S} (I : TInv m S) {ptr : ThinPtr TBProv} (hk : m.mem.KnownId ptr) {kind size align} :
    Memory.deallocate m ptr kind size align = .error .ub ∨ ∃ m', Memory.deallocate m ptr kind size align = .ok m' := by
  by_cases hc : m.mem.CanFree ptr kind size align
  · obtain ⟨id, pe, a, hp, ha, hl, h1, h2, h3, h4⟩ := hc
    cases hx : TBMem.deallocHandler size a.extra pe with
    | ok extra =>
      right
      refine ⟨⟨⟨m.mem.allocations.set id { a with extra := extra, live := false }⟩⟩, ?_⟩
      rw [tb_deallocate_eq_ok, BasicMem.deallocate_eq_ok]
      exact ⟨id, pe, a, extra, hp, ha, hl, h1, h2, h3, h4, hx, rfl⟩
    | error e =>
      left
      have he : e = .ub := by
        unfold TBMem.deallocHandler at hx
        rw [Res.bind_eq_error] at hx
        rcases hx with hx | ⟨root, _, hx⟩
        · refine Node.access_err a.extra (some pe) e (fun q ps pr hd => ?_) hx
          rw [I.len ha hd]; omega
        · split at hx
          · simpa using hx.symm
          · simp at hx
      subst he
      simp [Memory.deallocate, BasicMem.deallocate, hp, index, ha, hl, ← h1, ← h2, ← h3, ← h4, hx]
  · left
    have := BasicMem.deallocate_ub (hx := TBMem.deallocHandler size) hk hc
    simp only [Memory.deallocate, this]; rfl

/-- A successful non-empty access performs the tree access. -/
theorem tb_load_access {m m' : TBMem} {ptr : ThinPtr TBProv} {len align bytes id p}
    (h : Memory.load m ptr len align = .ok (bytes, m')) (hp : ptr.prov = some (id, p)) (hl : len ≠ 0) :
    ∃ a off extra, m.mem.allocations[id]? = some a ∧ a.live = true ∧ ptr.addr = a.addr + (off : Nat) ∧
      off + len ≤ a.size ∧ a.extra.access (some p) .read off len = .ok extra ∧
      m' = ⟨⟨m.mem.allocations.set id { a with extra := extra }⟩⟩ := by
  rw [tb_load_eq_ok, BasicMem.load_eq_ok] at h
  obtain ⟨_, ⟨h, _⟩ | ⟨hne, id', pe, a, off, extra, hp', ha, hl, h1, h2, hx, hw, hm⟩⟩ := h
  · exact absurd h hl
  · rw [hp] at hp'; cases hp'
    exact ⟨a, off, extra, ha, hl, h1, h2, hx, by rw [← hm]⟩

theorem tb_store_access {m m' : TBMem} {ptr : ThinPtr TBProv} {bytes align id p}
    (h : Memory.store m ptr bytes align = .ok m') (hp : ptr.prov = some (id, p)) (hl : bytes ≠ []) :
    ∃ a off extra data, m.mem.allocations[id]? = some a ∧ a.live = true ∧ ptr.addr = a.addr + (off : Nat) ∧
      off + bytes.length ≤ a.size ∧ a.extra.access (some p) .write off bytes.length = .ok extra ∧
      m' = ⟨⟨m.mem.allocations.set id { a with extra := extra, data := data }⟩⟩ := by
  rw [tb_store_eq_ok, BasicMem.store_eq_ok] at h
  obtain ⟨_, ⟨h, _⟩ | ⟨hne, id', pe, a, off, extra, data, hp', ha, hl, h1, h2, hx, hw, hm⟩⟩ := h
  · exact absurd h hl
  · rw [hp] at hp'; cases hp'
    exact ⟨a, off, extra, data, ha, hl, h1, h2, hx, by rw [← hm]⟩

/-- What a successful access does to one permission. -/
theorem tb_load_perm {m m' : TBMem} {ptr : ThinPtr TBProv} {len align bytes id p q X} {addr : Int}
    (h : Memory.load m ptr len align = .ok (bytes, m')) (hp : ptr.prov = some (id, p))
    (h1 : ptr.addr ≤ addr) (h2 : addr < ptr.addr + len) (hX : m.permAt (id, q) addr = some X) :
    ∃ X', m'.permAt (id, q) addr = some X' ∧ X.transition .read (relationTo p q) = .ok X' := by
  obtain ⟨a, off, extra, ha, hl, ho, hs, hx, rfl⟩ := tb_load_access h hp (by omega)
  obtain ⟨a', k, ha', rfl, hk⟩ := permAt_eq_some.1 hX
  rw [ha] at ha'; cases ha'
  obtain ⟨X', hX', h3, _⟩ := Node.access_perm' hx hk
  have hlt := (List.getElem?_eq_some_iff.1 ha).1
  exact ⟨X', permAt_eq_some.2 ⟨{ a with extra := extra }, k, by simp [hlt], rfl, hX'⟩, h3 (by omega)⟩

theorem tb_store_perm {m m' : TBMem} {ptr : ThinPtr TBProv} {bytes align id p q X} {addr : Int}
    (h : Memory.store m ptr bytes align = .ok m') (hp : ptr.prov = some (id, p))
    (h1 : ptr.addr ≤ addr) (h2 : addr < ptr.addr + (bytes.length : Nat)) (hX : m.permAt (id, q) addr = some X) :
    ∃ X', m'.permAt (id, q) addr = some X' ∧ X.transition .write (relationTo p q) = .ok X' := by
  obtain ⟨a, off, extra, data, ha, hl, ho, hs, hx, rfl⟩ := tb_store_access h hp (by intro h; simp [h] at h2; omega)
  obtain ⟨a', k, ha', rfl, hk⟩ := permAt_eq_some.1 hX
  rw [ha] at ha'; cases ha'
  obtain ⟨X', hX', h3, _⟩ := Node.access_perm' hx hk
  have hlt := (List.getElem?_eq_some_iff.1 ha).1
  exact ⟨X', permAt_eq_some.2 ⟨{ a with extra := extra, data := data }, k, by simp [hlt], rfl, hX'⟩, h3 (by omega)⟩

/-- An access that one node forbids is UB. -/
theorem tb_load_forbidden {m : TBMem} {S} (I : TInv m S) {ptr : ThinPtr TBProv} {len align id p q X} {addr : Int}
    (hp : ptr.prov = some (id, p)) (h1 : ptr.addr ≤ addr) (h2 : addr < ptr.addr + (len : Nat))
    (hX : m.permAt (id, q) addr = some X) (hf : X.transition .read (relationTo p q) = .error .ub) :
    Memory.load m ptr len align = .error .ub := by
  obtain ⟨a, k, ha, _⟩ := permAt_eq_some.1 hX
  have hk : m.mem.KnownId ptr := by
    intro id' pe' hp'
    rw [hp] at hp'; cases hp'
    exact (List.getElem?_eq_some_iff.1 ha).1
  rcases tb_load_cases I hk (len := len) (align := align) with h | ⟨bytes, m', h⟩
  · exact h
  · obtain ⟨X', _, hX'⟩ := tb_load_perm h hp h1 h2 hX
    rw [hf] at hX'; cases hX'

theorem tb_store_forbidden {m : TBMem} {S} (I : TInv m S) {ptr : ThinPtr TBProv} {bytes align id p q X} {addr : Int}
    (hp : ptr.prov = some (id, p)) (h1 : ptr.addr ≤ addr) (h2 : addr < ptr.addr + (bytes.length : Nat))
    (hX : m.permAt (id, q) addr = some X) (hf : X.transition .write (relationTo p q) = .error .ub) :
    Memory.store m ptr bytes align = .error .ub := by
  obtain ⟨a, k, ha, _⟩ := permAt_eq_some.1 hX
  have hk : m.mem.KnownId ptr := by
    intro id' pe' hp'
    rw [hp] at hp'; cases hp'
    exact (List.getElem?_eq_some_iff.1 ha).1
  rcases tb_store_cases I hk (bytes := bytes) (align := align) with h | ⟨m', h⟩
  · exact h
  · obtain ⟨X', _, hX'⟩ := tb_store_perm h hp h1 h2 hX
    rw [hf] at hX'; cases hX'

end
end MiniRust
