import Verif.Lemmas.TreeInv
import Verif.Lemmas.MemHistory
/-
The invariant of Tree Borrows memories, how permissions evolve, and that Tree Borrows is backed by a
basic memory.
-/
set_option linter.unusedSectionVars false
namespace MiniRust

/-! ### How permissions of existing nodes evolve -/

/-- Zero or more transitions of the state machine. -/
inductive TMoves : Permission → Permission → Prop
  | refl {X} : TMoves X X
  | trans {X Y Z kind rel} : TMoves X Y → Y.transition kind rel = .ok Z → TMoves X Z

/-- Zero or more transitions, or ends of protectors. -/
inductive PMoves : Permission → Permission → Prop
  | refl {X} : PMoves X X
  | trans {X Y Z kind rel} : PMoves X Y → Y.transition kind rel = .ok Z → PMoves X Z
  | unprotect {X} {P : PermissionProt} : PMoves X (.prot P) → PMoves X (.unprot P.unprotect.1)

theorem TMoves.append {X Y Z} (h : TMoves X Y) (h' : TMoves Y Z) : TMoves X Z := by
  induction h' with
  | refl => exact h
  | trans _ ht ih => exact ih.trans ht

theorem PMoves.append {X Y Z} (h : PMoves X Y) (h' : PMoves Y Z) : PMoves X Z := by
  induction h' with
  | refl => exact h
  | trans _ ht ih => exact ih.trans ht
  | unprotect _ ih => exact ih.unprotect

theorem TMoves.toP {X Y} (h : TMoves X Y) : PMoves X Y := by
  induction h with
  | refl => exact .refl
  | trans _ ht ih => exact ih.trans ht

/-- Every node of `n` is in `n'` at the same path, with permissions evolved. -/
def TreeLe (live : Bool) (n n' : Node) : Prop :=
  ∀ q ps pr, n.data q = some (ps, pr) → ∃ ps' pr', n'.data q = some (ps', pr') ∧
    (pr' = pr ∨ pr' = .no) ∧ ∀ (k : Nat) X, ps[k]? = some X → ∃ X', ps'[k]? = some X' ∧ PMoves X X' ∧
      (live = true → pr'.yes = true → TMoves X X')

theorem TreeLe.refl {live n} : TreeLe live n n := fun _ ps pr h =>
  ⟨ps, pr, h, .inl rfl, fun _ X hX => ⟨X, hX, .refl, fun _ _ => .refl⟩⟩

theorem TreeLe.trans {l l' n n' n''} (h : TreeLe l n n') (h' : TreeLe l' n' n'') (hl : l' = true → l = true) :
    TreeLe l' n n'' := by
  intro q ps pr hd
  obtain ⟨ps', pr', hd', hpr', hk'⟩ := h q ps pr hd
  obtain ⟨ps'', pr'', hd'', hpr'', hk''⟩ := h' q ps' pr' hd'
  refine ⟨ps'', pr'', hd'', ?_, ?_⟩
  · rcases hpr'' with rfl | rfl
    · exact hpr'
    · exact .inr rfl
  · intro k X hX
    obtain ⟨X', hX', h1, h2⟩ := hk' k X hX
    obtain ⟨X'', hX'', h3, h4⟩ := hk'' k X' hX'
    refine ⟨X'', hX'', h1.append h3, fun hl' hy => ?_⟩
    have hy' : pr'.yes = true := by
      rcases hpr'' with rfl | rfl
      · exact hy
      · cases hy
    exact (h2 (hl hl') hy').append (h4 hl' hy)

theorem TreeLe.dead {l n n'} (h : TreeLe l n n') : TreeLe false n n' := by
  intro q ps pr hd
  obtain ⟨ps', pr', hd', hpr', hk'⟩ := h q ps pr hd
  refine ⟨ps', pr', hd', hpr', fun k X hX => ?_⟩
  obtain ⟨X', hX', h1, _⟩ := hk' k X hX
  exact ⟨X', hX', h1, fun h => by cases h⟩

theorem access_treeLe {n n' p kind off len l} (h : n.access (some p) kind off len = .ok n') : TreeLe l n n' := by
  intro q ps pr hd
  obtain ⟨ps', hd', hl, hs⟩ := Node.access_data' h hd
  refine ⟨ps', pr, hd', .inl rfl, fun k X hX => ?_⟩
  have hs := hs k
  split at hs
  · obtain ⟨p, p', h1, h2, h3⟩ := hs
    rw [hX] at h1; cases h1
    exact ⟨p', h3, .trans .refl h2, fun _ _ => .trans .refl h2⟩
  · exact ⟨X, by rw [hs, hX], .refl, fun _ _ => .refl⟩

theorem addNode_treeLe {n n' parent path ps pr l} (h : n.addNode parent (.mk [] ps pr) = .ok (n', path)) :
    TreeLe l n n' := by
  obtain ⟨i, rfl, hnone, _, hd⟩ := Node.addNode_ok h
  intro q ps' pr' hq
  refine ⟨ps', pr', ?_, .inl rfl, fun k X hX => ⟨X, hX, .refl, fun _ _ => .refl⟩⟩
  rw [hd, if_neg]
  · exact hq
  · rintro rfl; rw [hnone] at hq; cases hq

theorem unprotect_treeLe {n n' p accs} (h : n.accessNode TBMem.unprotectNode p = .ok (n', accs)) :
    TreeLe false n n' := by
  obtain ⟨qs, pr, hdp, hpr, haccs, hd⟩ := accessNode_unprotect h
  intro q ps pr' hq
  by_cases hqp : q = p
  · subst hqp
    rw [hdp] at hq; cases hq
    refine ⟨_, _, by rw [hd, if_pos rfl], .inl rfl, fun k X hX => ?_⟩
    simp only [List.getElem?_map, Option.map_eq_some_iff] at hX
    obtain ⟨P, hP, rfl⟩ := hX
    exact ⟨.unprot P.unprotect.1, by simp [hP], .unprotect .refl, fun h => by cases h⟩
  · exact ⟨ps, pr', by rw [hd, if_neg hqp]; exact hq, .inl rfl, fun k X hX => ⟨X, hX, .refl, fun h => by cases h⟩⟩

theorem release_treeLe {n n1 n2 p accs l} (h : n.accessNode TBMem.unprotectNode p = .ok (n1, accs))
    (h2 : n1.releaseProtector (some p) accs = .ok n2) : TreeLe l n n2 := by
  obtain ⟨qs, pr0, hdp, hpr, haccs, hd⟩ := accessNode_unprotect h
  intro q ps pr hq
  by_cases hqp : q = p
  · subst hqp
    rw [hdp] at hq; cases hq
    rcases Node.releaseProtector_ok h2 q with hx | ⟨ps1, pr1, ps', pr', e1, e2, e3, e4, e5, e6⟩
    · rw [hd, if_pos rfl] at hx; cases hx.1
    rw [hd, if_pos rfl] at e1; cases e1
    obtain ⟨rfl, rfl⟩ := e3 rfl
    refine ⟨_, _, e2, .inr rfl, fun k X hX => ?_⟩
    simp only [List.getElem?_map, Option.map_eq_some_iff] at hX
    obtain ⟨P, hP, rfl⟩ := hX
    exact ⟨.unprot P.unprotect.1, by simp [hP], .unprotect .refl, fun _ h => by cases h⟩
  · rcases Node.releaseProtector_ok h2 q with hx | ⟨ps1, pr1, ps', pr', e1, e2, e3, e4, e5, e6⟩
    · rw [hd, if_neg hqp, hq] at hx; cases hx.1
    rw [hd, if_neg hqp, hq] at e1; cases e1
    have hpr' : pr' = pr := e4 (fun h => hqp (Option.some.inj h).symm)
    subst hpr'
    refine ⟨ps', pr', e2, .inl rfl, fun k X hX => ?_⟩
    by_cases hb : Node.Below (some p) q
    · rw [e5 hb]; exact ⟨X, hX, .refl, fun _ _ => .refl⟩
    · have hs := (e6 hb).2 k
      split at hs
      · obtain ⟨P, P', h1, h2, h3⟩ := hs
        rw [hX] at h1; cases h1
        exact ⟨P', h3, .trans .refl h2, fun _ _ => .trans .refl h2⟩
      · exact ⟨X, by rw [hs, hX], .refl, fun _ _ => .refl⟩

/-- Every allocation of `m` is still there in `m'`, with its tree evolved. -/
def MemLe (m m' : TBMem) : Prop :=
  ∀ (id : Nat) (a : Alloc Path Node), m.mem.allocations[id]? = some a → ∃ a', m'.mem.allocations[id]? = some a' ∧
    a'.addr = a.addr ∧ a'.size = a.size ∧ (a'.live = true → a.live = true) ∧ TreeLe a'.live a.extra a'.extra

theorem MemLe.refl {m} : MemLe m m := fun _ a h => ⟨a, h, rfl, rfl, id, .refl⟩

theorem MemLe.trans {m m' m''} (h : MemLe m m') (h' : MemLe m' m'') : MemLe m m'' := by
  intro id a ha
  obtain ⟨a', ha', h1, h2, h3, h4⟩ := h id a ha
  obtain ⟨a'', ha'', h1', h2', h3', h4'⟩ := h' id a' ha'
  exact ⟨a'', ha'', h1'.trans h1, h2'.trans h2, fun h => h3 (h3' h), h4.trans h4' h3'⟩

/-- Replacing one allocation. -/
theorem MemLe.set {m : TBMem} {id : Nat} {a a' : Alloc Path Node} (ha : m.mem.allocations[id]? = some a)
    (h1 : a'.addr = a.addr) (h2 : a'.size = a.size) (h3 : a'.live = true → a.live = true)
    (h4 : TreeLe a'.live a.extra a'.extra) : MemLe m ⟨⟨m.mem.allocations.set id a'⟩⟩ := by
  have hlt := (List.getElem?_eq_some_iff.1 ha).1
  intro j b hb
  by_cases hj : id = j
  · subst hj
    rw [ha] at hb; cases hb
    exact ⟨a', by simp [hlt], h1, h2, h3, h4⟩
  · exact ⟨b, by simp only; rw [List.getElem?_set_ne hj]; exact hb, rfl, rfl, fun h => h, .refl⟩

/-! ### The memory invariant -/

/-- `S` lists the references protected by calls in progress. -/
structure TInv (m : TBMem) (S : List TBProv) : Prop where
  nodup : S.Nodup
  known : ∀ pv ∈ S, pv.1 < m.mem.allocations.length
  tree : ∀ (id : Nat) (a : Alloc Path Node), m.mem.allocations[id]? = some a →
    TreeInv a.size a.live a.extra (fun q => (id, q) ∈ S)

theorem TreeInv.congr {size live n S S'} (h : TreeInv size live n S) (he : ∀ q, S q ↔ S' q) : TreeInv size live n S' := by
  have : S = S' := funext fun q => propext (he q)
  rw [← this]; exact h

theorem TreeInv.dead {size live n S} (h : TreeInv size live n S) : TreeInv size false n S :=
  ⟨h.len, h.prot, fun h => absurd h (by decide), fun h => absurd h (by decide)⟩

theorem TInv.perm {m S S'} (I : TInv m S) (h : S.Perm S') : TInv m S' where
  nodup := h.nodup_iff.1 I.nodup
  known pv hpv := I.known pv (h.mem_iff.2 hpv)
  tree id a ha := (I.tree id a ha).congr (fun q => h.mem_iff)

/-- Replacing one allocation, and changing which of its nodes are protected. -/
theorem TInv.set {m S S'} (I : TInv m S) {id : Nat} {a' : Alloc Path Node} (hlt : id < m.mem.allocations.length)
    (hn : S'.Nodup) (hs : ∀ j q, j ≠ id → ((j, q) ∈ S' ↔ (j, q) ∈ S))
    (ht : TreeInv a'.size a'.live a'.extra (fun q => (id, q) ∈ S')) :
    TInv ⟨⟨m.mem.allocations.set id a'⟩⟩ S' where
  nodup := hn
  known pv hpv := by
    obtain ⟨j, q⟩ := pv
    simp only [List.length_set]
    by_cases hj : j = id
    · rw [hj]; exact hlt
    · exact I.known _ ((hs j q hj).1 hpv)
  tree j b hb := by
    by_cases hj : id = j
    · subst hj
      simp only [List.getElem?_set_self hlt, Option.some.injEq] at hb
      subst hb; exact ht
    · simp only [List.getElem?_set_ne hj] at hb
      exact (I.tree j b hb).congr (fun q => (hs j q (fun h => hj h.symm)).symm)

theorem newRoot_data {size q ps pr} (h : (TBMem.newRoot size).data q = some (ps, pr)) :
    q = [] ∧ ps = List.replicate size (.unprot .unique) ∧ pr = .no := by
  cases q with
  | nil => simp [TBMem.newRoot, Node.permissions, Node.protected_] at h; simp [← h.1, ← h.2]
  | cons i q => simp [TBMem.newRoot, Node.data_cons] at h

theorem newRoot_inv {size live} : TreeInv size live (TBMem.newRoot size) (fun _ => False) where
  len q ps pr h := by obtain ⟨rfl, rfl, rfl⟩ := newRoot_data h; simp
  prot q h := h.elim
  unprot _ q ps pr h _ := by
    obtain ⟨rfl, rfl, rfl⟩ := newRoot_data h
    exact ⟨rfl, List.replicate size .unique, by simp⟩
  pair _ x y X Y k h := h.elim

section
variable [T : Target]

theorem tb_new : TInv (Memory.new : TBMem) [] where
  nodup := .nil
  known pv h := by simp at h
  tree id a h := by simp [Memory.new, BasicMem.new] at h

theorem tb_allocate_eq_ok {m m' : TBMem} {kind size align pick p} :
    Memory.allocate m kind size align pick = .ok (p, m') ↔
      m.mem.allocate kind size align [] (TBMem.newRoot size) pick = .ok (p, m'.mem) := by
  simp only [Memory.allocate, Res.bind_eq_ok]
  constructor
  · rintro ⟨⟨p', mem⟩, h, h'⟩
    simp only [Except.ok.injEq, Prod.mk.injEq] at h'
    obtain ⟨rfl, rfl⟩ := h'
    exact h
  · intro h; exact ⟨_, h, rfl⟩

theorem tb_deallocate_eq_ok {m m' : TBMem} {ptr kind size align} :
    Memory.deallocate m ptr kind size align = .ok m' ↔
      m.mem.deallocate ptr kind size align (TBMem.deallocHandler size) = .ok m'.mem := by
  simp only [Memory.deallocate, Res.bind_eq_ok]
  constructor
  · rintro ⟨mem, h, h'⟩
    simp only [Except.ok.injEq] at h'
    subst h'
    exact h
  · intro h; exact ⟨_, h, rfl⟩

theorem tb_store_eq_ok {m m' : TBMem} {ptr bytes align} :
    Memory.store m ptr bytes align = .ok m' ↔
      m.mem.store ptr bytes align (TBMem.accessHandler .write bytes.length) = .ok m'.mem := by
  simp only [Memory.store, Res.bind_eq_ok]
  constructor
  · rintro ⟨mem, h, h'⟩
    simp only [Except.ok.injEq] at h'
    subst h'
    exact h
  · intro h; exact ⟨_, h, rfl⟩

theorem tb_load_eq_ok {m m' : TBMem} {ptr len align bytes} :
    Memory.load m ptr len align = .ok (bytes, m') ↔
      m.mem.load ptr len align (TBMem.accessHandler .read len) = .ok (bytes, m'.mem) := by
  simp only [Memory.load, Res.bind_eq_ok]
  constructor
  · rintro ⟨⟨p', mem⟩, h, h'⟩
    simp only [Except.ok.injEq, Prod.mk.injEq] at h'
    obtain ⟨rfl, rfl⟩ := h'
    exact h
  · intro h; exact ⟨_, h, rfl⟩

theorem TInv.allocate {m m' : TBMem} {S kind size align pick p} (I : TInv m S)
    (h : Memory.allocate m kind size align pick = .ok (p, m')) : TInv m' S ∧ MemLe m m' := by
  rw [tb_allocate_eq_ok, BasicMem.allocate_eq_ok] at h
  obtain ⟨_, _, _, hm⟩ := h
  obtain ⟨⟨allocs⟩⟩ := m'
  simp only [BasicMem.mk.injEq] at hm
  subst hm
  constructor
  · refine ⟨I.nodup, fun pv hpv => ?_, fun id a ha => ?_⟩
    · have := I.known pv hpv
      simp only [List.length_append, List.length_cons, List.length_nil]; omega
    · simp only at ha
      rcases Nat.lt_or_ge id m.mem.allocations.length with hlt | hge
      · rw [List.getElem?_append_left hlt] at ha
        exact I.tree id a ha
      · rw [List.getElem?_append_right hge] at ha
        have hid : id = m.mem.allocations.length := by
          have := (List.getElem?_eq_some_iff.1 ha).1
          simp at this; omega
        subst hid
        simp at ha
        subst ha
        simp only [Alloc.size, List.length_replicate]
        refine newRoot_inv.congr (fun q => ⟨False.elim, fun h => ?_⟩)
        have := I.known _ h
        omega
  · intro id a ha
    refine ⟨a, ?_, rfl, rfl, fun h => h, .refl⟩
    simp only
    rw [List.getElem?_append_left (List.getElem?_eq_some_iff.1 ha).1]
    exact ha

theorem TInv.deallocate {m m' : TBMem} {S ptr kind size align} (I : TInv m S)
    (h : Memory.deallocate m ptr kind size align = .ok m') : TInv m' S ∧ MemLe m m' := by
  rw [tb_deallocate_eq_ok, BasicMem.deallocate_eq_ok] at h
  obtain ⟨id, pe, a, extra, hp, ha, hl, h1, h2, h3, h4, hx, hm⟩ := h
  have hm' : m' = ⟨⟨m.mem.allocations.set id { a with extra := extra, live := false }⟩⟩ := by
    rw [← hm]
  subst hm'
  have hlt := (List.getElem?_eq_some_iff.1 ha).1
  unfold TBMem.deallocHandler at hx
  rw [Res.bind_eq_ok] at hx
  obtain ⟨root, hr, hx⟩ := hx
  split at hx
  · simp at hx
  simp only [Except.ok.injEq] at hx
  subst hx
  have It := I.tree id a ha
  rw [hl] at It
  refine ⟨I.set hlt I.nodup (fun _ _ _ => Iff.rfl) ?_, MemLe.set ha rfl rfl (fun h => by cases h) ?_⟩
  · exact (It.access hr).dead
  · exact (access_treeLe (l := false) hr)

theorem TInv.store {m m' : TBMem} {S ptr bytes align} (I : TInv m S)
    (h : Memory.store m ptr bytes align = .ok m') : TInv m' S ∧ MemLe m m' := by
  rw [tb_store_eq_ok, BasicMem.store_eq_ok] at h
  obtain ⟨_, ⟨_, hm⟩ | ⟨hne, id, pe, a, off, extra, data, hp, ha, hl, h1, h2, hx, hw, hm⟩⟩ := h
  · have : m' = m := by
      obtain ⟨x⟩ := m'; obtain ⟨y⟩ := m; simp at hm; rw [hm]
    subst this
    exact ⟨I, .refl⟩
  · have hm' : m' = ⟨⟨m.mem.allocations.set id { a with extra := extra, data := data }⟩⟩ := by rw [← hm]
    subst hm'
    have hlt := (List.getElem?_eq_some_iff.1 ha).1
    have It := I.tree id a ha
    rw [hl] at It
    have hsz : (Alloc.size { a with extra := extra, data := data }) = a.size := by
      simp only [Alloc.size]; exact writeSubslice_length hw
    refine ⟨I.set hlt I.nodup (fun _ _ _ => Iff.rfl) ?_, MemLe.set ha rfl hsz (fun h => h) ?_⟩
    · rw [hsz]
      have := It.access hx
      rw [← hl] at this
      exact this
    · exact access_treeLe hx

theorem TInv.load {m m' : TBMem} {S ptr len align bytes} (I : TInv m S)
    (h : Memory.load m ptr len align = .ok (bytes, m')) : TInv m' S ∧ MemLe m m' := by
  rw [tb_load_eq_ok, BasicMem.load_eq_ok] at h
  obtain ⟨_, ⟨_, _, hm⟩ | ⟨hne, id, pe, a, off, extra, hp, ha, hl, h1, h2, hx, hw, hm⟩⟩ := h
  · have : m' = m := by
      obtain ⟨x⟩ := m'; obtain ⟨y⟩ := m; simp at hm; rw [hm]
    subst this
    exact ⟨I, .refl⟩
  · have hm' : m' = ⟨⟨m.mem.allocations.set id { a with extra := extra }⟩⟩ := by rw [← hm]
    subst hm'
    have hlt := (List.getElem?_eq_some_iff.1 ha).1
    have It := I.tree id a ha
    rw [hl] at It
    refine ⟨I.set hlt I.nodup (fun _ _ _ => Iff.rfl) ?_, MemLe.set ha rfl rfl (fun h => h) ?_⟩
    · have := It.access hx
      rw [← hl] at this
      exact this
    · exact access_treeLe hx

end

/-! ### Reborrowing -/

theorem initAccesses_inv {size S path off perms} : ∀ {n n' idx}, TreeInv size true n S →
    TBMem.initAccesses path off n idx perms = .ok n' → TreeInv size true n' S ∧ ∀ l, TreeLe l n n' := by
  induction perms with
  | nil =>
    intro n n' idx I h
    simp only [TBMem.initAccesses, Except.ok.injEq] at h
    subst h; exact ⟨I, fun _ => .refl⟩
  | cons p ps ih =>
    intro n n' idx I h
    simp only [TBMem.initAccesses, Res.bind_eq_ok] at h
    obtain ⟨n1, h1, h2⟩ := h
    unfold TBMem.initAccess at h1
    split at h1
    · have I1 := I.access h1
      obtain ⟨I2, hle⟩ := ih I1 h2
      exact ⟨I2, fun l => (access_treeLe (l := l) h1).trans (hle l) (fun h => h)⟩
    · simp only [Except.ok.injEq] at h1
      subst h1
      exact ih I h2

/-- What a successful reborrow does. -/
theorem reborrow_ok {m m' : TBMem} {ptr ptr' settings} {frame frame' : TBFrame}
    (h : m.reborrow ptr settings frame = .ok (ptr', frame', m')) :
    (ptr.prov = none ∧ ptr' = ptr ∧ frame' = frame ∧ m' = m) ∨
    ∃ id parent a off perms root path root', ptr.prov = some (id, parent) ∧
      m.mem.allocations[id]? = some a ∧ ptr.addr = a.addr + (off : Nat) ∧
      perms.length = a.size ∧ (∀ p ∈ perms, p ∈ settings.inside ∨ p = settings.outside) ∧
      (∀ k, k < settings.inside.length → perms[off + k]? = settings.inside[k]?) ∧
      (∀ p ∈ perms, p.matchesProtector settings.protected_ = true) ∧
      (settings.inside ≠ [] → a.live = true ∧ off + settings.inside.length ≤ a.size) ∧
      a.extra.addNode parent (.mk [] perms settings.protected_) = .ok (root, path) ∧
      TBMem.initAccesses path off root 0 settings.inside = .ok root' ∧
      m' = ⟨⟨m.mem.allocations.set id { a with extra := root' }⟩⟩ ∧
      frame' = (if settings.protected_.yes then frame ++ [(id, path)] else frame) ∧
      ptr' = { ptr with prov := some (id, path) } := by
  unfold TBMem.reborrow at h
  rw [Res.bind_eq_ok] at h
  obtain ⟨r, hr, h⟩ := h
  cases hp : ptr.prov with
  | none =>
    simp only [hp, Res.bind_eq_ok] at h
    obtain ⟨_, _, h⟩ := h
    simp only [Except.ok.injEq, Prod.mk.injEq] at h
    obtain ⟨rfl, rfl, rfl⟩ := h
    exact .inl ⟨rfl, rfl, rfl, rfl⟩
  | some ip =>
    obtain ⟨id, parent⟩ := ip
    right
    simp only [hp, Res.bind_eq_ok, index_eq_ok, unwrap_eq_ok, sizeFromBytes_eq_some, rassert_eq_ok] at h
    obtain ⟨a, ha, off, hoff, perms, hperms, _, hall, ⟨root, path⟩, hadd, root', hinit, h⟩ := h
    simp only [Except.ok.injEq, Prod.mk.injEq] at h
    obtain ⟨rfl, rfl, rfl⟩ := h
    simp only [TBMem.newPermissions] at hperms
    refine ⟨id, parent, a, off, perms, root, path, root', rfl, ha, by omega, ?_, ?_, ?_, ?_, ?_, hadd, hinit, rfl, rfl, rfl⟩
    · split at hperms
      · rw [writeSubslice_length hperms]; simp
      · simp only [Except.ok.injEq] at hperms; subst hperms; simp
    · intro p hpm
      split at hperms
      · rw [List.mem_iff_getElem?] at hpm
        obtain ⟨k, hk⟩ := hpm
        rw [writeSubslice_getElem? hperms] at hk
        split at hk
        · exact .inl (List.mem_of_getElem? hk)
        · have := List.mem_of_getElem? hk
          simp at this
          exact .inr this.2
      · simp only [Except.ok.injEq] at hperms; subst hperms
        simp at hpm; exact .inr hpm.2
    · intro k hk
      rw [if_pos (by omega)] at hperms
      rw [writeSubslice_getElem? hperms, if_pos (by omega)]
      congr 1; omega
    · intro p hpm
      rw [List.all_eq_true] at hall
      exact hall p hpm
    · intro hne
      have hlen : settings.inside.length ≠ 0 := by
        intro h; exact hne (List.length_eq_zero_iff.1 h)
      cases r with
      | none => exact absurd (BasicMem.checkPtr_eq_none.1 hr) hlen
      | some r =>
        obtain ⟨_, id', pe, a', off', _, hp', ha', hl', ho', hs'⟩ := BasicMem.checkPtr_eq_some.1 hr
        rw [hp] at hp'; cases hp'
        rw [ha] at ha'; cases ha'
        have : off' = off := by omega
        subst this
        exact ⟨hl', hs'⟩

theorem TInv.reborrow {m m' : TBMem} {S ptr ptr' settings} {frame frame' : TBFrame} (I : TInv m S)
    (h : m.reborrow ptr settings frame = .ok (ptr', frame', m'))
    (hf : ∀ p ∈ settings.inside, freshPerm p = true) (hf' : freshPerm settings.outside = true) :
    ∃ new, frame' = frame ++ new ∧ TInv m' (S ++ new) ∧ MemLe m m' := by
  rcases reborrow_ok h with ⟨_, rfl, rfl, rfl⟩ | ⟨id, parent, a, off, perms, root, path, root', hp, ha, hoff, hlen,
    hmem, _, hmatch, hlive, hadd, hinit, rfl, rfl, rfl⟩
  · exact ⟨[], by simp, by simpa using I, .refl⟩
  · have hlt := (List.getElem?_eq_some_iff.1 ha).1
    have It := I.tree id a ha
    have Ia := It.add hadd hlen hmatch (fun p hpm => by
      rcases hmem p hpm with h | rfl
      · exact hf p h
      · exact hf')
    have Ii : TreeInv a.size a.live root' (fun q => (id, q) ∈ S ∨ (q = path ∧ settings.protected_.yes = true)) ∧
        TreeLe a.live root root' := by
      by_cases hne : settings.inside = []
      · rw [hne] at hinit
        simp only [TBMem.initAccesses, Except.ok.injEq] at hinit
        subst hinit
        exact ⟨Ia, .refl⟩
      · have hl := (hlive hne).1
        rw [hl] at Ia ⊢
        obtain ⟨h1, h2⟩ := initAccesses_inv Ia hinit
        exact ⟨h1, h2 _⟩
    have hle : TreeLe a.live a.extra root' := (addNode_treeLe (l := a.live) hadd).trans Ii.2 (fun h => h)
    have hnot : (id, path) ∉ S := by
      intro hin
      obtain ⟨i, rfl, hnone, _, _⟩ := Node.addNode_ok hadd
      obtain ⟨qs, pr, hd, _⟩ := It.prot _ hin
      rw [hnone] at hd; cases hd
    by_cases hy : settings.protected_.yes = true
    · refine ⟨[(id, path)], by simp [hy], ?_, MemLe.set ha rfl rfl (fun h => h) hle⟩
      refine I.set (S' := S ++ [(id, path)]) (a' := { a with extra := root' }) hlt ?_ ?_ ?_
      · rw [List.nodup_append]
        refine ⟨I.nodup, by simp, ?_⟩
        rintro x hx y hy rfl
        simp at hy
        subst hy
        exact hnot hx
      · intro j q hj
        simp [hj]
      · refine Ii.1.congr (fun q => ?_)
        simp [hy]
    · refine ⟨[], by simp [hy], ?_, MemLe.set ha rfl rfl (fun h => h) hle⟩
      rw [List.append_nil]
      refine I.set (a' := { a with extra := root' }) hlt I.nodup (fun _ _ _ => Iff.rfl) ?_
      refine Ii.1.congr (fun q => ?_)
      simp [hy]

/-- The permissions that reborrow settings can contain. -/
theorem settings_fresh {P : Type} {ptr : Pointer P} {pty entry vt s}
    (h : ReborrowSettings.new ptr pty entry vt = .ok (some s)) :
    (∀ p ∈ s.inside, freshPerm p = true) ∧ freshPerm s.outside = true ∧
    (∀ p ∈ s.inside, p.matchesProtector s.protected_ = true) ∧ s.outside.matchesProtector s.protected_ = true := by
  unfold ReborrowSettings.new at h
  split at h
  · simp at h
  simp only at h
  split at h
  · split at h
    · simp at h
    simp only [Res.bind_eq_ok] at h
    obtain ⟨mask, hm, h⟩ := h
    simp only [Except.ok.injEq, Option.some.injEq] at h
    subst h
    simp only [List.mem_map]
    cases entry <;> refine ⟨?_, ?_, ?_, ?_⟩ <;>
      (try rintro _ ⟨b, _, rfl⟩) <;> (try cases b) <;> (try split) <;> rfl
  · rw [if_neg (by simp)] at h
    simp only [Res.bind_eq_ok] at h
    obtain ⟨mask, hm, h⟩ := h
    simp only [Except.ok.injEq, Option.some.injEq] at h
    subst h
    simp only [List.mem_map]
    cases pty with
    | ref mu p => cases mu <;> cases entry <;> refine ⟨?_, ?_, ?_, ?_⟩ <;>
        (try rintro _ ⟨b, _, rfl⟩) <;> (try cases b) <;> (try split) <;> rfl
    | box p => cases entry <;> refine ⟨?_, ?_, ?_, ?_⟩ <;>
        (try rintro _ ⟨b, _, rfl⟩) <;> (try cases b) <;> (try split) <;> rfl
    | _ => cases entry <;> refine ⟨?_, ?_, ?_, ?_⟩ <;>
        (try rintro _ ⟨b, _, rfl⟩) <;> (try cases b) <;> (try split) <;> rfl

theorem retag_ok {m m' : TBMem} {f f' : TBFrame} {ptr ptr' pty entry vt}
    (h : m.retagPtr f ptr pty entry vt = .ok (ptr', f', m')) :
    (ReborrowSettings.new ptr pty entry vt = .ok none ∧ ptr' = ptr ∧ f' = f ∧ m' = m) ∨
    ∃ s thin, ReborrowSettings.new ptr pty entry vt = .ok (some s) ∧
      m.reborrow ptr.thin s f = .ok (thin, f', m') ∧ ptr' = thin.widen ptr.metadata := by
  unfold TBMem.retagPtr at h
  rw [Res.bind_eq_ok] at h
  obtain ⟨o, ho, h⟩ := h
  cases o with
  | none =>
    simp only [Except.ok.injEq, Prod.mk.injEq] at h
    exact .inl ⟨ho, h.1.symm, h.2.1.symm, h.2.2.symm⟩
  | some s =>
    simp only [Res.bind_eq_ok] at h
    obtain ⟨⟨thin, f1, m1⟩, hr, h⟩ := h
    simp only [Except.ok.injEq, Prod.mk.injEq] at h
    obtain ⟨rfl, rfl, rfl⟩ := h
    exact .inr ⟨s, thin, ho, hr, rfl⟩

theorem TInv.retag {m m' : TBMem} {S} {f f' : TBFrame} {ptr ptr' pty entry vt} (I : TInv m S)
    (h : m.retagPtr f ptr pty entry vt = .ok (ptr', f', m')) :
    ∃ new, f' = f ++ new ∧ TInv m' (S ++ new) ∧ MemLe m m' := by
  rcases retag_ok h with ⟨_, rfl, rfl, rfl⟩ | ⟨s, thin, hs, hr, rfl⟩
  · exact ⟨[], by simp, by simpa using I, .refl⟩
  · obtain ⟨h1, h2, _⟩ := settings_fresh hs
    exact I.reborrow hr h1 h2

/-! ### End of calls -/

theorem releaseProtector_mem_ok {m m' : TBMem} {pv : TBProv} (h : m.releaseProtector pv = .ok m') :
    ∃ a root, m.mem.allocations[pv.1]? = some a ∧ TreeLe a.live a.extra root ∧
      m' = ⟨⟨m.mem.allocations.set pv.1 { a with extra := root }⟩⟩ := by
  obtain ⟨id, p⟩ := pv
  unfold TBMem.releaseProtector at h
  simp only [Res.bind_eq_ok, index_eq_ok] at h
  obtain ⟨a, ha, ⟨n1, accs⟩, h1, h⟩ := h
  refine ⟨a, ?_⟩
  split at h
  · rename_i hl
    simp only [Except.ok.injEq] at h
    subst h
    have hl : a.live = false := by simpa using hl
    exact ⟨n1, ha, by rw [hl]; exact unprotect_treeLe h1, rfl⟩
  · rw [Res.bind_eq_ok] at h
    obtain ⟨n2, h2, h⟩ := h
    simp only [Except.ok.injEq] at h
    subst h
    exact ⟨n2, ha, release_treeLe h1 h2, rfl⟩

/-- Releasing the protector of a protected reference succeeds. -/
theorem TInv.release {m : TBMem} {S pv} (I : TInv m (pv :: S)) :
    ∃ m', m.releaseProtector pv = .ok m' ∧ TInv m' S ∧ MemLe m m' := by
  obtain ⟨id, p⟩ := pv
  have hlt : id < m.mem.allocations.length := I.known (id, p) (List.mem_cons_self)
  have ha : m.mem.allocations[id]? = some m.mem.allocations[id] := List.getElem?_eq_getElem hlt
  have It := I.tree id _ ha
  generalize m.mem.allocations[id] = a at ha It
  obtain ⟨n1, accs, h1, hdead, hlive⟩ := It.release (p := p) List.mem_cons_self
  have hnd := List.nodup_cons.1 I.nodup
  have hset : ∀ (root : Node), TreeInv a.size a.live root (fun q => (id, q) ∈ (id, p) :: S ∧ q ≠ p) →
      TInv ⟨⟨m.mem.allocations.set id { a with extra := root }⟩⟩ S := by
    intro root hroot
    refine I.set (a' := { a with extra := root }) hlt hnd.2 ?_ ?_
    · intro j q hj
      simp [hj]
    · refine hroot.congr (fun q => ?_)
      constructor
      · rintro ⟨hin, hne⟩
        simpa [hne] using hin
      · intro hin
        refine ⟨List.mem_cons_of_mem _ hin, ?_⟩
        rintro rfl
        exact hnd.1 hin
  by_cases hl : a.live = true
  · obtain ⟨n2, h2, I2⟩ := hlive hl
    refine ⟨⟨⟨m.mem.allocations.set id { a with extra := n2 }⟩⟩, ?_, hset n2 I2,
      MemLe.set ha rfl rfl (fun h => h) (release_treeLe h1 h2)⟩
    simp [TBMem.releaseProtector, index, ha, h1, hl, h2]
  · have hl' : a.live = false := by simpa using hl
    refine ⟨⟨⟨m.mem.allocations.set id { a with extra := n1 }⟩⟩, ?_, hset n1 (hdead hl'),
      MemLe.set ha rfl rfl (fun h => h) (by simp only [hl']; exact unprotect_treeLe h1)⟩
    simp [TBMem.releaseProtector, index, ha, h1, hl']

/-- Ending a call succeeds. -/
theorem TInv.endCall {f : TBFrame} : ∀ {m : TBMem} {S}, TInv m (f ++ S) →
    ∃ m', TBMem.endCall m f = .ok m' ∧ TInv m' S ∧ MemLe m m' := by
  induction f with
  | nil => intro m S I; exact ⟨m, rfl, I, .refl⟩
  | cons pv f ih =>
    intro m S I
    obtain ⟨m1, h1, I1, hle1⟩ := TInv.release (S := f ++ S) I
    obtain ⟨m2, h2, I2, hle2⟩ := ih I1
    exact ⟨m2, by simp [TBMem.endCall, h1, h2], I2, hle1.trans hle2⟩

/-! ### All steps -/

theorem flatten_eraseIdx_perm {α : Type} {fs : List (List α)} {i : Nat} {f : List α} (h : fs[i]? = some f) :
    fs.flatten.Perm (f ++ (fs.eraseIdx i).flatten) := by
  induction fs generalizing i with
  | nil => simp at h
  | cons g fs ih =>
    cases i with
    | zero => simp at h; subst h; simp
    | succ i =>
      simp only [List.getElem?_cons_succ] at h
      simp only [List.flatten_cons, List.eraseIdx_cons_succ]
      refine (List.Perm.append_left g (ih h)).trans ?_
      rw [← List.append_assoc, ← List.append_assoc]
      exact List.Perm.append_right _ List.perm_append_comm

theorem flatten_set_perm {α : Type} {fs : List (List α)} {i : Nat} {f new : List α} (h : fs[i]? = some f) :
    (fs.flatten ++ new).Perm (fs.set i (f ++ new)).flatten := by
  induction fs generalizing i with
  | nil => simp at h
  | cons g fs ih =>
    cases i with
    | zero =>
      simp at h; subst h
      simp only [List.flatten_cons, List.set_cons_zero, List.append_assoc]
      exact List.Perm.append_left _ List.perm_append_comm
    | succ i =>
      simp only [List.getElem?_cons_succ] at h
      simp only [List.flatten_cons, List.set_cons_succ, List.append_assoc]
      exact List.Perm.append_left g (ih h)

section
variable [T : Target]

theorem TBStep.inv {s s' e} (h : TBStep s e s') (I : TInv s.mem s.frames.flatten) :
    TInv s'.mem s'.frames.flatten ∧ MemLe s.mem s'.mem := by
  cases h with
  | alloc h => exact I.allocate h
  | dealloc h => exact I.deallocate h
  | store h => exact I.store h
  | load h => exact I.load h
  | retag hf h =>
    obtain ⟨new, rfl, h1, h2⟩ := I.retag h
    exact ⟨h1.perm (flatten_set_perm hf), h2⟩
  | newCall =>
    refine ⟨?_, .refl⟩
    simpa [Memory.newCall] using I
  | endCall hf h =>
    obtain ⟨m', h1, h2, h3⟩ := TInv.endCall (I.perm (flatten_eraseIdx_perm hf))
    have : m' = _ := Except.ok.inj (h1.symm.trans h)
    subst this
    exact ⟨h2, h3⟩

theorem TBRun.inv {s s'} (h : TBRun s s') (I : TInv s.mem s.frames.flatten) :
    TInv s'.mem s'.frames.flatten ∧ MemLe s.mem s'.mem := by
  induction h with
  | refl => exact ⟨I, .refl⟩
  | step _ hs ih =>
    obtain ⟨I1, h1⟩ := ih
    obtain ⟨I2, h2⟩ := hs.inv I1
    exact ⟨I2, h1.trans h2⟩

theorem TBReach.inv {s} (h : TBReach s) : TInv s.mem s.frames.flatten := (TBRun.inv h tb_new).1

theorem TBRun.append {s s' s''} (h : TBRun s s') (h' : TBRun s' s'') : TBRun s s'' := by
  induction h' with
  | refl => exact h
  | step _ hs ih => exact ih.step hs

/-! ### Tree Borrows is backed by a basic memory -/

theorem SameData.refl {PE AE : Type} {m : BasicMem PE AE} : SameData m m :=
  ⟨rfl, fun i a b ha hb => by rw [ha] at hb; cases hb; simp⟩

theorem SameData.trans {PE AE : Type} {m m' m'' : BasicMem PE AE} (h : SameData m m') (h' : SameData m' m'') :
    SameData m m'' := by
  refine ⟨h.1.trans h'.1, fun i a c ha hc => ?_⟩
  have hlt : i < m'.allocations.length := by
    rw [← h.1]; exact (List.getElem?_eq_some_iff.1 ha).1
  have hb := List.getElem?_eq_getElem hlt
  have h1 := h.2 i a _ ha hb
  have h2 := h'.2 i _ c hb hc
  exact ⟨h1.1.trans h2.1, h1.2.1.trans h2.2.1, h1.2.2.1.trans h2.2.2.1, h1.2.2.2.1.trans h2.2.2.2.1,
    h1.2.2.2.2.trans h2.2.2.2.2⟩

theorem SameData.set {PE AE : Type} {m : BasicMem PE AE} {id : Nat} {a : Alloc PE AE} {x : AE}
    (ha : m.allocations[id]? = some a) : SameData m ⟨m.allocations.set id { a with extra := x }⟩ := by
  have hlt := (List.getElem?_eq_some_iff.1 ha).1
  refine ⟨by simp, fun i b c hb hc => ?_⟩
  by_cases hi : id = i
  · subst hi
    rw [ha] at hb; cases hb
    simp only [List.getElem?_set_self hlt, Option.some.injEq] at hc
    subst hc; simp
  · simp only [List.getElem?_set_ne hi] at hc
    rw [hb] at hc; cases hc; simp

theorem endCall_sameData {f : TBFrame} : ∀ {m m' : TBMem}, TBMem.endCall m f = .ok m' → SameData m.mem m'.mem := by
  induction f with
  | nil => intro m m' h; simp only [TBMem.endCall, Except.ok.injEq] at h; subst h; exact .refl
  | cons pv f ih =>
    intro m m' h
    simp only [TBMem.endCall, Res.bind_eq_ok] at h
    obtain ⟨m1, h1, h2⟩ := h
    obtain ⟨a, root, ha, _, rfl⟩ := releaseProtector_mem_ok h1
    exact (SameData.set ha).trans (ih h2)

instance : BasicBacked TBMem Path Node TBFrame where
  mem m := m.mem
  new := rfl
  allocate m kind size align pick := ⟨[], TBMem.newRoot size, by
    simp only [Memory.allocate]
    cases m.mem.allocate kind size align [] (TBMem.newRoot size) pick <;> rfl⟩
  deallocate m ptr kind size align := ⟨TBMem.deallocHandler size, by
    simp only [Memory.deallocate]
    cases m.mem.deallocate ptr kind size align (TBMem.deallocHandler size) <;> rfl⟩
  store m ptr bytes align := ⟨TBMem.accessHandler .write bytes.length, by
    simp only [Memory.store]
    cases m.mem.store ptr bytes align (TBMem.accessHandler .write bytes.length) <;> rfl⟩
  load m ptr len align := ⟨TBMem.accessHandler .read len, by
    simp only [Memory.load]
    cases m.mem.load ptr len align (TBMem.accessHandler .read len) <;> rfl⟩
  dereferenceable m ptr len := by
    show (do let _ ← m.mem.checkPtr ptr len; (.ok () : Res Unit)) = _
    cases m.mem.checkPtr ptr len <;> rfl
  retag m m' f f' ptr ptr' pty entry vt h := by
    rcases retag_ok h with ⟨_, _, _, rfl⟩ | ⟨s, thin, hs, hr, rfl⟩
    · exact .refl
    · rcases reborrow_ok hr with ⟨_, _, _, rfl⟩ | ⟨id, parent, a, off, perms, root, path, root', hp, ha, _, _,
        _, _, _, _, _, _, rfl, _, _⟩
      · exact .refl
      · exact SameData.set ha
  retagSame m m' f f' ptr ptr' pty entry vt h := by
    rcases retag_ok h with ⟨_, rfl, _, rfl⟩ | ⟨s, thin, hs, hr, rfl⟩
    · exact ⟨rfl, rfl, fun _ => .rfl⟩
    · rcases reborrow_ok hr with ⟨_, h, _, _⟩ | ⟨id, parent, a, off, perms, root, path, root', hp, ha, _, _,
        _, _, _, _, _, _, _, _, h⟩
      · rw [h]; exact ⟨rfl, rfl, fun _ => .rfl⟩
      · simp [ThinPtr.widen, ThinPtr.HasId, hp, h]
  endCall m m' f h := endCall_sameData h
  leakCheck m := rfl

end
end MiniRust
