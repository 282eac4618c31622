import Verif.Lemmas.TBKnownMem
/-
Stores through pointers to whole allocations that nothing was borrowed from never violate the aliasing rules.
-/
set_option linter.unusedSectionVars false
namespace MiniRust
namespace TB
variable [T : Target]
variable {pd pd' pd1 pd2 : List TBFrame} {s s' s1 s2 : Mach} {α β : Type}

/-- The pointer denotes the root of a tree without other nodes and with the initial permissions. -/
def Fresh (m : TBMem) (p : ThinPtr TBProv) : Prop :=
  ∃ id size, p.prov = some (id, []) ∧ m.tree? id = some (TBMem.newRoot size)

/-- No tree changed. -/
def Trees (m m' : TBMem) : Prop := ∀ id n, m.tree? id = some n → m'.tree? id = some n

theorem Fresh.mono {m m' : TBMem} {p} (h : Trees m m') (hp : Fresh m p) : Fresh m' p := by
  obtain ⟨id, n, h1, h2⟩ := hp
  exact ⟨id, n, h1, h _ _ h2⟩

theorem Fresh.pk {m : TBMem} {p} (hp : Fresh m p) : PK m p := by
  obtain ⟨id, n, h1, h2⟩ := hp
  intro q hq
  rw [h1] at hq; cases hq
  exact ⟨_, h2, rfl⟩

theorem Trees.refl {m : TBMem} : Trees m m := fun _ _ h => h
theorem Trees.trans {m m' m'' : TBMem} (h : Trees m m') (h' : Trees m' m'') : Trees m m'' := fun _ _ hn => h' _ _ (h _ _ hn)

theorem tree?_eq {m : TBMem} {id : AllocId} {n} : m.tree? id = some n ↔ ∃ a, m.mem.allocations[id]? = some a ∧ a.extra = n := by
  unfold TBMem.tree?; rw [Option.map_eq_some_iff]

/-- Only the rest of one allocation changed. -/
theorem Trees.set {m m' : TBMem} {id : Nat} {a b : Alloc Path Node} (ha : m.mem.allocations[id]? = some a)
    (he : b.extra = a.extra) (hm : m'.mem.allocations = m.mem.allocations.set id b) : Trees m m' := by
  intro i n hi
  obtain ⟨x, hx, rfl⟩ := tree?_eq.1 hi
  rw [tree?_eq, hm, List.getElem?_set]
  split
  · rename_i e; subst e
    rw [if_pos (List.getElem?_eq_some_iff.1 ha).1]
    rw [ha] at hx; cases hx
    exact ⟨b, rfl, he⟩
  · exact ⟨x, hx, rfl⟩

theorem transitionLoop_newRoot {kind : AccessKind} {size : Nat} : ∀ (len off : Nat), off + len ≤ size →
    Node.transitionLoop .localNode kind (List.replicate size (.unprot .unique)) off len =
      .ok (List.replicate size (.unprot .unique))
  | 0, off, h => by simp [Node.transitionLoop]
  | len + 1, off, h => by
    have h1 : (List.replicate size (Permission.unprot .unique))[off]? = some (.unprot .unique) := by
      rw [List.getElem?_replicate, if_pos (by omega)]
    have h2 : Permission.transition (.unprot .unique) kind .localNode = .ok (.unprot .unique) := by cases kind <;> rfl
    have h3 : (List.replicate size (Permission.unprot .unique)).set off (.unprot .unique) = List.replicate size (.unprot .unique) := by
      apply List.ext_getElem? 
      intro i
      rw [List.getElem?_set]
      split
      · rename_i e; subst e; rw [h1, if_pos (by simp; omega)]
      · rfl
    have ih := transitionLoop_newRoot (kind := kind) (size := size) len (off + 1) (by omega)
    simp only [Node.transitionLoop, index, h1, unwrap, Res.bind_ok, h2, h3, ih]

theorem newRoot_access {kind : AccessKind} {size off len : Nat} (h : off + len ≤ size) :
    (TBMem.newRoot size).access (some []) kind off len = .ok (TBMem.newRoot size) := by
  unfold TBMem.newRoot
  have : Node.relation (some []) = .localNode := rfl
  simp only [Node.access, this, transitionLoop_newRoot len off h, Res.bind_ok, Node.accessL]

/-- The handlers do not fail for such an allocation. -/
theorem newRoot_handler {m : TBMem} {S} (I : TInv m S) {id : AllocId} {a : Alloc Path Node} {size} (ha : m.mem.allocations[id]? = some a)
    (hr : a.extra = TBMem.newRoot size) : a.size = size := by
  have := I.len ha (q := []) (ps := List.replicate size (.unprot .unique)) (pr := .no) (by rw [hr]; rfl)
  simpa using this.symm

theorem store_congr {PE AE : Type} {m : BasicMem PE AE} {ptr : ThinPtr (AllocId × PE)} {bytes align} {h1 h2 : AE → PE → Nat → Res AE}
    (h : ∀ id pe a off, ptr.prov = some (id, pe) → m.allocations[id]? = some a → off + bytes.length ≤ a.size →
      h1 a.extra pe off = h2 a.extra pe off) : m.store ptr bytes align h1 = m.store ptr bytes align h2 := by
  unfold BasicMem.store
  split
  · rfl
  · unfold BasicMem.checkPtr
    split
    · rfl
    · cases hp : ptr.prov with
      | none => rfl
      | some q =>
        obtain ⟨id, pe⟩ := q
        simp only [index]
        cases ha : m.allocations[id]? with
        | none => rfl
        | some a =>
          simp only [unwrap, Res.bind_ok]
          split
          · rfl
          · split
            · rfl
            · rename_i hoff
              cases ho : sizeFromBytes (ptr.addr - a.addr) with
              | none => rfl
              | some off =>
                simp only [unwrap, Res.bind_ok, ha]
                rw [sizeFromBytes_eq_some] at ho
                rw [h id pe a off hp ha (by omega)]

theorem fresh_store {m : TBMem} {S} (I : TInv m S) {p : ThinPtr TBProv} (hp : Fresh m p) {bs align} :
    TBMem.lax.store m p bs align = TBMem.real.store m p bs align := by
  obtain ⟨id, size, h1, h2⟩ := hp
  obtain ⟨a, ha, hr⟩ := tree?_eq.1 h2
  have := store_congr (m := m.mem) (ptr := p) (bytes := bs) (align := align)
    (h1 := fun n q o => orElse (TBMem.accessHandler .write bs.length n q o) n) (h2 := TBMem.accessHandler .write bs.length) (by
      intro id' pe a' off hp' ha' hoff
      rw [h1] at hp'; cases hp'
      rw [ha] at ha'; cases ha'
      have hsz := newRoot_handler I ha hr
      have : TBMem.accessHandler .write bs.length a.extra [] off = .ok (TBMem.newRoot size) := by
        unfold TBMem.accessHandler
        rw [hr]
        exact newRoot_access (by omega)
      rw [this]; rfl)
  show (do let mem ← m.mem.store p bs align _; Except.ok (⟨mem⟩ : TBMem)) = (do let mem ← m.mem.store p bs align _; Except.ok (⟨mem⟩ : TBMem))
  rw [this]

theorem fresh_store_trees {m m' : TBMem} {S} (I : TInv m S) {p : ThinPtr TBProv} (hp : Fresh m p) {bs align}
    (h : TBMem.real.store m p bs align = .ok m') : Trees m m' := by
  obtain ⟨id, size, h1, h2⟩ := hp
  obtain ⟨a, ha, hr⟩ := tree?_eq.1 h2
  have h := tb_store_eq_ok.1 h
  rw [BasicMem.store_eq_ok] at h
  obtain ⟨_, ⟨_, e2⟩ | ⟨_, id', pe, a', off, extra, data, hpr, ha', hl', h3, h4, hx, hw, e2⟩⟩ := h
  · intro i n hi
    unfold TBMem.tree? at hi ⊢
    rw [e2]; exact hi
  · rw [h1] at hpr; cases hpr
    rw [ha] at ha'; cases ha'
    have hsz := newRoot_handler I ha hr
    have hx' : extra = a.extra := by
      unfold TBMem.accessHandler at hx
      rw [hr, newRoot_access (by omega)] at hx
      rw [hr]; exact (Except.ok.inj hx).symm
    exact Trees.set ha (b := { a with extra := extra, data := data }) hx' (by rw [e2])

theorem fresh_dealloc_trees {m m' : TBMem} {S} (I : TInv m S) {p : ThinPtr TBProv} (hp : Fresh m p) {k n al}
    (h : TBMem.real.deallocate m p k n al = .ok m') : Trees m m' := by
  obtain ⟨id, size, h1, h2⟩ := hp
  obtain ⟨a, ha, hr⟩ := tree?_eq.1 h2
  have h := tb_deallocate_eq_ok.1 h
  rw [BasicMem.deallocate_eq_ok] at h
  obtain ⟨id', pe, a', extra, hpr, ha', hl', h3, h4, h5, h6, hx, e2⟩ := h
  rw [h1] at hpr; cases hpr
  rw [ha] at ha'; cases ha'
  have hsz := newRoot_handler I ha hr
  have hx' : extra = a.extra := by
    unfold TBMem.deallocHandler at hx
    rw [hr, newRoot_access (by omega)] at hx
    simp only [Res.bind_ok] at hx
    split at hx
    · cases hx
    · rw [hr]; exact (Except.ok.inj hx).symm
  exact Trees.set ha (b := { a with extra := extra, live := false }) hx' (by rw [e2])

theorem alloc_trees {m m' : TBMem} {k n al pick p} (h : TBMem.real.allocate m k n al pick = .ok (p, m')) :
    Trees m m' ∧ Fresh m' p := by
  have h := tb_allocate_eq_ok.1 h
  rw [BasicMem.allocate_eq_ok] at h
  obtain ⟨_, _, rfl, e2⟩ := h
  constructor
  · intro i n hi
    obtain ⟨x, hx, rfl⟩ := tree?_eq.1 hi
    rw [tree?_eq, e2]
    exact ⟨x, by rw [List.getElem?_append_left (List.getElem?_eq_some_iff.1 hx).1]; exact hx, rfl⟩
  · refine ⟨_, n, rfl, ?_⟩
    rw [tree?_eq, e2]
    exact ⟨_, List.getElem?_concat_length, rfl⟩

/-! ### In the logic -/

theorem Kt.and {R Q : α → Mach → Prop} {x : Inst → EM TBMem TBProv TBFrame α} (h : Kt pd pd' s x R)
    (hQ : Wf pd s → ∀ a s', x instMemoryTBMemTBProvTBFrameOfTarget s = .ok (a, s') → Q a s') :
    Kt pd pd' s x (fun a s' => R a s' ∧ Q a s') :=
  fun hs => ⟨(h hs).1, fun a s' h' => ⟨((h hs).2 a s' h').1, ((h hs).2 a s' h').2, hQ hs a s' h'⟩⟩

theorem Kt.memAllocateFresh {kind size align} :
    Kt pd pd s (fun _ => MiniRust.memAllocate kind size align) (fun p s' => (PK s'.mem.memory p ∧ s'.threads = s.threads ∧ s'.activeThread = s.activeThread) ∧
      Trees s.mem.memory s'.mem.memory ∧ Fresh s'.mem.memory p ∧ s'.globalPtrs = s.globalPtrs) := by
  refine .and .memAllocate fun _ p s' h => ?_
  unfold MiniRust.memAllocate at h
  obtain ⟨pick, s1, h1, h⟩ := EM.bind_eq_ok.1 h
  obtain ⟨rest, _, rfl⟩ := EM.popInt_eq_ok.1 h1
  simp only [Res.bind_eq_ok, Prod.exists, Except.ok.injEq, Prod.mk.injEq] at h
  obtain ⟨p', m, hm, rfl, rfl⟩ := h
  simp only [ConcMem.allocate, Res.bind_eq_ok, Prod.exists, Except.ok.injEq, Prod.mk.injEq] at hm
  obtain ⟨p'', mm, hl, rfl, rfl⟩ := hm
  obtain ⟨h2, h3⟩ := alloc_trees hl
  exact ⟨h2, h3, rfl⟩

theorem Kt.memDeallocateFresh {ptr : ThinPtr TBProv} {kind size align} (hp : Fresh s.mem.memory ptr) :
    Kt pd pd s (fun _ => MiniRust.memDeallocate ptr kind size align) (fun _ s' => s' = { s with mem := s'.mem } ∧ Trees s.mem.memory s'.mem.memory) := by
  refine .and (.memDeallocate hp.pk) fun hs p s' h => ?_
  unfold MiniRust.memDeallocate at h
  simp only [Res.bind_eq_ok, Except.ok.injEq, Prod.mk.injEq, true_and] at h
  obtain ⟨m, hm, rfl⟩ := h
  simp only [ConcMem.deallocate, Res.bind_eq_ok, Except.ok.injEq] at hm
  obtain ⟨mm, hl, rfl⟩ := hm
  obtain ⟨S, I⟩ := hs.inv
  exact fresh_dealloc_trees I hp hl

theorem memStore_fresh_same (hs : Wf pd s) {ptr : ThinPtr TBProv} {bs align at'} (hp : Fresh s.mem.memory ptr) :
    (letI : Inst := TBMem.guarded; memStore ptr bs align at' s) = memStore ptr bs align at' s ∧
    (letI : Inst := TBMem.lax; memStore ptr bs align at' s) = memStore ptr bs align at' s := by
  refine ⟨rfl, ?_⟩
  obtain ⟨S, I⟩ := hs.inv
  have := fresh_store I hp (bs := bs) (align := align)
  unfold memStore ConcMem.store
  show (do let mem ← (do let mem ← TBMem.lax.store s.mem.memory ptr bs align; _); _) = (do let mem ← (do let mem ← TBMem.real.store s.mem.memory ptr bs align; _); _)
  rw [this]

theorem Kt.memStoreFresh {ptr : ThinPtr TBProv} {bs align at'} (hp : Fresh s.mem.memory ptr) (hb : BK s.mem.memory bs) :
    Kt pd pd s (fun _ => EM.unwrapRes (MiniRust.memStore ptr bs align at'))
      (fun _ s' => s' = { s with mem := s'.mem } ∧ Trees s.mem.memory s'.mem.memory) := by
  refine .unwrapRes (.and (.memStore hp.pk hb) fun hs u s' h => ?_) fun hs => memStore_fresh_same hs hp
  obtain ⟨m, hm, rfl⟩ := memStore_eq_ok.1 h
  obtain ⟨mm, hl, rfl⟩ := ConcMem.store_eq_ok.1 hm
  obtain ⟨S, I⟩ := hs.inv
  exact fresh_store_trees I hp hl

theorem Kt.typedStoreFresh {ptr : ThinPtr TBProv} {v ty align at'} (hp : Fresh s.mem.memory ptr) (hv : VK s.mem.memory v) :
    Kt pd pd s (fun _ => EM.unwrapRes (MiniRust.typedStore ptr v ty align at'))
      (fun _ s' => s' = { s with mem := s'.mem } ∧ Trees s.mem.memory s'.mem.memory) := by
  refine .unwrapRes (.and (.typedStore hp.pk hv) fun hs u s' h => ?_) fun hs => ?_
  · unfold MiniRust.typedStore at h
    obtain ⟨bs, s1, h1, h'⟩ := EM.bind_eq_ok.1 h
    clear h
    obtain ⟨_, rfl⟩ := EM.read_eq_ok.1 h1
    obtain ⟨m, hm, rfl⟩ := memStore_eq_ok.1 h'
    obtain ⟨mm, hl, rfl⟩ := ConcMem.store_eq_ok.1 hm
    obtain ⟨S, I⟩ := hs.inv
    exact fresh_store_trees I hp hl
  · unfold MiniRust.typedStore
    cases hb : s.encodeChecked ty v with
    | error e =>
      have h1 : (letI : Inst := TBMem.guarded; s.encodeChecked ty v) = .error e := hb
      have h2 : (letI : Inst := TBMem.lax; s.encodeChecked ty v) = .error e := hb
      rw [bind_error (read_error (f := fun s : Mach => s.encodeChecked ty v) hb)]
      exact ⟨bind_error (read_error h1), bind_error (read_error h2)⟩
    | ok bs =>
      have h1 : (letI : Inst := TBMem.guarded; s.encodeChecked ty v) = .ok bs := hb
      have h2 : (letI : Inst := TBMem.lax; s.encodeChecked ty v) = .ok bs := hb
      obtain ⟨h3, h4⟩ := memStore_fresh_same hs hp (bs := bs) (align := align) (at' := at')
      rw [bind_ok (read_ok (f := fun s : Mach => s.encodeChecked ty v) hb)]
      exact ⟨(bind_ok (read_ok h1)).trans h3, (bind_ok (read_ok h2)).trans h4⟩

end TB
end MiniRust
