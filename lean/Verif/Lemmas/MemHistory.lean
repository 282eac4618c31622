import Verif.Lemmas.Memory
/-
The invariant connecting a history of memory operations with the memory it results in.
-/
set_option linter.unusedSectionVars false
namespace MiniRust
variable {PE AE : Type}

/-- One operation of the basic memory, with any handler. -/
inductive BStep [T : Target] : BasicMem PE AE → MemEvent PE → BasicMem PE AE → Prop
  | alloc {m m' kind size align pe ae pick p} : m.allocate kind size align pe ae pick = .ok (p, m') →
      BStep m (.alloc kind size align p) m'
  | dealloc {m m' ptr kind size align hx} : m.deallocate ptr kind size align hx = .ok m' →
      BStep m (.dealloc ptr kind size align) m'
  | store {m m' ptr bytes align hx} : m.store ptr bytes align hx = .ok m' →
      BStep m (.store ptr bytes align) m'
  | load {m m' ptr len align bytes hx} : m.load ptr len align hx = .ok (bytes, m') →
      BStep m (.load ptr len align bytes) m'
  | bookkeeping {m m'} : SameData m m' → BStep m .bookkeeping m'

/-- The parameters of an allocation. -/
def Alloc.info (a : Alloc PE AE) : AllocInfo := ⟨a.kind, a.size, a.align, a.addr⟩

/-- The memory is what the history says. -/
structure Rep [T : Target] (h : MemHistory PE) (m : BasicMem PE AE) : Prop where
  was : ∀ (id : Nat) a, m.allocations[id]? = some a → WasAllocated h id a.info
  conv : ∀ id i, WasAllocated h id i → ∃ a, m.allocations[id]? = some a ∧ i = a.info
  live : ∀ (id : Nat) a, m.allocations[id]? = some a → (a.live = true ↔ ¬ WasDeallocated h id)
  dead : ∀ id, WasDeallocated h id → id < m.allocations.length
  bytes : ∀ (id : Nat) a (k : Nat), m.allocations[id]? = some a → k < a.size →
    a.data[k]? = some (lastStored h id (a.addr + k))
  fresh : ∀ id x, m.allocations.length ≤ id → lastStored h id x = .uninit
  place : ∀ (id : Nat) a, m.allocations[id]? = some a → 0 < a.addr ∧ Aligned a.align a.addr ∧
    a.addr + a.size < 2 ^ (8 * T.ptrSize) ∧ T.validSize a.size = true
  disjoint : ∀ (i j : Nat) a b, i ≠ j → m.allocations[i]? = some a → m.allocations[j]? = some b →
    a.live = true → b.live = true →
    a.addr ≠ b.addr ∧ (a.addr + a.size ≤ b.addr ∨ b.addr + b.size ≤ a.addr)

theorem Rep.new [T : Target] : Rep (T := T) [] (BasicMem.new : BasicMem PE AE) := by
  constructor <;> simp [BasicMem.new, WasAllocated, WasDeallocated, lastStored]

/-- Events other than allocation do not create allocations. -/
theorem wasAllocated_cons {e : MemEvent PE} {h id i} :
    WasAllocated (e :: h) id i ↔
      (∃ p, e = .alloc i.kind i.size i.align p ∧ p.HasId id ∧ p.addr = i.addr) ∨ WasAllocated h id i := by
  unfold WasAllocated
  simp only [List.mem_cons]
  constructor
  · rintro ⟨p, h1 | h1, h2, h3⟩
    · exact .inl ⟨p, h1.symm, h2, h3⟩
    · exact .inr ⟨p, h1, h2, h3⟩
  · rintro (⟨p, h1, h2, h3⟩ | ⟨p, h1, h2, h3⟩)
    · exact ⟨p, .inl h1.symm, h2, h3⟩
    · exact ⟨p, .inr h1, h2, h3⟩

theorem wasDeallocated_cons {e : MemEvent PE} {h id} :
    WasDeallocated (e :: h) id ↔
      (∃ p k s a, e = .dealloc p k s a ∧ p.HasId id) ∨ WasDeallocated h id := by
  unfold WasDeallocated
  simp only [List.mem_cons]
  constructor
  · rintro ⟨p, k, s, a, h1 | h1, h2⟩
    · exact .inl ⟨p, k, s, a, h1.symm, h2⟩
    · exact .inr ⟨p, k, s, a, h1, h2⟩
  · rintro (⟨p, k, s, a, h1, h2⟩ | ⟨p, k, s, a, h1, h2⟩)
    · exact ⟨p, k, s, a, .inl h1.symm, h2⟩
    · exact ⟨p, k, s, a, .inr h1, h2⟩

theorem Alloc.info_eq {a b : Alloc PE AE} (h : a.kind = b.kind) (h2 : a.size = b.size)
    (h3 : a.align = b.align) (h4 : a.addr = b.addr) : a.info = b.info := by
  simp [Alloc.info, *]

/-- A step that keeps the parameters and liveness of all allocations. -/
theorem Rep.quiet [T : Target] {h : MemHistory PE} {m m' : BasicMem PE AE} {e} (r : Rep h m)
    (he : ∀ k s a p, e ≠ .alloc k s a p) (hd : ∀ p k s a, e ≠ .dealloc p k s a)
    (hlen : m.allocations.length = m'.allocations.length)
    (hsame : ∀ (id : Nat) a b, m.allocations[id]? = some a → m'.allocations[id]? = some b →
      a.size = b.size ∧ a.addr = b.addr ∧ a.align = b.align ∧ a.kind = b.kind ∧ a.live = b.live)
    (hbytes : ∀ (id : Nat) b (k : Nat), m'.allocations[id]? = some b → k < b.size →
      b.data[k]? = some (lastStored (e :: h) id (b.addr + k)))
    (hfresh : ∀ id x, m.allocations.length ≤ id → lastStored (e :: h) id x = .uninit) :
    Rep (e :: h) m' := by
  have back : ∀ (id : Nat) (b : Alloc PE AE), m'.allocations[id]? = some b →
      ∃ a, m.allocations[id]? = some a ∧
        a.size = b.size ∧ a.addr = b.addr ∧ a.align = b.align ∧ a.kind = b.kind ∧ a.live = b.live := by
    intro id b hb
    have hlt : id < m.allocations.length := by
      have := (List.getElem?_eq_some_iff.1 hb).1; omega
    exact ⟨m.allocations[id], by simp [hlt], hsame id _ b (by simp [hlt]) hb⟩
  have hwas : ∀ id i, WasAllocated (e :: h) id i ↔ WasAllocated h id i := by
    intro id i
    rw [wasAllocated_cons]
    constructor
    · rintro (⟨p, h1, _⟩ | h1)
      · exact absurd h1 (he _ _ _ _)
      · exact h1
    · exact .inr
  have hdead : ∀ id, WasDeallocated (e :: h) id ↔ WasDeallocated h id := by
    intro id
    rw [wasDeallocated_cons]
    constructor
    · rintro (⟨p, k, s, a, h1, _⟩ | h1)
      · exact absurd h1 (hd _ _ _ _)
      · exact h1
    · exact .inr
  constructor
  · intro id b hb
    obtain ⟨a, ha, h1, h2, h3, h4, h5⟩ := back id b hb
    rw [hwas, ← Alloc.info_eq h4 h1 h3 h2]
    exact r.was id a ha
  · intro id i hi
    rw [hwas] at hi
    obtain ⟨a, ha, rfl⟩ := r.conv id i hi
    have hlt : id < m'.allocations.length := by
      have := (List.getElem?_eq_some_iff.1 ha).1; omega
    refine ⟨m'.allocations[id], by simp [hlt], ?_⟩
    obtain ⟨h1, h2, h3, h4, h5⟩ := hsame id a m'.allocations[id] ha (by simp [hlt])
    exact Alloc.info_eq h4 h1 h3 h2
  · intro id b hb
    obtain ⟨a, ha, h1, h2, h3, h4, h5⟩ := back id b hb
    rw [hdead, ← h5]
    exact r.live id a ha
  · intro id hi
    rw [hdead] at hi
    rw [← hlen]; exact r.dead id hi
  · exact hbytes
  · intro id x hx; exact hfresh id x (by omega)
  · intro id b hb
    obtain ⟨a, ha, h1, h2, h3, h4, h5⟩ := back id b hb
    have := r.place id a ha
    rw [h1, h2, h3] at this
    exact this
  · intro i j a b hij ha hb hla hlb
    obtain ⟨a', ha', h1, h2, h3, h4, h5⟩ := back i a ha
    obtain ⟨b', hb', g1, g2, g3, g4, g5⟩ := back j b hb
    have := r.disjoint i j a' b' hij ha' hb' (by rw [h5, hla]) (by rw [g5, hlb])
    rw [h1, h2, g1, g2] at this
    exact this

theorem lastStored_cons_other {e : MemEvent PE} {h : MemHistory PE} {id x}
    (he : ∀ p b a, e ≠ .store p b a) : lastStored (e :: h) id x = lastStored h id x := by
  cases e with
  | store p b a => exact absurd rfl (he _ _ _)
  | _ => rfl

theorem lastStored_store {p : ThinPtr (AllocId × PE)} {b : List (AByte (AllocId × PE))} {al h id x pid pe}
    (hp : p.prov = some (pid, pe)) :
    lastStored (.store p b al :: h) id x =
      if pid = id ∧ p.addr ≤ x then (b[(x - p.addr).toNat]?).getD (lastStored h id x)
      else lastStored h id x := by
  obtain ⟨addr, prov⟩ := p
  simp only at hp
  subst hp
  rfl

theorem lastStored_store_nil {p : ThinPtr (AllocId × PE)} {al h id x} :
    lastStored (PE := PE) (.store p [] al :: h) id x = lastStored h id x := by
  obtain ⟨addr, prov⟩ := p
  cases prov with
  | none => rfl
  | some ip => obtain ⟨i, e⟩ := ip; simp [lastStored]

theorem Rep.step [T : Target] {h : MemHistory PE} {m m' : BasicMem PE AE} {e} (r : Rep h m)
    (hs : BStep m e m') : Rep (e :: h) m' := by
  cases hs with
  | @alloc _ kind size align pe ae pick p hop =>
    rw [BasicMem.allocate_eq_ok] at hop
    obtain ⟨hv, hpick, rfl, rfl⟩ := hop
    rw [BasicMem.pickable_iff] at hpick
    obtain ⟨hpos, hal, hin, hno⟩ := hpick
    have hsz : (⟨List.replicate size .uninit, pick, align, kind, true, ae⟩ : Alloc PE AE).size = size := by
      simp [Alloc.size]
    have key : ∀ (id : Nat) (a : Alloc PE AE),
        (m.allocations ++ [⟨List.replicate size .uninit, pick, align, kind, true, ae⟩])[id]? = some a ↔
        m.allocations[id]? = some a ∨
        (id = m.allocations.length ∧ a = ⟨List.replicate size .uninit, pick, align, kind, true, ae⟩) := by
      intro id a
      rw [List.getElem?_append]
      split
      · constructor
        · exact .inl
        · rintro (h | h)
          · exact h
          · omega
      · rename_i hge
        rw [List.getElem?_eq_none (l := m.allocations) (by omega)]
        rw [List.getElem?_singleton]
        split
        · simp [eq_comm]; omega
        · simp; omega
    constructor
    · intro id a ha
      rw [wasAllocated_cons]
      rcases (key id a).1 ha with ha | ⟨rfl, rfl⟩
      · exact .inr (r.was id a ha)
      · left
        exact ⟨⟨pick, some (_, pe)⟩, by simp [Alloc.info, Alloc.size], ⟨pe, rfl⟩, rfl⟩
    · intro id i hi
      rw [wasAllocated_cons] at hi
      rcases hi with ⟨p, h1, h2, h3⟩ | hi
      · simp only [MemEvent.alloc.injEq] at h1
        obtain ⟨h1, h4, h5, h6⟩ := h1
        obtain ⟨x, hx⟩ := h2
        rw [← h6] at hx h3
        simp at hx h3
        refine ⟨_, (key id _).2 (.inr ⟨hx.1.symm, rfl⟩), ?_⟩
        cases i; simp_all [Alloc.info, Alloc.size]
      · obtain ⟨a, ha, hi⟩ := r.conv id i hi
        exact ⟨a, (key id a).2 (.inl ha), hi⟩
    · intro id a ha
      rw [wasDeallocated_cons]
      simp only [reduceCtorEq, false_and, exists_false, false_or]
      rcases (key id a).1 ha with ha | ⟨rfl, rfl⟩
      · exact r.live id a ha
      · simp only [true_iff]
        intro hd
        exact absurd (r.dead _ hd) (Nat.lt_irrefl _)
    · intro id hd
      rw [wasDeallocated_cons] at hd
      simp only [reduceCtorEq, false_and, exists_false, false_or] at hd
      have := r.dead id hd
      simp; omega
    · intro id a k ha hk
      rw [lastStored_cons_other (by simp)]
      rcases (key id a).1 ha with ha | ⟨rfl, rfl⟩
      · exact r.bytes id a k ha hk
      · rw [r.fresh _ _ (by omega)]
        rw [hsz] at hk
        simp [hk]
    · intro id x hx
      rw [lastStored_cons_other (by simp)]
      exact r.fresh id x (by simp at hx; omega)
    · intro id a ha
      rcases (key id a).1 ha with ha | ⟨rfl, rfl⟩
      · exact r.place id a ha
      · exact ⟨hpos, hal, by rw [hsz]; exact hin, by rw [hsz]; exact hv⟩
    · intro i j a b hij ha hb hla hlb
      rcases (key i a).1 ha with ha | ⟨rfl, rfl⟩ <;> rcases (key j b).1 hb with hb | ⟨rfl, rfl⟩
      · exact r.disjoint i j a b hij ha hb hla hlb
      · have := hno a (List.mem_of_getElem? ha) hla
        rw [hsz]; exact this
      · have := hno b (List.mem_of_getElem? hb) hlb
        rw [hsz]; exact ⟨this.1.symm, this.2.symm⟩
      · exact absurd rfl hij
  | @dealloc _ ptr kind size align hx hop =>
    rw [BasicMem.deallocate_eq_ok] at hop
    obtain ⟨did, pe, a, extra, hp, ha, hl, h1, h2, h3, h4, _, rfl⟩ := hop
    have hlt := (List.getElem?_eq_some_iff.1 ha).1
    have key : ∀ (id : Nat) (b : Alloc PE AE),
        (m.allocations.set did { a with extra := extra, live := false })[id]? = some b ↔
        (id ≠ did ∧ m.allocations[id]? = some b) ∨ (id = did ∧ b = { a with extra := extra, live := false }) := by
      intro id b
      rw [List.getElem?_set]
      split
      · rename_i he; subst he; simp [hlt, eq_comm]
      · rename_i he
        have : id ≠ did := fun hh => he hh.symm
        simp [this]
    have hsz : ({ a with extra := extra, live := false } : Alloc PE AE).size = a.size := rfl
    constructor
    · intro id b hb
      rw [wasAllocated_cons]
      right
      rcases (key id b).1 hb with ⟨-, hb⟩ | ⟨rfl, rfl⟩
      · exact r.was id b hb
      · exact r.was _ a ha
    · intro id i hi
      rw [wasAllocated_cons] at hi
      simp only [reduceCtorEq, false_and, exists_false, false_or] at hi
      obtain ⟨b, hb, rfl⟩ := r.conv id i hi
      by_cases hid : id = did
      · subst hid
        rw [ha] at hb; cases hb
        exact ⟨_, (key id _).2 (.inr ⟨rfl, rfl⟩), rfl⟩
      · exact ⟨b, (key id b).2 (.inl ⟨hid, hb⟩), rfl⟩
    · intro id b hb
      rw [wasDeallocated_cons]
      rcases (key id b).1 hb with ⟨hne, hb⟩ | ⟨rfl, rfl⟩
      · rw [r.live id b hb]
        constructor
        · rintro hn (⟨p, k, s, al, he, x, hx⟩ | hd)
          · cases he
            rw [hp] at hx
            cases hx
            exact hne rfl
          · exact hn hd
        · intro hn hd; exact hn (.inr hd)
      · simp only [Bool.false_eq_true, false_iff]
        intro hn
        exact hn (.inl ⟨ptr, kind, size, align, rfl, pe, hp⟩)
    · intro id hd
      rw [wasDeallocated_cons] at hd
      simp only [List.length_set]
      rcases hd with ⟨p, k, s, al, he, x, hx⟩ | hd
      · cases he
        rw [hp] at hx; cases hx
        exact hlt
      · exact r.dead id hd
    · intro id b k hb hk
      rw [lastStored_cons_other (by simp)]
      rcases (key id b).1 hb with ⟨hne, hb⟩ | ⟨rfl, rfl⟩
      · exact r.bytes id b k hb hk
      · exact r.bytes _ a k ha hk
    · intro id x hx
      rw [lastStored_cons_other (by simp)]
      exact r.fresh id x (by simpa using hx)
    · intro id b hb
      rcases (key id b).1 hb with ⟨hne, hb⟩ | ⟨rfl, rfl⟩
      · exact r.place id b hb
      · exact r.place _ a ha
    · intro i j b c hij hb hc hlb hlc
      rcases (key i b).1 hb with ⟨_, hb⟩ | ⟨rfl, rfl⟩ <;> rcases (key j c).1 hc with ⟨_, hc⟩ | ⟨rfl, rfl⟩
      · exact r.disjoint i j b c hij hb hc hlb hlc
      · simp at hlc
      · simp at hlb
      · simp at hlb
  | @store _ ptr bytes align hx hop =>
    rw [BasicMem.store_eq_ok] at hop
    obtain ⟨hal, ⟨rfl, rfl⟩ | ⟨hne, sid, pe, a, off, extra, data, hp, ha, hl, hoff, hfit, _, hw, rfl⟩⟩ := hop
    · refine r.quiet (by simp) (by simp) rfl ?_ ?_ ?_
      · intro id a b ha hb
        rw [ha] at hb; cases hb; simp
      · intro id b k hb hk
        rw [lastStored_store_nil]; exact r.bytes id b k hb hk
      · intro id x hx
        rw [lastStored_store_nil]; exact r.fresh id x hx
    · have hlt := (List.getElem?_eq_some_iff.1 ha).1
      have hdl := writeSubslice_length hw
      have key : ∀ (id : Nat) (b : Alloc PE AE),
          (m.allocations.set sid { a with extra := extra, data := data })[id]? = some b ↔
          (id ≠ sid ∧ m.allocations[id]? = some b) ∨ (id = sid ∧ b = { a with extra := extra, data := data }) := by
        intro id b
        rw [List.getElem?_set]
        split
        · rename_i he; subst he; simp [hlt, eq_comm]
        · rename_i he
          have : id ≠ sid := fun hh => he hh.symm
          simp [this]
      refine r.quiet (by simp) (by simp) (by simp) ?_ ?_ ?_
      · intro id c b hc hb
        rcases (key id b).1 hb with ⟨_, hb⟩ | ⟨rfl, rfl⟩
        · rw [hc] at hb; cases hb; simp
        · rw [ha] at hc; cases hc; simp [Alloc.size, hdl]
      · intro id b k hb hk
        rw [lastStored_store hp]
        rcases (key id b).1 hb with ⟨hid, hb⟩ | ⟨rfl, rfl⟩
        · rw [if_neg (by intro hh; exact hid hh.1.symm)]
          exact r.bytes id b k hb hk
        · simp only [true_and]
          simp only [Alloc.size] at hk
          rw [writeSubslice_getElem? hw]
          have hb' := r.bytes id a k ha (by simp only [Alloc.size]; omega)
          rw [hoff]
          by_cases hk1 : off ≤ k
          · rw [if_pos (show a.addr + (off : Int) ≤ a.addr + (k : Int) by omega)]
            have hx : (a.addr + (k : Int) - (a.addr + (off : Int))).toNat = k - off := by omega
            rw [hx]
            by_cases hk2 : k < off + bytes.length
            · rw [if_pos ⟨hk1, hk2⟩]
              have : k - off < bytes.length := by omega
              simp [this]
            · rw [if_neg (by omega), List.getElem?_eq_none (l := bytes) (by omega)]
              simpa using hb'
          · rw [if_neg (by omega), if_neg (by omega)]
            exact hb'
      · intro id x hx
        rw [lastStored_store hp, if_neg (by rintro ⟨rfl, _⟩; omega)]
        exact r.fresh id x hx
  | @load _ ptr len align bytes hx hop =>
    rw [BasicMem.load_eq_ok] at hop
    obtain ⟨hal, ⟨rfl, rfl, rfl⟩ | ⟨hne, sid, pe, a, off, extra, hp, ha, hl, hoff, hfit, _, rfl, rfl⟩⟩ := hop
    · refine r.quiet (by simp) (by simp) rfl ?_ ?_ ?_
      · intro id a b ha hb
        rw [ha] at hb; cases hb; simp
      · intro id b k hb hk
        rw [lastStored_cons_other (by simp)]; exact r.bytes id b k hb hk
      · intro id x hx
        rw [lastStored_cons_other (by simp)]; exact r.fresh id x hx
    · have hlt := (List.getElem?_eq_some_iff.1 ha).1
      have key : ∀ (id : Nat) (b : Alloc PE AE),
          (m.allocations.set sid { a with extra := extra })[id]? = some b ↔
          (id ≠ sid ∧ m.allocations[id]? = some b) ∨ (id = sid ∧ b = { a with extra := extra }) := by
        intro id b
        rw [List.getElem?_set]
        split
        · rename_i he; subst he; simp [hlt, eq_comm]
        · rename_i he
          have : id ≠ sid := fun hh => he hh.symm
          simp [this]
      refine r.quiet (by simp) (by simp) (by simp) ?_ ?_ ?_
      · intro id c b hc hb
        rcases (key id b).1 hb with ⟨_, hb⟩ | ⟨rfl, rfl⟩
        · rw [hc] at hb; cases hb; simp
        · rw [ha] at hc; cases hc; simp [Alloc.size]
      · intro id b k hb hk
        rw [lastStored_cons_other (by simp)]
        rcases (key id b).1 hb with ⟨_, hb⟩ | ⟨rfl, rfl⟩
        · exact r.bytes id b k hb hk
        · exact r.bytes _ a k ha hk
      · intro id x hx
        rw [lastStored_cons_other (by simp)]; exact r.fresh id x hx
  | bookkeeping hsd =>
    obtain ⟨hlen, hsd⟩ := hsd
    refine r.quiet (by simp) (by simp) hlen ?_ ?_ ?_
    · intro id a b ha hb
      obtain ⟨h1, h2, h3, h4, h5⟩ := hsd id a b ha hb
      exact ⟨by simp [Alloc.size, h1], h2, h3, h4, h5⟩
    · intro id b k hb hk
      rw [lastStored_cons_other (by simp)]
      have hlt : id < m.allocations.length := by
        have := (List.getElem?_eq_some_iff.1 hb).1; omega
      obtain ⟨h1, h2, h3, h4, h5⟩ := hsd id m.allocations[id] b (by simp [hlt]) hb
      have := r.bytes id m.allocations[id] k (by simp [hlt]) (by simp only [Alloc.size] at *; rw [h1]; exact hk)
      rw [← h1, ← h2]; exact this
    · intro id x hx
      rw [lastStored_cons_other (by simp)]; exact r.fresh id x hx

/-! ### Memory models backed by a basic memory -/

section
variable {M F : Type} [T : Target] [Memory M (AllocId × PE) F] [B : BasicBacked M PE AE F]

theorem Res.map_eq_ok {α β : Type} {x : Res α} {f : α → β} {b : β} :
    f <$> x = .ok b ↔ ∃ a, x = .ok a ∧ f a = b := by
  cases x <;> simp

theorem Res.map_eq_error {α β : Type} {x : Res α} {f : α → β} {e : Err} :
    f <$> x = .error e ↔ x = .error e := by
  cases x <;> simp

theorem MemStep.toBStep {m m' : M} {e : MemEvent PE} (h : MemStep m e m') :
    BStep (B.mem m) e (B.mem m') := by
  cases h with
  | alloc h =>
    rename_i k s a pick p
    obtain ⟨pe, ae, he⟩ := B.allocate m k s a pick
    rw [h] at he
    exact .alloc he.symm
  | dealloc h =>
    rename_i p k s a
    obtain ⟨hx, he⟩ := B.deallocate m p k s a
    rw [h] at he
    exact .dealloc he.symm
  | store h =>
    rename_i p b a
    obtain ⟨hx, he⟩ := B.store m p b a
    rw [h] at he
    exact .store he.symm
  | load h =>
    rename_i p l a b
    obtain ⟨hx, he⟩ := B.load m p l a
    rw [h] at he
    exact .load he.symm
  | retag h => exact .bookkeeping (B.retag _ _ _ _ _ _ _ _ _ h)
  | endCall h => exact .bookkeeping (B.endCall _ _ _ h)

theorem MemRun.rep {m0 m : M} {h h0 : MemHistory PE} (hr : MemRun m0 h m) (h0r : Rep h0 (B.mem m0)) :
    Rep (h ++ h0) (B.mem m) := by
  induction hr with
  | nil => exact h0r
  | cons _ hs ih => exact ih.step hs.toBStep

theorem MemReach.rep {m : M} {h : MemHistory PE} (hr : MemReach h m) : Rep h (B.mem m) := by
  have := MemRun.rep (h0 := []) hr (by rw [B.new]; exact Rep.new)
  simpa using this

theorem MemRun.append {m0 m1 m2 : M} {h h' : MemHistory PE} (h1 : MemRun m0 h m1) (h2 : MemRun m1 h' m2) :
    MemRun m0 (h' ++ h) m2 := by
  induction h2 with
  | nil => exact h1
  | cons _ hs ih => exact .cons ih hs

end
end MiniRust
