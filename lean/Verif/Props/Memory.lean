import Verif.Lemmas.MemHistory
/-
Properties C16-C21: the memory model. Histories, liveness and `lastStored` are defined in
`Verif/Spec/Memory.lean` without reference to the memory state. Theorems about an arbitrary
`BasicBacked` memory hold for both memory models of the specification (the basic one and Tree Borrows).
-/
set_option linter.unusedSectionVars false
namespace MiniRust

/-- The basic memory model is backed by a basic memory: itself. -/
instance [T : Target] : BasicBacked (BasicMem Unit Unit) Unit Unit Unit where
  mem m := m
  new := rfl
  allocate m kind size align pick := ⟨(), (), by
    show (fun r => (r.1, r.2)) <$> m.allocate kind size align () () pick = _
    cases m.allocate kind size align () () pick <;> rfl⟩
  deallocate m ptr kind size align := ⟨fun _ _ => .ok (), by
    show (fun r => r) <$> m.deallocate ptr kind size align _ = _
    cases m.deallocate ptr kind size align (fun _ _ => .ok ()) <;> rfl⟩
  store m ptr bytes align := ⟨fun _ _ _ => .ok (), by
    show (fun r => r) <$> m.store ptr bytes align _ = _
    cases m.store ptr bytes align (fun _ _ _ => .ok ()) <;> rfl⟩
  load m ptr len align := ⟨fun _ _ _ => .ok (), by
    show (fun r => (r.1, r.2)) <$> m.load ptr len align _ = _
    cases m.load ptr len align (fun _ _ _ => .ok ()) <;> rfl⟩
  dereferenceable m ptr len := by
    show (do let _ ← m.checkPtr ptr len; (.ok () : Res Unit)) = _
    cases m.checkPtr ptr len <;> rfl
  retag m m' f f' ptr ptr' pty entry vt h := by
    simp only [Memory.retagPtr, Except.ok.injEq, Prod.mk.injEq] at h
    rw [h.2.2]
    exact ⟨rfl, fun i a b ha hb => by rw [ha] at hb; cases hb; simp⟩
  retagSame m m' f f' ptr ptr' pty entry vt h := by
    simp only [Memory.retagPtr, Except.ok.injEq, Prod.mk.injEq] at h
    rw [h.1]
    exact ⟨rfl, rfl, fun _ => .rfl⟩
  endCall m m' f h := by
    simp only [Memory.endCall, Except.ok.injEq] at h
    rw [h]
    exact ⟨rfl, fun i a b ha hb => by rw [ha] at hb; cases hb; simp⟩
  leakCheck m := rfl

section
variable {M PE AE F : Type} [T : Target] [Memory M (AllocId × PE) F] [B : BasicBacked M PE AE F]
include B

/-! ### Auxiliary: from histories to the memory and back -/

theorem live_iff {h : MemHistory PE} {m : M} (hr : MemReach h m) {id i} :
    LiveIn h id i ↔ ∃ a, (B.mem m).allocations[id]? = some a ∧ a.live = true ∧ i = a.info := by
  have r := hr.rep
  constructor
  · rintro ⟨h1, h2⟩
    obtain ⟨a, ha, hi⟩ := r.conv id i h1
    exact ⟨a, ha, (r.live id a ha).2 h2, hi⟩
  · rintro ⟨a, ha, hl, rfl⟩
    exact ⟨r.was id a ha, (r.live id a ha).1 hl⟩

theorem fits_iff {h : MemHistory PE} {m : M} (hr : MemReach h m) {p n} :
    (B.mem m).Fits p n ↔ Accessible h p n := by
  constructor
  · rintro ⟨id, pe, a, off, hp, ha, hl, h1, h2⟩
    refine ⟨id, a.info, ⟨pe, hp⟩, (live_iff hr).2 ⟨a, ha, hl, rfl⟩, ?_, ?_⟩
    · simp only [Alloc.info]; omega
    · simp only [Alloc.info]; omega
  · rintro ⟨id, i, ⟨pe, hp⟩, hl, h1, h2⟩
    obtain ⟨a, ha, hlv, rfl⟩ := (live_iff hr).1 hl
    simp only [Alloc.info] at h1 h2
    exact ⟨id, pe, a, (p.addr - a.addr).toNat, hp, ha, hlv, by omega, by omega⟩

theorem genuine_known {h : MemHistory PE} {m : M} (hr : MemReach h m) {p} (hg : Genuine h p) :
    (B.mem m).KnownId p := by
  intro id pe hp
  obtain ⟨i, hi⟩ := hg id ⟨pe, hp⟩
  obtain ⟨a, ha, _⟩ := hr.rep.conv id i hi
  exact (List.getElem?_eq_some_iff.1 ha).1

/-! ### C16: live allocations are disjoint, aligned and in the address space -/

/-- After any history, every allocation is at a positive, suitably aligned address, and its end is
inside the address space. -/
theorem C16_placement {h : MemHistory PE} {m : M} (hr : MemReach h m) {id i}
    (hl : LiveIn h id i) :
    0 < i.addr ∧ Aligned i.align i.addr ∧ i.addr + i.size < 2 ^ (8 * T.ptrSize) ∧
      T.validSize i.size = true := by
  obtain ⟨a, ha, _, rfl⟩ := (live_iff hr).1 hl
  exact hr.rep.place id a ha

/-- After any history, two distinct live allocations have different addresses and share no address. -/
theorem C16_disjoint {h : MemHistory PE} {m : M} (hr : MemReach h m) {id id' i i'}
    (hne : id ≠ id') (hl : LiveIn h id i) (hl' : LiveIn h id' i') :
    i.addr ≠ i'.addr ∧
    ∀ x, ¬ ((i.addr ≤ x ∧ x < i.addr + i.size) ∧ (i'.addr ≤ x ∧ x < i'.addr + i'.size)) := by
  obtain ⟨a, ha, hla, rfl⟩ := (live_iff hr).1 hl
  obtain ⟨b, hb, hlb, rfl⟩ := (live_iff hr).1 hl'
  have := hr.rep.disjoint id id' a b hne ha hb hla hlb
  refine ⟨this.1, ?_⟩
  intro x
  simp only [Alloc.info]
  omega

/-- The identity of a new allocation was never used before in the history, not even by an allocation
that is dead by now. -/
theorem C16_fresh_identity {h : MemHistory PE} {m : M} {kind size align p}
    (hr : MemReach (.alloc kind size align p :: h) m) :
    ∃ id, p.HasId id ∧ ∀ i, ¬ WasAllocated h id i := by
  cases hr with
  | cons hrun hs =>
    have r := MemReach.rep (B := B) hrun
    cases hs.toBStep (B := B) with
    | alloc hop =>
      rw [BasicMem.allocate_eq_ok] at hop
      obtain ⟨_, _, rfl, _⟩ := hop
      refine ⟨_, ⟨_, rfl⟩, fun i hi => ?_⟩
      obtain ⟨a, ha, _⟩ := r.conv _ i hi
      exact absurd (List.getElem?_eq_some_iff.1 ha).1 (Nat.lt_irrefl _)

end

section
attribute [local instance] x86_64

/-- A history with a heap and a stack allocation, a store, a load, and the heap memory freed. -/
def Ex.memHistory : MemHistory Unit :=
  [.dealloc ⟨16, some (0, ())⟩ .heap 8 ⟨3⟩,
   .load ⟨17, some (0, ())⟩ 2 ⟨0⟩ [.init 7 none, .uninit],
   .store ⟨17, some (0, ())⟩ [.init 7 none] ⟨0⟩,
   .alloc .stack 4 ⟨2⟩ ⟨24, some (1, ())⟩,
   .alloc .heap 8 ⟨3⟩ ⟨16, some (0, ())⟩]

/-- The memory after that history. -/
def Ex.memFinal : BasicMem Unit Unit :=
  ⟨[⟨[.uninit, .init 7 none, .uninit, .uninit, .uninit, .uninit, .uninit, .uninit], 16, ⟨3⟩, .heap, false, ()⟩,
    ⟨[.uninit, .uninit, .uninit, .uninit], 24, ⟨2⟩, .stack, true, ()⟩]⟩

theorem Ex.memHistory_reach : MemReach Ex.memHistory Ex.memFinal := by
  refine .cons (.cons (.cons (.cons (.cons .nil (.alloc (pick := 16) (by rfl)))
    (.alloc (pick := 24) (by rfl))) (.store (by rfl))) (.load (by rfl))) (.dealloc (by rfl))

example : LiveIn Ex.memHistory 1 ⟨.stack, 4, ⟨2⟩, 24⟩ := by
  refine ⟨⟨⟨24, some (1, ())⟩, by simp [Ex.memHistory], ⟨(), rfl⟩, rfl⟩, ?_⟩
  rintro ⟨p, k, s, a, hm, x, hx⟩
  simp [Ex.memHistory] at hm
  rw [hm.1] at hx
  simp at hx

/-- Before the deallocation both are live. -/
example : LiveIn (Ex.memHistory.drop 1) 0 ⟨.heap, 8, ⟨3⟩, 16⟩ ∧
    LiveIn (Ex.memHistory.drop 1) 1 ⟨.stack, 4, ⟨2⟩, 24⟩ := by
  constructor
  · refine ⟨⟨⟨16, some (0, ())⟩, by simp [Ex.memHistory], ⟨(), rfl⟩, rfl⟩, ?_⟩
    rintro ⟨p, k, s, a, hm, x, hx⟩
    simp [Ex.memHistory] at hm
  · refine ⟨⟨⟨24, some (1, ())⟩, by simp [Ex.memHistory], ⟨(), rfl⟩, rfl⟩, ?_⟩
    rintro ⟨p, k, s, a, hm, x, hx⟩
    simp [Ex.memHistory] at hm
end

section
variable {M PE AE F : Type} [T : Target] [Memory M (AllocId × PE) F] [B : BasicBacked M PE AE F]
include B

/-! ### C17: a load returns what was last stored -/

/-- Every byte a successful load returns is the one that the most recent store to that address of
the allocation wrote; it is uninitialised if there was none. -/
theorem C17_load_returns_last_stored {h : MemHistory PE} {m m' : M} (hr : MemReach h m) {p n align bytes}
    (hl : Memory.load m p n align = .ok (bytes, m')) :
    bytes.length = n ∧ (0 < n → ∃ id, p.HasId id ∧
      ∀ k, k < n → bytes[k]? = some (lastStored h id (p.addr + (k : Nat)))) := by
  obtain ⟨hx, he⟩ := B.load m p n align
  rw [hl] at he
  have he := he.symm
  simp only [Res.map_ok] at he
  rw [BasicMem.load_eq_ok] at he
  obtain ⟨_, ⟨rfl, rfl, _⟩ | ⟨hne, id, pe, a, off, extra, hp, ha, hlv, hoff, hfit, _, rfl, _⟩⟩ := he
  · simp
  · simp only [Alloc.size] at hfit
    refine ⟨by simp; omega, fun _ => ⟨id, ⟨pe, hp⟩, fun k hk => ?_⟩⟩
    have := hr.rep.bytes id a (off + k) ha (by simp only [Alloc.size]; omega)
    rw [List.getElem?_take, if_pos hk, List.getElem?_drop, this, hoff]
    congr 2; push_cast; omega

/-- Reading back through the same pointer returns the stored bytes. -/
theorem C17_read_back {h : MemHistory PE} {m m' m'' : M} (hr : MemReach h m) {p bytes align align' r}
    (hs : Memory.store m p bytes align = .ok m')
    (hl : Memory.load m' p bytes.length align' = .ok (r, m'')) : r = bytes := by
  have hr' : MemReach (.store p bytes align :: h) m' := .cons hr (.store hs)
  obtain ⟨hlen, hb⟩ := C17_load_returns_last_stored hr' hl
  apply List.ext_getElem?
  intro k
  by_cases hk : k < bytes.length
  · obtain ⟨id, ⟨pe, hp⟩, hb⟩ := hb (by omega)
    rw [hb k hk, lastStored_store hp, if_pos ⟨rfl, by omega⟩]
    have : (p.addr + (k : Int) - p.addr).toNat = k := by omega
    simp [this, hk]
  · rw [List.getElem?_eq_none (by omega), List.getElem?_eq_none (by omega)]

/-- A store does not change what can be read from another allocation, or from a range of the same
allocation that does not overlap the stored range. -/
theorem C17_frame {h : MemHistory PE} {m m' m1 m2 : M} (hr : MemReach h m) {p bytes align q} {n : Nat} {align' r r'}
    (hs : Memory.store m p bytes align = .ok m')
    (hdisj : (∀ id, p.HasId id → ¬ q.HasId id) ∨ q.addr + n ≤ p.addr ∨ p.addr + bytes.length ≤ q.addr)
    (hl : Memory.load m q n align' = .ok (r, m1))
    (hl' : Memory.load m' q n align' = .ok (r', m2)) : r' = r := by
  have hr' : MemReach (.store p bytes align :: h) m' := .cons hr (.store hs)
  obtain ⟨hlen, hb⟩ := C17_load_returns_last_stored hr hl
  obtain ⟨hlen', hb'⟩ := C17_load_returns_last_stored hr' hl'
  apply List.ext_getElem?
  intro k
  by_cases hk : k < n
  · obtain ⟨id, ⟨pe, hq⟩, hb⟩ := hb (by omega)
    obtain ⟨id', ⟨pe', hq'⟩, hb'⟩ := hb' (by omega)
    rw [hq] at hq'; cases hq'
    rw [hb k hk, hb' k hk]
    congr 1
    cases hp : p.prov with
    | none =>
      obtain ⟨addr, prov⟩ := p
      simp only at hp; subst hp; rfl
    | some ip =>
      obtain ⟨pid, ppe⟩ := ip
      rw [lastStored_store hp]
      split
      · rename_i hc
        obtain ⟨rfl, hc⟩ := hc
        rcases hdisj with hd | hd | hd
        · exact absurd ⟨pe, hq⟩ (hd _ ⟨ppe, hp⟩)
        · omega
        · rw [List.getElem?_eq_none (by omega)]; rfl
      · rfl
  · rw [List.getElem?_eq_none (by omega), List.getElem?_eq_none (by omega)]

/-- Freshly allocated memory is uninitialised. -/
theorem C17_fresh_uninit {h : MemHistory PE} {m m' m'' : M} (hr : MemReach h m) {kind size align pick p q n align' r}
    (ha : Memory.allocate m kind size align pick = .ok (p, m'))
    (hq : ∀ id, q.HasId id → p.HasId id)
    (hl : Memory.load m' q n align' = .ok (r, m'')) : r = List.replicate n .uninit := by
  have hr' : MemReach (.alloc kind size align p :: h) m' := .cons hr (.alloc ha)
  obtain ⟨hlen, hb⟩ := C17_load_returns_last_stored hr' hl
  obtain ⟨pe, ae, he⟩ := B.allocate m kind size align pick
  rw [ha] at he
  have he := he.symm
  simp only [Res.map_ok] at he
  rw [BasicMem.allocate_eq_ok] at he
  obtain ⟨_, _, hp, _⟩ := he
  apply List.ext_getElem?
  intro k
  by_cases hk : k < n
  · obtain ⟨id, hid, hb⟩ := hb (by omega)
    obtain ⟨x, hx⟩ := hq id hid
    rw [hp] at hx
    simp only [Option.some.injEq, Prod.mk.injEq] at hx
    rw [hb k hk, lastStored_cons_other (by simp), hr.rep.fresh _ _ (by omega)]
    simp [hk]
  · rw [List.getElem?_eq_none (by omega), List.getElem?_eq_none (by simp; omega)]

end

section
attribute [local instance] x86_64
/-- The load in the example history sees one stored and one uninitialised byte. -/
example : lastStored (Ex.memHistory.drop 2) 0 17 = .init 7 none ∧
    lastStored (Ex.memHistory.drop 2) 0 18 = .uninit := by decide

example : ∃ m : BasicMem Unit Unit, MemReach (Ex.memHistory.drop 2) m ∧
    Memory.load m ⟨17, some (0, ())⟩ 2 ⟨0⟩ = .ok ([.init 7 none, .uninit], m) :=
  ⟨⟨[⟨[.uninit, .init 7 none, .uninit, .uninit, .uninit, .uninit, .uninit, .uninit], 16, ⟨3⟩, .heap, true, ()⟩,
    ⟨[.uninit, .uninit, .uninit, .uninit], 24, ⟨2⟩, .stack, true, ()⟩]⟩,
   .cons (.cons (.cons .nil (.alloc (pick := 16) (by rfl))) (.alloc (pick := 24) (by rfl))) (.store (by rfl)),
   by rfl⟩
end

section
variable {M PE AE F : Type} [T : Target] [Memory M (AllocId × PE) F] [B : BasicBacked M PE AE F]
include B

/-! ### C18: access checks are exact -/

/-- In both memory models, an access that is misaligned, or not inside a live allocation of the
pointer's provenance, is UB: it neither succeeds nor panics. -/
theorem C18_bad_access_is_ub {h : MemHistory PE} {m : M} (hr : MemReach h m) {p} (hg : Genuine h p) {align} :
    (∀ n, ¬ (Aligned align p.addr ∧ (n = 0 ∨ Accessible h p n)) → Memory.load m p n align = .error .ub) ∧
    (∀ bytes, ¬ (Aligned align p.addr ∧ (bytes = [] ∨ Accessible h p bytes.length)) →
      Memory.store m p bytes align = .error .ub) ∧
    (∀ n, ¬ (n = 0 ∨ Accessible h p n) → Memory.dereferenceable m p n = .error .ub) := by
  have hk := genuine_known hr hg
  refine ⟨fun n hn => ?_, fun bytes hn => ?_, fun n hn => ?_⟩
  · obtain ⟨hx, he⟩ := B.load m p n align
    rw [BasicMem.load_ub hk (by rwa [fits_iff hr])] at he
    exact Res.map_eq_error.1 he
  · obtain ⟨hx, he⟩ := B.store m p bytes align
    rw [BasicMem.store_ub hk (by rw [fits_iff hr]; simpa using hn)] at he
    exact Res.map_eq_error.1 he
  · rw [B.dereferenceable, BasicMem.checkPtr_ub hk (by rwa [fits_iff hr])]
    rfl

/-- `dereferenceable` is exact in both memory models. -/
theorem C18_dereferenceable_exact {h : MemHistory PE} {m : M} (hr : MemReach h m) {p} (hg : Genuine h p) {n} :
    (Memory.dereferenceable m p n = .ok () ↔ n = 0 ∨ Accessible h p n) ∧
    (Memory.dereferenceable m p n = .error .ub ↔ ¬ (n = 0 ∨ Accessible h p n)) := by
  have hk := genuine_known hr hg
  by_cases hc : n = 0 ∨ Accessible h p n
  · rw [← fits_iff hr] at hc
    obtain ⟨r, hr'⟩ := BasicMem.checkPtr_ok hc
    rw [B.dereferenceable, hr', ← fits_iff hr]
    simp [hc]
  · rw [(C18_bad_access_is_ub hr hg (align := ⟨0⟩)).2.2 n hc]
    simp [hc]
end

section
variable [T : Target]

/-- In the basic memory model, loads and stores succeed exactly when the pointer is aligned and the
access is empty or inside a live allocation of the pointer's provenance; everything else is UB. -/
theorem C18_access_exact {h : MemHistory Unit} {m : BasicMem Unit Unit} (hr : MemReach h m) {p}
    (hg : Genuine h p) {align} :
    (∀ n, (∃ r, Memory.load m p n align = .ok r) ↔ (Aligned align p.addr ∧ (n = 0 ∨ Accessible h p n))) ∧
    (∀ n, Memory.load m p n align = .error .ub ↔ ¬ (Aligned align p.addr ∧ (n = 0 ∨ Accessible h p n))) ∧
    (∀ bytes, (∃ r, Memory.store m p bytes align = .ok r) ↔
      (Aligned align p.addr ∧ (bytes = [] ∨ Accessible h p bytes.length))) ∧
    (∀ bytes, Memory.store m p bytes align = .error .ub ↔
      ¬ (Aligned align p.addr ∧ (bytes = [] ∨ Accessible h p bytes.length))) := by
  have hbad := C18_bad_access_is_ub hr hg (align := align)
  have hload : ∀ n, (Aligned align p.addr ∧ (n = 0 ∨ Accessible h p n)) →
      ∃ r, Memory.load m p n align = .ok r := by
    rintro n ⟨hal, hn⟩
    by_cases h0 : n = 0
    · exact ⟨([], m), (BasicMem.load_eq_ok (hx := fun _ _ _ => .ok ())).2 ⟨hal, .inl ⟨h0, rfl, rfl⟩⟩⟩
    · obtain ⟨id, pe, a, off, hp, ha, hl, h1, h2⟩ := (fits_iff hr).2 (hn.resolve_left h0)
      exact ⟨_, (BasicMem.load_eq_ok (hx := fun _ _ _ => .ok ())).2
        ⟨hal, .inr ⟨h0, id, pe, a, off, (), hp, ha, hl, h1, h2, rfl, rfl, rfl⟩⟩⟩
  have hstore : ∀ bytes, (Aligned align p.addr ∧ (bytes = [] ∨ Accessible h p bytes.length)) →
      ∃ r, Memory.store m p bytes align = .ok r := by
    rintro bytes ⟨hal, hn⟩
    by_cases h0 : bytes = []
    · exact ⟨m, (BasicMem.store_eq_ok (hx := fun _ _ _ => .ok ())).2 ⟨hal, .inl ⟨h0, rfl⟩⟩⟩
    · obtain ⟨id, pe, a, off, hp, ha, hl, h1, h2⟩ := (fits_iff hr).2 (hn.resolve_left h0)
      exact ⟨_, (BasicMem.store_eq_ok (hx := fun _ _ _ => .ok ())).2
        ⟨hal, .inr ⟨h0, id, pe, a, off, (), _, hp, ha, hl, h1, h2, rfl, writeSubslice_isOk h2, rfl⟩⟩⟩
  refine ⟨fun n => ?_, fun n => ?_, fun b => ?_, fun b => ?_⟩
  · refine ⟨fun ⟨r, hr'⟩ => ?_, hload n⟩
    refine Classical.byContradiction fun hn => ?_
    rw [hbad.1 n hn] at hr'; cases hr'
  · refine ⟨fun hr' hn => ?_, hbad.1 n⟩
    obtain ⟨r, hr''⟩ := hload n hn
    rw [hr''] at hr'; cases hr'
  · refine ⟨fun ⟨r, hr'⟩ => ?_, hstore b⟩
    refine Classical.byContradiction fun hn => ?_
    rw [hbad.2.1 b hn] at hr'; cases hr'
  · refine ⟨fun hr' hn => ?_, hbad.2.1 b⟩
    obtain ⟨r, hr''⟩ := hstore b hn
    rw [hr''] at hr'; cases hr'
end

section
attribute [local instance] x86_64
/-- The pointer into the stack variable of the example history is genuine and accessible. -/
example : Genuine Ex.memHistory ⟨25, some (1, ())⟩ ∧ Accessible Ex.memHistory ⟨25, some (1, ())⟩ 3 := by
  have hw : WasAllocated Ex.memHistory 1 ⟨.stack, 4, ⟨2⟩, 24⟩ :=
    ⟨⟨24, some (1, ())⟩, by simp [Ex.memHistory], ⟨(), rfl⟩, rfl⟩
  refine ⟨?_, 1, ⟨.stack, 4, ⟨2⟩, 24⟩, ⟨(), rfl⟩, ⟨hw, ?_⟩, by decide, by decide⟩
  · rintro id ⟨x, hx⟩
    simp at hx
    rw [← hx]; exact ⟨_, hw⟩
  · rintro ⟨p, k, s, a, hm, x, hx⟩
    simp [Ex.memHistory] at hm
    rw [hm.1] at hx
    simp at hx
end

section
variable {M PE AE F : Type} [T : Target] [Memory M (AllocId × PE) F] [B : BasicBacked M PE AE F]
include B

/-! ### C19: deallocation is exact and final -/

/-- The pointer is to the start of a live allocation of the history with this kind, size and alignment. -/
def Freeable (h : MemHistory PE) (p : ThinPtr (AllocId × PE)) (kind : AllocKind) (size : Nat) (align : Align) : Prop :=
  ∃ id, p.HasId id ∧ LiveIn h id ⟨kind, size, align, p.addr⟩

theorem canFree_iff {h : MemHistory PE} {m : M} (hr : MemReach h m) {p k s al} :
    (B.mem m).CanFree p k s al ↔ Freeable h p k s al := by
  constructor
  · rintro ⟨id, pe, a, hp, ha, hl, h1, h2, h3, h4⟩
    refine ⟨id, ⟨pe, hp⟩, (live_iff hr).2 ⟨a, ha, hl, ?_⟩⟩
    simp [Alloc.info, h1, h2, h3, h4]
  · rintro ⟨id, ⟨pe, hp⟩, hl⟩
    obtain ⟨a, ha, hlv, hi⟩ := (live_iff hr).1 hl
    simp [Alloc.info] at hi
    exact ⟨id, pe, a, hp, ha, hlv, by simp [hi]⟩

/-- In both memory models, a deallocation with the wrong pointer, kind, size or alignment is UB. -/
theorem C19_bad_deallocation_is_ub {h : MemHistory PE} {m : M} (hr : MemReach h m) {p} (hg : Genuine h p)
    {kind size align} (hf : ¬ Freeable h p kind size align) :
    Memory.deallocate m p kind size align = .error .ub := by
  obtain ⟨hx, he⟩ := B.deallocate m p kind size align
  rw [BasicMem.deallocate_ub (genuine_known hr hg) (by rwa [canFree_iff hr])] at he
  exact Res.map_eq_error.1 he

/-- After a deallocation, in every continuation of the history, every non-empty access through any
pointer with provenance of the freed allocation is UB, and so is freeing it again. -/
theorem C19_final {h h' : MemHistory PE} {m m' m'' : M} (hr : MemReach h m) {p kind size align}
    (hd : Memory.deallocate m p kind size align = .ok m') (hrun : MemRun m' h' m'')
    {id q} (hp : p.HasId id) (hq : q.HasId id) :
    (∀ n al, 0 < n → Memory.load m'' q n al = .error .ub) ∧
    (∀ bytes al, bytes ≠ [] → Memory.store m'' q bytes al = .error .ub) ∧
    (∀ n, 0 < n → Memory.dereferenceable m'' q n = .error .ub) ∧
    (∀ k s al, Memory.deallocate m'' q k s al = .error .ub) := by
  have hr1 : MemReach (.dealloc p kind size align :: h) m' := .cons hr (.dealloc hd)
  have hr2 : MemReach (h' ++ .dealloc p kind size align :: h) m'' := MemRun.append hr1 hrun
  have hdead : WasDeallocated (h' ++ .dealloc p kind size align :: h) id :=
    ⟨p, kind, size, align, by simp, hp⟩
  have hg : Genuine (h' ++ .dealloc p kind size align :: h) q := by
    intro id' hid'
    obtain ⟨x, hx⟩ := hq
    obtain ⟨y, hy⟩ := hid'
    rw [hx] at hy; cases hy
    have hlt := (MemReach.rep (B := B) hr2).dead id hdead
    exact ⟨_, (MemReach.rep (B := B) hr2).was id (B.mem m'').allocations[id] (by simp [hlt])⟩
  have hno : ∀ n, ¬ Accessible (h' ++ .dealloc p kind size align :: h) q n := by
    rintro n ⟨id', i, ⟨y, hy⟩, hl, _⟩
    obtain ⟨x, hx⟩ := hq
    rw [hx] at hy; cases hy
    exact hl.2 hdead
  have hb := fun al => C18_bad_access_is_ub hr2 hg (align := al)
  refine ⟨fun n al hn => ?_, fun bytes al hn => ?_, fun n hn => ?_, fun k s al => ?_⟩
  · refine (hb al).1 n ?_
    rintro ⟨_, h0 | ha⟩
    · omega
    · exact hno n ha
  · refine (hb al).2.1 bytes ?_
    rintro ⟨_, h0 | ha⟩
    · exact hn h0
    · exact hno _ ha
  · refine (hb ⟨0⟩).2.2 n ?_
    rintro (h0 | ha)
    · omega
    · exact hno n ha
  · refine C19_bad_deallocation_is_ub hr2 hg ?_
    rintro ⟨id', ⟨y, hy⟩, hl⟩
    obtain ⟨x, hx⟩ := hq
    rw [hx] at hy; cases hy
    exact hl.2 hdead

/-- Deallocation ends exactly the life of the allocation it names: the live allocations afterwards are
those before without it. -/
theorem C19_only_that_allocation {h : MemHistory PE} {m m' : M} (hr : MemReach h m) {p kind size align}
    (hd : Memory.deallocate m p kind size align = .ok m') :
    Freeable h p kind size align ∧
    ∀ id i, LiveIn (.dealloc p kind size align :: h) id i ↔ LiveIn h id i ∧ ¬ p.HasId id := by
  obtain ⟨hx, he⟩ := B.deallocate m p kind size align
  rw [hd] at he
  have he := he.symm
  simp only [Res.map_ok] at he
  rw [BasicMem.deallocate_eq_ok] at he
  obtain ⟨did, pe, a, extra, hp, ha, hl, h1, h2, h3, h4, _⟩ := he
  refine ⟨(canFree_iff hr).1 ⟨did, pe, a, hp, ha, hl, h1, h2, h3, h4⟩, fun id i => ?_⟩
  unfold LiveIn
  rw [wasAllocated_cons, wasDeallocated_cons]
  simp only [reduceCtorEq, false_and, exists_false, false_or]
  constructor
  · rintro ⟨h1, h2⟩
    exact ⟨⟨h1, fun hh => h2 (.inr hh)⟩, fun hh => h2 (.inl ⟨p, kind, size, align, rfl, hh⟩)⟩
  · rintro ⟨⟨h1, h2⟩, h3⟩
    refine ⟨h1, ?_⟩
    rintro (⟨p', k, s, al, he, hh⟩ | hh)
    · cases he; exact h3 hh
    · exact h2 hh
end

section
variable [T : Target]
/-- In the basic memory model, deallocation succeeds exactly for a pointer to the start of a live
allocation with matching kind, size and alignment, and is UB otherwise. -/
theorem C19_exact {h : MemHistory Unit} {m : BasicMem Unit Unit} (hr : MemReach h m) {p}
    (hg : Genuine h p) {kind size align} :
    ((∃ m', Memory.deallocate m p kind size align = .ok m') ↔ Freeable h p kind size align) ∧
    (Memory.deallocate m p kind size align = .error .ub ↔ ¬ Freeable h p kind size align) := by
  by_cases hf : Freeable h p kind size align
  · obtain ⟨id, pe, a, hp, ha, hl, h1, h2, h3, h4⟩ := (canFree_iff hr).2 hf
    have : Memory.deallocate m p kind size align = .ok _ :=
      (BasicMem.deallocate_eq_ok (hx := fun _ _ => .ok ())).2
        ⟨id, pe, a, (), hp, ha, hl, h1, h2, h3, h4, rfl, rfl⟩
    rw [this]; simp [hf]
  · rw [C19_bad_deallocation_is_ub hr hg hf]; simp [hf]
end

section
attribute [local instance] x86_64
/-- In the example history, allocation 0 is freed; it was freeable just before. -/
example : Freeable (Ex.memHistory.drop 1) ⟨16, some (0, ())⟩ .heap 8 ⟨3⟩ := by
  refine ⟨0, ⟨(), rfl⟩, ⟨⟨16, some (0, ())⟩, by simp [Ex.memHistory], ⟨(), rfl⟩, rfl⟩, ?_⟩
  rintro ⟨p, k, s, a, hm, x, hx⟩
  simp [Ex.memHistory] at hm
/-- … and using it afterwards is UB. -/
example : Memory.load Ex.memFinal ⟨17, some (0, ())⟩ 1 ⟨0⟩ = .error .ub := by rfl
end

section
variable {M PE AE F : Type} [T : Target] [Memory M (AllocId × PE) F] [B : BasicBacked M PE AE F]
include B

/-! ### C20: the leak check -/

/-- The leak check fails exactly when a heap allocation of the history was not deallocated, and then it
reports a memory leak. -/
theorem C20_leak_check_exact {h : MemHistory PE} {m : M} (hr : MemReach h m) :
    (Memory.leakCheck m = .error .memoryLeak ↔ ∃ id i, LiveIn h id i ∧ i.kind = .heap) ∧
    (Memory.leakCheck m = .ok () ↔ ¬ ∃ id i, LiveIn h id i ∧ i.kind = .heap) := by
  have key : (∃ a ∈ (B.mem m).allocations, a.live = true ∧ a.kind = .heap) ↔
      ∃ id i, LiveIn h id i ∧ i.kind = .heap := by
    constructor
    · rintro ⟨a, ha, hl, hk⟩
      obtain ⟨id, hid⟩ := List.getElem?_of_mem ha
      exact ⟨id, a.info, (live_iff hr).2 ⟨a, hid, hl, rfl⟩, hk⟩
    · rintro ⟨id, i, hl, hk⟩
      obtain ⟨a, ha, hlv, rfl⟩ := (live_iff hr).1 hl
      exact ⟨a, List.mem_of_getElem? ha, hlv, hk⟩
  rw [B.leakCheck, BasicMem.leakCheck, BasicMem.leakLoop_eq, ← key]
  split <;> simp_all
end

section
attribute [local instance] x86_64
example : Memory.leakCheck Ex.memFinal = .ok () := by rfl
end

/-! ### C21: pointers from integers only get exposed provenance -/

section
variable {P : Type} [DecidableEq P]

/-- Casts of a program, most recent first. -/
inductive CastEvent (P : Type)
  | expose (ptr : ThinPtr P)
  | int2ptr (addr : Int) (result : ThinPtr P)

/-- The state of the cast model after a history of casts, for any angelic choices. -/
inductive CastReach : List (CastEvent P) → IntPtrCast P → Prop
  | nil : CastReach [] .new
  | expose {h c} (p) : CastReach h c → CastReach (.expose p :: h) (c.expose p)
  | int2ptr {h c a choice p} : CastReach h c → c.int2ptr a choice = .ok p → CastReach (.int2ptr a p :: h) c

theorem CastReach.exposed {h : List (CastEvent P)} {c} (hr : CastReach h c) (x : P) :
    x ∈ c.exposed ↔ ∃ p : ThinPtr P, .expose p ∈ h ∧ p.prov = some x := by
  induction hr with
  | nil => simp [IntPtrCast.new]
  | @expose h c p _ ih =>
    have : x ∈ (c.expose p).exposed ↔ x ∈ c.exposed ∨ p.prov = some x := by
      unfold IntPtrCast.expose
      split
      · rename_i y hy
        simp only [setInsert, hy, Option.some.injEq]
        split
        · constructor
          · exact .inl
          · rintro (h | rfl) <;> assumption
        · simp [eq_comm]
      · simp_all
    rw [this, ih]
    simp only [List.mem_cons, CastEvent.expose.injEq]
    constructor
    · rintro (⟨q, h1, h2⟩ | h1)
      · exact ⟨q, .inr h1, h2⟩
      · exact ⟨p, .inl rfl, h1⟩
    · rintro ⟨q, rfl | h1, h2⟩
      · exact .inr h2
      · exact .inl ⟨q, h1, h2⟩
  | int2ptr _ _ ih => rw [ih]; simp

/-- In any history of casts, an integer-to-pointer cast yields a pointer with the requested address
and a provenance that is none or was exposed earlier. Conversely each of these can be the result. -/
theorem C21_only_exposed {h : List (CastEvent P)} {c} (hr : CastReach h c) (addr : Int) (q : ThinPtr P) :
    (∃ choice, c.int2ptr addr choice = .ok q) ↔
      q.addr = addr ∧ ∀ x, q.prov = some x → ∃ p : ThinPtr P, .expose p ∈ h ∧ p.prov = some x := by
  constructor
  · rintro ⟨choice, hq⟩
    cases choice with
    | none => cases hq; exact ⟨rfl, fun x hx => by cases hx⟩
    | some y =>
      simp only [IntPtrCast.int2ptr, decide_eq_true_eq] at hq
      split at hq
      · rename_i hy
        cases hq
        refine ⟨rfl, fun x hx => ?_⟩
        cases hx
        exact (hr.exposed y).1 hy
      · cases hq
  · rintro ⟨rfl, hx⟩
    refine ⟨q.prov, ?_⟩
    unfold IntPtrCast.int2ptr
    cases hp : q.prov with
    | none => obtain ⟨a, pr⟩ := q; simp_all
    | some x =>
      have := (hr.exposed x).2 (hx x hp)
      obtain ⟨a, pr⟩ := q; simp_all
end

example : CastReach [.int2ptr 5 ⟨5, some 3⟩, .expose ⟨100, some 3⟩, .expose ⟨4, none⟩]
    ((((IntPtrCast.new : IntPtrCast Nat).expose ⟨4, none⟩).expose ⟨100, some 3⟩)) :=
  .int2ptr (choice := some 3) (.expose _ (.expose _ .nil)) (by rfl)

end MiniRust
