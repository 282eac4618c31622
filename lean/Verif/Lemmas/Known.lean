import Verif.Spec.Provenance
import Verif.Lemmas.MachineMem
import Verif.Lemmas.Prov
/-
A logic for what provenance the machine holds. `K n id` says that provenance of allocation `id` is
allowed once `n` allocations were made; freshly made allocations are always allowed.
-/
set_option linter.unusedSectionVars false
namespace MiniRust

/-- An admissible family of sets of allocations. -/
structure Caps (K : Nat → AllocId → Prop) (N0 : Nat) : Prop where
  mono : ∀ {n n' id}, n ≤ n' → K n id → K n' id
  fresh : ∀ {n}, N0 ≤ n → K (n + 1) n
  old : ∀ {n id}, id < n → K (n + 1) id → K n id

section
variable {PE : Type} (K : Nat → AllocId → Prop) (n : Nat)

def PK (p : ThinPtr (AllocId × PE)) : Prop := ∀ q, p.prov = some q → K n q.1
def VK (v : Value (AllocId × PE)) : Prop := ∀ q, ProvIn q v → K n q.1
def BK (bs : List (AByte (AllocId × PE))) : Prop := ∀ q, ProvInBytes q bs → K n q.1

def AK : StackPopAction (AllocId × PE) → Prop
  | .bottomOfStack => True
  | .backToCaller _ _ ptr => PK K n ptr

structure FK {F : Type} (fr : StackFrame (AllocId × PE) F) : Prop where
  locals : ∀ x ∈ fr.locals, PK K n x.2
  action : AK K n fr.stackPopAction

structure TK {F : Type} (t : Thread (AllocId × PE) F) : Prop where
  stack : ∀ fr ∈ t.stack, FK K n fr
  payloads : ∀ p ∈ t.unwindPayloads, PK K n p
end

section
variable {PE F : Type} {K : Nat → AllocId → Prop} {N0 n n' : Nat}

theorem PK.mono (hK : Caps K N0) (hn : n ≤ n') {p : ThinPtr (AllocId × PE)} (h : PK K n p) : PK K n' p :=
  fun q hq => hK.mono hn (h q hq)
theorem VK.mono (hK : Caps K N0) (hn : n ≤ n') {p : Value (AllocId × PE)} (h : VK K n p) : VK K n' p :=
  fun q hq => hK.mono hn (h q hq)
theorem BK.mono (hK : Caps K N0) (hn : n ≤ n') {p : List (AByte (AllocId × PE))} (h : BK K n p) : BK K n' p :=
  fun q hq => hK.mono hn (h q hq)
theorem AK.mono (hK : Caps K N0) (hn : n ≤ n') {p : StackPopAction (AllocId × PE)} (h : AK K n p) : AK K n' p := by
  cases p with
  | bottomOfStack => trivial
  | backToCaller _ _ ptr => exact PK.mono hK hn h
theorem FK.mono (hK : Caps K N0) (hn : n ≤ n') {fr : StackFrame (AllocId × PE) F} (h : FK K n fr) : FK K n' fr :=
  ⟨fun x hx => (h.locals x hx).mono hK hn, h.action.mono hK hn⟩
theorem TK.mono (hK : Caps K N0) (hn : n ≤ n') {t : Thread (AllocId × PE) F} (h : TK K n t) : TK K n' t :=
  ⟨fun x hx => (h.stack x hx).mono hK hn, fun p hp => (h.payloads p hp).mono hK hn⟩

theorem VK.int {i} : VK (PE := PE) K n (.int i) := fun q hq => by cases hq
theorem VK.bool {i} : VK (PE := PE) K n (.bool i) := fun q hq => by cases hq
theorem VK.tuple {vs : List (Value (AllocId × PE))} (h : ∀ v ∈ vs, VK K n v) : VK K n (.tuple vs) := by
  intro q hq; cases hq with | elem hv hp => exact h _ hv q hp
theorem VK.elem {vs : List (Value (AllocId × PE))} (h : VK K n (.tuple vs)) : ∀ v ∈ vs, VK K n v :=
  fun _ hv q hq => h q (.elem hv hq)
theorem VK.variant {d} {v : Value (AllocId × PE)} (h : VK K n v) : VK K n (.variant d v) := by
  intro q hq; cases hq with | variant hp => exact h q hp
theorem VK.ofVariant {d} {v : Value (AllocId × PE)} (h : VK K n (.variant d v)) : VK K n v :=
  fun q hq => h q (.variant hq)
theorem VK.unit : VK (PE := PE) K n unitValue := VK.tuple (by simp)
theorem VK.ptr {p : Pointer (AllocId × PE)} (h : PK K n p.thin)
    (hm : ∀ q, p.metadata = some (.vtablePointer q) → PK K n q) : VK K n (.ptr p) := by
  intro q hq
  cases hq with
  | thin hp => exact h q hp
  | vtable hm' hp => exact hm _ hm' q hp
theorem VK.thin {p : Pointer (AllocId × PE)} (h : VK K n (.ptr p)) : PK K n p.thin :=
  fun q hq => h q (.thin hq)
theorem VK.meta {p : Pointer (AllocId × PE)} (h : VK K n (.ptr p)) : ∀ q, p.metadata = some (.vtablePointer q) → PK K n q :=
  fun _ hm q hq => h q (.vtable hm hq)
theorem VK.widen {p : ThinPtr (AllocId × PE)} (h : PK K n p) : VK K n (.ptr (p.widen none)) :=
  VK.ptr h (fun _ h => by cases h)
theorem PK.offset [Target] {p : ThinPtr (AllocId × PE)} {i : Int} (h : PK K n p) : PK K n (p.wrappingOffset i) :=
  fun q hq => h q hq
theorem PK.none {a : Int} : PK (PE := PE) K n ⟨a, .none⟩ := fun q hq => by cases hq
end

variable {M PE AE F : Type} [T : Target] [DecidableEq PE] [Memory M (AllocId × PE) F] [B : BasicBacked M PE AE F]

/-- The number of allocations made. -/
def cnt (s : Machine M (AllocId × PE) F) : Nat := s.allocs.length

/-- All provenance the machine holds is allowed. -/
structure Known (K : Nat → AllocId → Prop) (N0 : Nat) (s : Machine M (AllocId × PE) F) : Prop where
  base : N0 ≤ cnt s
  mem : ∀ (id : Nat) a, s.allocs[id]? = some a → a.live = true → K (cnt s) id → BK K (cnt s) a.data
  exposed : ∀ p ∈ s.intptrcast.exposed, K (cnt s) p.1
  globals : ∀ x ∈ s.globalPtrs, PK K (cnt s) x.2
  fns : ∀ x ∈ s.fnPtrs, PK K (cnt s) x.2
  vtables : ∀ x ∈ s.vtablePtrs, PK K (cnt s) x.2
  threads : ∀ t ∈ s.threads, TK K (cnt s) t

/-- The allocation is the same up to the extra state of the memory model. -/
structure Alloc.Same (a b : Alloc PE AE) : Prop where
  data : b.data = a.data
  addr : b.addr = a.addr
  align : b.align = a.align
  kind : b.kind = a.kind
  live : b.live = a.live

theorem Alloc.Same.refl {a : Alloc PE AE} : a.Same a := ⟨rfl, rfl, rfl, rfl, rfl⟩
theorem Alloc.Same.trans {a b c : Alloc PE AE} (h : a.Same b) (h' : b.Same c) : a.Same c :=
  ⟨h'.data.trans h.data, h'.addr.trans h.addr, h'.align.trans h.align, h'.kind.trans h.kind, h'.live.trans h.live⟩

/-- The machine went from `s` to `s'` holding allowed provenance only, and it left the other allocations
alone. -/
structure Grow (K : Nat → AllocId → Prop) (N0 : Nat) (s s' : Machine M (AllocId × PE) F) : Prop where
  known : Known K N0 s'
  le : cnt s ≤ cnt s'
  same : ∀ (id : Nat) a, s.allocs[id]? = some a → ¬ K (cnt s') id → ∃ a', s'.allocs[id]? = some a' ∧ a.Same a'

variable {K : Nat → AllocId → Prop} {N0 : Nat} {s s' s1 s2 : Machine M (AllocId × PE) F} {α β : Type}

theorem Grow.refl (h : Known K N0 s) : Grow K N0 s s := ⟨h, Nat.le_refl _, fun _ a ha _ => ⟨a, ha, .refl⟩⟩

theorem Grow.trans (hK : Caps K N0) (h : Grow K N0 s s1) (h' : Grow K N0 s1 s2) : Grow K N0 s s2 := by
  refine ⟨h'.known, h.le.trans h'.le, fun id a ha hn => ?_⟩
  obtain ⟨b, hb, e⟩ := h.same id a ha (fun h1 => hn (hK.mono h'.le h1))
  obtain ⟨c, hc, e'⟩ := h'.same id b hb hn
  exact ⟨c, hc, e.trans e'⟩

/-- Changes outside the memory. -/
theorem Grow.ctl (h : Known K N0 s') (hm : s'.mem.memory = s.mem.memory) : Grow K N0 s s' := by
  have e : s'.allocs = s.allocs := by unfold Machine.allocs; rw [hm]
  refine ⟨h, by unfold cnt; rw [e], fun id a ha _ => ⟨a, by rw [e]; exact ha, .refl⟩⟩

/-- The triple: from a state with allowed provenance only, `x` goes to such a state, with `R` of its
result. -/
def Kt (K : Nat → AllocId → Prop) (N0 : Nat) (s : Machine M (AllocId × PE) F) (x : EM M (AllocId × PE) F α)
    (R : α → Nat → Prop) : Prop :=
  Known K N0 s → ∀ a s', x s = .ok (a, s') → Grow K N0 s s' ∧ R a (cnt s')

section
variable {R : α → Nat → Prop} {Q : β → Nat → Prop}

theorem Kt.bind (hK : Caps K N0) {x : EM M (AllocId × PE) F α} {f : α → EM M (AllocId × PE) F β} (hx : Kt K N0 s x R)
    (hf : ∀ a s1, Grow K N0 s s1 → R a (cnt s1) → Kt K N0 s1 (f a) Q) : Kt K N0 s (x >>= f) Q := by
  intro hs b s' h
  obtain ⟨a, s1, h1, h2⟩ := EM.bind_eq_ok.1 h
  obtain ⟨g, r⟩ := hx hs a s1 h1
  obtain ⟨g', q⟩ := hf a s1 g r g.known b s' h2
  exact ⟨g.trans hK g', q⟩

theorem Kt.pure {a : α} (h : Known K N0 s → R a (cnt s)) : Kt K N0 s (pure a) R := by
  intro hs b s' h'
  obtain ⟨rfl, rfl⟩ := EM.pure_eq_ok.1 h'
  exact ⟨.refl hs, h hs⟩

theorem Kt.throw {e : Err} : Kt K N0 s (EM.throw e : EM M (AllocId × PE) F α) R := by
  intro _ _ _ h; simp at h

theorem Kt.lift {r : Res α} (h : Known K N0 s → ∀ a, r = .ok a → R a (cnt s)) : Kt K N0 s (EM.lift r) R := by
  intro hs a s' h'
  obtain ⟨e, rfl⟩ := EM.lift_eq_ok.1 h'
  exact ⟨.refl hs, h hs a e⟩

theorem Kt.read {r : Machine M (AllocId × PE) F → Res α} (h : Known K N0 s → ∀ a, r s = .ok a → R a (cnt s)) :
    Kt K N0 s (EM.read r) R := by
  intro hs a s' h'
  obtain ⟨e, rfl⟩ := EM.read_eq_ok.1 h'
  exact ⟨.refl hs, h hs a e⟩

theorem Kt.unwrapRes {x : EM M (AllocId × PE) F α} (h : Kt K N0 s x R) : Kt K N0 s (EM.unwrapRes x) R :=
  fun hs a s' h' => h hs a s' (EM.unwrapRes_eq_ok.1 h')

theorem Kt.mono {R' : α → Nat → Prop} {x : EM M (AllocId × PE) F α} (h : Kt K N0 s x R)
    (hR : ∀ a s', R a s' → R' a s') : Kt K N0 s x R' :=
  fun hs a s' h' => ⟨(h hs a s' h').1, hR _ _ (h hs a s' h').2⟩

theorem Kt.ite {c : Prop} [Decidable c] {x y : EM M (AllocId × PE) F α} (hx : c → Kt K N0 s x R) (hy : ¬ c → Kt K N0 s y R) :
    Kt K N0 s (if c then x else y) R := by
  split
  · exact hx ‹_›
  · exact hy ‹_›

theorem Kt.bindLift {r : Res α} {f : α → EM M (AllocId × PE) F β}
    (hf : ∀ a, r = .ok a → Kt K N0 s (f a) Q) : Kt K N0 s (EM.lift r >>= f) Q := by
  intro hs b s' h
  obtain ⟨a, s1, h1, h2⟩ := EM.bind_eq_ok.1 h
  obtain ⟨e, rfl⟩ := EM.lift_eq_ok.1 h1
  exact hf a e hs b s' h2

theorem Kt.bindRead {r : Machine M (AllocId × PE) F → Res α} {f : α → EM M (AllocId × PE) F β}
    (hf : Known K N0 s → ∀ a, r s = .ok a → Kt K N0 s (f a) Q) : Kt K N0 s (EM.read r >>= f) Q := by
  intro hs b s' h
  obtain ⟨a, s1, h1, h2⟩ := EM.bind_eq_ok.1 h
  obtain ⟨e, rfl⟩ := EM.read_eq_ok.1 h1
  exact hf hs a e hs b s' h2

/-- Known knowledge is not affected by the choices, the accesses, the control state other than threads. -/
theorem Known.congr (h : Known K N0 s) (hm : s'.mem.memory = s.mem.memory) (he : s'.intptrcast = s.intptrcast)
    (hg : s'.globalPtrs = s.globalPtrs) (hf : s'.fnPtrs = s.fnPtrs) (hv : s'.vtablePtrs = s.vtablePtrs)
    (ht : ∀ t ∈ s'.threads, TK K (cnt s) t) : Known K N0 s' := by
  have e : s'.allocs = s.allocs := by unfold Machine.allocs; rw [hm]
  have c : cnt s' = cnt s := by unfold cnt; rw [e]
  constructor
  · rw [c]; exact h.base
  · rw [c, e]; exact h.mem
  · rw [c, he]; exact h.exposed
  · rw [c, hg]; exact h.globals
  · rw [c, hf]; exact h.fns
  · rw [c, hv]; exact h.vtables
  · rw [c]; exact ht

theorem Kt.popInt {R : Int → Nat → Prop} (h : ∀ i s', R i s') :
    Kt K N0 s (EM.popInt : EM M (AllocId × PE) F Int) R := by
  intro hs a s' h'
  obtain ⟨rest, _, rfl⟩ := EM.popInt_eq_ok.1 h'
  exact ⟨.ctl (hs.congr rfl rfl rfl rfl rfl hs.threads) rfl, h _ _⟩

theorem Kt.popProv {R : Option (AllocId × PE) → Nat → Prop} (h : ∀ i s', R i s') :
    Kt K N0 s (EM.popProv : EM M (AllocId × PE) F _) R := by
  intro hs a s' h'
  obtain ⟨rest, _, rfl⟩ := EM.popProv_eq_ok.1 h'
  exact ⟨.ctl (hs.congr rfl rfl rfl rfl rfl hs.threads) rfl, h _ _⟩

end

/-! ### Memory operations -/

/-- Any change of the memory that keeps the invariant. -/
theorem Grow.ofMem {m : ConcMem M} (hK : Caps K N0) (hs : Known K N0 s) (hs' : s' = { s with mem := m })
    (le : cnt s ≤ cnt s')
    (hm : ∀ (id : Nat) a, s'.allocs[id]? = some a → a.live = true → K (cnt s') id → BK K (cnt s') a.data)
    (same : ∀ (id : Nat) a, s.allocs[id]? = some a → ¬ K (cnt s') id → ∃ a', s'.allocs[id]? = some a' ∧ a.Same a') :
    Grow K N0 s s' := by
  refine ⟨⟨hs.base.trans le, hm, ?_, ?_, ?_, ?_, ?_⟩, le, same⟩ <;> subst hs'
  · exact fun p hp => hK.mono le (hs.exposed p hp)
  · exact fun x hx => (hs.globals x hx).mono hK le
  · exact fun x hx => (hs.fns x hx).mono hK le
  · exact fun x hx => (hs.vtables x hx).mono hK le
  · exact fun x hx => (hs.threads x hx).mono hK le

/-- The memory changed at one allocation, an allowed one. -/
theorem Grow.setAlloc {m : ConcMem M} (hK : Caps K N0) (hs : Known K N0 s) (hs' : s' = { s with mem := m }) {id : Nat}
    {a b : Alloc PE AE} (ha : s.allocs[id]? = some a) (hid : K (cnt s) id) (hb : b.live = true → BK K (cnt s) b.data)
    (hset : s'.allocs = s.allocs.set id b) : Grow K N0 s s' := by
  have hc : cnt s' = cnt s := by unfold cnt; rw [hset, List.length_set]
  refine Grow.ofMem hK hs hs' (by omega) ?_ ?_
  · intro i x hx hl hk
    rw [hc] at hk ⊢
    rw [hset, List.getElem?_set] at hx
    split at hx
    · rename_i hi; subst hi
      rw [if_pos (List.getElem?_eq_some_iff.1 ha).1] at hx
      cases hx
      exact hb hl
    · exact hs.mem i x hx hl hk
  · intro i x hx hk
    rw [hc] at hk
    rw [hset, List.getElem?_set]
    split
    · rename_i hi; subst hi; exact absurd hid hk
    · exact ⟨x, hx, .refl⟩

theorem sameData_refl {m : BasicMem PE AE} : SameData m m :=
  ⟨rfl, fun i a b ha hb => by rw [ha] at hb; cases hb; simp⟩

/-- Memories with the same data. -/
theorem Grow.sameData {m : ConcMem M} (hK : Caps K N0) (hs : Known K N0 s) (hs' : s' = { s with mem := m })
    (h : SameData (B.mem s.mem.memory) (B.mem m.memory)) : Grow K N0 s s' := by
  have hc : cnt s' = cnt s := by subst hs'; exact h.1.symm
  subst hs'
  refine Grow.ofMem hK hs rfl (by omega) ?_ ?_
  · intro i x hx hl hk
    rw [hc] at hk ⊢
    have hx' : (B.mem m.memory).allocations[i]? = some x := hx
    have hlt : i < (B.mem s.mem.memory).allocations.length := by
      rw [h.1]; exact (List.getElem?_eq_some_iff.1 hx').1
    obtain ⟨h1, _, _, _, h5⟩ := h.2 i _ x (List.getElem?_eq_getElem hlt) hx'
    rw [← h1]
    exact hs.mem i _ (List.getElem?_eq_getElem hlt) (by rw [h5]; exact hl) hk
  · intro i x hx hk
    have hlt : i < (B.mem m.memory).allocations.length := by
      rw [← h.1]; exact (List.getElem?_eq_some_iff.1 hx).1
    obtain ⟨h1, h2, h3, h4, h5⟩ := h.2 i x _ hx (List.getElem?_eq_getElem hlt)
    exact ⟨_, List.getElem?_eq_getElem hlt, h1.symm, h2.symm, h3.symm, h4.symm, h5.symm⟩

theorem Kt.memLoad (hK : Caps K N0) {ptr : ThinPtr (AllocId × PE)} {len align at'} (hp : PK K (cnt s) ptr) :
    Kt K N0 s (memLoad ptr len align at') (fun bs n => BK K n bs) := by
  intro hs bs s' h
  obtain ⟨m, hm, rfl⟩ := memLoad_eq_ok.1 h
  obtain ⟨mm, hl, rfl⟩ := ConcMem.load_eq_ok.1 hm
  obtain ⟨hx, e⟩ := B.load s.mem.memory ptr len align
  rw [hl] at e
  have e' : (B.mem s.mem.memory).load ptr len align hx = .ok (bs, B.mem mm) := e.symm
  rw [BasicMem.load_eq_ok] at e'
  obtain ⟨_, ⟨_, rfl, e2⟩ | ⟨_, id, pe, a, off, extra, hpr, ha, hl', h1, h2, _, rfl, e2⟩⟩ := e'
  · refine ⟨Grow.sameData hK hs rfl ?_, ?_⟩
    · show SameData _ (B.mem mm); rw [e2]; exact sameData_refl
    · rintro q ⟨_, hb, _⟩; cases hb
  · have hset : (B.mem mm).allocations = (B.mem s.mem.memory).allocations.set id { a with extra := extra } := by
      rw [e2]
    have hid : K (cnt s) id := hp _ hpr
    refine ⟨Grow.setAlloc (b := { a with extra := extra }) hK hs rfl ha hid (fun hl => hs.mem id a ha hl hid) hset, ?_⟩
    have hc : cnt ({ s with mem := ⟨mm, s.mem.accesses ++ [⟨.load, at', ptr.addr, len⟩]⟩ } : Machine M _ F) = cnt s := by
      show (B.mem mm).allocations.length = _
      rw [hset, List.length_set]; rfl
    show BK K (cnt ({ s with mem := ⟨mm, s.mem.accesses ++ [⟨.load, at', ptr.addr, len⟩]⟩ } : Machine M _ F)) _
    rw [hc]
    rintro q ⟨b, hb, i, hi⟩
    exact hs.mem id a ha hl' hid q ⟨b, List.mem_of_mem_drop (List.mem_of_mem_take hb), i, hi⟩

theorem Kt.memStore (hK : Caps K N0) {ptr : ThinPtr (AllocId × PE)} {bs align at'} (hp : PK K (cnt s) ptr)
    (hb : BK K (cnt s) bs) : Kt K N0 s (memStore ptr bs align at') (fun _ _ => True) := by
  intro hs _ s' h
  obtain ⟨m, hm, rfl⟩ := memStore_eq_ok.1 h
  obtain ⟨mm, hl, rfl⟩ := ConcMem.store_eq_ok.1 hm
  obtain ⟨hx, e⟩ := B.store s.mem.memory ptr bs align
  rw [hl] at e
  have e' : (B.mem s.mem.memory).store ptr bs align hx = .ok (B.mem mm) := e.symm
  rw [BasicMem.store_eq_ok] at e'
  obtain ⟨_, ⟨rfl, e2⟩ | ⟨_, id, pe, a, off, extra, data, hpr, ha, hl', h1, h2, _, hw, e2⟩⟩ := e'
  · refine ⟨Grow.sameData hK hs rfl ?_, trivial⟩
    show SameData _ (B.mem mm); rw [e2]; exact sameData_refl
  · have hset : (B.mem mm).allocations = (B.mem s.mem.memory).allocations.set id { a with extra := extra, data := data } := by
      rw [e2]
    have hid : K (cnt s) id := hp _ hpr
    refine ⟨Grow.setAlloc hK hs rfl ha hid (fun hl q hq => ?_) hset, trivial⟩
    rcases ProvInBytes.write hw hq with hq | hq
    · exact hs.mem id a ha hl' hid q hq
    · exact hb q hq

theorem Kt.memAllocate (hK : Caps K N0) {kind size align} :
    Kt K N0 s (memAllocate kind size align) (fun p n => PK K n p) := by
  unfold MiniRust.memAllocate
  refine Kt.bind hK (Kt.popInt (R := fun _ _ => True) fun _ _ => trivial) fun pick s1 _ _ => ?_
  intro hs p s' h
  simp only [Res.bind_eq_ok, Prod.exists, Except.ok.injEq, Prod.mk.injEq] at h
  obtain ⟨p', m, hm, rfl, rfl⟩ := h
  simp only [ConcMem.allocate, Res.bind_eq_ok, Prod.exists, Except.ok.injEq, Prod.mk.injEq] at hm
  obtain ⟨p'', mm, hl, rfl, rfl⟩ := hm
  obtain ⟨pe, ae, e⟩ := B.allocate s1.mem.memory kind size align pick
  rw [hl] at e
  have e' : (B.mem s1.mem.memory).allocate kind size align pe ae pick = .ok (p'', B.mem mm) := e.symm
  rw [BasicMem.allocate_eq_ok] at e'
  obtain ⟨_, _, rfl, e2⟩ := e'
  have hal : (B.mem mm).allocations = (B.mem s1.mem.memory).allocations ++
      [⟨List.replicate size .uninit, pick, align, kind, true, ae⟩] := by rw [e2]
  have hc : cnt ({ s1 with mem := ⟨mm, s1.mem.accesses⟩ } : Machine M _ F) = cnt s1 + 1 := by
    show (B.mem mm).allocations.length = _
    rw [hal, List.length_append]; rfl
  have hfresh := hK.fresh hs.base
  refine ⟨Grow.ofMem hK hs rfl (by omega) ?_ ?_, ?_⟩
  · intro i x hx hlv hk
    rw [hc] at hk ⊢
    have hx' : (B.mem mm).allocations[i]? = some x := hx
    rw [hal, List.getElem?_append] at hx'
    split at hx'
    · intro q hq
      exact hK.mono (Nat.le_succ _) (hs.mem i x hx' hlv (hK.old ‹_› hk) q hq)
    · rw [List.getElem?_singleton] at hx'
      split at hx'
      · cases hx'
        intro q hq; exact absurd hq not_provInBytes_replicate
      · cases hx'
  · intro i x hx hk
    refine ⟨x, ?_, .refl⟩
    show (B.mem mm).allocations[i]? = some x
    have hx' : (B.mem s1.mem.memory).allocations[i]? = some x := hx
    rw [hal, List.getElem?_append_left (List.getElem?_eq_some_iff.1 hx').1]
    exact hx
  · show PK K (cnt ({ s1 with mem := ⟨mm, s1.mem.accesses⟩ } : Machine M _ F)) _
    rw [hc]
    intro q hq
    cases hq
    exact hfresh

theorem Kt.memDeallocate (hK : Caps K N0) {ptr : ThinPtr (AllocId × PE)} {kind size align} (hp : PK K (cnt s) ptr) :
    Kt K N0 s (memDeallocate ptr kind size align) (fun _ _ => True) := by
  intro hs _ s' h
  unfold MiniRust.memDeallocate at h
  simp only [Res.bind_eq_ok, Except.ok.injEq, Prod.mk.injEq, true_and] at h
  obtain ⟨m, hm, rfl⟩ := h
  simp only [ConcMem.deallocate, Res.bind_eq_ok, Except.ok.injEq] at hm
  obtain ⟨mm, hl, rfl⟩ := hm
  obtain ⟨hx, e⟩ := B.deallocate s.mem.memory ptr kind size align
  rw [hl] at e
  have e' : (B.mem s.mem.memory).deallocate ptr kind size align hx = .ok (B.mem mm) := e.symm
  rw [BasicMem.deallocate_eq_ok] at e'
  obtain ⟨id, pe, a, extra, hpr, ha, hl', h1, h2, _, _, hw, e2⟩ := e'
  have hset : (B.mem mm).allocations = (B.mem s.mem.memory).allocations.set id { a with extra := extra, live := false } := by
    rw [e2]
  have hid : K (cnt s) id := hp _ hpr
  exact ⟨Grow.setAlloc hK hs rfl ha hid (fun hl => by cases hl) hset, trivial⟩

theorem Kt.memEndCall (hK : Caps K N0) {f : F} : Kt K N0 s (memEndCall f) (fun _ _ => True) := by
  intro hs _ s' h
  unfold MiniRust.memEndCall at h
  simp only [Res.bind_eq_ok, Except.ok.injEq, Prod.mk.injEq, true_and] at h
  obtain ⟨m, hm, rfl⟩ := h
  simp only [ConcMem.endCall, Res.bind_eq_ok, Except.ok.injEq] at hm
  obtain ⟨mm, hl, rfl⟩ := hm
  exact ⟨Grow.sameData hK hs rfl (B.endCall _ _ _ hl), trivial⟩

/-! ### Frames -/

theorem TK.setFrame {n : Nat} {t : Thread (AllocId × PE) F} {fr : StackFrame (AllocId × PE) F} {rest} (h : TK K n t) (hr : ∀ f ∈ rest, FK K n f) (hf : FK K n fr) :
    TK K n { t with stack := fr :: rest } :=
  ⟨fun f h' => (List.mem_cons.1 h').elim (fun e => e ▸ hf) (hr f), h.payloads⟩

theorem Known.setThread (h : Known K N0 s) {i : Nat} {t : Thread (AllocId × PE) F} (ht : TK K (cnt s) t) :
    Known K N0 { s with threads := s.threads.set i t } := by
  refine h.congr rfl rfl rfl rfl rfl fun t' ht' => ?_
  rcases List.mem_or_eq_of_mem_set ht' with h1 | rfl
  · exact h.threads t' h1
  · exact ht

theorem Kt.mutateCurFrame (hK : Caps K N0) {f : StackFrame (AllocId × PE) F → EM M (AllocId × PE) F (α × StackFrame (AllocId × PE) F)}
    {R : α → Nat → Prop}
    (hf : Known K N0 s → ∀ fr, FK K (cnt s) fr → Kt K N0 s (f fr) (fun r n => R r.1 n ∧ FK K n r.2)) :
    Kt K N0 s (mutateCurFrame f) R := by
  intro hs a s' h
  obtain ⟨t, fr, rest, fr', s1, t1, fr1, rest1, h1, h2, h3, h4, h5, rfl⟩ := mutateCurFrame_eq_ok.1 h
  have ht := hs.threads t (List.mem_of_getElem? h1)
  obtain ⟨g, r, k⟩ := hf hs fr (ht.stack fr (by rw [h2]; simp)) hs _ _ h3
  have ht1 := g.known.threads t1 (List.mem_of_getElem? h4)
  have kn := g.known.setThread (i := s1.activeThread) (ht1.setFrame (rest := rest1)
    (fun f hf => ht1.stack f (by rw [h5]; simp [hf])) k)
  exact ⟨g.trans hK (.ctl kn rfl), r⟩

theorem Kt.retagPtrM (hK : Caps K N0) {ptr : Pointer (AllocId × PE)} {pty e} (hp : VK K (cnt s) (.ptr ptr)) :
    Kt K N0 s (retagPtrM ptr pty e) (fun p n => VK K n (.ptr p)) := by
  unfold MiniRust.retagPtrM
  refine Kt.mutateCurFrame hK fun hs fr hfr => ?_
  intro _ a s' h
  simp only [Res.bind_eq_ok, Prod.exists, Except.ok.injEq, Prod.mk.injEq] at h
  obtain ⟨p, ex, m, hm, rfl, rfl⟩ := h
  simp only [ConcMem.retagPtr, Res.bind_eq_ok, Prod.exists, Except.ok.injEq, Prod.mk.injEq] at hm
  obtain ⟨p, ex, mm, hl, rfl, rfl, rfl⟩ := hm
  have g := Grow.sameData hK hs (s' := { s with mem := ⟨mm, s.mem.accesses⟩ }) rfl (B.retag _ _ _ _ _ _ _ _ _ hl)
  obtain ⟨e1, _, e2⟩ := B.retagSame _ _ _ _ _ _ _ _ _ hl
  refine ⟨g, VK.ptr (fun q hq => ?_) (fun q hq => ?_), FK.mono hK g.le ⟨hfr.locals, hfr.action⟩⟩
  · obtain ⟨x, hx⟩ := (e2 q.1).1 ⟨q.2, hq⟩
    exact hK.mono g.le (hp (q.1, x) (.thin hx))
  · rw [e1] at hq
    exact PK.mono hK g.le (hp.meta q hq)

/-! ### Typed accesses -/

theorem Kt.typedLoad (hK : Caps K N0) {ptr : ThinPtr (AllocId × PE)} {ty align at'} (hp : PK K (cnt s) ptr) :
    Kt K N0 s (typedLoad ptr ty align at') (fun v n => VK K n v) := by
  unfold MiniRust.typedLoad
  refine .bindLift fun n _ => .bind hK (.memLoad hK hp) fun bs s1 _ hb => .read fun _ v hv => ?_
  exact fun q hq => hb q (decode_prov ty (decodeChecked_eq_ok.1 hv).1 hq)

theorem Kt.typedStore (hK : Caps K N0) {ptr : ThinPtr (AllocId × PE)} {v ty align at'} (hp : PK K (cnt s) ptr)
    (hv : VK K (cnt s) v) : Kt K N0 s (typedStore ptr v ty align at') (fun _ _ => True) := by
  unfold MiniRust.typedStore
  refine .bindRead fun _ bs hb => .memStore hK hp ?_
  exact fun q hq => hv q (encode_prov ty (encodeChecked_eq_ok.1 hb).2 hq)

/-- The pointer of a place. -/
def PlK (K : Nat → AllocId → Prop) (n : Nat) (p : Place (AllocId × PE)) : Prop := VK K n (.ptr p.ptr)

theorem Kt.placeLoad (hK : Caps K N0) {p : Place (AllocId × PE)} {ty} (hp : PlK K (cnt s) p) :
    Kt K N0 s (placeLoad p ty) (fun v n => VK K n v) := by
  unfold MiniRust.placeLoad
  exact .ite (fun _ => .throw) fun _ => .typedLoad hK hp.thin

theorem Kt.placeStore (hK : Caps K N0) {p : Place (AllocId × PE)} {v ty} (hp : PlK K (cnt s) p) (hv : VK K (cnt s) v) :
    Kt K N0 s (placeStore p v ty) (fun _ _ => True) := by
  unfold MiniRust.placeStore
  exact .ite (fun _ => .throw) fun _ => .typedStore hK hp.thin hv

theorem Kt.addrOf (hK : Caps K N0) {p : Place (AllocId × PE)} {pty} (hp : PlK K (cnt s) p) :
    Kt K N0 s (addrOf p pty) (fun v n => VK K n v.1) := by
  unfold MiniRust.addrOf
  exact .bindRead fun _ _ _ => .bind hK (.retagPtrM hK hp) fun q s1 _ hq => .pure fun _ => hq

theorem ptrOffsetInbounds_prov {p q : ThinPtr (AllocId × PE)} {i : Int} (h : s.ptrOffsetInbounds p i = .ok q) : q.prov = p.prov := by
  simp only [Machine.ptrOffsetInbounds, Res.bind_eq_ok, Except.ok.injEq] at h
  obtain ⟨_, _, _, _, _, _, rfl⟩ := h
  rfl

theorem PK.congr {n : Nat} {p q : ThinPtr (AllocId × PE)} (h : PK K n p) (e : q.prov = p.prov) : PK K n q :=
  fun x hx => h x (by rw [← e]; exact hx)

theorem Kt.getDiscriminant (hK : Caps K N0) {p : Place (AllocId × PE)} {ty} (hp : PlK K (cnt s) p) :
    Kt K N0 s (getDiscriminant p ty) (fun v n => VK K n v.1) := by
  unfold MiniRust.getDiscriminant
  split
  · refine .ite (fun _ => .throw) fun _ => ?_
    refine Kt.bind (R := fun _ _ => True) hK ?_ fun d s1 _ _ => ?_
    · intro hs d s' h
      refine ⟨?_, trivial⟩
      refine decodeDiscriminant_rel (R := fun a b : Machine M (AllocId × PE) F => PlK K (cnt a) p → Known K N0 a → Grow K N0 a b)
        (fun a _ ha => .refl ha) (fun a b c hab hbc hpa ha => ?_) ?_ _ _ _ _ h hp hs
      · have g := hab hpa ha
        exact g.trans hK (hbc (VK.mono hK g.le hpa) g.known)
      · intro a off sz bs b hb hpa ha
        simp only [Res.bind_eq_ok] at hb
        obtain ⟨q, hq, hb⟩ := hb
        exact (Kt.memLoad hK (PK.congr hpa.thin (ptrOffsetInbounds_prov hq)) ha _ _ hb).1
    · cases d with
      | none => exact .throw
      | some d => exact .pure fun _ => VK.int
  · exact .throw

end MiniRust
