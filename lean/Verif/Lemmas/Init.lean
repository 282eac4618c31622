import Verif.Spec.Init
import Verif.Lemmas.MachineMem
import Verif.Lemmas.Bytes
/-
Lemmas for C55: the allocation loops of `Machine::new`.
-/
set_option linter.unusedSectionVars false
namespace MiniRust

namespace Map
variable {K V : Type} [DecidableEq K]
theorem get?_isSome_iff {m : Map K V} {k : K} : (∃ v, m.get? k = some v) ↔ k ∈ m.keys := by
  induction m with
  | nil => simp [get?, keys]
  | cons e m ih =>
    obtain ⟨k', v'⟩ := e
    simp only [get?, keys, List.map_cons, List.mem_cons]
    split
    · subst_vars; simp
    · rename_i hn
      rw [ih]; unfold keys
      constructor
      · exact .inr
      · rintro (h | h)
        · exact absurd h.symm hn
        · exact h

theorem get?_of_mem {m : Map K V} (hn : m.keys.Nodup) {k : K} {v : V} (h : (k, v) ∈ m) : m.get? k = some v := by
  induction m with
  | nil => cases h
  | cons e m ih =>
    obtain ⟨k', v'⟩ := e
    simp only [keys, List.map_cons, List.nodup_cons] at hn
    simp only [get?]
    rcases List.mem_cons.1 h with h | h
    · cases h; simp
    · split
      · subst_vars
        exact absurd (List.mem_map_of_mem (f := (·.1)) h) hn.1
      · exact ih hn.2 h

theorem keys_insert_mem {m : Map K V} {k : K} {v : V} {q} : q ∈ (m.insert k v).keys ↔ q = k ∨ q ∈ m.keys := by
  rw [← get?_isSome_iff, ← get?_isSome_iff]
  simp only [get?_insert]
  by_cases h : k = q
  · subst h; simp
  · simp [h, Ne.symm h]

theorem mem_insert_of {m : Map K V} {k : K} {v : V} {e} (h : e ∈ m.insert k v) : e = (k, v) ∨ e ∈ m := by
  induction m with
  | nil => simp [insert] at h; exact .inl h
  | cons x m ih =>
    obtain ⟨k', v'⟩ := x
    simp only [insert] at h
    split at h
    · rcases List.mem_cons.1 h with h | h
      · exact .inl h
      · exact .inr (List.mem_cons_of_mem _ h)
    · rcases List.mem_cons.1 h with h | h
      · exact .inr (by simp [h])
      · rcases ih h with h | h
        · exact .inl h
        · exact .inr (List.mem_cons_of_mem _ h)
end Map

section
variable {M PE AE F : Type} [T : Target] [Memory M (AllocId × PE) F] [B : BasicBacked M PE AE F]
include B

theorem liveIn_congr {h h' : MemHistory PE} {m : M} (hr : MemReach h m) (hr' : MemReach h' m) {id i} :
    LiveIn h id i ↔ LiveIn h' id i := by rw [live_iff hr, live_iff hr']

theorem startsLive_congr {h h' : MemHistory PE} {m : M} (hr : MemReach h m) (hr' : MemReach h' m) {p k n a} :
    StartsLive h p k n a ↔ StartsLive h' p k n a := by
  unfold StartsLive; simp only [liveIn_congr hr hr']

theorem liveIn_unique {h : MemHistory PE} {m : M} (hr : MemReach h m) {id i i'} (h1 : LiveIn h id i) (h2 : LiveIn h id i') :
    i = i' := by
  obtain ⟨a, ha, _, rfl⟩ := (live_iff hr).1 h1
  obtain ⟨b, hb, _, rfl⟩ := (live_iff hr).1 h2
  rw [ha] at hb; cases hb; rfl

/-- Live allocations with different pointers are at different addresses. -/
theorem startsLive_addr {h : MemHistory PE} {m : M} (hr : MemReach h m) {p q k n a k' n' a'}
    (h1 : StartsLive h p k n a) (h2 : StartsLive h q k' n' a') (he : p.addr = q.addr) :
    k = k' ∧ n = n' ∧ a = a' ∧ ∃ id, p.HasId id ∧ q.HasId id := by
  obtain ⟨id, i1, l1⟩ := h1
  obtain ⟨id', i2, l2⟩ := h2
  by_cases hid : id = id'
  · subst hid
    have := liveIn_unique hr l1 l2
    simp only [AllocInfo.mk.injEq] at this
    exact ⟨this.1, this.2.1, this.2.2.1, id, i1, i2⟩
  · exact absurd he (C16_disjoint hr hid l1 l2).1

/-- Memory operations of a run keep the allocations of globals, functions and vtables. -/
theorem startsLive_run {h h' : MemHistory PE} {m0 m : M} (hr : MemReach h m0) (hr' : MemRun m0 h' m)
    (hk : ∀ e ∈ h', e.KeepsStatics) {p k n a} (hs : k ≠ .stack) (hh : k ≠ .heap) (hl : StartsLive h p k n a) :
    StartsLive (h' ++ h) p k n a := by
  induction hr' with
  | nil => exact hl
  | @cons m' m e h' hrun hstep ih =>
    have ih := ih fun e he => hk e (List.mem_cons_of_mem _ he)
    have hm : MemReach (h' ++ h) m' := MemRun.append hr hrun
    obtain ⟨id, hid, ⟨hw, hnd⟩⟩ := ih
    refine ⟨id, hid, ⟨?_, ?_⟩⟩
    · obtain ⟨q, hq, h2⟩ := hw
      exact ⟨q, List.mem_cons_of_mem _ hq, h2⟩
    · rintro ⟨q, k', n', a', hq, hqid⟩
      rcases List.mem_cons.1 hq with hq | hq
      · subst hq
        have hk' := hk _ List.mem_cons_self
        cases hstep with
        | dealloc hd =>
          by_cases hf : Freeable (h' ++ h) q k' n' a'
          · obtain ⟨id', hid', hl'⟩ := hf
            obtain ⟨x, hx⟩ := hqid
            obtain ⟨y, hy⟩ := hid'
            rw [hx] at hy; cases hy
            have := liveIn_unique hm ⟨hw, hnd⟩ hl'
            simp only [AllocInfo.mk.injEq] at this
            obtain ⟨rfl, -⟩ := this
            rcases hk' with rfl | rfl
            · exact hs rfl
            · exact hh rfl
          · have hg : Genuine (h' ++ h) q := by
              intro id' hid'
              obtain ⟨x, hx⟩ := hqid
              obtain ⟨y, hy⟩ := hid'
              rw [hx] at hy; cases hy
              exact ⟨_, hw⟩
            have := C19_bad_deallocation_is_ub hm hg hf
            rw [this] at hd; cases hd
      · exact hnd ⟨q, k', n', a', hq, hqid⟩

theorem Placed.run {K : Type} [DecidableEq K] {h h' : MemHistory PE} {m0 m : M} (hr : MemReach h m0)
    (hr' : MemRun m0 h' m) (hk : ∀ e ∈ h', e.KeepsStatics) {ptrs : Map K _} {k item} (hs : k ≠ .stack) (hh : k ≠ .heap)
    (hp : Placed h ptrs k item) : Placed (h' ++ h) ptrs k item where
  has x n a hi := by
    obtain ⟨p, h1, h2⟩ := hp.has x n a hi
    exact ⟨p, h1, startsLive_run hr hr' hk hs hh h2⟩
  only := hp.only
  apart := hp.apart

theorem Placed.congr {K : Type} [DecidableEq K] {h h' : MemHistory PE} {m : M} (hr : MemReach h m)
    (hr' : MemReach h' m) {ptrs : Map K _} {k item} (hp : Placed h ptrs k item) : Placed h' ptrs k item where
  has x n a hi := by
    obtain ⟨p, h1, h2⟩ := hp.has x n a hi
    exact ⟨p, h1, (startsLive_congr hr hr').1 h2⟩
  only := hp.only
  apart := hp.apart

/-- One allocation of an allocation loop. -/
theorem Placed.insert {K : Type} [DecidableEq K] {h : MemHistory PE} {m0 m : M} (hr : MemReach h m0)
    {kind n a p} (hst : MemStep m0 (.alloc kind n a p) m) {ptrs : Map K _} {item} (hs : kind ≠ .stack) (hh : kind ≠ .heap)
    (hp : Placed h ptrs kind item) {k : K} (hk : k ∉ ptrs.keys) :
    Placed (.alloc kind n a p :: h) (ptrs.insert k p) kind
      (fun k' n' a' => item k' n' a' ∨ (k' = k ∧ n' = n ∧ a' = a)) := by
  have hr' : MemReach (.alloc kind n a p :: h) m := .cons hr hst
  have old := hp.run hr (.cons .nil hst) (by intro e he; cases List.mem_singleton.1 he; trivial) hs hh
  obtain ⟨id, hid, hfresh⟩ := C16_fresh_identity hr'
  have hnew : StartsLive (.alloc kind n a p :: h) p kind n a := by
    refine ⟨id, hid, ⟨p, List.mem_cons_self, hid, rfl⟩, ?_⟩
    rintro ⟨q, k', n', a', hq, hqid⟩
    rcases List.mem_cons.1 hq with hq | hq
    · cases hq
    · have hd := (MemReach.rep (B := B) hr).dead id ⟨q, k', n', a', hq, hqid⟩
      exact hfresh _ ((MemReach.rep (B := B) hr).was id (B.mem m0).allocations[id] (by simp [hd]))
  have hsome : ∀ q p', ptrs.get? q = some p' → q ≠ k := by
    rintro q p' h1 rfl
    exact hk (Map.get?_isSome_iff.1 ⟨_, h1⟩)
  have hne : ∀ q p', ptrs.get? q = some p' → p'.addr ≠ p.addr := by
    intro q p' h1 he
    obtain ⟨h2, n2, a2, h3⟩ := hp.only q p' (Map.get?_mem h1)
    obtain ⟨p3, h4, h5⟩ := old.has q n2 a2 h3
    rw [h1] at h4; cases h4
    obtain ⟨_, _, _, id', e1, e2⟩ := startsLive_addr hr' h5 hnew he
    obtain ⟨x, hx⟩ := hid
    obtain ⟨y, hy⟩ := e2
    rw [hx] at hy; cases hy
    obtain ⟨p4, h6, h7⟩ := hp.has q n2 a2 h3
    rw [h1] at h6; cases h6
    obtain ⟨id2, ⟨z, hz⟩, h8⟩ := h7
    obtain ⟨w, hw⟩ := e1
    rw [hw] at hz; cases hz
    exact hfresh _ h8.1
  constructor
  · rintro q n' a' (hi | ⟨rfl, rfl, rfl⟩)
    · obtain ⟨p', h1, h2⟩ := old.has q n' a' hi
      refine ⟨p', ?_, h2⟩
      rw [Map.get?_insert, if_neg (Ne.symm (hsome q p' h1)), h1]
    · exact ⟨p, by rw [Map.get?_insert, if_pos rfl], hnew⟩
  · intro q p' hm
    rcases Map.mem_insert_of hm with h1 | h1
    · cases h1
      exact ⟨by rw [Map.get?_insert, if_pos rfl], n, a, .inr ⟨rfl, rfl, rfl⟩⟩
    · obtain ⟨h2, n', a', h3⟩ := hp.only q p' h1
      exact ⟨by rw [Map.get?_insert, if_neg (Ne.symm (hsome q p' h2)), h2], n', a', .inl h3⟩
  · intro q q' p1 p2 h1 h2 he
    rw [Map.get?_insert] at h1 h2
    split at h1
    · cases h1
      split at h2
      · subst_vars; rfl
      · exact absurd he.symm (hne _ _ h2)
    · split at h2
      · cases h2
        exact absurd he (hne _ _ h1)
      · exact hp.apart _ _ _ _ h1 h2 he

theorem Placed.empty {K : Type} [DecidableEq K] {h : MemHistory PE} {kind} :
    Placed (K := K) h [] kind (fun _ _ _ => False) where
  has _ _ _ := False.elim
  only _ _ hm := by cases hm
  apart _ _ _ _ hm := by cases hm

end

theorem memAllocate_eq_ok {M P F : Type} [Memory M P F] {s s' : Machine M P F} {k n a p} :
    memAllocate k n a s = .ok (p, s') ↔ ∃ i rest m, s.oracle = .int i :: rest ∧ s.mem.allocate k n a i = .ok (p, m) ∧
      s' = { s with mem := m, oracle := rest } := by
  unfold memAllocate
  refine EM.bind_eq_ok.trans ?_
  constructor
  · rintro ⟨i, s1, h1, h2⟩
    obtain ⟨rest, ho, rfl⟩ := EM.popInt_eq_ok.1 h1
    obtain ⟨⟨p', m⟩, h3, h4⟩ := Res.bind_eq_ok.1 h2
    cases h4
    exact ⟨i, rest, m, ho, h3, rfl⟩
  · rintro ⟨i, rest, m, ho, h3, rfl⟩
    exact ⟨i, _, EM.popInt_eq_ok.2 ⟨rest, ho, rfl⟩, Res.bind_eq_ok.2 ⟨_, h3, rfl⟩⟩

/-- The events of the allocation loops. -/
def MemEvent.IsAlloc {PE : Type} : MemEvent PE → Prop
  | .alloc .. => True
  | _ => False

theorem MemEvent.IsAlloc.keeps {PE : Type} {e : MemEvent PE} (h : e.IsAlloc) : e.KeepsStatics := by
  cases e <;> first | trivial | exact h.elim

theorem lastStored_allocs {PE : Type} {h h' : MemHistory PE} (hk : ∀ e ∈ h', e.IsAlloc) {id x} :
    lastStored (h' ++ h) id x = lastStored h id x := by
  induction h' with
  | nil => rfl
  | cons e h' ih =>
    rw [List.cons_append, lastStored_cons_other, ih fun e he => hk e (List.mem_cons_of_mem _ he)]
    rintro p b a rfl
    exact hk _ List.mem_cons_self

section
variable {M PE AE F : Type} [T : Target] [DecidableEq PE] [Memory M (AllocId × PE) F] [B : BasicBacked M PE AE F]
variable {s s' : Machine M (AllocId × PE) F}

theorem memAllocate_step {k n a p} (h : memAllocate k n a s = .ok (p, s')) :
    MemStep (F := F) s.mem.memory (.alloc k n a p) s'.mem.memory ∧
      s' = { s with mem := s'.mem, oracle := s'.oracle } := by
  obtain ⟨i, rest, m, _, h1, rfl⟩ := memAllocate_eq_ok.1 h
  obtain ⟨⟨p', m'⟩, h2, h3⟩ := Res.bind_eq_ok.1 h1
  cases h3
  exact ⟨.alloc h2, rfl⟩

include B

/-- What an allocation loop does. -/
def AllocLoop {K : Type} [DecidableEq K] (s s' : Machine M (AllocId × PE) F)
    (ptrs : Machine M (AllocId × PE) F → Map K (ThinPtr (AllocId × PE))) (kind : AllocKind)
    (item : K → Nat → Align → Prop) : Prop :=
  ∃ h' : MemHistory PE, MemRun (F := F) s.mem.memory h' s'.mem.memory ∧ (∀ e ∈ h', e.IsAlloc) ∧
    ∀ h, MemReach (F := F) h s.mem.memory → ∀ old, Placed h (ptrs s) kind old →
      (∀ k n a, item k n a → k ∉ (ptrs s).keys) →
      Placed (h' ++ h) (ptrs s') kind (fun k n a => old k n a ∨ item k n a)

theorem Placed.mono {K : Type} [DecidableEq K] {h : MemHistory PE} {ptrs : Map K (ThinPtr (AllocId × PE))} {kind}
    {i1 i2 : K → Nat → Align → Prop} (hp : Placed h ptrs kind i1) (hi : ∀ k n a, i1 k n a ↔ i2 k n a) :
    Placed h ptrs kind i2 := by
  have : i1 = i2 := by funext k n a; exact propext (hi k n a)
  exact this ▸ hp

theorem allocGlobals_loop : ∀ {gs : List (GlobalName × Global)} {s s' : Machine M (AllocId × PE) F},
    (gs.map (·.1)).Nodup → allocGlobals gs s = .ok ((), s') →
    AllocLoop s s' (·.globalPtrs) .global (fun k n a => ∃ g, (k, g) ∈ gs ∧ n = g.bytes.length ∧ a = g.align) ∧
    s' = { s with mem := s'.mem, oracle := s'.oracle, globalPtrs := s'.globalPtrs } ∧
    (∀ q, q ∈ s'.globalPtrs.keys ↔ q ∈ s.globalPtrs.keys ∨ q ∈ gs.map (·.1))
  | [], s, s', _, h => by
    cases h
    refine ⟨⟨[], .nil, by simp, fun h hr old hp _ => hp.mono (B := B) (by simp)⟩, rfl, by simp⟩
  | (name, g) :: gs, s, s', hn, h => by
    unfold allocGlobals at h
    obtain ⟨p, s1, h1, h⟩ := EM.bind_eq_ok.1 h
    obtain ⟨⟨⟩, s2, h2, h⟩ := EM.bind_eq_ok.1 h
    obtain ⟨_, rfl⟩ := EM.modify_eq_ok.1 h2
    obtain ⟨hst, hs1⟩ := memAllocate_step h1
    simp only [List.map_cons, List.nodup_cons] at hn
    obtain ⟨⟨h', hrun, hal, hpl⟩, hs', hk⟩ := allocGlobals_loop hn.2 h
    refine ⟨⟨h' ++ [.alloc .global g.bytes.length g.align p], .append (.cons .nil hst) hrun, ?_, ?_⟩, ?_, ?_⟩
    · intro e he
      rcases List.mem_append.1 he with he | he
      · exact hal e he
      · cases List.mem_singleton.1 he; trivial
    · intro h0 hr old hp hfresh
      have hkn : name ∉ s.globalPtrs.keys := hfresh name _ _ ⟨g, List.mem_cons_self, rfl, rfl⟩
      have hp1 := hp.insert hr hst (by simp) (by simp) hkn
      have heq : s1.globalPtrs = s.globalPtrs := by rw [hs1]
      have hp2 := hpl (.alloc .global g.bytes.length g.align p :: h0) (.cons hr hst) _ (by rw [heq]; exact hp1) (by
        rintro k n a ⟨g', hg', -, -⟩ hmem
        dsimp only at hmem
        rw [heq, Map.keys_insert_mem] at hmem
        rcases hmem with rfl | hmem
        · exact hn.1 (List.mem_map_of_mem (f := (·.1)) hg')
        · exact hfresh k _ _ ⟨g', List.mem_cons_of_mem _ hg', rfl, rfl⟩ hmem)
      rw [List.append_assoc]
      refine hp2.mono (B := B) fun k n a => ?_
      simp only [List.mem_cons, Prod.mk.injEq]
      constructor
      · rintro ((h | ⟨rfl, rfl, rfl⟩) | ⟨g', hg', h3⟩)
        · exact .inl h
        · exact .inr ⟨g, .inl ⟨rfl, rfl⟩, rfl, rfl⟩
        · exact .inr ⟨g', .inr hg', h3⟩
      · rintro (h | ⟨g', ⟨rfl, rfl⟩ | hg', h3, h4⟩)
        · exact .inl (.inl h)
        · exact .inl (.inr ⟨rfl, h3, h4⟩)
        · exact .inr ⟨g', hg', h3, h4⟩
    · rw [hs']; rw [hs1]
    · intro q
      rw [hk, Map.keys_insert_mem, hs1]
      simp only [List.map_cons, List.mem_cons]
      tauto

theorem allocFunctions_loop : ∀ {gs : List FnName} {s s' : Machine M (AllocId × PE) F},
    gs.Nodup → allocFunctions gs s = .ok ((), s') →
    AllocLoop s s' (·.fnPtrs) .function (fun k n a => k ∈ gs ∧ n = 0 ∧ a = ⟨0⟩) ∧
    s' = { s with mem := s'.mem, oracle := s'.oracle, fnPtrs := s'.fnPtrs }
  | [], s, s', _, h => by
    cases h
    refine ⟨⟨[], .nil, by simp, fun h hr old hp _ => hp.mono (B := B) (by simp)⟩, rfl⟩
  | name :: gs, s, s', hn, h => by
    unfold allocFunctions at h
    obtain ⟨p, s1, h1, h⟩ := EM.bind_eq_ok.1 h
    obtain ⟨⟨⟩, s2, h2, h⟩ := EM.bind_eq_ok.1 h
    obtain ⟨_, rfl⟩ := EM.modify_eq_ok.1 h2
    obtain ⟨hst, hs1⟩ := memAllocate_step h1
    simp only [List.nodup_cons] at hn
    obtain ⟨⟨h', hrun, hal, hpl⟩, hs'⟩ := allocFunctions_loop hn.2 h
    refine ⟨⟨h' ++ [.alloc .function 0 Align.one p], .append (.cons .nil hst) hrun, ?_, ?_⟩, ?_⟩
    · intro e he
      rcases List.mem_append.1 he with he | he
      · exact hal e he
      · cases List.mem_singleton.1 he; trivial
    · intro h0 hr old hp hfresh
      have hkn : name ∉ s.fnPtrs.keys := hfresh name _ _ ⟨List.mem_cons_self, rfl, rfl⟩
      have hp1 := hp.insert hr hst (by simp) (by simp) hkn
      have heq : s1.fnPtrs = s.fnPtrs := by rw [hs1]
      have hp2 := hpl (.alloc .function 0 Align.one p :: h0) (.cons hr hst) _ (by rw [heq]; exact hp1) (by
        rintro k n a ⟨hg', -, -⟩ hmem
        dsimp only at hmem
        rw [heq, Map.keys_insert_mem] at hmem
        rcases hmem with rfl | hmem
        · exact hn.1 hg'
        · exact hfresh k _ _ ⟨List.mem_cons_of_mem _ hg', rfl, rfl⟩ hmem)
      rw [List.append_assoc]
      refine hp2.mono (B := B) fun k n a => ?_
      simp only [List.mem_cons]
      constructor
      · rintro ((h | ⟨rfl, rfl, rfl⟩) | ⟨hg', h3⟩)
        · exact .inl h
        · exact .inr ⟨.inl rfl, rfl, rfl⟩
        · exact .inr ⟨.inr hg', h3⟩
      · rintro (h | ⟨rfl | hg', h3, h4⟩)
        · exact .inl (.inl h)
        · exact .inl (.inr ⟨rfl, h3, h4⟩)
        · exact .inr ⟨hg', h3, h4⟩
    · rw [hs']; rw [hs1]

theorem allocVTables_loop : ∀ {gs : List VTableName} {s s' : Machine M (AllocId × PE) F},
    gs.Nodup → allocVTables gs s = .ok ((), s') →
    AllocLoop s s' (·.vtablePtrs) .vtable (fun k n a => k ∈ gs ∧ n = 0 ∧ a = ⟨0⟩) ∧
    s' = { s with mem := s'.mem, oracle := s'.oracle, vtablePtrs := s'.vtablePtrs }
  | [], s, s', _, h => by
    cases h
    refine ⟨⟨[], .nil, by simp, fun h hr old hp _ => hp.mono (B := B) (by simp)⟩, rfl⟩
  | name :: gs, s, s', hn, h => by
    unfold allocVTables at h
    obtain ⟨p, s1, h1, h⟩ := EM.bind_eq_ok.1 h
    obtain ⟨⟨⟩, s2, h2, h⟩ := EM.bind_eq_ok.1 h
    obtain ⟨_, rfl⟩ := EM.modify_eq_ok.1 h2
    obtain ⟨hst, hs1⟩ := memAllocate_step h1
    simp only [List.nodup_cons] at hn
    obtain ⟨⟨h', hrun, hal, hpl⟩, hs'⟩ := allocVTables_loop hn.2 h
    refine ⟨⟨h' ++ [.alloc .vtable 0 Align.one p], .append (.cons .nil hst) hrun, ?_, ?_⟩, ?_⟩
    · intro e he
      rcases List.mem_append.1 he with he | he
      · exact hal e he
      · cases List.mem_singleton.1 he; trivial
    · intro h0 hr old hp hfresh
      have hkn : name ∉ s.vtablePtrs.keys := hfresh name _ _ ⟨List.mem_cons_self, rfl, rfl⟩
      have hp1 := hp.insert hr hst (by simp) (by simp) hkn
      have heq : s1.vtablePtrs = s.vtablePtrs := by rw [hs1]
      have hp2 := hpl (.alloc .vtable 0 Align.one p :: h0) (.cons hr hst) _ (by rw [heq]; exact hp1) (by
        rintro k n a ⟨hg', -, -⟩ hmem
        dsimp only at hmem
        rw [heq, Map.keys_insert_mem] at hmem
        rcases hmem with rfl | hmem
        · exact hn.1 hg'
        · exact hfresh k _ _ ⟨List.mem_cons_of_mem _ hg', rfl, rfl⟩ hmem)
      rw [List.append_assoc]
      refine hp2.mono (B := B) fun k n a => ?_
      simp only [List.mem_cons]
      constructor
      · rintro ((h | ⟨rfl, rfl, rfl⟩) | ⟨hg', h3⟩)
        · exact .inl h
        · exact .inr ⟨.inl rfl, rfl, rfl⟩
        · exact .inr ⟨.inr hg', h3⟩
      · rintro (h | ⟨rfl | hg', h3, h4⟩)
        · exact .inl (.inl h)
        · exact .inl (.inr ⟨rfl, h3, h4⟩)
        · exact .inr ⟨hg', h3, h4⟩
    · rw [hs']; rw [hs1]

omit B in
/-- The relocation loop gives the initial bytes. -/
theorem relocate_bytes {rels : List (Nat × Relocation)} {bytes r : List (AByte (AllocId × PE))}
    (h : s.relocate rels bytes = .ok r) : r.length = bytes.length ∧ ∀ k b, r[k]? = some b →
      (∃ pre i rl post p bs, rels = pre ++ (i, rl) :: post ∧ Covers i k ∧ (∀ j r', (j, r') ∈ post → ¬ Covers j k) ∧
        s.globalPtrs.get? rl.name = some p ∧ encodePtr (p.wrappingOffset rl.offset) = .ok bs ∧ bs[k - i]? = some b) ∨
      ((∀ i rl, (i, rl) ∈ rels → ¬ Covers i k) ∧ bytes[k]? = some b) := by
  induction rels generalizing bytes with
  | nil => cases h; exact ⟨rfl, fun k b hb => .inr ⟨by simp, hb⟩⟩
  | cons e rels ih =>
    obtain ⟨i, rl⟩ := e
    unfold Machine.relocate at h
    obtain ⟨p, h1, h⟩ := Res.bind_eq_ok.1 h
    obtain ⟨bs, h2, h⟩ := Res.bind_eq_ok.1 h
    obtain ⟨bytes1, h3, h⟩ := Res.bind_eq_ok.1 h
    obtain ⟨hl, hb⟩ := ih h
    have hlen := encodePtr_length h2
    refine ⟨by rw [hl, writeSubslice_length h3], fun k b hk => ?_⟩
    rcases hb k b hk with ⟨pre, j, rl', post, p', bs', rfl, c1, c2⟩ | ⟨c1, c2⟩
    · exact .inl ⟨(i, rl) :: pre, j, rl', post, p', bs', rfl, c1, c2⟩
    · rw [writeSubslice_getElem? h3, hlen] at c2
      split at c2
      · rename_i hc
        exact .inl ⟨[], i, rl, rels, p, bs, rfl, hc, c1, by simpa [Map.get, unwrap_eq_ok] using h1, h2, c2⟩
      · rename_i hc
        refine .inr ⟨?_, c2⟩
        intro j r' hj
        rcases List.mem_cons.1 hj with hj | hj
        · cases hj; exact hc
        · exact c1 j r' hj

omit B in
theorem relocate_initByte {g : Global} {r : List (AByte (AllocId × PE))}
    (h : s.relocate g.relocations g.abstractBytes = .ok r) : r.length = g.bytes.length ∧
      ∀ k b, r[k]? = some b → g.InitByte s.globalPtrs k b := by
  obtain ⟨h1, h2⟩ := relocate_bytes h
  refine ⟨by rw [h1]; simp [Global.abstractBytes], fun k b hk => ?_⟩
  rcases h2 k b hk with h3 | ⟨h3, h4⟩
  · exact .inl h3
  · refine .inr ⟨h3, ?_⟩
    simp only [Global.abstractBytes, List.getElem?_map, Option.map_eq_some_iff] at h4
    obtain ⟨x, h5, rfl⟩ := h4
    cases x with
    | some x => exact .inl ⟨x, h5, rfl⟩
    | none => exact .inr ⟨h5, rfl⟩

omit B in
theorem memStore_step {p : ThinPtr (AllocId × PE)} {b a at'} (h : memStore p b a at' s = .ok ((), s')) :
    MemStep (F := F) s.mem.memory (.store p b a) s'.mem.memory ∧ s' = { s with mem := s'.mem } := by
  obtain ⟨m, h1, rfl⟩ := memStore_eq_ok.1 h
  obtain ⟨m', h2, h3⟩ := Res.bind_eq_ok.1 h1
  cases h3
  exact ⟨.store h2, rfl⟩

/-- The loop filling the globals stores the initial bytes. -/
theorem fillGlobals_loop : ∀ {gs : List (GlobalName × Global)} {s s' : Machine M (AllocId × PE) F},
    (gs.map (·.1)).Nodup → fillGlobals gs s = .ok ((), s') →
    s' = { s with mem := s'.mem } ∧
    ∃ h' : MemHistory PE, MemRun (F := F) s.mem.memory h' s'.mem.memory ∧
      (∀ e ∈ h', ∃ name g p bytes a, (name, g) ∈ gs ∧ s.globalPtrs.get? name = some p ∧ e = .store p bytes a) ∧
      ∀ name g p id, (name, g) ∈ gs → s.globalPtrs.get? name = some p → p.HasId id →
        (∀ name' p', s.globalPtrs.get? name' = some p' → p'.HasId id → name' = name) →
        ∀ h k, k < g.bytes.length → g.InitByte s.globalPtrs k (lastStored (h' ++ h) id (p.addr + k))
  | [], s, s', _, h => by
    cases h
    exact ⟨rfl, [], .nil, by simp, by simp⟩
  | (name, g) :: gs, s, s', hn, h => by
    unfold fillGlobals at h
    obtain ⟨bytes, s1, k1, g1⟩ := EM.bind_eq_ok.1 h
    obtain ⟨h1, rfl⟩ := EM.read_eq_ok.1 k1
    obtain ⟨p, s2, k2, g2⟩ := EM.bind_eq_ok.1 g1
    obtain ⟨h2, rfl⟩ := EM.read_eq_ok.1 k2
    obtain ⟨u, s3, h3, g3⟩ := EM.bind_eq_ok.1 g2
    cases u
    rw [EM.unwrapRes_eq_ok] at h3
    obtain ⟨hst, hs3⟩ := memStore_step h3
    simp only [List.map_cons, List.nodup_cons] at hn
    have hp : s2.globalPtrs.get? name = some p := by simpa [Map.get, unwrap_eq_ok] using h2
    have heq : s3.globalPtrs = s2.globalPtrs := by rw [hs3]
    obtain ⟨hs', h', hrun, hev, hc⟩ := fillGlobals_loop hn.2 g3
    obtain ⟨hlen, hinit⟩ := relocate_initByte h1
    rw [heq] at hev hc
    refine ⟨by rw [hs', hs3], h' ++ [.store p bytes g.align], .append (.cons .nil hst) hrun, ?_, ?_⟩
    · intro e he
      rcases List.mem_append.1 he with he | he
      · obtain ⟨n', g', p', b', a', h5, h6⟩ := hev e he
        exact ⟨n', g', p', b', a', List.mem_cons_of_mem _ h5, h6⟩
      · cases List.mem_singleton.1 he
        exact ⟨name, g, p, bytes, _, List.mem_cons_self, hp, rfl⟩
    · intro n' g' p' id hmem hp' hid huniq h0 k hk
      rw [List.append_assoc]
      rcases List.mem_cons.1 hmem with hm | hm
      · cases hm
        rw [hp] at hp'; cases hp'
        have key : ∀ h1 : MemHistory PE, (∀ e ∈ h1, ∃ name g p bytes a, (name, g) ∈ gs ∧
            s2.globalPtrs.get? name = some p ∧ e = .store p bytes a) →
            lastStored (h1 ++ ([.store p bytes g.align] ++ h0)) id (p.addr + k) =
            lastStored ([.store p bytes g.align] ++ h0) id (p.addr + k) := by
          intro h1
          induction h1 with
          | nil => intro _; rfl
          | cons e h1 ih =>
            intro hev
            have ih := ih fun e he => hev e (List.mem_cons_of_mem _ he)
            obtain ⟨n2, g2, p2, b2, a2, h5, h6, rfl⟩ := hev e List.mem_cons_self
            rw [List.cons_append]
            cases hpr : p2.prov with
            | none =>
              obtain ⟨ad, pr⟩ := p2; cases hpr
              exact ih
            | some ip =>
              obtain ⟨i2, e2⟩ := ip
              rw [lastStored_store hpr, if_neg, ih]
              rintro ⟨rfl, -⟩
              have := huniq n2 p2 h6 ⟨e2, hpr⟩
              subst this
              exact hn.1 (List.mem_map_of_mem (f := (·.1)) h5)
        rw [key h' hev, List.singleton_append]
        obtain ⟨x, hx⟩ := hid
        rw [lastStored_store hx, if_pos ⟨rfl, by omega⟩]
        have hk' : k < bytes.length := by omega
        have : (p.addr + ↑k - p.addr).toNat = k := by omega
        rw [this, List.getElem?_eq_getElem hk', Option.getD_some]
        exact hinit k _ (List.getElem?_eq_getElem hk')
      · exact hc n' g' p' id hm hp' hid huniq _ k hk

omit B in
/-- The frame of the start function has nothing but its return local. -/
theorem createFrame_start {f : Function} {fr : StackFrame (AllocId × PE) F} {a cc t} (h : createFrame f a cc t [] s = .ok (fr, s')) :
    ∃ n al p, MemStep (F := F) s.mem.memory (.alloc .stack n al p) s'.mem.memory ∧
      s' = { s with mem := s'.mem, oracle := s'.oracle } ∧ f.args = [] ∧
      fr = { StackFrame.init f a (Memory.newCall M) with locals := [(f.ret, p)] } := by
  unfold createFrame at h
  obtain ⟨fr1, s1, h1, g1⟩ := EM.bind_eq_ok.1 h
  obtain ⟨fr2, s2, h2, g2⟩ := EM.bind_eq_ok.1 g1
  clear h g1
  split at g2
  · cases g2
  obtain ⟨_, s3, h3, g3⟩ := EM.bind_eq_ok.1 g2
  obtain ⟨_, rfl⟩ := EM.lift_eq_ok.1 h3
  obtain ⟨_, s4, h4, g4⟩ := EM.bind_eq_ok.1 g3
  obtain ⟨_, rfl⟩ := EM.lift_eq_ok.1 h4
  clear h3 h4 g2 g3
  split at g4
  · cases g4
  split at g4
  · cases g4
  rename_i _ _ hlen
  have ha : f.args = [] := by simpa using hlen
  obtain ⟨_, s5, h5, g5⟩ := EM.bind_eq_ok.1 g4
  rw [ha] at h2 h5
  cases h2
  have : passArguments fr1 [] ([] : List (Value (AllocId × PE) × Ty)) = (pure () : EM M (AllocId × PE) F Unit) := by
    unfold passArguments; rfl
  rw [this] at h5
  cases h5
  cases g5
  unfold storageLive at h1
  obtain ⟨fr3, s6, h6, j1⟩ := EM.bind_eq_ok.1 h1
  obtain ⟨⟨n, al⟩, s7, h7, j2⟩ := EM.bind_eq_ok.1 j1
  obtain ⟨_, rfl⟩ := EM.lift_eq_ok.1 h7
  obtain ⟨p, s8, h8, j3⟩ := EM.bind_eq_ok.1 j2
  cases j3
  unfold storageDead at h6
  obtain ⟨_, s9, h9, j6⟩ := EM.bind_eq_ok.1 h6
  obtain ⟨_, rfl⟩ := EM.lift_eq_ok.1 h9
  cases j6
  obtain ⟨h10, h11⟩ := memAllocate_step h8
  exact ⟨n, al, p, h10, h11, ha, rfl⟩

end
end MiniRust
