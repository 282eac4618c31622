import Verif.Spec.Crate
import Verif.Lemmas.Builder
import Verif.Lemmas.Init
import Verif.Lemmas.Slots
/-
Lemmas for C69 and C70: the invariant of the context while a crate is translated.
-/
set_option linter.unusedSectionVars false
namespace MiniRust

/-! ### Names -/

/-- Names are given in order. -/
def Naming {K : Type} (m : Map K Nat) : Prop := m.keys.Nodup ∧ m.values = List.range m.length

section
variable {K V : Type} [DecidableEq K]

theorem Naming.nil : Naming ([] : Map K Nat) := ⟨List.nodup_nil, rfl⟩

theorem Naming.fresh {m : Map K Nat} {k : K} (h : Naming m) (hk : m.get? k = none) : Naming (m.insert k m.length) := by
  obtain ⟨h1, h2⟩ := h
  have hk' := Map.get?_eq_none_iff.1 hk
  rw [Map.insert_fresh hk]
  refine ⟨?_, ?_⟩
  · simp only [Map.keys, List.map_append, List.map_cons, List.map_nil] at hk' ⊢
    exact List.nodup_append.2 ⟨h1, by simp, by intro a ha b hb; simp at hb; subst hb; exact fun e => hk' (e ▸ ha)⟩
  · simp only [Map.values, List.map_append, List.map_cons, List.map_nil, List.length_append, List.length_cons, List.length_nil] at h2 ⊢
    rw [h2, List.range_succ]

theorem Naming.inj {m : Map K Nat} (h : Naming m) {k k' : K} {n : Nat} (hk : m.get? k = some n) (hk' : m.get? k' = some n) : k = k' := by
  obtain ⟨i, hi, e⟩ := List.getElem_of_mem (Map.get?_mem hk)
  obtain ⟨j, hj, e'⟩ := List.getElem_of_mem (Map.get?_mem hk')
  have hv : ∀ x (hx : x < m.length), m[x].2 = x := by
    intro x hx
    have h2 := h.2
    have h3 : m.values[x]? = some x := by rw [h2]; simp [hx]
    simp only [Map.values, List.getElem?_map, List.getElem?_eq_getElem hx, Option.map_some, Option.some.injEq] at h3
    exact h3
  have a1 := hv i hi; rw [e] at a1
  have a2 := hv j hj; rw [e'] at a2
  simp only at a1 a2
  subst a1; subst a2
  rw [e] at e'
  exact congrArg (·.1) e'

theorem Naming.lt {m : Map K Nat} (h : Naming m) {k : K} {n : Nat} (hk : m.get? k = some n) : n < m.length := by
  have hm : n ∈ m.values := List.mem_map_of_mem (f := (·.2)) (Map.get?_mem hk)
  rw [h.2] at hm
  exact List.mem_range.1 hm

theorem Naming.of_lt {m : Map K Nat} (h : Naming m) {n : Nat} (hn : n < m.length) : ∃ k, m.get? k = some n := by
  have hm : n ∈ m.values := by rw [h.2]; exact List.mem_range.2 hn
  obtain ⟨⟨k, n'⟩, hp, rfl⟩ := List.mem_map.1 hm
  exact ⟨k, Map.get?_of_mem h.1 hp⟩

theorem Naming.good {m : Map K Nat} (h : Naming m) : GoodNames m :=
  ⟨fun _ _ _ h1 h2 => h.inj h1 h2, fun _ => ⟨h.of_lt, fun ⟨_, hk⟩ => h.lt hk⟩⟩

theorem Map.length_fresh {m : Map K V} {k : K} {v : V} (hk : m.get? k = none) : (m.insert k v).length = m.length + 1 := by
  rw [Map.insert_fresh hk]; simp

theorem Map.keys_insert_old : ∀ {m : Map K V} {k : K} {v : V}, k ∈ m.keys → (m.insert k v).keys = m.keys
  | (k', v') :: m, k, v, h => by
    simp only [Map.insert]
    split
    · next e => subst e; rfl
    · next e =>
      simp only [Map.keys, List.map_cons, List.mem_cons] at h ⊢
      rcases h with h | h
      · exact absurd h.symm e
      · exact congrArg _ (Map.keys_insert_old (m := m) h)

theorem Map.keys_fresh {m : Map K V} {k : K} {v : V} (hk : m.get? k = none) : (m.insert k v).keys = m.keys ++ [k] := by
  rw [Map.insert_fresh hk]; simp [Map.keys]

/-- The first free number in a map with the keys 0, 1, …. -/
theorem Map.range_none {m : Map Nat V} {n : Nat} (h : m.keys = List.range n) : m.get? n = none := by
  rw [Map.get?_eq_none_iff, h]; simp

theorem Map.range_some {m : Map Nat V} {n k : Nat} (h : m.keys = List.range n) (hk : k < n) : ∃ v, m.get? k = some v := by
  rw [Map.get?_isSome_iff, h]; exact List.mem_range.2 hk

theorem Map.range_push {m : Map Nat V} {n : Nat} {v : V} (h : m.keys = List.range n) : (m.insert n v).keys = List.range (n + 1) := by
  rw [Map.keys_fresh (Map.range_none h), h, List.range_succ]

theorem Map.length_keys {m : Map K V} : m.keys.length = m.length := List.length_map _
end

/-! ### The invariant -/
variable {I A Y D : Type} [DecidableEq I] [DecidableEq A] [DecidableEq Y] [DecidableEq D] [T : Target]

/-- `c'` knows the names that `c` knows. -/
structure Cx.Ext (c c' : Cx I A Y D) : Prop where
  names : ∀ r n, c.nameOf r = some n → c'.nameOf r = some n
  functions : c'.functions = c.functions

theorem Cx.Ext.refl (c : Cx I A Y D) : c.Ext c := ⟨fun _ _ h => h, rfl⟩
theorem Cx.Ext.trans {a b c : Cx I A Y D} (h : a.Ext b) (h' : b.Ext c) : a.Ext c :=
  ⟨fun r n x => h'.names r n (h.names r n x), h'.functions.trans h.functions⟩

/-- The invariant, without functions. The globals of the allocations in `P` are not there yet. -/
structure Crate.Inv (K : Crate I A Y D) (P : List A) (c : Cx I A Y D) : Prop where
  fns : Naming c.fnNames
  traits : Naming c.traitNames
  traitKeys : c.traits.keys = List.range c.traitNames.length
  trait : ∀ d n, c.traitNames.get? d = some n → c.traits.get? n = some (K.generateTrait d)
  vtables : Naming c.vtableNames
  vtableKeys : c.vtables.keys = List.range c.vtableNames.length
  vtable : ∀ y d n, c.vtableNames.get? (y, d) = some n →
    ∃ vt, c.vtables.get? n = some vt ∧ VTableFor c.fnNames.get? c.traitNames.get? (K.vtable y d) d vt ∧
      ∀ m i, (K.vtable y d).Slot m i → ∃ n, c.fnNames.get? i = some n
  allocs : Naming c.allocNames
  globalKeys : c.globals.keys = List.range c.allocNames.length
  global : ∀ a n, c.allocNames.get? a = some n → a ∉ P →
    ∃ al g, K.alloc a = some al ∧ c.globals.get? n = some g ∧ GlobalFor c.allocNames.get? al g
  needed : ∀ r n, c.nameOf r = some n → K.Needed r

theorem GlobalFor.mono {names names' : A → Option GlobalName} {al g} (h : GlobalFor names al g)
    (hn : ∀ a n, names a = some n → names' a = some n) : GlobalFor names' al g :=
  { h with pointers := h.pointers.imp fun _ _ ⟨h1, h2, h3⟩ => ⟨h1, hn _ _ h2, h3⟩ }

theorem VTableFor.mono {fns fns' : I → Option FnName} {traits traits' : D → Option TraitName} {v d vt} (h : VTableFor fns traits v d vt)
    (hs : ∀ m i, v.Slot m i → ∃ n, fns i = some n)
    (hf : ∀ a n, fns a = some n → fns' a = some n) (ht : ∀ a n, traits a = some n → traits' a = some n) :
    VTableFor fns' traits' v d vt := by
  refine ⟨h.layout, ht _ _ h.trait, fun m n => ?_⟩
  rw [h.methods]
  constructor
  · rintro ⟨i, h1, h2⟩; exact ⟨i, h1, hf _ _ h2⟩
  · rintro ⟨i, h1, h2⟩
    obtain ⟨n', h3⟩ := hs m i h1
    have := hf _ _ h3
    rw [h2] at this; cases this
    exact ⟨i, h1, h3⟩

namespace Crate
variable {K : Crate I A Y D} {P : List A} {c c' : Cx I A Y D}

theorem Inv.init : K.Inv [] K.init where
  fns := ⟨by simp [Crate.init, Map.keys], rfl⟩
  traits := Naming.nil
  traitKeys := rfl
  trait := fun d n h => by simp [Crate.init, Map.get?] at h
  vtables := Naming.nil
  vtableKeys := rfl
  vtable := fun y d n h => by simp [Crate.init, Map.get?] at h
  allocs := Naming.nil
  globalKeys := rfl
  global := fun a n h => by simp [Crate.init, Map.get?] at h
  needed := fun r n h => by
    cases r with
    | fn i =>
      simp only [Cx.nameOf, Crate.init, Map.get?] at h
      split at h
      · next e => subst e; exact .entry
      · cases h
    | _ => simp [Cx.nameOf, Crate.init, Map.get?] at h

theorem getFnName_spec (hI : K.Inv P c) (i : I) (hN : K.Needed (.fn i)) {n c'} (h : c.getFnName i = (n, c')) :
    K.Inv P c' ∧ c.Ext c' ∧ c'.fnNames.get? i = some n := by
  unfold Cx.getFnName at h
  split at h
  · next n' hn => cases h; exact ⟨hI, .refl _, hn⟩
  · next hn =>
    cases h
    have hmono : ∀ j m, c.fnNames.get? j = some m → (c.fnNames.insert i c.fnNames.length).get? j = some m := by
      intro j m hj
      rw [Map.get?_insert]
      split
      · next e => subst e; rw [hn] at hj; cases hj
      · exact hj
    refine ⟨{ hI with fns := hI.fns.fresh hn, vtable := ?_, needed := ?_ }, ⟨?_, rfl⟩, ?_⟩
    · intro y d m hm
      obtain ⟨vt, h1, h2, h3⟩ := hI.vtable y d m hm
      exact ⟨vt, h1, h2.mono h3 hmono (fun _ _ x => x), fun m j hj => by
        obtain ⟨n, hn⟩ := h3 m j hj; exact ⟨n, hmono _ _ hn⟩⟩
    · intro r m hr
      cases r with
      | fn j =>
        simp only [Cx.nameOf, Map.get?_insert] at hr
        split at hr
        · next e => subst e; exact hN
        · exact hI.needed (.fn j) m hr
      | _ => exact hI.needed _ m hr
    · intro r m hr
      cases r with
      | fn j => exact hmono j m hr
      | _ => exact hr
    · simp [Map.get?_insert]

theorem getTraitName_spec (hI : K.Inv P c) (d : D) (hN : K.Needed (.trait d)) {n c'} (h : K.getTraitName c d = .ok (n, c')) :
    K.Inv P c' ∧ c.Ext c' ∧ c'.traitNames.get? d = some n ∧ c'.fnNames = c.fnNames := by
  unfold getTraitName at h
  split at h
  · next n' hn =>
    obtain ⟨_, _, h⟩ := Res.bind_eq_ok.1 h
    cases h; exact ⟨hI, .refl _, hn, rfl⟩
  · next hn =>
    cases h
    have hmono : ∀ j m, c.traitNames.get? j = some m → (c.traitNames.insert d c.traitNames.length).get? j = some m := by
      intro j m hj
      rw [Map.get?_insert]
      split
      · next e => subst e; rw [hn] at hj; cases hj
      · exact hj
    refine ⟨{ hI with traits := hI.traits.fresh hn, traitKeys := ?_, trait := ?_, vtable := ?_, needed := ?_ }, ⟨?_, rfl⟩, ?_, rfl⟩
    · rw [Map.length_fresh hn]; exact Map.range_push hI.traitKeys
    · intro e m hm
      simp only [Map.get?_insert] at hm ⊢
      split at hm
      · next e => subst e; cases hm; simp
      · next hne =>
        rw [if_neg]
        · exact hI.trait e m hm
        · exact Nat.ne_of_gt (hI.traits.lt hm)
    · intro y e m hm
      obtain ⟨vt, h1, h2, h3⟩ := hI.vtable y e m hm
      exact ⟨vt, h1, h2.mono h3 (fun _ _ x => x) hmono, h3⟩
    · intro r m hr
      cases r with
      | trait j =>
        simp only [Cx.nameOf, Map.get?_insert] at hr
        split at hr
        · next e => subst e; exact hN
        · exact hI.needed (.trait j) m hr
      | _ => exact hI.needed _ m hr
    · intro r m hr
      cases r with
      | trait j => exact hmono j m hr
      | _ => exact hr
    · simp [Map.get?_insert]

theorem vtableMethods_spec {glue : I} : ∀ (es : List (RsVtblEntry I)) (idx : Nat) (c : Cx I A Y D) (m : Map TraitMethodName FnName),
    K.Inv P c → (∀ f, .method f ∈ es → K.Needed (.fn f)) → (.dropInPlace ∈ es → K.Needed (.fn glue)) →
    (∀ j : Nat, es[j]? = some .dropInPlace → idx + j = 0) → ∀ m' c', vtableMethods glue idx c es m = (m', c') →
    K.Inv P c' ∧ c.Ext c' ∧ c'.vtableNames = c.vtableNames ∧ c'.vtables = c.vtables ∧
    (∀ (j : Nat) (i : I), (es[j]? = some (.method i) ∨ (es[j]? = some .dropInPlace ∧ i = glue)) → ∃ n, c'.fnNames.get? i = some n) ∧
    ∀ (k n : Nat), m'.get? k = some n ↔ (k < idx ∨ idx + es.length ≤ k ∨ es[k - idx]? = some .other) ∧ m.get? k = some n ∨
      ∃ i, idx ≤ k ∧ (es[k - idx]? = some (.method i) ∨ (es[k - idx]? = some .dropInPlace ∧ i = glue)) ∧ c'.fnNames.get? i = some n
  | [], idx, c, m, hI, _, _, _, m', c', h => by
    simp only [vtableMethods, Prod.mk.injEq] at h
    obtain ⟨rfl, rfl⟩ := h
    refine ⟨hI, .refl _, rfl, rfl, by simp, fun k n => ?_⟩
    simp only [List.length_nil, List.getElem?_nil]
    simp
    omega
  | e :: es, idx, c, m, hI, hM, hG, hD, m', c', h => by
    have hstep : ∀ (i : I) (n : FnName) (c1 : Cx I A Y D) (hc : c.getFnName i = (n, c1)),
        (e = .method i ∨ (e = .dropInPlace ∧ i = glue)) → K.Needed (.fn i) →
        vtableMethods glue (idx + 1) c1 es (m.insert idx n) = (m', c') → 
        K.Inv P c' ∧ c.Ext c' ∧ c'.vtableNames = c.vtableNames ∧ c'.vtables = c.vtables ∧
        (∀ (j : Nat) (i : I), ((e :: es)[j]? = some (.method i) ∨ ((e :: es)[j]? = some .dropInPlace ∧ i = glue)) →
          ∃ n, c'.fnNames.get? i = some n) ∧
        ∀ (k n : Nat), m'.get? k = some n ↔ (k < idx ∨ idx + (e :: es).length ≤ k ∨ (e :: es)[k - idx]? = some .other) ∧ m.get? k = some n ∨
          ∃ i, idx ≤ k ∧ ((e :: es)[k - idx]? = some (.method i) ∨ ((e :: es)[k - idx]? = some .dropInPlace ∧ i = glue)) ∧
            c'.fnNames.get? i = some n := by
      intro i n c1 hc he hN h
      obtain ⟨hI1, hE1, hn1⟩ := getFnName_spec hI i hN hc
      obtain ⟨hI2, hE2, hv1, hv2, hs, hm⟩ := vtableMethods_spec es (idx + 1) c1 (m.insert idx n) hI1
        (fun f hf => hM f (List.mem_cons_of_mem _ hf)) (fun hf => hG (List.mem_cons_of_mem _ hf))
        (fun j hj => by have := hD (j + 1) (by simpa using hj); omega) m' c' h
      have hvn : c1.vtableNames = c.vtableNames ∧ c1.vtables = c.vtables := by
        unfold Cx.getFnName at hc
        split at hc <;> cases hc <;> exact ⟨rfl, rfl⟩
      have hn2 : c'.fnNames.get? i = some n := hE2.names (.fn i) n hn1
      refine ⟨hI2, hE1.trans hE2, hv1.trans hvn.1, hv2.trans hvn.2, ?_, fun k n' => ?_⟩
      · intro j i' hj
        cases j with
        | zero =>
          simp only [List.getElem?_cons_zero, Option.some.injEq] at hj
          have : i' = i := by
            rcases he with rfl | ⟨rfl, rfl⟩ <;> simp_all
          subst this; exact ⟨n, hn2⟩
        | succ j => exact hs j i' (by simpa using hj)
      · rw [hm k n', Map.get?_insert]
        rcases Nat.lt_trichotomy k idx with hk | hk | hk
        · have : ¬ idx = k := by omega
          simp only [this, if_false]
          constructor
          · rintro (⟨_, h⟩ | ⟨_, h, _⟩)
            · exact .inl ⟨.inl hk, h⟩
            · omega
          · rintro (⟨_, h⟩ | ⟨_, h, _⟩)
            · exact .inl ⟨.inl (by omega), h⟩
            · omega
        · subst hk
          simp only [if_true, Nat.sub_self, List.getElem?_cons_zero, Option.some.injEq]
          constructor
          · rintro (⟨_, h⟩ | ⟨_, h, _⟩)
            · subst h; exact .inr ⟨i, le_refl _, he, hn2⟩
            · omega
          · rintro (⟨h, _⟩ | ⟨i', _, h, h'⟩)
            · rcases he with rfl | ⟨rfl, _⟩ <;> simp at h
            · have : i' = i := by
                rcases he with rfl | ⟨rfl, rfl⟩ <;> simp_all
              subst this
              rw [hn2] at h'; cases h'
              exact .inl ⟨.inl (by omega), rfl⟩
        · have h1 : ¬ idx = k := by omega
          obtain ⟨j, rfl⟩ : ∃ j, k = idx + 1 + j := ⟨k - (idx + 1), by omega⟩
          have h2 : idx + 1 + j - idx = j + 1 := by omega
          have h3 : idx + 1 + j - (idx + 1) = j := by omega
          simp only [h1, if_false, h2, h3, List.getElem?_cons_succ, List.length_cons]
          have e1 : (idx + 1 + j < idx + 1) = (idx + 1 + j < idx) := by simp; omega
          have e2 : (idx + 1 + es.length ≤ idx + 1 + j) = (idx + (es.length + 1) ≤ idx + 1 + j) := by simp; omega
          have e3 : (idx + 1 ≤ idx + 1 + j) = (idx ≤ idx + 1 + j) := by simp; omega
          rw [e1, e2, e3]
    cases e with
    | method f => 
      simp only [vtableMethods] at h
      exact hstep f _ _ rfl (.inl rfl) (hM f List.mem_cons_self) h
    | dropInPlace =>
      have h0 : idx = 0 := by have := hD 0 rfl; omega
      subst h0
      simp only [vtableMethods] at h
      exact hstep glue _ _ rfl (.inr ⟨rfl, rfl⟩) (hG List.mem_cons_self) h
    | other =>
      simp only [vtableMethods] at h
      obtain ⟨hI2, hE2, hv1, hv2, hs, hm⟩ := vtableMethods_spec es (idx + 1) c m hI
        (fun f hf => hM f (List.mem_cons_of_mem _ hf)) (fun hf => hG (List.mem_cons_of_mem _ hf))
        (fun j hj => by have := hD (j + 1) (by simpa using hj); omega) m' c' h
      refine ⟨hI2, hE2, hv1, hv2, ?_, fun k n' => ?_⟩
      · intro j i' hj
        cases j with
        | zero => simp at hj
        | succ j => exact hs j i' (by simpa using hj)
      · rw [hm k n']
        rcases Nat.lt_trichotomy k idx with hk | hk | hk
        · constructor
          · rintro (⟨_, h⟩ | ⟨_, h, _⟩)
            · exact .inl ⟨.inl hk, h⟩
            · omega
          · rintro (⟨_, h⟩ | ⟨_, h, _⟩)
            · exact .inl ⟨.inl (by omega), h⟩
            · omega
        · subst hk
          simp only [Nat.sub_self, List.getElem?_cons_zero]
          constructor
          · rintro (⟨_, h⟩ | ⟨_, h, _⟩)
            · exact .inl ⟨by simp, h⟩
            · omega
          · rintro (⟨_, h⟩ | ⟨_, _, h, _⟩)
            · exact .inl ⟨.inl (by omega), h⟩
            · simp at h
        · obtain ⟨j, rfl⟩ : ∃ j, k = idx + 1 + j := ⟨k - (idx + 1), by omega⟩
          have h2 : idx + 1 + j - idx = j + 1 := by omega
          have h3 : idx + 1 + j - (idx + 1) = j := by omega
          simp only [h2, h3, List.getElem?_cons_succ, List.length_cons]
          have e1 : (idx + 1 + j < idx + 1) = (idx + 1 + j < idx) := by simp; omega
          have e2 : (idx + 1 + es.length ≤ idx + 1 + j) = (idx + (es.length + 1) ≤ idx + 1 + j) := by simp; omega
          have e3 : (idx + 1 ≤ idx + 1 + j) = (idx ≤ idx + 1 + j) := by simp; omega
          rw [e1, e2, e3]

/-- The methods of a vtable, and the context after naming them. -/
def vtMethods (K : Crate I A Y D) (c : Cx I A Y D) (y : Y) (d : D) : Map TraitMethodName FnName × Cx I A Y D :=
  match (K.vtable y d).entries with
  | some es => vtableMethods (K.vtable y d).dropGlue 0 c es []
  | none => ([], c)

theorem generateVTable_eq (y : Y) (d : D) : K.generateVTable c y d = (do
    let (t, c') ← K.getTraitName (vtMethods K c y d).2 d
    .ok (⟨t, (K.vtable y d).size, (K.vtable y d).align, (K.vtable y d).cells, (vtMethods K c y d).1⟩, c')) := rfl

theorem vtMethods_spec (hK : K.DropFirst) (hI : K.Inv P c) (y : Y) (d : D) (hN : K.Needed (.vtable y d)) : ∀ ms c2, vtMethods K c y d = (ms, c2) →
    K.Inv P c2 ∧ c.Ext c2 ∧ c2.vtableNames = c.vtableNames ∧ c2.vtables = c.vtables ∧
    (∀ m (i : I), (K.vtable y d).Slot m i → ∃ n, c2.fnNames.get? i = some n) ∧
    ∀ m n, ms.get? m = some n ↔ ∃ i, (K.vtable y d).Slot m i ∧ c2.fnNames.get? i = some n := by
  intro ms c2 he
  unfold RsVTable.Slot
  unfold vtMethods at he
  split at he
  · next es hes =>
    obtain ⟨h1, h2, h3, h4, h5, h6⟩ := vtableMethods_spec es 0 c [] hI (fun f hf => .method hN hes hf)
      (fun hf => .drop hN hes hf) (fun j hj => by have := (hK y d es hes j).1 hj; omega) ms c2 he
    refine ⟨h1, h2, h3, h4, ?_, fun m n => ?_⟩
    · rintro m i ⟨es', he', hs⟩
      rw [hes] at he'; cases he'
      exact h5 m i hs
    · rw [h6 m n]
      simp only [Map.get?, Nat.sub_zero, hes]
      constructor
      · rintro (⟨_, h⟩ | ⟨i, _, h, h'⟩)
        · cases h
        · exact ⟨i, ⟨es, rfl, h⟩, h'⟩
      · rintro ⟨i, ⟨es', he', h⟩, h'⟩
        cases he'
        exact .inr ⟨i, Nat.zero_le _, h, h'⟩
  · next hes =>
    cases he
    refine ⟨hI, .refl _, rfl, rfl, ?_, ?_⟩
    · rintro m i ⟨es', he', hs⟩
      rw [hes] at he'; cases he'
    · intro m n
      rw [hes]
      simp [Map.get?]

theorem getVTable_spec (hK : K.DropFirst) (hI : K.Inv P c) (y : Y) (d : D) (hN : K.Needed (.vtable y d)) {n c'}
    (h : K.getVTable c y d = .ok (n, c')) : K.Inv P c' ∧ c.Ext c' ∧ c'.vtableNames.get? (y, d) = some n := by
  unfold getVTable at h
  split at h
  · next n' hn =>
    obtain ⟨_, _, h⟩ := Res.bind_eq_ok.1 h
    cases h; exact ⟨hI, .refl _, hn⟩
  · next hn =>
    obtain ⟨⟨vt, c1⟩, hv, h⟩ := Res.bind_eq_ok.1 h
    cases h
    rw [generateVTable_eq] at hv
    generalize hg : vtMethods K c y d = mc at hv
    obtain ⟨ms, c2⟩ := mc
    obtain ⟨h1, h2, h3, h4, h5, h6⟩ := vtMethods_spec hK hI y d hN ms c2 hg
    obtain ⟨⟨t, c3⟩, ht, hv⟩ := Res.bind_eq_ok.1 hv
    cases hv
    obtain ⟨i1, i2, i3, i4⟩ := getTraitName_spec h1 d (.traitOf hN) ht
    have i5 : c1.vtableNames = c2.vtableNames ∧ c1.vtables = c2.vtables := by
      unfold getTraitName at ht
      split at ht
      · obtain ⟨_, _, h⟩ := Res.bind_eq_ok.1 ht
        cases h; exact ⟨rfl, rfl⟩
      · cases ht; exact ⟨rfl, rfl⟩
    have e1 : c1.vtableNames = c.vtableNames := i5.1.trans h3
    have e2 : c1.vtables = c.vtables := i5.2.trans h4
    have hn' : c1.vtableNames.get? (y, d) = none := by rw [e1]; exact hn
    have hmono : ∀ j m, c1.vtableNames.get? j = some m → (c1.vtableNames.insert (y, d) c.vtableNames.length).get? j = some m := by
      intro j m hj
      rw [Map.get?_insert]
      split
      · next e => subst e; rw [hn'] at hj; cases hj
      · exact hj
    refine ⟨{ i1 with vtables := ?_, vtableKeys := ?_, vtable := ?_, needed := ?_ }, h2.trans (i2.trans ⟨?_, rfl⟩), ?_⟩
    · rw [← e1]; exact i1.vtables.fresh hn'
    · simp only
      rw [Map.length_fresh hn', ← e1]
      exact Map.range_push i1.vtableKeys
    · intro y' d' m hm
      simp only [Map.get?_insert] at hm ⊢
      split at hm
      · next e =>
        cases e; cases hm
        refine ⟨_, if_pos rfl, ⟨⟨rfl, rfl, rfl⟩, i3, ?_⟩, ?_⟩
        · intro m n
          rw [h6 m n, i4]
        · rw [i4]; exact h5
      · next hne =>
        have hl := i1.vtables.lt hm
        rw [e1] at hl
        rw [if_neg (Nat.ne_of_gt hl)]
        exact i1.vtable y' d' m hm
    · intro r m hr
      cases r with
      | vtable j k =>
        simp only [Cx.nameOf, Map.get?_insert] at hr
        split at hr
        · next e => cases e; exact hN
        · exact i1.needed (.vtable j k) m hr
      | _ => exact i1.needed _ m hr
    · intro r m hr
      cases r with
      | vtable j k => exact hmono (j, k) m hr
      | _ => exact hr
    · simp [Map.get?_insert]

/-! ### Allocations -/

theorem tryMap_unwrap {α : Type} : ∀ {l : List (Option α)} {bs : List α}, tryMap unwrap l = .ok bs ↔ l = bs.map some
  | [], bs => by
    simp only [tryMap]
    constructor
    · intro h; cases h; rfl
    · intro h
      cases bs with
      | nil => rfl
      | cons => simp at h
  | o :: l, bs => by
    simp only [tryMap, Res.bind_eq_ok]
    constructor
    · rintro ⟨b, hb, bs', h, e⟩
      cases e
      rw [unwrap_eq_ok] at hb
      rw [tryMap_unwrap] at h
      subst hb; subst h; rfl
    · intro h
      cases bs with
      | nil => simp at h
      | cons b bs =>
        simp only [List.map_cons, List.cons.injEq] at h
        obtain ⟨rfl, rfl⟩ := h
        exact ⟨b, rfl, bs, tryMap_unwrap.2 rfl, rfl⟩

theorem globalBytes_length (al : RsAlloc A) : (globalBytes al).length = al.bytes.length := by simp [globalBytes]

theorem globalBytes_get (al : RsAlloc A) (i : Nat) :
    (globalBytes al)[i]? = al.bytes[i]?.map fun b => if al.init i = true then some b else none := by
  simp [globalBytes, List.getElem?_mapIdx]

theorem innerOffset_iff {al : RsAlloc A} {start off : Nat} :
    innerOffset (globalBytes al) start = .ok off ↔ al.OffsetAt start off := by
  unfold innerOffset
  rw [globalBytes_length]
  split
  · next hb =>
    rw [Res.bind_eq_ok]
    have hlist : ∀ bs, ((globalBytes al).drop start).take T.ptrSize = bs.map some ↔
        (∀ i, start ≤ i → i < start + T.ptrSize → al.init i = true) ∧ bs = (al.bytes.drop start).take T.ptrSize := by
      intro bs
      have hget : ∀ k, k < T.ptrSize → (((globalBytes al).drop start).take T.ptrSize)[k]? =
          ((al.bytes.drop start).take T.ptrSize)[k]?.map fun b => if al.init (start + k) = true then some b else none := by
        intro k hk
        rw [List.getElem?_take_of_lt hk, List.getElem?_take_of_lt hk, List.getElem?_drop, List.getElem?_drop, globalBytes_get]
      constructor
      · intro h
        have hi : ∀ i, start ≤ i → i < start + T.ptrSize → al.init i = true := by
          intro i h1 h2
          have := hget (i - start) (by omega)
          rw [h, List.getElem?_map, List.getElem?_take_of_lt (by omega), List.getElem?_drop] at this
          have e : start + (i - start) = i := by omega
          rw [e, List.getElem?_eq_getElem (show i < al.bytes.length by omega)] at this
          by_contra hne
          simp only [Option.map_some, if_neg hne] at this
          cases hb : bs[i - start]? with
          | none => rw [hb] at this; cases this
          | some b => rw [hb] at this; cases this
        refine ⟨hi, List.ext_getElem? fun k => ?_⟩
        have hk := congrArg (·[k]?) h
        simp only [List.getElem?_map] at hk
        by_cases hlt : k < T.ptrSize
        · rw [hget k hlt] at hk
          have := hi (start + k) (by omega) (by omega)
          simp only [this, if_true] at hk
          cases h1 : bs[k]? <;> cases h2 : (List.take T.ptrSize (List.drop start al.bytes))[k]? <;> simp_all
        · rw [List.getElem?_eq_none (by simp; omega)] at hk
          rw [List.getElem?_eq_none (l := List.take _ _) (by simp; omega)]
          cases h1 : bs[k]? with
          | none => rfl
          | some b => rw [h1] at hk; cases hk
      · rintro ⟨hi, rfl⟩
        refine List.ext_getElem? fun k => ?_
        rw [List.getElem?_map]
        by_cases hlt : k < T.ptrSize
        · rw [hget k hlt]
          have := hi (start + k) (by omega) (by omega)
          simp only [this, if_true]
        · rw [List.getElem?_eq_none (by simp; omega), List.getElem?_eq_none (by simp; omega)]; rfl
    constructor
    · rintro ⟨bs, h1, h2⟩
      rw [tryMap_unwrap, hlist] at h1
      obtain ⟨h1, rfl⟩ := h1
      refine ⟨hb, h1, ?_⟩
      cases h2
      exact (Int.toNat_of_nonneg (Int.natCast_nonneg _)).symm
    · rintro ⟨_, h1, h2⟩
      exact ⟨_, tryMap_unwrap.2 ((hlist _).2 ⟨h1, rfl⟩), by rw [h2]; rfl⟩
  · next hb =>
    constructor
    · intro h; cases h
    · intro h; exact absurd h.inside hb

theorem translatePtrs_spec {fuel : Nat} {P : List A} {al : RsAlloc A} (IH : ∀ (c : Cx I A Y D) (a : A), K.Inv P c → K.Needed (.alloc a) →
    ∀ n c', K.translateAllocId fuel c a = .ok (n, c') → K.Inv P c' ∧ c.Ext c' ∧ c'.allocNames.get? a = some n) :
    ∀ (ps : List (Nat × A)) (c : Cx I A Y D), K.Inv P c →
    (∀ p ∈ ps, K.Needed (.alloc p.2)) → ∀ rs c', translatePtrs (K.translateAllocId fuel) c (globalBytes al) ps = .ok (rs, c') →
    K.Inv P c' ∧ c.Ext c' ∧ List.Forall₂ (fun p (r : Nat × Relocation) => r.1 = p.1 ∧ c'.allocNames.get? p.2 = some r.2.name ∧
      al.OffsetAt p.1 r.2.offset) ps rs
  | [], c, hI, _, rs, c', h => by
    simp only [translatePtrs] at h
    cases h; exact ⟨hI, .refl _, .nil⟩
  | (off, a) :: ps, c, hI, hN, rs, c', h => by
    simp only [translatePtrs] at h
    obtain ⟨inner, hi, h⟩ := Res.bind_eq_ok.1 h
    obtain ⟨⟨n, c1⟩, h1, h⟩ := Res.bind_eq_ok.1 h
    obtain ⟨⟨rs', c2⟩, h2, h⟩ := Res.bind_eq_ok.1 h
    cases h
    obtain ⟨hI1, hE1, hn⟩ := IH c a hI (hN (off, a) List.mem_cons_self) n c1 h1
    obtain ⟨hI2, hE2, hrs⟩ := translatePtrs_spec IH ps c1 hI1 (fun p hp => hN p (List.mem_cons_of_mem _ hp)) rs' c2 h2
    exact ⟨hI2, hE1.trans hE2, .cons ⟨rfl, hE2.names (.alloc a) n hn, innerOffset_iff.1 hi⟩ hrs⟩

/-- Naming an allocation, before it is translated. -/
theorem Inv.begin (hI : K.Inv P c) {a : A} (hN : K.Needed (.alloc a)) (hn : c.allocNames.get? a = none) :
    K.Inv (a :: P) { c with
      globals := c.globals.insert c.allocNames.length ⟨[], [], Align.one⟩
      allocNames := c.allocNames.insert a c.allocNames.length } ∧
    c.Ext { c with
      globals := c.globals.insert c.allocNames.length ⟨[], [], Align.one⟩
      allocNames := c.allocNames.insert a c.allocNames.length } ∧
    (c.allocNames.insert a c.allocNames.length).get? a = some c.allocNames.length := by
  have hmono : ∀ j m, c.allocNames.get? j = some m → (c.allocNames.insert a c.allocNames.length).get? j = some m := by
    intro j m hj
    rw [Map.get?_insert]
    split
    · next e => subst e; rw [hn] at hj; cases hj
    · exact hj
  refine ⟨{ hI with allocs := hI.allocs.fresh hn, globalKeys := ?_, global := ?_, needed := ?_ }, ⟨?_, rfl⟩, by simp [Map.get?_insert]⟩
  · rw [Map.length_fresh hn]; exact Map.range_push hI.globalKeys
  · intro b m hm hb
    simp only [List.mem_cons, not_or] at hb
    simp only [Map.get?_insert] at hm
    rw [if_neg (Ne.symm hb.1)] at hm
    obtain ⟨al, g, h1, h2, h3⟩ := hI.global b m hm hb.2
    refine ⟨al, g, h1, ?_, h3.mono hmono⟩
    simp only [Map.get?_insert]
    rw [if_neg (Nat.ne_of_gt (hI.allocs.lt hm))]
    exact h2
  · intro r m hr
    cases r with
    | alloc j =>
      simp only [Cx.nameOf, Map.get?_insert] at hr
      split at hr
      · next e => subst e; exact hN
      · exact hI.needed (.alloc j) m hr
    | _ => exact hI.needed _ m hr
  · intro r m hr
    cases r with
    | alloc j => exact hmono j m hr
    | _ => exact hr

theorem translateAllocId_spec : ∀ (fuel : Nat) (c : Cx I A Y D) (P : List A) (a : A), K.Inv P c → K.Needed (.alloc a) →
    ∀ n c', K.translateAllocId fuel c a = .ok (n, c') → K.Inv P c' ∧ c.Ext c' ∧ c'.allocNames.get? a = some n
  | 0, c, P, a, _, _, n, c', h => by simp [translateAllocId] at h
  | fuel + 1, c, P, a, hI, hN, n, c', h => by
    simp only [translateAllocId] at h
    split at h
    · next n' hn => cases h; exact ⟨hI, .refl _, hn⟩
    · next hn =>
      simp only [Cx.freshGlobal] at h
      split at h
      · cases h
      · next al hal =>
        obtain ⟨⟨rs, c2⟩, h2, h⟩ := Res.bind_eq_ok.1 h
        cases h
        have hlen : c.globals.length = c.allocNames.length := by
          rw [← Map.length_keys, hI.globalKeys, List.length_range]
        rw [hlen] at h2 ⊢
        obtain ⟨hI1, hE1, hn1⟩ := Inv.begin hI hN hn
        obtain ⟨hI2, hE2, hrs⟩ := translatePtrs_spec (al := al) (fun c b hI hN => translateAllocId_spec fuel c (a :: P) b hI hN) al.ptrs _ hI1
          (fun p hp => .pointer hN hal (off := p.1) (by exact hp)) rs c2 h2
        have hn2 : c2.allocNames.get? a = some c.allocNames.length :=
          hE2.names (.alloc a) _ hn1
        refine ⟨{ hI2 with globalKeys := ?_, global := ?_, needed := ?_ }, ⟨?_, hE2.functions⟩, hn2⟩
        · rw [← hI2.globalKeys]
          apply Map.keys_insert_old
          rw [hI2.globalKeys]
          exact List.mem_range.2 (hI2.allocs.lt hn2)
        · intro b m hm hb
          by_cases hba : b = a
          · subst hba
            have : m = c.allocNames.length := by
              have hm' : c2.allocNames.get? b = some m := hm
              rw [hn2] at hm'; cases hm'; rfl
            subst this
            refine ⟨al, ⟨globalBytes al, rs, al.align⟩, hal, by rw [Map.get?_insert, if_pos rfl], ⟨globalBytes_length al, ?_, rfl, hrs⟩⟩
            intro i x hx
            show (globalBytes al)[i]? = _
            rw [globalBytes_get, hx]; rfl
          · obtain ⟨al', g, h1, h2, h3⟩ := hI2.global b m hm (by simp [hba, hb])
            refine ⟨al', g, h1, ?_, h3⟩
            simp only [Map.get?_insert]
            rw [if_neg]
            · exact h2
            · rintro rfl
              exact hba (hI2.allocs.inj hm hn2)
        · intro r m hr; exact hI2.needed r m hr
        · intro r m hr
          exact hE2.names r m (hE1.names r m hr)

/-! ### Functions -/

theorem answer_spec (hK : K.DropFirst) (hI : K.Inv P c) {fuel : Nat} {r : RsReq I A Y D} (hN : K.Needed r) {n c'}
    (h : K.answer fuel c r = .ok (n, c')) : K.Inv P c' ∧ c.Ext c' ∧ c'.nameOf r = some n := by
  cases r with
  | fn i => 
    simp only [answer, Except.ok.injEq] at h
    exact getFnName_spec hI i hN h
  | vtable y d => exact getVTable_spec hK hI y d hN h
  | trait d =>
    obtain ⟨h1, h2, h3, _⟩ := getTraitName_spec hI d hN h
    exact ⟨h1, h2, h3⟩
  | alloc a => exact translateAllocId_spec fuel c P a hI hN n c' h

theorem answers_spec (hK : K.DropFirst) {fuel : Nat} : ∀ (rs : List (RsReq I A Y D)) (c : Cx I A Y D), K.Inv P c →
    (∀ r ∈ rs, K.Needed r) → ∀ ns c', K.answers fuel c rs = .ok (ns, c') →
    K.Inv P c' ∧ c.Ext c' ∧ List.Forall₂ (fun r n => c'.nameOf r = some n) rs ns
  | [], c, hI, _, ns, c', h => by
    simp only [answers] at h
    cases h; exact ⟨hI, .refl _, .nil⟩
  | r :: rs, c, hI, hN, ns, c', h => by
    simp only [answers] at h
    obtain ⟨⟨n, c1⟩, h1, h⟩ := Res.bind_eq_ok.1 h
    obtain ⟨⟨ns', c2⟩, h2, h⟩ := Res.bind_eq_ok.1 h
    cases h
    obtain ⟨i1, i2, i3⟩ := answer_spec hK hI (hN r List.mem_cons_self) h1
    obtain ⟨j1, j2, j3⟩ := answers_spec hK rs c1 i1 (fun r hr => hN r (List.mem_cons_of_mem _ hr)) ns' c2 h2
    exact ⟨j1, i2.trans j2, .cons (j2.names r n i3) j3⟩

/-- The invariant of the functions: those that are there are what the translation makes of the names of what it asks for. -/
structure FnInv (K : Crate I A Y D) (k : Nat) (c : Cx I A Y D) : Prop where
  inv : K.Inv [] c
  entry : c.fnNames.get? K.entry = some 0
  nodup : c.functions.keys.Nodup
  count : c.functions.length = k
  fn : ∀ n f, c.functions.get? n = some f → ∃ i ns, c.fnNames.get? i = some n ∧
    List.Forall₂ (fun r n => c.nameOf r = some n) (K.body i).requests ns ∧ (K.body i).build ns = .ok f

theorem Runs.fnInv (hK : K.DropFirst) {k : Nat} (h : K.Runs k c) : FnInv K k c := by
  induction h with
  | init =>
    refine ⟨.init, by simp [Crate.init, Map.get?], List.nodup_nil, rfl, ?_⟩
    intro n f h; simp [Crate.init, Map.get?] at h
  | @step k c c' i name fuel h hm hnone himp ih =>
    have hi : c.fnNames.get? i = some name := Map.get?_of_mem ih.inv.fns.1 hm
    unfold implement at himp
    obtain ⟨⟨ns, c1⟩, h1, himp⟩ := Res.bind_eq_ok.1 himp
    obtain ⟨f, h2, himp⟩ := Res.bind_eq_ok.1 himp
    cases himp
    have hN := ih.inv.needed (.fn i) name hi
    obtain ⟨i1, i2, i3⟩ := answers_spec hK _ c ih.inv (fun r hr => .request hN hr) ns c1 h1
    have hnone' : c1.functions.get? name = none := by rw [i2.functions]; exact hnone
    refine ⟨{ i1 with needed := fun r n h => i1.needed r n h }, i2.names (.fn K.entry) 0 ih.entry, ?_, ?_, ?_⟩
    · simp only
      rw [Map.keys_fresh hnone']
      refine List.nodup_append.2 ⟨?_, by simp, ?_⟩
      · rw [i2.functions]; exact ih.nodup
      · intro a ha b hb
        simp only [List.mem_singleton] at hb
        subst hb
        rintro rfl
        exact Map.get?_eq_none_iff.1 hnone' ha
    · simp only
      rw [Map.length_fresh hnone', i2.functions, ih.count]
    · intro n f' hf
      simp only [Map.get?_insert] at hf
      split at hf
      · next e =>
        subst e; cases hf
        exact ⟨i, ns, i2.names (.fn i) _ hi, i3, h2⟩
      · rw [i2.functions] at hf
        obtain ⟨j, ms, h3, h4, h5⟩ := ih.fn n f' hf
        exact ⟨j, ms, i2.names (.fn j) _ h3, h4.imp fun r n h => i2.names r n h, h5⟩

end Crate
end MiniRust
