import Verif.Spec.ProgramBuilder
import Verif.Lemmas.Crate
import Verif.Lemmas.Builder
import Verif.Lemmas.Init
import Verif.Lemmas.Slots
/-
The invariant of program builders.
-/
namespace MiniRust

/-- The map has the entries with these names, once each. -/
structure Holds {V : Type} (m : Map Nat V) (p : Nat → V → Prop) : Prop where
  get : ∀ n v, m.get? n = some v ↔ p n v
  keys : m.keys.Nodup

theorem Holds.same {V : Type} {m : Map Nat V} {p q : Nat → V → Prop} (h : Holds m p) (e : ∀ n v, q n v ↔ p n v) : Holds m q :=
  ⟨fun n v => (h.get n v).trans (e n v).symm, h.keys⟩

theorem Holds.insert {V : Type} {m : Map Nat V} {p q : Nat → V → Prop} {k : Nat} {v : V} (h : Holds m p) (hk : m.get? k = none)
    (e : ∀ n w, q n w ↔ (n = k ∧ w = v) ∨ p n w) : Holds (m.insert k v) q := by
  refine ⟨fun n w => ?_, ?_⟩
  · rw [Map.get?_insert, e]
    by_cases hkn : k = n
    · subst hkn
      rw [if_pos rfl]
      have : ¬ p k w := fun hp => by rw [(h.get k w).2 hp] at hk; cases hk
      simp [this, eq_comm]
    · rw [if_neg hkn, h.get]
      simp [Ne.symm hkn]
  · rw [Map.keys_fresh hk]
    refine List.nodup_append.2 ⟨h.keys, by simp, ?_⟩
    intro a ha b hb
    simp only [List.mem_singleton] at hb
    subst hb
    intro hab
    subst hab
    exact Map.get?_eq_none_iff.1 hk ha

/-- The names are `0` to `n - 1`, each once. -/
def Counted (l : List Nat) (n : Nat) : Prop := l.Nodup ∧ ∀ x, x ∈ l ↔ x < n

theorem Counted.cons {l : List Nat} {n : Nat} (h : Counted l n) : Counted (n :: l) (n + 1) := by
  refine ⟨List.nodup_cons.2 ⟨fun hn => ?_, h.1⟩, fun x => ?_⟩
  · exact Nat.lt_irrefl _ ((h.2 n).1 hn)
  · rw [List.mem_cons, h.2]; omega

/-- What is known about a program builder with this history. -/
structure PbInv (h : List PbEvent) (p : ProgBuilder) : Prop where
  fns : Holds p.functions fun n f => .fn n f ∈ h
  globals : Holds p.globals fun n g => .global n g ∈ h
  vtables : Holds p.vtables fun n v => .vtable n v ∈ h
  traits : Holds p.traits fun n ms => .trait n ms ∈ h
  fnNames : Counted (declaredFns h) p.nextFn
  globalNames : Counted (declaredGlobals h) p.nextGlobal
  vtableNames : Counted (declaredVTables h) p.nextVtable
  traitNames : Counted (declaredTraits h) p.nextTrait
  methods : ∀ n v, .vtable n v ∈ h → ∃ ms, .trait v.traitName ms ∈ h ∧ ∀ m, m ∈ v.methods.keys ↔ m ∈ ms
  noRelocs : ∀ n g, .global n g ∈ h → g.relocations = []
  fnDeclared : ∀ n f, .fn n f ∈ h → n ∈ declaredFns h
  vtableDeclared : ∀ n v, .vtable n v ∈ h → n ∈ declaredVTables h
  traitDeclared : ∀ n ms, .trait n ms ∈ h → n ∈ declaredTraits h

theorem mem_declaredFns {h : List PbEvent} {n} : n ∈ declaredFns h ↔ .declaredFn n ∈ h := by
  simp only [declaredFns, List.mem_filterMap]
  exact ⟨fun ⟨e, he, h⟩ => by cases e <;> simp_all, fun he => ⟨_, he, rfl⟩⟩
theorem mem_declaredVTables {h : List PbEvent} {n} : n ∈ declaredVTables h ↔ .declaredVTable n ∈ h := by
  simp only [declaredVTables, List.mem_filterMap]
  exact ⟨fun ⟨e, he, h⟩ => by cases e <;> simp_all, fun he => ⟨_, he, rfl⟩⟩
theorem mem_declaredTraits {h : List PbEvent} {n} : n ∈ declaredTraits h ↔ .declaredTrait n ∈ h := by
  simp only [declaredTraits, List.mem_filterMap]
  exact ⟨fun ⟨e, he, h⟩ => by cases e <;> simp_all, fun he => ⟨_, he, rfl⟩⟩
theorem mem_declaredGlobals {h : List PbEvent} {n} : n ∈ declaredGlobals h ↔ ∃ g, .global n g ∈ h := by
  simp only [declaredGlobals, List.mem_filterMap]
  exact ⟨fun ⟨e, he, h⟩ => by cases e <;> simp_all; exact ⟨_, he⟩, fun ⟨g, he⟩ => ⟨_, he, rfl⟩⟩

theorem PbInv.keep {h : List PbEvent} {p p' : ProgBuilder} {e : PbEvent} (i : PbInv h p)
    (hf : p'.functions = p.functions) (hg : p'.globals = p.globals) (hv : p'.vtables = p.vtables) (ht : p'.traits = p.traits)
    (e1 : ∀ n f, e ≠ .fn n f) (e2 : ∀ n f, e ≠ .global n f) (e3 : ∀ n f, e ≠ .vtable n f) (e4 : ∀ n f, e ≠ .trait n f)
    (n1 : Counted (declaredFns (e :: h)) p'.nextFn) (n2 : Counted (declaredGlobals (e :: h)) p'.nextGlobal)
    (n3 : Counted (declaredVTables (e :: h)) p'.nextVtable) (n4 : Counted (declaredTraits (e :: h)) p'.nextTrait) : PbInv (e :: h) p' := by
  refine ⟨?_, ?_, ?_, ?_, n1, n2, n3, n4, ?_, ?_, ?_, ?_, ?_⟩
  · rw [hf]; exact i.fns.same fun n f => by simp [Ne.symm (e1 n f)]
  · rw [hg]; exact i.globals.same fun n f => by simp [Ne.symm (e2 n f)]
  · rw [hv]; exact i.vtables.same fun n f => by simp [Ne.symm (e3 n f)]
  · rw [ht]; exact i.traits.same fun n f => by simp [Ne.symm (e4 n f)]
  · intro n v hm
    simp only [List.mem_cons, Ne.symm (e3 n v), false_or] at hm
    obtain ⟨ms, h1, h2⟩ := i.methods n v hm
    exact ⟨ms, List.mem_cons_of_mem _ h1, h2⟩
  · intro n v hm
    simp only [List.mem_cons, Ne.symm (e2 n v), false_or] at hm
    exact i.noRelocs n v hm
  · intro n v hm
    simp only [List.mem_cons, Ne.symm (e1 n v), false_or] at hm
    exact mem_declaredFns.2 (List.mem_cons_of_mem _ (mem_declaredFns.1 (i.fnDeclared n v hm)))
  · intro n v hm
    simp only [List.mem_cons, Ne.symm (e3 n v), false_or] at hm
    exact mem_declaredVTables.2 (List.mem_cons_of_mem _ (mem_declaredVTables.1 (i.vtableDeclared n v hm)))
  · intro n v hm
    simp only [List.mem_cons, Ne.symm (e4 n v), false_or] at hm
    exact mem_declaredTraits.2 (List.mem_cons_of_mem _ (mem_declaredTraits.1 (i.traitDeclared n v hm)))

theorem fnBuilder_new : ∃ fb, FnBuilder.new = .ok fb := ⟨_, rfl⟩

theorem Built.inv [Target] {h : List PbEvent} {p : ProgBuilder} (hb : Built h p) : PbInv h p := by
  induction hb with
  | new =>
    refine ⟨⟨?_, ?_⟩, ⟨?_, ?_⟩, ⟨?_, ?_⟩, ⟨?_, ?_⟩, ⟨?_, ?_⟩, ⟨?_, ?_⟩, ⟨?_, ?_⟩, ⟨?_, ?_⟩, ?_, ?_, ?_, ?_, ?_⟩ <;>
      simp [ProgBuilder.new, Map.get?, Map.keys, declaredFns, declaredGlobals, declaredVTables, declaredTraits]
  | declareFunction _ e ih =>
    obtain ⟨fb, hfb⟩ := fnBuilder_new
    simp only [ProgBuilder.declareFunction, hfb, Res.bind_ok] at e
    cases e
    exact ih.keep rfl rfl rfl rfl (by simp) (by simp) (by simp) (by simp) ih.fnNames.cons ih.globalNames ih.vtableNames ih.traitNames
  | declareVtable _ e ih =>
    cases e
    exact ih.keep rfl rfl rfl rfl (by simp) (by simp) (by simp) (by simp) ih.fnNames ih.globalNames ih.vtableNames.cons ih.traitNames
  | declareVtableForFrozenTy _ e ih =>
    simp only [ProgBuilder.declareVtableForFrozenTy, Res.bind_eq_ok] at e
    obtain ⟨_, _, _, _, _, _, _, _, e⟩ := e
    cases e
    exact ih.keep rfl rfl rfl rfl (by simp) (by simp) (by simp) (by simp) ih.fnNames ih.globalNames ih.vtableNames.cons ih.traitNames
  | declareTrait _ e ih =>
    cases e
    exact ih.keep rfl rfl rfl rfl (by simp) (by simp) (by simp) (by simp) ih.fnNames ih.globalNames ih.vtableNames ih.traitNames.cons
  | finishFunction _ hd hf e ih =>
    simp only [ProgBuilder.finishFunction, hf, Res.bind_ok, Res.bind_eq_ok] at e
    obtain ⟨m, hm, e⟩ := e
    cases e
    obtain ⟨h1, rfl⟩ := Map.tryInsert_eq_ok.1 hm
    refine ⟨ih.fns.insert h1 (fun n w => by simp), ih.globals.same (by simp), ih.vtables.same (by simp), ih.traits.same (by simp),
      ih.fnNames, ih.globalNames, ih.vtableNames, ih.traitNames, by simpa using ih.methods, by simpa using ih.noRelocs, ?_,
      by simpa [mem_declaredVTables] using ih.vtableDeclared, by simpa [mem_declaredTraits] using ih.traitDeclared⟩
    intro n f hn
    rcases List.mem_cons.1 hn with hn | hn
    · cases hn; exact mem_declaredFns.2 (List.mem_cons_of_mem _ hd)
    · exact ih.fnDeclared n f hn
  | finishVtable _ hd e ih =>
    simp only [ProgBuilder.finishVtable, Res.bind_eq_ok] at e
    obtain ⟨ms, hms, _, ha, m, hm, e⟩ := e
    cases e
    obtain ⟨h1, rfl⟩ := Map.tryInsert_eq_ok.1 hm
    refine ⟨ih.fns.same (by simp), ih.globals.same (by simp), ih.vtables.insert h1 (fun n w => by simp [VTableBuilder.finishVtable]), ih.traits.same (by simp),
      ih.fnNames, ih.globalNames, ih.vtableNames, ih.traitNames, ?_, by simpa using ih.noRelocs, by simpa [mem_declaredFns] using ih.fnDeclared, ?_, by simpa [mem_declaredTraits] using ih.traitDeclared⟩
    · intro n v hn
      rcases List.mem_cons.1 hn with hn | hn
      · cases hn
        refine ⟨ms, List.mem_cons_of_mem _ ((ih.traits.get _ _).1 (by simpa [VTableBuilder.finishVtable] using hms)), ?_⟩
        simp [rassert, VTableBuilder.finishVtable] at ha
        exact fun m => ⟨ha.1 m, fun hm => of_decide_eq_true (ha.2 m hm)⟩
      · obtain ⟨ms, h1, h2⟩ := ih.methods n v hn
        exact ⟨ms, List.mem_cons_of_mem _ h1, h2⟩
    · intro n f hn
      rcases List.mem_cons.1 hn with hn | hn
      · cases hn; exact mem_declaredVTables.2 (List.mem_cons_of_mem _ hd)
      · exact ih.vtableDeclared n f hn
  | finishTrait _ hd e ih =>
    simp only [ProgBuilder.finishTrait, Res.bind_eq_ok] at e
    obtain ⟨m, hm, e⟩ := e
    cases e
    obtain ⟨h1, rfl⟩ := Map.tryInsert_eq_ok.1 hm
    refine ⟨ih.fns.same (by simp), ih.globals.same (by simp), ih.vtables.same (by simp), ih.traits.insert h1 (fun n w => by simp [TraitBuilder.finishTrait]),
      ih.fnNames, ih.globalNames, ih.vtableNames, ih.traitNames, ?_, by simpa using ih.noRelocs, by simpa [mem_declaredFns] using ih.fnDeclared, by simpa [mem_declaredVTables] using ih.vtableDeclared, ?_⟩
    · intro n v hn
      obtain ⟨ms, h1, h2⟩ := ih.methods n v (by simpa using hn)
      exact ⟨ms, List.mem_cons_of_mem _ h1, h2⟩
    · intro n f hn
      rcases List.mem_cons.1 hn with hn | hn
      · cases hn; exact mem_declaredTraits.2 (List.mem_cons_of_mem _ hd)
      · exact ih.traitDeclared n f hn
  | declareGlobal _ hs ha e ih =>
    simp only [ProgBuilder.declareGlobalZeroInitialized, hs, ha, Res.bind_ok, Res.bind_eq_ok] at e
    obtain ⟨m, hm, _, _, e⟩ := e
    cases e
    obtain ⟨h1, rfl⟩ := Map.tryInsert_eq_ok.1 hm
    refine ⟨ih.fns.same (by simp), ih.globals.insert h1 (fun n w => by simp), ih.vtables.same (by simp), ih.traits.same (by simp),
      ih.fnNames, ih.globalNames.cons, ih.vtableNames, ih.traitNames, by simpa using ih.methods, ?_, by simpa [mem_declaredFns] using ih.fnDeclared, by simpa [mem_declaredVTables] using ih.vtableDeclared,
      by simpa [mem_declaredTraits] using ih.traitDeclared⟩
    intro n g hn
    rcases List.mem_cons.1 hn with hn | hn
    · cases hn; rfl
    · exact ih.noRelocs n g hn

end MiniRust
