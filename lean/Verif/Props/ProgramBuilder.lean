import Verif.Lemmas.ProgramBuilder
import Verif.Props.TypeConv
import Verif.Lemmas.CrateDone
/-
C75: the program that a program builder makes consists of exactly what was given to the builder.
-/
namespace MiniRust
open Crate (checkVTables_iff checkFunctions_iff checkGlobals_iff mem_values_iff)

section
variable [T : Target] {h : List PbEvent} {p p' : ProgBuilder}

/-- C75: the builder never gives out a name twice. -/
theorem C75_names_distinct (hb : Built h p) :
    (declaredFns h).Nodup ∧ (declaredVTables h).Nodup ∧ (declaredTraits h).Nodup ∧ (declaredGlobals h).Nodup :=
  ⟨hb.inv.fnNames.1, hb.inv.vtableNames.1, hb.inv.traitNames.1, hb.inv.globalNames.1⟩

/-- C75: the finished program has exactly the functions, globals, traits and vtables that were given to the builder, each under its
own name. Only the calling convention of the start function changes. -/
theorem C75_contents (hb : Built h p) {start : FnName} {prog : Program} (hp : p.finishProgram start = .ok prog) :
    prog.start = start ∧
    (∀ n f, prog.functions.get? n = some f ↔
      ∃ f₀, .fn n f₀ ∈ h ∧ f = if n = start then { f₀ with callingConvention := .c } else f₀) ∧
    (∀ n g, prog.globals.get? n = some g ↔ .global n g ∈ h) ∧
    (∀ n ms, prog.traits.get? n = some ms ↔ .trait n ms ∈ h) ∧
    (∀ n v, prog.vtables.get? n = some v ↔ .vtable n v ∈ h) ∧ prog.KeysUnique ∧ prog.traits.keys.Nodup := by
  have i := hb.inv
  unfold ProgBuilder.finishProgram at hp
  split at hp
  · rename_i f0 hf0
    cases hp
    refine ⟨rfl, fun n f => ?_, i.globals.get, i.traits.get, i.vtables.get, ⟨i.globals.keys, ?_, i.vtables.keys⟩, i.traits.keys⟩
    · rw [Map.get?_insert]
      by_cases hn : start = n
      · subst hn
        simp only [if_true, Option.some.injEq]
        constructor
        · rintro rfl; exact ⟨f0, (i.fns.get _ _).1 hf0, rfl⟩
        · rintro ⟨f1, h1, rfl⟩
          rw [(i.fns.get _ _).2 h1] at hf0; cases hf0; rfl
      · simp only [if_neg hn, if_neg (Ne.symm hn), i.fns.get]
        exact ⟨fun h => ⟨f, h, rfl⟩, fun ⟨_, h, e⟩ => e ▸ h⟩
    · show ((p.functions.insert _ _).keys).Nodup
      rw [Map.keys_insert_old]
      · exact i.fns.keys
      · by_contra hc
        rw [Map.get?_eq_none_iff.2 hc] at hf0; cases hf0
  · cases hp

/-- C75: every vtable of the finished program is for a trait of it, and has exactly the methods of this trait. -/
theorem C75_vtables (hb : Built h p) {start : FnName} {prog : Program} (hp : p.finishProgram start = .ok prog) {n v}
    (hv : prog.vtables.get? n = some v) :
    ∃ ms, prog.traits.get? v.traitName = some ms ∧ ∀ m, (∃ f, v.methods.get? m = some f) ↔ m ∈ ms := by
  obtain ⟨_, _, _, ht, hvt, _⟩ := C75_contents hb hp
  obtain ⟨ms, h1, h2⟩ := hb.inv.methods n v ((hvt n v).1 hv)
  refine ⟨ms, (ht _ _).2 h1, fun m => ?_⟩
  rw [← h2 m]
  constructor
  · rintro ⟨f, hf⟩
    by_contra hc
    rw [Map.get?_eq_none_iff.2 hc] at hf; cases hf
  · intro hm
    cases hg : v.methods.get? m with
    | none => exact absurd hm (Map.get?_eq_none_iff.1 hg)
    | some f => exact ⟨f, rfl⟩

/-! When the builder does not panic. -/

/-- C75: a function that was not finished yet can be finished if its own builder is complete; the name is the declared one. -/
theorem C75_finish_function (hb : Built h p) {n fb f} (hn : ∀ f, .fn n f ∉ h) (hf : fb.finishFunction = .ok f) :
    ∃ p', p.finishFunction n fb = .ok (n, p') := by
  have hnone : p.functions.get? n = none := by
    cases hg : p.functions.get? n with
    | none => rfl
    | some f => exact absurd ((hb.inv.fns.get n f).1 hg) (hn f)
  exact ⟨_, by simp only [ProgBuilder.finishFunction, hf, Res.bind_ok, Map.tryInsert_eq_ok.2 ⟨hnone, rfl⟩]; rfl⟩

/-- C75: a trait that was not finished yet can be finished. -/
theorem C75_finish_trait (hb : Built h p) {t : TraitBuilder} (hn : ∀ ms, .trait t.name ms ∉ h) :
    ∃ p', p.finishTrait t = .ok (t.name, p') := by
  have hnone : p.traits.get? t.name = none := by
    cases hg : p.traits.get? t.name with
    | none => rfl
    | some f => exact absurd ((hb.inv.traits.get _ f).1 hg) (hn f)
  exact ⟨_, by simp only [ProgBuilder.finishTrait, Res.bind_ok, Map.tryInsert_eq_ok.2 ⟨hnone, rfl⟩]; rfl⟩

/-- C75: a vtable that was not finished yet can be finished exactly if its trait is finished and the methods are the right
ones. -/
theorem C75_finish_vtable (hb : Built h p) {v : VTableBuilder} (hn : ∀ w, .vtable v.name w ∉ h) :
    (∃ p', p.finishVtable v = .ok (v.name, p')) ↔ ∃ ms, .trait v.traitName ms ∈ h ∧ ∀ m, m ∈ v.methods.keys ↔ m ∈ ms := by
  have hnone : p.vtables.get? v.name = none := by
    cases hg : p.vtables.get? v.name with
    | none => rfl
    | some f => exact absurd ((hb.inv.vtables.get _ f).1 hg) (hn f)
  constructor
  · rintro ⟨p', e⟩
    simp only [ProgBuilder.finishVtable, Res.bind_eq_ok] at e
    obtain ⟨ms, hms, _, ha, _⟩ := e
    refine ⟨ms, (hb.inv.traits.get _ _).1 (by simpa [VTableBuilder.finishVtable] using hms), ?_⟩
    simp only [rassert_eq_ok, VTableBuilder.finishVtable, Bool.and_eq_true, List.all_eq_true, decide_eq_true_eq] at ha
    exact fun m => ⟨ha.1 m, fun hm => of_decide_eq_true (ha.2 m hm)⟩
  · rintro ⟨ms, h1, h2⟩
    have h1 := (hb.inv.traits.get _ _).2 h1
    refine ⟨{ p with vtables := p.vtables.insert v.name v.finishVtable }, ?_⟩
    simp only [ProgBuilder.finishVtable, VTableBuilder.finishVtable, h1, unwrap_some, Res.bind_ok, Map.tryInsert_eq_ok.2 ⟨hnone, rfl⟩,
      Res.bind_eq_ok, rassert_eq_ok, Bool.and_eq_true, List.all_eq_true]
    exact ⟨(), ⟨fun m hm => decide_eq_true ((h2 m).1 hm), fun m hm => decide_eq_true ((h2 m).2 hm)⟩, trivial⟩

/-- C75: the program can be finished exactly if the start function was. -/
theorem C75_finish_program (hb : Built h p) (start : FnName) :
    (∃ prog, p.finishProgram start = .ok prog) ↔ ∃ f, .fn start f ∈ h := by
  simp only [← hb.inv.fns.get]
  unfold ProgBuilder.finishProgram
  cases p.functions.get? start <;> simp [panic]

/-- C75: the finished program passes the check of well-formedness exactly if its functions do, the vtables are aligned and have proper
ranges of `UnsafeCell`s, and the start function returns nothing and takes no arguments. Everything else is guaranteed by the builder. -/
theorem C75_wellformed (hb : Built h p) {start : FnName} {prog : Program} (hp : p.finishProgram start = .ok prog) :
    prog.checkWf = .ok () ↔
      (∀ n v, .vtable n v ∈ h → v.size % v.align.bytes = 0 ∧ checkCells v.cells v.size = .ok ()) ∧
      (∀ n f, prog.functions.get? n = some f → f.checkWf prog = .ok ()) ∧
      (∀ f, prog.functions.get? start = some f → f.args = [] ∧
        ∃ ty, f.locals.get? f.ret = some ty ∧ ty.layout = .ok (.sized 0 Align.one)) := by
  obtain ⟨hs, hf, hg, ht, hv, hk, _⟩ := C75_contents hb hp
  have i := hb.inv
  obtain ⟨f0, hf0⟩ := (C75_finish_program hb start).1 ⟨_, hp⟩
  have hst : prog.functions.get? start = some { f0 with callingConvention := .c } := (hf _ _).2 ⟨f0, hf0, by simp⟩
  have hglob : checkGlobals prog prog.globals.values = .ok () := checkGlobals_iff.2 fun g hm => by
    obtain ⟨n, hn⟩ := (mem_values_iff hk.globals).1 hm
    rw [i.noRelocs n g ((hg n g).1 hn)]; rfl
  unfold Program.checkWf
  rw [hs, hst]
  constructor
  · intro hw
    obtain ⟨_, h1, hw⟩ := Res.bind_eq_ok.1 hw
    obtain ⟨_, h2, hw⟩ := Res.bind_eq_ok.1 hw
    obtain ⟨_, _, hw⟩ := Res.bind_eq_ok.1 hw
    obtain ⟨ty, h4, hw⟩ := Res.bind_eq_ok.1 hw
    obtain ⟨l, h5, hw⟩ := Res.bind_eq_ok.1 hw
    obtain ⟨_, h6, hw⟩ := Res.bind_eq_ok.1 hw
    obtain ⟨_, h7, hw⟩ := Res.bind_eq_ok.1 hw
    have h6 := of_decide_eq_true (ensureWf_eq_ok.1 h6)
    subst h6
    refine ⟨fun n v hm => ?_, fun n f hn => checkFunctions_iff.1 h2 f (Map.mem_values hn), fun f hf => ?_⟩
    · have := checkVTables_iff.1 h1 v (Map.mem_values ((hv n v).2 hm))
      exact ⟨this.1, this.2.1⟩
    · cases hf
      exact ⟨List.isEmpty_iff.1 (ensureWf_eq_ok.1 h7), ty, unwrap_eq_ok.1 h4, h5⟩
  · rintro ⟨h1, h2, h3⟩
    obtain ⟨h6, ty, h4, h5⟩ := h3 _ rfl
    have e1 : checkVTables prog prog.vtables.values = .ok () := checkVTables_iff.2 fun v hm => by
      obtain ⟨n, hn⟩ := (mem_values_iff hk.vtables).1 hm
      have hm := (hv n v).1 hn
      obtain ⟨ms, h7, h8⟩ := i.methods n v hm
      exact ⟨(h1 n v hm).1, (h1 n v hm).2, ms, (ht _ _).2 h7, h8⟩
    have e2 : checkFunctions prog prog.functions.values = .ok () := checkFunctions_iff.2 fun f hm => by
      obtain ⟨n, hn⟩ := (mem_values_iff hk.functions).1 hm
      exact h2 n f hn
    have e4 : f0.locals.get f0.ret = .ok ty := unwrap_eq_ok.2 h4
    have h6 : f0.args = [] := h6
    simp [e1, e2, e4, h5, hglob, h6]

end

/-! ### Functions and programs from lists -/

theorem zipIdx_get? {α : Type} : ∀ (l : List α) (k i : Nat),
    Map.get? ((l.zipIdx k).map fun (x, i) => (i, x)) i = if k ≤ i then l[i - k]? else none
  | [], k, i => by simp [Map.get?]
  | x :: l, k, i => by
    have ih := zipIdx_get? l (k + 1) i
    simp only [List.zipIdx_cons, List.map_cons, Map.get?]
    by_cases hik : k = i
    · subst hik; simp
    · rw [if_neg hik, ih]
      by_cases hle : k ≤ i
      · rw [if_pos (by omega), if_pos hle]
        have : i - k = (i - (k + 1)) + 1 := by omega
        rw [this, List.getElem?_cons_succ]
      · rw [if_neg (by omega), if_neg hle]

theorem numbered_get? {α : Type} (l : List α) (i : Nat) : (numbered l).get? i = l[i]? := by
  have := zipIdx_get? l 0 i
  simpa [numbered] using this

theorem numbered_keys {α : Type} (l : List α) : (numbered l).keys = List.range l.length := by
  simp only [numbered, Map.keys, List.map_map]
  have : (Prod.fst ∘ fun x : α × Nat => (x.2, x.1)) = Prod.snd := rfl
  rw [this, List.zipIdx_map_snd, List.range_eq_range']

/-- C75: a function made from lists fails only if it should return something and has no local for that. -/
theorem C75_function_ok (returns : Bool) (numArgs : Nat) (locals : List Ty) (bbs : List BasicBlock) :
    (∃ f, functionOf returns numArgs locals bbs = .ok f) ↔ (returns = true → locals ≠ []) := by
  have hlen : (numbered locals).length = locals.length := by simp [numbered]
  cases returns with
  | true =>
    cases locals with
    | nil => simp [functionOf, rassert, numbered, panic]
    | cons a l => simp [functionOf, hlen]
  | false =>
    have : (numbered locals).get? locals.length = none := by rw [numbered_get?]; simp
    simp [functionOf, hlen, Map.tryInsert_eq_ok.2 ⟨this, rfl⟩]

/-- C75: in a function made from lists, the locals and blocks are numbered in order, the first block is where it starts, and the
return local is the first one or a new one of type `()`, which comes after all the others; the arguments follow the former or start
from the first local. -/
theorem C75_function {returns : Bool} {numArgs : Nat} {locals : List Ty} {bbs : List BasicBlock} {f : Function}
    (h : functionOf returns numArgs locals bbs = .ok f) :
    (∀ i : Nat, i < locals.length → f.locals.get? i = locals[i]?) ∧
    (∀ i : Nat, f.blocks.get? i = bbs[i]?) ∧ f.start = (0 : Nat) ∧ f.callingConvention = .c ∧ f.args.length = numArgs ∧
    f.locals.keys.Nodup ∧ f.blocks.keys.Nodup ∧
    (returns = true → f.ret = (0 : Nat) ∧ (∀ i : Nat, locals.length ≤ i → f.locals.get? i = none) ∧
      ∀ i : Nat, i < numArgs → f.args[i]? = some (i + 1)) ∧
    (returns = false → f.ret = locals.length ∧ f.locals.get? f.ret = some unitTy ∧
      (∀ i : Nat, locals.length < i → f.locals.get? i = none) ∧ ∀ i : Nat, i < numArgs → f.args[i]? = some i) := by
  have hlen : (numbered locals).length = locals.length := by simp [numbered]
  have hbb : (numbered bbs).keys.Nodup := by rw [numbered_keys]; exact List.nodup_range
  have hlk : (numbered locals).keys.Nodup := by rw [numbered_keys]; exact List.nodup_range
  cases returns with
  | true =>
    have hr : locals ≠ [] := (C75_function_ok true numArgs locals bbs).1 ⟨f, h⟩ rfl
    have hpos : 0 < locals.length := List.length_pos_iff.2 hr
    simp only [functionOf, if_true, hlen, gt_iff_lt, hpos, decide_true, rassert_true, Res.bind_ok, Except.ok.injEq] at h
    subst h
    refine ⟨fun i _ => numbered_get? _ _, numbered_get? _, rfl, rfl, by simp, hlk, hbb, fun _ => ⟨rfl, fun i hi => ?_, fun i hi => ?_⟩, nofun⟩
    · rw [numbered_get?]; simpa using hi
    · simp [hi]
  | false =>
    have hnone : (numbered locals).get? locals.length = none := by rw [numbered_get?]; simp
    simp only [functionOf, Bool.false_eq_true, if_false, hlen, Map.tryInsert_eq_ok.2 ⟨hnone, rfl⟩, Res.bind_ok, Except.ok.injEq] at h
    subst h
    refine ⟨fun i hi => ?_, numbered_get? _, rfl, rfl, by simp, ?_, hbb, nofun, fun _ => ⟨rfl, ?_, fun i hi => ?_, fun i hi => ?_⟩⟩
    · rw [Map.get?_insert, if_neg (Nat.ne_of_gt hi), numbered_get?]
    · show ((numbered locals).insert locals.length unitTy).keys.Nodup
      rw [Map.keys_fresh hnone, numbered_keys, ← List.range_succ]
      exact List.nodup_range
    · show ((numbered locals).insert locals.length unitTy).get? locals.length = some unitTy
      rw [Map.get?_insert, if_pos rfl]
    · show ((numbered locals).insert locals.length unitTy).get? i = none
      rw [Map.get?_insert, if_neg (by omega), numbered_get?]
      simpa using Nat.le_of_lt hi
    · simp [hi]

/-- C75: in a program made from lists, the functions and globals are numbered in order, the first function is where it starts, and
there are no traits and vtables. -/
theorem C75_program (fns : List Function) (globals : List Global) :
    (∀ i : Nat, (programOf fns globals).functions.get? i = fns[i]?) ∧ (∀ i : Nat, (programOf fns globals).globals.get? i = globals[i]?) ∧
    (programOf fns globals).start = (0 : Nat) ∧ (programOf fns globals).KeysUnique ∧
    (∀ i, (programOf fns globals).traits.get? i = none) ∧ ∀ i, (programOf fns globals).vtables.get? i = none :=
  ⟨numbered_get? _, numbered_get? _, rfl,
    ⟨by show (numbered globals).keys.Nodup; rw [numbered_keys]; exact List.nodup_range,
     by show (numbered fns).keys.Nodup; rw [numbered_keys]; exact List.nodup_range, List.nodup_nil⟩, fun _ => rfl, fun _ => rfl⟩

/-! ### The methods of a trait -/

/-- C75: the `k`-th method that is declared for a trait has the name `k`, and the trait has exactly the declared methods. -/
theorem C75_trait_methods (p : ProgBuilder) (k : Nat) :
    let t := Nat.repeat (fun t : TraitBuilder => t.declareMethod.2) k p.declareTrait.1
    t.declareMethod.1 = k ∧ t.finishTrait = List.range k ∧ t.name = p.declareTrait.1.name := by
  induction k with
  | zero => exact ⟨rfl, rfl, rfl⟩
  | succ k ih =>
    obtain ⟨h1, h2, h3⟩ := ih
    simp only [Nat.repeat]
    generalize Nat.repeat (fun t : TraitBuilder => t.declareMethod.2) k p.declareTrait.1 = t at *
    simp only [TraitBuilder.declareMethod, TraitBuilder.finishTrait] at h1 h2 ⊢
    refine ⟨by rw [h1], ?_, h3⟩
    rw [h1, h2, List.range_succ, if_neg (by simp)]

/-! ### Examples -/

namespace Ex
attribute [local instance] x86_64

/-- A builder of a function that exits at once. -/
def pbExit : FnBuilder := ⟨[], [], [(0, ⟨[], .intrinsic .exit [] (.local 0) none, .regular⟩)], 0, none, .rust, none, 1, 0⟩

example : (do (← FnBuilder.new).finishBlock (.intrinsic .exit [] (.local 0) none)) = .ok pbExit := rfl

/-- The function it makes. -/
def pbExitFn : Function := ⟨[(0, unitTy)], [], 0, .rust, [(0, ⟨[], .intrinsic .exit [] (.local 0) none, .regular⟩)], 0⟩

example : pbExit.finishFunction = .ok pbExitFn := rfl

/-- Two functions, a trait with one method, a vtable for it and a global. -/
def pbHistory : List PbEvent := [.vtable 0 ⟨0, 4, ⟨2⟩, [], [(0, 1)]⟩, .fn 1 pbExitFn, .global 0 ⟨List.replicate 8 (some 0), [], ⟨3⟩⟩,
  .trait 0 [0], .declaredVTable 0, .declaredTrait 0, .fn 0 pbExitFn, .declaredFn 1, .declaredFn 0]

/-- The builder after that. -/
def pbEnd : ProgBuilder := ⟨[(0, pbExitFn), (1, pbExitFn)], [(0, ⟨List.replicate 8 (some 0), [], ⟨3⟩⟩)],
  [(0, ⟨0, 4, ⟨2⟩, [], [(0, 1)]⟩)], [(0, [0])], 2, 1, 1, 1⟩

theorem pbBuilt : Built pbHistory pbEnd := by
  have b0 : Built [] .new := .new
  have b1 : Built (pbHistory.drop 8) _ := .declareFunction b0 rfl
  have b2 : Built (pbHistory.drop 7) _ := .declareFunction b1 rfl
  have b3 : Built (pbHistory.drop 6) _ := .finishFunction (n := 0) (fb := pbExit) (r := 0) b2 (by simp [pbHistory]) rfl rfl
  have b4 : Built (pbHistory.drop 5) _ := .declareTrait b3 rfl
  have b5 : Built (pbHistory.drop 4) _ := .declareVtable (t := 0) (size := 4) (align := ⟨2⟩) (cells := []) b4 rfl
  have b6 : Built (pbHistory.drop 3) _ := .finishTrait (t := ⟨0, 1, [0]⟩) b5 (by simp [pbHistory]) rfl
  have b7 : Built (pbHistory.drop 2) _ := .declareGlobal (t := .u64) b6 rfl rfl rfl
  have b8 : Built (pbHistory.drop 1) _ := .finishFunction (n := 1) (fb := pbExit) (r := 1) b7 (by simp [pbHistory]) rfl rfl
  exact .finishVtable (v := ⟨0, 0, 4, ⟨2⟩, [], [(0, 1)]⟩) b8 (by simp [pbHistory]) rfl

/-- The program. -/
def pbProg : Program := ⟨[(0, { pbExitFn with callingConvention := .c }), (1, pbExitFn)], 0, pbEnd.globals, pbEnd.traits, pbEnd.vtables⟩

theorem pbProg_eq : pbEnd.finishProgram 0 = .ok pbProg := rfl

example : pbProg.functions.get? 1 = some pbExitFn :=
  ((C75_contents pbBuilt pbProg_eq).2.1 1 _).2 ⟨pbExitFn, by simp [pbHistory], rfl⟩
example : pbProg.checkWf = .ok () := by decide +kernel
example : ∃ ms, pbProg.traits.get? 0 = some ms ∧ ∀ m, (∃ f, Map.get? (K := Nat) [(0, 1)] m = some f) ↔ m ∈ ms :=
  C75_vtables pbBuilt pbProg_eq (n := 0) rfl
/-- A function that is not finished cannot be the start function. -/
example : ¬ ∃ prog, pbEnd.finishProgram 2 = .ok prog := by
  rw [C75_finish_program pbBuilt]
  rintro ⟨f, hf⟩
  simp [pbHistory] at hf
/-- A third function can be added. -/
example : ∃ p', pbEnd.finishFunction 2 pbExit = .ok (2, p') :=
  C75_finish_function pbBuilt (n := 2) (fun f hf => by simp [pbHistory] at hf) (f := pbExitFn) rfl

/-- `functionOf` with a return local and an argument. -/
example : ∃ f, functionOf true 1 [unitTy, .bool] [⟨[], .return, .regular⟩] = .ok f ∧ f.args[0]? = some (1 : Nat) ∧
    f.locals.get? (1 : Nat) = some .bool := by
  obtain ⟨f, hf⟩ := (C75_function_ok true 1 [unitTy, .bool] [⟨[], .return, .regular⟩]).2 (by simp)
  have h := C75_function hf
  exact ⟨f, hf, (h.2.2.2.2.2.2.2.1 rfl).2.2 0 (by decide), h.1 1 (by decide)⟩

end Ex
end MiniRust
