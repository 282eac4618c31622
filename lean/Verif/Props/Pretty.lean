import Verif.Lemmas.PrettyWf
import Verif.Props.Run
import Verif.Examples.Programs
/-
C86: what the pretty printer (`--minimize-dump`, `dump_program`, `program_to_string`) prints.
-/
namespace MiniRust

section
variable [T : Target] (prog : Program)

/-- The text that the program should have, given the names of the composite types and their definitions. -/
def Program.dumpText (prog : Program) (names : List Ty) (defs : List Text) : Text :=
  defs.flatten ++
    ((sortByName prog.traits).flatMap fun t => traitText t.1 ((t.2.map fun m => lit "m" ++ natText m).insertionSort fun a b => a ≤ b)) ++ lit "\n" ++
    ((sortByName prog.vtables).flatMap fun v => v.2.text v.1) ++ lit "\n" ++
    ((sortByName prog.functions).flatMap fun f => f.2.text names (prog.start = f.1) f.1) ++
    (sortByName prog.globals).flatMap fun g => g.2.text g.1

theorem mem_le_sum {n : Nat} : ∀ {l : List Nat}, n ∈ l → n ≤ l.sum
  | m :: l, h => by
    rw [List.sum_cons]
    rcases List.mem_cons.1 h with rfl | h
    · omega
    · have := mem_le_sum h; omega

theorem loop_names (hp : prog.Printable) : ∃ fuel, (∃ e t, prog.Uses t ∧ t.layout = .error e ∧ fmtProgram fuel prog = some (.error e)) ∨
    ∃ names defs, Defs prog.Uses 0 (addAll [] prog.mentions) names defs ∧ fmtProgram fuel prog = some (.ok (prog.dumpText names defs)) := by
  have hmem : ∀ t ∈ addAll [] prog.mentions, t.Composite ∧ prog.Uses t := fun t ht => by
    have hm : t ∈ prog.mentions := (mem_addAll.1 ht).resolve_left List.not_mem_nil
    refine ⟨?_, .mention hm⟩
    exact Program.mentions_composite hm
  obtain ⟨fuel, h⟩ := fmtComptypes_loop prog.Uses (fun t c u ht hc hu => .component ht hc hu)
    ((addAll [] prog.mentions).map sizeOf).sum (addAll [] prog.mentions).length 0 (addAll [] prog.mentions)
    (addAll_nodup List.nodup_nil) hmem
    (fun j t _ ht => mem_le_sum (List.mem_map.2 ⟨t, List.mem_of_getElem? ht, rfl⟩))
    (fun j t hj ht => by rw [List.getElem?_eq_none (by omega)] at ht; cases ht)
  refine ⟨fuel, h.imp ?_ ?_⟩
  · rintro ⟨e, t, h1, h2, h3⟩
    refine ⟨e, t, h1, h2, ?_⟩
    rw [fmtProgram, fmtFunctions_fmt prog hp [] _ List.prefix_rfl]
    dsimp only
    rw [h3]
  · rintro ⟨names, defs, hd, h3⟩
    refine ⟨names, defs, hd, ?_⟩
    rw [fmtProgram, fmtFunctions_fmt prog hp [] names hd.pre]
    dsimp only
    rw [h3]
    have e1 : fmtGlobals prog.globals = (sortByName prog.globals).flatMap fun g => g.2.text g.1 := by simp only [fmtGlobals, fmtGlobal_eq]
    have e2 : fmtVTables prog.vtables = ((sortByName prog.vtables).flatMap fun v => v.2.text v.1) ++ lit "\n" := by simp only [fmtVTables, fmtVTable_eq]
    have e3 : fmtTraits prog.traits = ((sortByName prog.traits).flatMap fun t =>
        traitText t.1 ((t.2.map fun m => lit "m" ++ natText m).insertionSort fun a b => a ≤ b)) ++ lit "\n" := rfl
    dsimp only
    rw [e1, e2, e3]
    simp only [Program.dumpText, List.append_assoc]

/-- C86: The dump always ends. -/
theorem C86_ends : ∃ fuel r, fmtProgram fuel prog = some r := by
  by_cases hp : prog.Printable
  · obtain ⟨fuel, ⟨e, _, _, _, h⟩ | ⟨_, _, _, h⟩⟩ := loop_names prog hp
    · exact ⟨fuel, _, h⟩
    · exact ⟨fuel, _, h⟩
  · exact ⟨0, .error .panic, by rw [fmtProgram, fmtFunctions_panics prog hp]⟩

/-- C86: If all expressions can be printed and the composite types have layouts, then there is a list of the composite types that the program uses,
each exactly once, and the dump is the definitions of the types in this order, the traits, the vtables, the functions in the order of their names, and
the globals, where the type at position `i` is called `Ti` everywhere. -/
theorem C86_dump (hp : prog.Printable) (hl : ∀ t, prog.Uses t → ∃ l, t.layout = .ok l) :
    ∃ (fuel : Nat) (names : List Ty) (defs : List Text), names.Nodup ∧ (∀ t : Ty, t ∈ names ↔ prog.Uses t) ∧ defs.length = names.length ∧
      (∀ (i : Nat) (t : Ty), names[i]? = some t → ∃ l, t.layout = .ok l ∧ defs[i]? = some (t.defText names l)) ∧
      fmtProgram fuel prog = some (.ok (prog.dumpText names defs)) := by
  obtain ⟨fuel, ⟨e, t, h1, h2, _⟩ | ⟨names, defs, hd, h⟩⟩ := loop_names prog hp
  · obtain ⟨l, h3⟩ := hl t h1
    rw [h2] at h3; cases h3
  · refine ⟨fuel, names, defs, hd.nodup, fun t => ⟨fun ht => (hd.mem t ht).2, fun ht => ?_⟩, hd.length, fun i t hi => ?_, h⟩
    · induction ht with
      | mention hm => exact hd.pre.subset (mem_addAll.2 (.inr hm))
      | component _ hc hu ih =>
        obtain ⟨j, hj⟩ := List.mem_iff_getElem?.1 ih
        exact hd.closed j _ _ _ (Nat.zero_le _) hj hc hu
    · exact hd.text i t (Nat.zero_le _) hi

/-- C86: Otherwise the printer panics, or fails to compute the layout of a type. -/
theorem C86_fails (h : ¬ (prog.Printable ∧ ∀ t, prog.Uses t → ∃ l, t.layout = .ok l)) :
    ∃ fuel e, fmtProgram fuel prog = some (.error e) ∧ (e = .panic ∨ ∃ t, prog.Uses t ∧ t.layout = .error e) := by
  by_cases hp : prog.Printable
  · obtain ⟨fuel, ⟨e, t, h1, h2, h3⟩ | ⟨names, defs, hd, h3⟩⟩ := loop_names prog hp
    · exact ⟨fuel, e, h3, .inr ⟨t, h1, h2⟩⟩
    · refine absurd ⟨hp, fun t ht => ?_⟩ h
      have hmem : t ∈ names := by
        induction ht with
        | mention hm => exact hd.pre.subset (mem_addAll.2 (.inr hm))
        | component _ hc hu ih =>
          obtain ⟨j, hj⟩ := List.mem_iff_getElem?.1 ih
          exact hd.closed j _ _ _ (Nat.zero_le _) hj hc hu
      obtain ⟨j, hj⟩ := List.mem_iff_getElem?.1 hmem
      obtain ⟨l, e, _⟩ := hd.text j t (Nat.zero_le _) hj
      exact ⟨l, e⟩
  · exact ⟨0, .panic, by rw [fmtProgram, fmtFunctions_panics prog hp], .inl rfl⟩

/-- C86: Well-formed programs can be printed if they take addresses only as references and raw pointers and transmute only to well-formed types. -/
theorem C86_wellFormed_partial (hw : prog.checkWf = .ok ()) (hu : prog.Each (ValueExpr.Usual prog)) :
    prog.Printable ∧ ∀ t, prog.Uses t → ∃ l, t.layout = .ok l :=
  ⟨(Program.wfText hw hu).1, fun _ ht =>
    let ⟨l, h, _⟩ := Ty.layout_of_checkWf (Program.Uses.wf hw hu ht)
    ⟨l, h⟩⟩

/-- C86: More iterations give the same dump. -/
theorem C86_unique {fuel fuel' : Nat} {r r' : Res Text} (h : fmtProgram fuel prog = some r) (h' : fmtProgram fuel' prog = some r') : r = r' := by
  have mono : ∀ (fuel fuel' i : Nat) (cts : List Ty) (r r' : Res Text), fmtComptypes fuel i cts = some r → fmtComptypes fuel' i cts = some r' → r = r' := by
    intro fuel
    induction fuel with
    | zero =>
      intro fuel' i cts r r' h h'
      unfold fmtComptypes at h h'
      cases hi : cts[i]? with
      | none => rw [hi] at h h'; cases h; cases h'; rfl
      | some c => rw [hi] at h; cases h
    | succ fuel ih =>
      intro fuel' i cts r r' h h'
      unfold fmtComptypes at h h'
      cases hi : cts[i]? with
      | none => rw [hi] at h h'; cases h; cases h'; rfl
      | some c =>
        rw [hi] at h h'
        cases fuel' with
        | zero => cases h'
        | succ fuel' =>
          dsimp only at h h'
          cases hc : fmtComptype i c cts with
          | error e => rw [hc] at h h'; cases h; cases h'; rfl
          | ok x =>
            obtain ⟨s, cts'⟩ := x
            rw [hc] at h h'
            dsimp only at h h'
            cases h1 : fmtComptypes fuel (i + 1) cts' with
            | none => rw [h1] at h; cases h
            | some r1 =>
              cases h2 : fmtComptypes fuel' (i + 1) cts' with
              | none => rw [h2] at h'; cases h'
              | some r2 =>
                have := ih fuel' (i + 1) cts' r1 r2 h1 h2
                subst this
                rw [h1] at h; rw [h2] at h'
                cases r1 <;> (cases h; cases h'; rfl)
  unfold fmtProgram at h h'
  cases hf : fmtFunctions prog [] with
  | error e => rw [hf] at h h'; cases h; cases h'; rfl
  | ok x =>
    obtain ⟨s, cts⟩ := x
    rw [hf] at h h'
    dsimp only at h h'
    cases h1 : fmtComptypes fuel 0 cts with
    | none => rw [h1] at h; cases h
    | some r1 =>
      cases h2 : fmtComptypes fuel' 0 cts with
      | none => rw [h2] at h'; cases h'
      | some r2 =>
        have := mono fuel fuel' 0 cts r1 r2 h1 h2
        subst this
        rw [h1] at h; rw [h2] at h'
        cases r1 <;> (cases h; cases h'; rfl)

end

theorem natText_injective {m n : Nat} (h : natText m = natText n) : m = n := by
  have h1 := readDigits_natText m
  rw [h, readDigits_natText n] at h1
  exact (Option.some.inj h1).symm

/-- C86: Different composite types have different names. -/
theorem C86_names {names : List Ty} {t u : Ty} (ht : t ∈ names) (hc : t.Composite) (hc' : u.Composite) (h : t.text names = u.text names) : t = u := by
  have key : ∀ t : Ty, t.Composite → t.text names = lit "T" ++ natText (names.idxOf t) := by
    intro t ht
    cases t <;> first | exact absurd ht id | rfl
  rw [key t hc, key u hc'] at h
  exact List.idxOf_inj ht |>.1 (natText_injective (List.append_cancel_left h))

/-- C86: Functions, blocks, locals and globals are printed in the order of their names. -/
theorem C86_sorted {V : Type} (m : List (Nat × V)) : (sortByName m).Perm m ∧ (sortByName m).Pairwise fun a b => a.1 ≤ b.1 :=
  ⟨List.perm_insertionSort _ m,
    letI : Std.Total fun a b : Nat × V => a.1 ≤ b.1 := ⟨fun a b => Nat.le_total a.1 b.1⟩
    letI : IsTrans (Nat × V) fun a b => a.1 ≤ b.1 := ⟨fun _ _ _ => Nat.le_trans⟩
    List.pairwise_insertionSort _ m⟩

/-- C86: Different operators and intrinsics of well-formed programs, and different integer types, have different texts. -/
theorem C86_operators : (∀ a b : IntBinOp, fmtIntBinOp a = fmtIntBinOp b → a = b) ∧ (∀ a b : RelOp, fmtRelOp a = fmtRelOp b → a = b) ∧
    (∀ a b : IntBinOpWithOverflow, fmtOverflowOp a = fmtOverflowOp b → a = b) ∧ (∀ a b : BbKind, fmtBbKind a = fmtBbKind b → a = b) ∧
    (∀ a b : IntrinsicOp, a.checkWf = .ok () → b.checkWf = .ok () → fmtIntrinsic a = fmtIntrinsic b → a = b) ∧
    ∀ a b : IntType, fmtIntType a = fmtIntType b → a = b := by
  refine ⟨fun a b => by cases a <;> cases b <;> decide, fun a b => by cases a <;> cases b <;> decide,
    fun a b => by cases a <;> cases b <;> decide, fun a b => by cases a <;> cases b <;> decide, fun a b ha hb => ?_, ?_⟩
  · cases a with
    | atomicFetchAndOp a =>
      cases b with
      | atomicFetchAndOp b => revert ha hb; cases a <;> cases b <;> decide
      | lock b => revert ha; cases a <;> cases b <;> decide
      | _ => revert ha; cases a <;> decide
    | lock a =>
      cases b with
      | atomicFetchAndOp b => revert hb; cases a <;> cases b <;> decide
      | lock b => cases a <;> cases b <;> decide
      | _ => cases a <;> decide
    | _ =>
      cases b with
      | atomicFetchAndOp b => revert hb; cases b <;> decide
      | lock b => cases b <;> decide
      | _ => decide
  · rintro ⟨s, n⟩ ⟨s', n'⟩ h
    have h1 : ∀ (s s' : Signedness) (x y : Text), (match s with | .signed => lit "i" | .unsigned => lit "u") ++ x =
        (match s' with | .signed => lit "i" | .unsigned => lit "u") ++ y → s = s' ∧ x = y := by
      intro s s' x y h
      cases s <;> cases s' <;> simp_all [lit]
    obtain ⟨rfl, h2⟩ := h1 s s' _ _ h
    have := natText_injective h2
    have : n = n' := by dsimp only at this; omega
    subst this; rfl

/-! ### Concrete cases -/

section
attribute [local instance] x86_64
namespace Pretty
open Ex

/-- A pair of a pair and a byte, twice in an array. -/
def inner : Ty := .tuple [(0, u32), (4, .bool)] ⟨8, ⟨2⟩, none⟩ none
def outer : Ty := .tuple [(0, inner), (8, .int ⟨.unsigned, 1⟩)] ⟨12, ⟨2⟩, none⟩ none

/-- A function with locals of types that contain each other. -/
def prettyProg : Program where
  functions := [(0, {
    locals := [(2, .array outer 2), (0, unitTy), (1, inner), (3, .ptr (.raw .none))]
    args := []
    ret := 0
    callingConvention := .c
    blocks := [
      (1, ⟨[], .intrinsic .exit [] (.local 0) none, .regular⟩),
      (0, ⟨[.storageLive 1, .storageLive 2,
        .assign (.field (.local 1) 0) (.binOp (.int .add) (.binOp (.int .mul) (.constant (.int 2) u32) (.constant (.int 3) u32)) (.constant (.int 4) u32)),
        .assign (.local 3) (.addrOf (.field (.index (.local 2) (.constant (.int 1) usize)) 1) (.raw .none))],
        .goto 1, .regular⟩)]
    start := 0 })]
  start := 0
  globals := []
  traits := []
  vtables := []

example : fmtProgram 10 prettyProg = some (.ok "tuple T0 (size=0, align=1) {
}

tuple T1 (size=8, align=4) {
  at byte 0: u32,
  at byte 4: bool,
}

tuple T2 (size=12, align=4) {
  at byte 0: T1,
  at byte 8: u8,
}



start fn f0() -> _0 {
  let _0: T0;
  let _1: T1;
  let _2: [T2; 2];
  let _3: *raw(thin);
  start bb0:
    storage_live(_1);
    storage_live(_2);
    _1.0 = (2 * 3) + 4;
    _3 = &raw _2[1].1;
    goto -> bb1;
  bb1:
    _0 = exit();
}

".toList) := by decide +kernel


-- `C86_names` applies to the two types.
example : inner ∈ [unitTy, inner, outer] ∧ inner.Composite ∧ outer.Composite ∧ inner.text [unitTy, inner, outer] ≠ outer.text [unitTy, inner, outer] :=
  ⟨by decide +kernel, trivial, trivial, by decide +kernel⟩

/-- A program with one function that has these locals and this block, and then exits. -/
def oneBlock (locals : List (LocalName × Ty)) (sts : List Statement) (op : IntrinsicOp) (args : List ValueExpr) (ret : LocalName) : Program where
  functions := [(0, {
    locals := (0, unitTy) :: locals
    args := []
    ret := 0
    callingConvention := .c
    blocks := [(0, ⟨sts, .intrinsic op args (.local ret) (some 1), .regular⟩), (1, ⟨[], .intrinsic .exit [] (.local 0) none, .regular⟩)]
    start := 0 })]
  start := 0
  globals := []
  traits := []
  vtables := []

/-- `Box<u32>`. -/
def boxTy : PtrType := .box ⟨.sized 4 ⟨2⟩, true, .sized [], true, true⟩

/-- `_2 = &_1` at the type `Box<u32>`. -/
def boxProg : Program := oneBlock [(1, u32), (2, .ptr boxTy)] [.storageLive 1, .storageLive 2, .assign (.local 2) (.addrOf (.local 1) boxTy)] .exit [] 0

/-- A tuple with a field that ends in an array of negative length. -/
def badTy : Ty := .tuple [(0, .tuple [] ⟨0, Align.one, none⟩ (some (.array .bool (-1))))] ⟨0, Align.one, none⟩ none

/-- `_ = *(transmute::<badTy>(()))`, as an argument. -/
def badProg : Program := oneBlock [] [] .exit [.unOp (.cast (.transmute badTy)) (.load (.local 0))] 0

/-- `atomic_store(&raw _1, 7)` where `_1` has the type `u32` and `7` has a given type. -/
def storeProg (ty : Ty) : Program :=
  oneBlock [(1, u32)] [.storageLive 1] .atomicStore [.addrOf (.local 1) (.raw .none), .constant (.int 7) ty] 0

end Pretty
open Pretty Ex

/-- C86: There are well-formed programs that the printer cannot print. The first takes an address at a box type, the second transmutes to an ill-formed type. -/
theorem C86_unprintable : boxProg.checkWf = .ok () ∧ (∃ fuel, fmtProgram fuel boxProg = some (.error .panic)) ∧
    badProg.checkWf = .ok () ∧ ∃ fuel, fmtProgram fuel badProg = some (.error .panic) := by
  refine ⟨by decide +kernel, ⟨0, by decide +kernel⟩, by decide +kernel, ⟨5, by decide +kernel⟩⟩

/-- C86: The dump does not determine what a program does: there are two well-formed programs with the same dump, such that one runs to its end and the other
has undefined behaviour. -/
theorem C86_ambiguous : (storeProg u32).checkWf = .ok () ∧ (storeProg usize).checkWf = .ok () ∧
    (∃ fuel text, fmtProgram fuel (storeProg u32) = some (.ok text) ∧ fmtProgram fuel (storeProg usize) = some (.ok text)) ∧
    ∃ fuel, ∃ oracle : List (Choice (Nat × Unit)),
      getStdout (BasicMem Unit Unit) fuel (storeProg u32) oracle = some (.ok []) ∧
      getStdout (BasicMem Unit Unit) fuel (storeProg usize) oracle = some (.error .ub) := by
  refine ⟨by decide +kernel, by decide +kernel, ⟨5, _, by rfl, by rfl⟩, 10, [.int 16, .int 32, .int 0, .int 48, .int 0, .int 0, .int 0],
    by decide +kernel, by decide +kernel⟩

end

end MiniRust
