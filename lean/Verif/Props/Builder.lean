import Verif.Lemmas.BuilderFn
/-
C65: functions built with the function builder of miniutil run the structured program they were built from.
-/
namespace MiniRust
open FnBuilder

/-! ### Helpers -/

theorem mem_argNames {ds : List Decl} {n x : Nat} : x ∈ argNames n ds ↔ n ≤ x ∧ ∃ ty, ds[x - n]? = some (.arg ty) := by
  induction ds generalizing n with
  | nil => simp [argNames]
  | cons d ds ih =>
    simp only [argNames, List.mem_append, ih]
    constructor
    · rintro (h | ⟨h, ty, he⟩)
      · cases d with
        | arg ty =>
          simp [Decl.isArg] at h
          subst h
          exact ⟨Nat.le_refl _, ty, by simp⟩
        | _ => simp [Decl.isArg] at h
      · refine ⟨by omega, ty, ?_⟩
        obtain ⟨m, hm⟩ : ∃ m, x - n = m + 1 := ⟨x - n - 1, by omega⟩
        rw [show x - (n + 1) = m by omega] at he
        rw [hm]; exact he
    · rintro ⟨h, ty, he⟩
      by_cases hx : x = n
      · subst hx
        simp at he
        subst he
        exact .inl (by simp [Decl.isArg])
      · refine .inr ⟨by omega, ty, ?_⟩
        obtain ⟨m, hm⟩ : ∃ m, x - n = m + 1 := ⟨x - n - 1, by omega⟩
        rw [show x - (n + 1) = m by omega]
        rw [hm] at he; exact he

theorem nodup_argNames {ds : List Decl} {n : Nat} : (argNames n ds).Nodup := by
  induction ds generalizing n with
  | nil => simp [argNames]
  | cons d ds ih =>
    simp only [argNames]
    split
    · simp only [List.singleton_append, List.nodup_cons]
      refine ⟨fun h => ?_, ih⟩
      have := (mem_argNames.mp h).1
      omega
    · simpa using ih

theorem checkArgs_declared {locals : Map LocalName Ty} : ∀ {l live : List LocalName}, l.Nodup → (∀ x ∈ l, x ∉ live) →
    (∀ x ∈ l, locals.contains x = true) → checkArgs locals l live = .ok (live ++ l)
  | [], live, _, _, _ => by simp [checkArgs]
  | x :: l, live, hn, hl, hc => by
    have h1 := hc x List.mem_cons_self
    have h2 := hl x List.mem_cons_self
    rw [List.nodup_cons] at hn
    simp only [checkArgs, h1, ensureWf_true, Res.bind_ok, if_neg h2]
    rw [checkArgs_declared hn.2]
    · simp
    · intro y hy
      simp only [List.mem_append, List.mem_singleton, not_or]
      exact ⟨hl y (List.mem_cons_of_mem _ hy), fun e => hn.1 (e ▸ hy)⟩
    · exact fun y hy => hc y (List.mem_cons_of_mem _ hy)

/-- A type of a local variable: sized and well-formed. -/
def LocalTyOk [Target] (prog : Program) (ty : Ty) : Prop :=
  (∃ l, ty.layout = .ok l ∧ l.isSized = true) ∧ ty.checkWf prog = .ok ()

theorem unitTy_ok [T : Target] [L : LawfulTarget T] {prog : Program} : LocalTyOk prog unitTy := by
  have hv : T.validSize 0 = true := L.valid_down 0 _ (Nat.zero_le _) L.valid_wide
  have ha : alignTo 0 Align.one = 0 := rfl
  refine ⟨⟨.sized 0 Align.one, by simp [unitTy, Ty.layout, TupleHeadLayout.headSizeAndAlign, ha], rfl⟩, ?_⟩
  simp [unitTy, Ty.checkWf, Ty.fieldChecks, sortByOffset, checkSortedFields, TupleHeadLayout.checkWf, checkLayout, Ty.layout,
    TupleHeadLayout.headSizeAndAlign, ha, hv, LayoutStrategy.checkWf, LayoutStrategy.checkAligned, LayoutStrategy.metaKind, Ty.metaKind]

theorem checkLocals_ok [Target] {prog : Program} : ∀ {l : List Ty}, (∀ t ∈ l, LocalTyOk prog t) → checkLocals prog l = .ok ()
  | [], _ => rfl
  | t :: l, h => by
    obtain ⟨⟨lay, h1, h2⟩, h3⟩ := h t List.mem_cons_self
    simp only [checkLocals, h1, Res.bind_ok, h2, ensureWf_true, h3]
    exact checkLocals_ok fun t ht => h t (List.mem_cons_of_mem _ ht)

/-! ### C65 -/

/-- A structured program can be built exactly if it is structured, and at most one return place is declared. -/
theorem C65_builds_iff (decls : List Decl) (code : Code) :
    (∃ f, buildFunction decls code = .ok f) ↔ code.flow = some false ∧ decls.countP (·.isRet) ≤ 1 :=
  ⟨fun ⟨_, h⟩ => ⟨(buildFunction_spec h).1, (buildFunction_spec h).2.1⟩, fun ⟨h1, h2⟩ => buildFunction_total h1 h2⟩

/-- Anything else is rejected with a panic. -/
theorem C65_misuse_panics (decls : List Decl) (code : Code) (h : code.flow ≠ some false ∨ 1 < decls.countP (·.isRet)) :
    buildFunction decls code = .error .panic := by
  cases hb : buildFunction decls code with
  | ok f =>
    obtain ⟨h1, h2⟩ := (C65_builds_iff decls code).mp ⟨f, hb⟩
    obtain h | h := h
    · exact absurd h1 h
    · omega
  | error e => rw [pan_buildFunction e hb]

/-- The function behaves like the structured program: it can perform the same sequences of actions, and leaves the function
after the same ones. -/
theorem C65_same_behavior {decls : List Decl} {code : Code} {f : Function} (h : buildFunction decls code = .ok f) (as : List Act) :
    ((∃ p, CfgRun f.blocks (f.start, 0) as (some p)) ↔ ∃ c, Code.Run code as (some c)) ∧
    (CfgRun f.blocks (f.start, 0) as none ↔ Code.Run code as none) := by
  obtain ⟨_, _, _, _, _, _, hs, hl, _⟩ := buildFunction_spec h
  have hsim : Sim f.blocks code (f.start, 0) := by
    rw [hs]
    have := Sim.seq (bl := f.blocks) (d := .nil) hl (fun q h => by cases h)
    rwa [Code.append_nil] at this
  refine ⟨⟨?_, ?_⟩, ?_, ?_⟩
  · rintro ⟨p, hp⟩
    obtain ⟨r, hr, hm⟩ := hsim.back hp
    cases r with
    | none => exact hm.elim
    | some c => exact ⟨c, hr⟩
  · rintro ⟨c, hc⟩
    obtain ⟨r, hr, hm⟩ := hsim.forth hc
    cases r with
    | none => exact hm.elim
    | some p => exact ⟨p, hr⟩
  · intro hp
    obtain ⟨r, hr, hm⟩ := hsim.back hp
    cases r with
    | none => exact hr
    | some c => exact hm.elim
  · intro hc
    obtain ⟨r, hr, hm⟩ := hsim.forth hc
    cases r with
    | none => exact hr
    | some p => exact hm.elim

/-- Wherever the function is, there is something to do next: it cannot run off the end, nor spin through empty blocks. -/
theorem C65_never_stuck {decls : List Decl} {code : Code} {f : Function} (h : buildFunction decls code = .ok f) {as : List Act}
    {p : BbName × Nat} (hr : CfgRun f.blocks (f.start, 0) as (some p)) : ∃ a r, CfgRun f.blocks p [a] r := by
  obtain ⟨_, _, _, _, _, _, hs, hl, _⟩ := buildFunction_spec h
  have hsim : Sim f.blocks code (f.start, 0) := by
    rw [hs]
    have := Sim.seq (bl := f.blocks) (d := .nil) hl (fun q h => by cases h)
    rwa [Code.append_nil] at this
  obtain ⟨r, _, hm⟩ := hsim.back hr
  cases r with
  | none => exact hm.elim
  | some c =>
    have hpoised := Sim.poised (bl := f.blocks) hm
    obtain ⟨a, r, hstep⟩ := hpoised.progress
    obtain ⟨r', _, h1, h2⟩ := hpoised.forth hstep
    cases r' with
    | none => exact ⟨a, none, h2 rfl⟩
    | some p' => exact ⟨a, some p', h1 p' rfl [] (some p') .nil⟩

/-- The locals are those declared, in order, with consecutive names; the arguments are those declared as such, in order;
the return place is the one declared, or a new one of unit type. -/
theorem C65_declarations {decls : List Decl} {code : Code} {f : Function} (h : buildFunction decls code = .ok f) :
    f.locals.keys = List.range f.locals.length ∧
    f.locals.values = decls.map (·.ty) ++ (if decls.any (·.isRet) then [] else [unitTy]) ∧
    f.args = (decls.zipIdx.filter fun e => e.1.isArg).map (·.2) ∧
    (if decls.any (·.isRet) then ∃ ty, decls[f.ret]? = some (.ret ty) else f.ret = decls.length) := by
  obtain ⟨_, _, hl, ha, hr, _⟩ := buildFunction_spec h
  refine ⟨?_, ?_, ?_, ?_⟩
  · rw [hl]
    simp [Map.keys, Function.comp_def, List.zipIdx_eq_zip_range', List.map_snd_zip, List.range_eq_range']
  · rw [hl]
    simp [Map.values, Function.comp_def, List.zipIdx_eq_zip_range', List.map_fst_zip, declTypes]
  · rw [ha, argNames_eq]
  · rw [hr]
    unfold declRet
    cases hn : retName 0 decls with
    | none =>
      have := retName_none.mp hn
      rw [if_neg]
      · rfl
      · rw [List.any_eq_true]
        rintro ⟨d, hd, hx⟩
        rw [this d hd] at hx; cases hx
    | some r =>
      obtain ⟨_, _, ty, he⟩ := retName_some hn
      rw [if_pos]
      · exact ⟨ty, he⟩
      · rw [List.any_eq_true]
        exact ⟨_, List.mem_of_getElem? he, rfl⟩

/-- If the declared types and the code are well-formed, so is the function: the builder connects only blocks that may be
connected. -/
theorem C65_wellformed [T : Target] [LawfulTarget T] {decls : List Decl} {code : Code} {f : Function}
    (h : buildFunction decls code = .ok f) (prog : Program) (ht : ∀ d ∈ decls, LocalTyOk prog d.ty)
    (hc : code.Checked prog f .regular) : f.checkWf prog = .ok () := by
  obtain ⟨_, _, hl, ha, hr, _, _, _, _, hb⟩ := buildFunction_spec h
  obtain ⟨_, hvals, _, hret⟩ := C65_declarations h
  have hlocals : checkLocals prog f.locals.values = .ok () := by
    refine checkLocals_ok fun t htm => ?_
    rw [hvals, List.mem_append] at htm
    obtain htm | htm := htm
    · obtain ⟨d, hd, rfl⟩ := List.mem_map.mp htm
      exact ht d hd
    · split at htm
      · cases htm
      · cases List.mem_singleton.mp htm; exact unitTy_ok
  have hlen : decls.length ≤ (declTypes decls).length := by simp [declTypes]
  have hcontains : ∀ x, x < (declTypes decls).length → f.locals.contains x = true := by
    intro x hx
    cases hcon : f.locals.contains x with
    | true => rfl
    | false =>
      rw [Map.contains_eq_false, hl, get?_zipIdx_lt (Nat.zero_le _) (by omega)] at hcon
      simp only [Nat.sub_zero, List.getElem?_eq_none_iff] at hcon
      omega
  have hargs : checkArgs f.locals f.args [] = .ok ([] ++ f.args) := by
    refine checkArgs_declared (by rw [ha]; exact nodup_argNames) (by simp) fun x hx => ?_
    rw [ha] at hx
    obtain ⟨_, ty, he⟩ := mem_argNames.mp hx
    have : x - 0 < decls.length := (List.getElem?_eq_some_iff.mp he).1
    exact hcontains x (Nat.lt_of_lt_of_le this hlen)
  have hretc : f.locals.contains f.ret = true := by
    apply hcontains
    split at hret
    · obtain ⟨ty, he⟩ := hret
      have : f.ret < decls.length := (List.getElem?_eq_some_iff.mp he).1
      exact Nat.lt_of_lt_of_le this hlen
    · rename_i hany
      rw [hret]
      simp only [Bool.not_eq_true] at hany
      simp [declTypes, hany]
  have hretn : f.ret ∉ f.args := by
    intro hin
    rw [ha] at hin
    obtain ⟨_, ty, he⟩ := mem_argNames.mp hin
    simp only [Nat.sub_zero] at he
    split at hret
    · obtain ⟨ty', he'⟩ := hret
      rw [he] at he'; cases he'
    · rw [hret] at he
      simp at he
  simp only [Function.checkWf, hlocals, hargs, hretc, Res.bind_ok, ensureWf_true, List.nil_append, if_neg hretn]
  exact hb prog hc

/-- The function starts in a regular block that exists (`check_wf` does not ask for this). -/
theorem C65_start_exists {decls : List Decl} {code : Code} {f : Function} (h : buildFunction decls code = .ok f) :
    ∃ blk, f.blocks.get? f.start = some blk ∧ blk.kind = .regular := by
  obtain ⟨_, _, _, _, _, _, hs, _, hk, _⟩ := buildFunction_spec h
  rw [hs]; exact hk

/-! ### A concrete function -/

namespace BuilderEx
attribute [local instance] x86_64 x86_64_lawful

def u32 : Ty := .int ⟨.unsigned, 4⟩

/-- An argument, a return place, and a variable. -/
def decls : List Decl := [.arg u32, .ret u32, .var u32]

/-- `y = 0; while y < x { y = y + 1; if y == 7 { return } }; try { f() } catch { y = 3 }; ret = y; return` -/
def code : Code :=
  .stmt (.storageLive 2) <|
  .stmt (.assign (.local 2) (.constant (.int 0) u32)) <|
  .while_ (.binOp (.rel .lt) (.load (.local 2)) (.load (.local 0)))
    (.stmt (.assign (.local 2) (.binOp (.int .add) (.load (.local 2)) (.constant (.int 1) u32))) <|
      .if_ (.binOp (.rel .eq) (.load (.local 2)) (.constant (.int 7) u32)) (.ret .nil) .nil .nil) <|
  .tryCall ⟨.constant (.fnPointer 0) (.ptr .fnPtr), .rust, [], .local 1⟩
    (.stmt (.assign (.local 2) (.constant (.int 3) u32)) .nil) <|
  .stmt (.assign (.local 1) (.load (.local 2))) <|
  .ret .nil

/-- The function that is built from it. -/
def fn : Function :=
  match buildFunction decls code with
  | .ok f => f
  | .error _ => ⟨[], [], 0, .c, [], 0⟩

theorem built : buildFunction decls code = .ok fn := by rfl

/-- A program in which the callee exists. -/
def prog : Program := ⟨[(0, fn)], 0, [], [], []⟩

/-- It can be built, and it has eleven blocks. -/
example : (∃ f, buildFunction decls code = .ok f) ∧ fn.blocks.length = 11 := by
  refine ⟨(C65_builds_iff _ _).mpr ⟨by decide +kernel, by decide +kernel⟩, by decide +kernel⟩

/-- Code after a `return` is rejected, and so is falling off the end, or a second return place. -/
example : buildFunction [] (.ret (.ret .nil)) = .error .panic := C65_misuse_panics _ _ (.inl (by decide +kernel))
example : buildFunction [] (.stmt (.storageLive 0) .nil) = .error .panic := C65_misuse_panics _ _ (.inl (by decide +kernel))
example : buildFunction [.ret u32, .ret u32] (.ret .nil) = .error .panic := C65_misuse_panics _ _ (.inr (by decide +kernel))

/-- A run of the function that leaves it: the loop is not entered, the call unwinds, the handler runs, the function returns. -/
example : CfgRun fn.blocks (fn.start, 0)
    [.stmt (.storageLive 2), .stmt (.assign (.local 2) (.constant (.int 0) u32)),
     .switch (FnBuilder.boolToInt (.binOp (.rel .lt) (.load (.local 2)) (.load (.local 0)))) 0,
     .call ⟨.constant (.fnPointer 0) (.ptr .fnPtr), .rust, [], .local 1⟩ .unwound,
     .stmt (.assign (.local 2) (.constant (.int 3) u32)), .stopUnwind, .stmt (.assign (.local 1) (.load (.local 2))), .ret] none := by
  refine ((C65_same_behavior built _).2).mpr ?_
  exact .cons .stmt (.cons .stmt (.cons (.whileFalse (by decide)) (.cons .tryCallU
    (.cons .stmt (.cons .stop (.cons .stmt (.last .ret)))))))

/-- After one iteration of the loop there is a next action. -/
example : ∃ p, CfgRun fn.blocks (fn.start, 0)
    [.stmt (.storageLive 2), .stmt (.assign (.local 2) (.constant (.int 0) u32)),
     .switch (FnBuilder.boolToInt (.binOp (.rel .lt) (.load (.local 2)) (.load (.local 0)))) 1,
     .stmt (.assign (.local 2) (.binOp (.int .add) (.load (.local 2)) (.constant (.int 1) u32))),
     .switch (FnBuilder.boolToInt (.binOp (.rel .eq) (.load (.local 2)) (.constant (.int 7) u32))) 0] (some p) ∧
    ∃ a r, CfgRun fn.blocks p [a] r := by
  obtain ⟨p, hp⟩ := ((C65_same_behavior built
    [.stmt (.storageLive 2), .stmt (.assign (.local 2) (.constant (.int 0) u32)),
     .switch (FnBuilder.boolToInt (.binOp (.rel .lt) (.load (.local 2)) (.load (.local 0)))) 1,
     .stmt (.assign (.local 2) (.binOp (.int .add) (.load (.local 2)) (.constant (.int 1) u32))),
     .switch (FnBuilder.boolToInt (.binOp (.rel .eq) (.load (.local 2)) (.constant (.int 7) u32))) 0]).1).mpr
    ⟨_, .cons .stmt (.cons .stmt (.cons .whileTrue (.cons .stmt (.cons (.switchFallback rfl) .nil))))⟩
  exact ⟨p, hp, C65_never_stuck built hp⟩

example : fn.args = [0] ∧ fn.ret = 1 ∧ fn.locals = [(0, u32), (1, u32), (2, u32)] := ⟨rfl, rfl, rfl⟩

/-- The hypotheses of `C65_wellformed` are met. -/
example : fn.checkWf prog = .ok () := by
  have hu : LocalTyOk prog u32 := ⟨⟨.sized 4 ⟨2⟩, by rfl, rfl⟩, by rfl⟩
  refine C65_wellformed built prog ?_ ?_
  · simp only [decls, List.mem_cons, List.not_mem_nil, or_false]
    rintro d (rfl | rfl | rfl) <;> exact hu
  · simp only [code, Code.if_, Code.Checked, Cases.Checked, Cases.values, CallOk]
    refine ⟨?_, ?_, ⟨?_, ⟨?_, ⟨⟨.unsigned, 1⟩, ?_, ?_⟩, ?_⟩, ?_⟩⟩ <;> (try and_intros) <;> first | trivial | decide +kernel

example : ∃ blk, fn.blocks.get? fn.start = some blk ∧ blk.kind = .regular := C65_start_exists built

end BuilderEx

end MiniRust
