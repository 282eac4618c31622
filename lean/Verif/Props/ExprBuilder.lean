import Verif.ExprBuilder
import Verif.Props.Rvalue
import Verif.Props.ProgramBuilder
import Verif.Props.Structured
import Verif.Lemmas.Ptr
import Verif.Lemmas.CrateDone
/-
C92: the functions of miniutil that build expressions build what their names say.
-/
set_option linter.unusedSectionVars false
namespace MiniRust

section
variable {M P F : Type} [Memory M P F] [DecidableEq P] [T : Target] {s s1 s2 : Machine M P F}

/-! ### Booleans -/

theorem mkBool_run {o : IntBinOp} {l r : ValueExpr} {a b c : Bool} (hl : evalValue l s = .ok ((.bool a, .bool), s1))
    (hr : evalValue r s1 = .ok ((.bool b, .bool), s2))
    (ho : s2.evalBinOp (.int o) (.int (if a then 1 else 0), u8Ty) (.int (if b then 1 else 0), u8Ty) = .ok (.int (if c then 1 else 0), u8Ty)) :
    evalValue (mkBool o l r) s = .ok ((.bool c, .bool), s2) := by
  have h1 : evalValue (mkInt o (FnBuilder.boolToInt l) (FnBuilder.boolToInt r)) s = .ok ((.int (if c then 1 else 0), u8Ty), s2) := by
    rw [mkInt, evalBinary (boolToInt_run hl) (boolToInt_run hr), ho]; rfl
  rw [mkBool, mkTransmute, evalUnary h1, transmute_u8_bool]; rfl

/-- C92: `bool_and`, `bool_or` and `bool_xor` evaluate both operands, from left to right, and are the operators on booleans. -/
theorem C92_bool_ops {l r : ValueExpr} {a b : Bool} (hl : evalValue l s = .ok ((.bool a, .bool), s1))
    (hr : evalValue r s1 = .ok ((.bool b, .bool), s2)) :
    evalValue (mkBool .bitAnd l r) s = .ok ((.bool (a && b), .bool), s2) ∧
    evalValue (mkBool .bitOr l r) s = .ok ((.bool (a || b), .bool), s2) ∧
    evalValue (mkBool .bitXor l r) s = .ok ((.bool (a ^^ b), .bool), s2) := by
  obtain ⟨b1, b2, b3⟩ := bool_bitop a b s2 u8Ty
  exact ⟨mkBool_run hl hr b1, mkBool_run hl hr b2, mkBool_run hl hr b3⟩

/-- C92: `not` is the negation. -/
theorem C92_not {v : ValueExpr} {a : Bool} (hv : evalValue v s = .ok ((.bool a, .bool), s1)) :
    evalValue (mkNot v) s = .ok ((.bool (!a), .bool), s1) := by
  have h0 : evalValue (.constant (.int 1) u8Ty) s = .ok ((.int 1, u8Ty), s) := rfl
  have h1 : evalValue (.binOp (.int .sub) (.constant (.int 1) u8Ty) (FnBuilder.boolToInt v)) s =
      .ok ((.int (if !a then 1 else 0), u8Ty), s1) := by
    rw [evalBinary h0 (boolToInt_run hv)]
    cases a <;> rfl
  rw [mkNot, mkTransmute, evalUnary h1, transmute_u8_bool]; rfl

/-- C92: they fail if an operand fails, in the same way. -/
theorem C92_bool_errors {o : IntBinOp} {l r : ValueExpr} {e : Err} :
    (evalValue l s = .error e → evalValue (mkBool o l r) s = .error e ∧ evalValue (mkNot l) s = .error e) ∧
    ∀ a, evalValue l s = .ok ((.bool a, .bool), s1) → evalValue r s1 = .error e → evalValue (mkBool o l r) s = .error e := by
  refine ⟨fun h => ⟨?_, ?_⟩, fun a h h' => ?_⟩
  · simp only [mkBool, mkTransmute, mkInt, FnBuilder.boolToInt, evalValue, EM.bind_apply, h]
  · have h0 : evalValue (.constant (.int 1) u8Ty) s = .ok ((.int 1, u8Ty), s) := rfl
    have h1 : evalValue (FnBuilder.boolToInt l) s = .error e := by simp only [FnBuilder.boolToInt, evalValue, EM.bind_apply, h]
    have h2 : evalValue (.binOp (.int .sub) (.constant (.int 1) u8Ty) (FnBuilder.boolToInt l)) s = .error e := by
      rw [evalValue, EM.bind_apply, h0]
      dsimp only
      rw [EM.bind_apply, h1]
    rw [mkNot, mkTransmute, evalValue, EM.bind_apply, h2]
  · have h0 := boolToInt_run h
    have h1 : evalValue (FnBuilder.boolToInt r) s1 = .error e := by simp only [FnBuilder.boolToInt, evalValue, EM.bind_apply, h']
    have h2 : evalValue (mkInt o (FnBuilder.boolToInt l) (FnBuilder.boolToInt r)) s = .error e := by
      rw [mkInt, evalValue, EM.bind_apply, h0]
      dsimp only
      rw [EM.bind_apply, h1]
    rw [mkBool, mkTransmute, evalValue, EM.bind_apply, h2]

theorem one_inBounds {sg : Signedness} {n : Nat} (hn : 0 < n) (b : Bool) : inBounds sg n (if b then 1 else 0) = true := by
  obtain ⟨m, rfl⟩ : ∃ m, n = m + 1 := ⟨n - 1, by omega⟩
  have h : (0 : Int) < 2 ^ (8 * m) := two_pow_pos' _
  have e : (2 : Int) ^ (8 * (m + 1)) = 2 ^ (8 * m) * 256 := by rw [Nat.mul_add, Int.pow_add]; rfl
  cases sg <;> simp only [inBounds, e, decide_eq_true_eq] <;> split <;> omega

/-- C92: `bool_to_int` gives 1 for true and 0 for false, in every integer type. -/
theorem C92_bool_to_int [LawfulTarget T] {t : ConvTy} {ity : IntType} (ht : t.getType = .ok (.int ity)) (v : ValueExpr) :
    ∃ e, mkBoolToInt t v = .ok e ∧ ∀ (s s1 : Machine M P F) (b : Bool), evalValue v s = .ok ((.bool b, .bool), s1) →
      evalValue e s = .ok ((.int (if b then 1 else 0), .int ity), s1) := by
  unfold mkBoolToInt mkIntCast
  simp only [ht, Res.bind_ok]
  split
  · rename_i h
    refine ⟨_, rfl, fun s s1 b hv => ?_⟩
    rw [h]
    exact boolToInt_run hv
  · refine ⟨_, rfl, fun s s1 b hv => ?_⟩
    have h1 : evalValue (mkTransmute v u8Ty) s = _ := boolToInt_run hv
    rw [evalUnary h1]
    have hp : 0 < ity.size := by
      have : 0 < T.ptrSize := ptrSize_pos
      cases t <;> simp only [ConvTy.getType, Except.ok.injEq, Ty.int.injEq, reduceCtorEq, Res.bind_eq_ok, and_false, exists_false, refTyOf,
        refMutTyOf] at ht <;> subst ht <;> first | exact this | decide
    show withState (.ok (Value.int (ity.bringInBounds (if b then 1 else 0)), Ty.int ity)) s1 = _
    rw [IntType.bringInBounds, bringInBounds_of_inBounds _ _ _ (one_inBounds hp b)]
    rfl

/-- C92: the terminator `if_` goes to the first block if the condition is true, and to the second one if it is false. -/
theorem C92_if {c : ValueExpr} {yes no : BbName} {b : Bool} (hc : evalValue c s = .ok ((.bool b, .bool), s1)) :
    ∃ t, mkIf c yes no = .ok t ∧ evalTerminator t s = jumpToBlock (if b then yes else no) s1 := by
  refine ⟨.switch (FnBuilder.boolToInt c) [(1, yes)] no,
    by simp [mkIf, mkBoolToInt, ConvTy.getType, u8Ty, mkTransmute, FnBuilder.boolToInt], ?_⟩
  rw [evalTerminator, EM.bind_apply, boolToInt_run hc]
  cases b <;> rfl

theorem u8_layout : u8Ty.layout = .ok (.sized 1 Align.one) := by
  simp [u8Ty, Ty.layout, IntType.align]
  rfl

/-- C92: the helpers for booleans give well-formed expressions of the right type. -/
theorem C92_bool_typed [L : LawfulTarget T] {prog : Program} {locals : Map LocalName Ty} {l r : ValueExpr} (hl : l.checkWf prog locals = .ok .bool)
    (hr : r.checkWf prog locals = .ok .bool) :
    (∀ o, o.isShift = false → (mkBool o l r).checkWf prog locals = .ok .bool) ∧ (mkNot l).checkWf prog locals = .ok .bool ∧
    ∀ t ity, ConvTy.getType t = .ok (.int ity) → ∃ e, mkBoolToInt t l = .ok e ∧ e.checkWf prog locals = .ok (.int ity) := by
  have hb : Ty.bool.layout = .ok (.sized 1 Align.one) := rfl
  have h8 : ∃ a, u8Ty.layout = .ok (.sized 1 a) := ⟨_, rfl⟩
  obtain ⟨a8, h8⟩ := h8
  have key : ∀ {e : ValueExpr}, e.checkWf prog locals = .ok .bool → (FnBuilder.boolToInt e).checkWf prog locals = .ok u8Ty := by
    intro e he
    have : (ValueExpr.unOp (.cast (.transmute u8Ty)) e).checkWf prog locals = .ok u8Ty := by
      simp [ValueExpr.checkWf, he, UnOp.checkWf, CastOp.checkWf, hb, h8, LayoutStrategy.isSized]
    exact this
  have back : ∀ {e : ValueExpr}, e.checkWf prog locals = .ok u8Ty → (mkTransmute e .bool).checkWf prog locals = .ok .bool := by
    intro e he
    simp [mkTransmute, ValueExpr.checkWf, he, UnOp.checkWf, CastOp.checkWf, hb, h8, LayoutStrategy.isSized]
  refine ⟨fun o ho => back ?_, back ?_, fun t ity ht => ?_⟩
  · simp only [mkInt, ValueExpr.checkWf, key hl, key hr, Res.bind_ok]
    simp [BinOp.checkWf, u8Ty, ho]
  · simp only [ValueExpr.checkWf, key hl, Res.bind_ok]
    have hu : u8Ty.checkWf prog = .ok () := by
      have hp : 0 < T.ptrSize := ptrSize_pos
      have ha : a8 = Align.one := by
        have e : u8Ty.layout = .ok (.sized 1 Align.one) := u8_layout
        rw [h8] at e; cases e; rfl
      exact int_wf rfl h8 (L.valid_down 1 _ (by omega) L.valid_wide) (by rw [ha]; rfl)
    have hc : Constant.checkWf prog (.int 1) u8Ty = .ok () := rfl
    simp only [hu, hc, Res.bind_ok]
    rfl
  · unfold mkBoolToInt mkIntCast
    simp only [ht, Res.bind_ok]
    have h1 : (mkTransmute l u8Ty).checkWf prog locals = .ok u8Ty := key hl
    split
    · rename_i h
      exact ⟨_, rfl, by rw [h]; exact h1⟩
    · exact ⟨_, rfl, by simp only [ValueExpr.checkWf, h1, Res.bind_ok]; rfl⟩

/-! ### Pointers, globals, arrays -/

/-- C92: `ptr_addr` is the address of a thin pointer, whatever its provenance is. -/
theorem C92_ptr_addr [L : LawfulTarget T] {v : ValueExpr} {p : Pointer P} {pt : PtrType} (hv : evalValue v s = .ok ((.ptr p, .ptr pt), s1)) (hm : pt.metaKind = .none)
    (hp : p.metadata = none) (ha : inBounds .unsigned T.ptrSize p.thin.addr = true) :
    evalValue (mkPtrAddr v) s = .ok ((.int p.thin.addr, .int usizeTy), s1) := by
  obtain ⟨ds, hds⟩ := Option.isSome_iff_exists.1 ((encode_isSome T.endianness .unsigned T.ptrSize p.thin.addr).trans ha)
  rw [mkPtrAddr, mkTransmute, evalUnary hv]
  have hw : pt.asWidePair = .ok none := by simp [PtrType.asWidePair, hm]
  rw [evalTransmute (n := T.ptrSize) (v' := .int p.thin.addr) (bytes := ds.mapIdx fun i b => .init b (p.thin.prov.map fun q => ⟨q, i⟩)) ?_ ?_ ?_ ?_ ?_]
  · rfl
  · simp [Ty.size, Ty.layout, hm, LayoutStrategy.expectSize]
  · have hal := IntType.align_ok (i := usizeTy) L.ptr_pow
    simp only [Ty.size, Ty.layout, LayoutStrategy.expectSize, hal, Res.bind_ok]
    rfl
  · simp [encode, encodePtrTy, hw, hp, rassert, encodePtr, hds]
  · have hb : bytesData (ds.mapIdx fun i b => AByte.init b (p.thin.prov.map fun q => (⟨q, i⟩ : Frag P))) = .ok ds := by
      rw [bytesData_eq_ok]
      apply List.ext_getElem <;> simp [AByte.data]
    simp [decode, decodeInt, hb, encode_length hds, usizeTy, rassert, decode_encode hds]
  · simp [checkValue, usizeTy, IntType.canRepresent, ha]

/-- C92: `null` is the pointer to address 0, without provenance. -/
theorem C92_null : evalValue mkNull s = .ok ((.ptr ⟨⟨0, none⟩, none⟩, .ptr (.raw .none)), s) := rfl

/-- C92: `global` is the place that starts at the address of the global and has the given type. -/
theorem C92_global {t : ConvTy} {ty : Ty} {n : Nat} {al : Align} {name : GlobalName} {p : ThinPtr P} (ht : t.getType = .ok ty)
    (hl : ty.layout = .ok (.sized n al)) (hg : s.globalPtrs.get? name = some p) (hp : inBounds .unsigned T.ptrSize p.addr = true) :
    ∃ e, mkGlobal t name = .ok e ∧ evalPlace e s = .ok ((⟨⟨p, none⟩, al.isAligned p.addr⟩, ty), s) := by
  refine ⟨_, by unfold mkGlobal; rw [ht]; rfl, ?_⟩
  have hw : p.wrappingOffset 0 = p := by
    unfold ThinPtr.wrappingOffset
    rw [Int.add_zero, bringInBounds_of_inBounds _ _ _ hp]
  have h1 : evalValue (.constant (.globalPointer ⟨name, 0⟩) (.ptr (.raw .none))) s = .ok ((.ptr ⟨p, none⟩, .ptr (.raw .none)), s) := by
    simp only [evalValue, EM.bind_apply, EM.read, Machine.evalConstant, Map.get, hg, unwrap, Res.bind_ok]
    have h0 : p.wrappingOffset ((0 : Nat) : Int) = p := hw
    rw [h0]; rfl
  simp only [evalPlace, EM.bind_apply, h1]
  simp [EM.read, Machine.derefPlace, Machine.checkSafeDeref, PtrType.safePointee, hl, ValEnv.computeAlign, LayoutStrategy.computeSizeAndAlign]

theorem evalValues_length : ∀ {es : List ValueExpr} {vs} {s s' : Machine M P F}, evalValues es s = .ok (vs, s') → vs.length = es.length
  | [], vs, s, s', h => by cases h; rfl
  | e :: es, vs, s, s', h => by
    simp only [evalValues, EM.bind_eq_ok] at h
    obtain ⟨v, s1, _, vs', s2, h2, h3⟩ := h
    cases h3
    simp [evalValues_length h2]

/-- C92: `array` evaluates the elements from left to right; its type has as many elements. -/
theorem C92_array {es : List ValueExpr} {elem : Ty} {vs : List (Value P × Ty)} (h : evalValues es s = .ok (vs, s1)) :
    evalValue (mkArray es elem) s = .ok ((.tuple (vs.map (·.1)), .array elem vs.length), s1) := by
  rw [evalValues_length h]
  simp only [mkArray, evalValue, EM.bind_apply, h]
  rfl

/-- C92: `array` is well-formed exactly if the array type is and all elements have its element type. -/
theorem C92_array_typed {prog : Program} {locals : Map LocalName Ty} {es : List ValueExpr} {elem ty : Ty} :
    (mkArray es elem).checkWf prog locals = .ok ty ↔ ty = .array elem es.length ∧ ty.checkWf prog = .ok () ∧
      ∀ e ∈ es, e.checkWf prog locals = .ok elem := by
  have key : ∀ {es : List ValueExpr}, ValueExpr.checkFields prog locals es (List.replicate es.length elem) = .ok () ↔
      ∀ e ∈ es, e.checkWf prog locals = .ok elem := by
    intro es
    induction es with
    | nil => simp [ValueExpr.checkFields]
    | cons e es ih =>
      simp only [List.length_cons, List.replicate_succ, ValueExpr.checkFields, List.forall_mem_cons, ← ih, Res.bind_eq_ok, ensureWf_eq_ok,
        decide_eq_true_eq]
      constructor
      · rintro ⟨t, h1, ⟨⟩, rfl, h2⟩; exact ⟨h1, h2⟩
      · rintro ⟨h1, h2⟩; exact ⟨_, h1, (), rfl, h2⟩
  simp only [mkArray, ValueExpr.checkWf, Res.bind_eq_ok, ensureWf_eq_ok, decide_eq_true_eq, ← key]
  constructor
  · rintro ⟨⟨⟩, h1, ⟨⟩, -, ⟨⟩, h2, h3⟩
    cases h3
    exact ⟨rfl, h1, h2⟩
  · rintro ⟨rfl, h1, h2⟩
    exact ⟨(), h1, (), trivial, (), h2, rfl⟩

/-- C92: misuse is a panic: `tuple` with a type that is no tuple type or has another number of fields, `addr_of`, `ptr_to_ptr` and
`construct_wide_pointer` with a type that is no pointer type, `int_cast` and `bool_to_int` with a type that is no integer type. -/
theorem C92_misuse_panics (es : List ValueExpr) (v w : ValueExpr) (pl : PlaceExpr) (ty : Ty) (t : ConvTy) :
    (mkTuple es ty = .ok (.tuple es ty) ∧ (∃ fs h u, ty = .tuple fs h u ∧ fs.length = es.length) ∨
      mkTuple es ty = .error .panic ∧ ¬ ∃ fs h u, ty = .tuple fs h u ∧ fs.length = es.length) ∧
    ((∀ p, ty ≠ .ptr p) → mkAddrOf pl ty = .error .panic ∧ mkPtrToPtr v ty = .error .panic ∧ mkWide v w ty = .error .panic) ∧
    (t.getType = .ok ty → (∀ i, ty ≠ .int i) → mkIntCast t v = .error .panic ∧ mkBoolToInt t v = .error .panic) := by
  refine ⟨?_, fun h => ?_, fun ht h => ?_⟩
  · cases ty with
    | tuple fs hd u =>
      by_cases h : fs.length = es.length
      · exact .inl ⟨by simp [mkTuple, h, rassert], fs, hd, u, rfl, h⟩
      · refine .inr ⟨by simp [mkTuple, h, rassert], ?_⟩
        rintro ⟨_, _, _, e, h'⟩
        cases e
        exact h h'
    | _ => exact .inr ⟨rfl, by rintro ⟨_, _, _, e, _⟩; cases e⟩
  · cases ty with
    | ptr p => exact absurd rfl (h p)
    | _ => exact ⟨rfl, rfl, rfl⟩
  · have h8 : ty ≠ u8Ty := h _
    have h1 : ∀ v, mkIntCast t v = .error .panic := by
      intro v
      simp only [mkIntCast, ht, Res.bind_ok]
    exact ⟨h1 v, by simp only [mkBoolToInt, ht, Res.bind_ok, if_neg h8, h1]⟩

/-! ### Small programs -/

/-- C92: `small_program` does not fail. It has one function, whose locals are numbered in order. The program is well-formed exactly if the types
of the locals are, and have a known size, and the statements are well-formed. It has no loops and calls. -/
theorem C92_small_program [LawfulTarget T] (locals : List Ty) (statements : List Statement) :
    ∃ prog f, smallProgram locals statements = .ok prog ∧ (∀ n, prog.functions.get? n = if n = 0 then some f else none) ∧ prog.start = (0 : Nat) ∧
      (∀ i : Nat, i < locals.length → f.locals.get? i = locals[i]?) ∧ f.locals.get? f.ret = some unitTy ∧ f.args = [] ∧
      (∀ b : Nat, f.blocks.get? b = if b = 0 then some ⟨statements, .intrinsic .exit [] unitPlace none, .regular⟩ else none) ∧
      (prog.checkWf = .ok () ↔ (∀ t ∈ locals, LocalTyOk prog t) ∧ ∀ st ∈ statements, st.checkWf prog f = .ok ()) ∧ prog.Straight := by
  obtain ⟨f, hf⟩ := (C75_function_ok false 0 locals [⟨statements, .intrinsic .exit [] unitPlace none, .regular⟩]).2 (by simp)
  obtain ⟨g1, g2, g3, g4, g5, g6, g7, -, g8⟩ := C75_function hf
  obtain ⟨g8, g9, g10, -⟩ := g8 rfl
  obtain ⟨p1, p2, p3, p4, p5, p6⟩ := C75_program [f] []
  have hfn : ∀ n : Nat, (programOf [f] []).functions.get? n = if n = 0 then some f else none := by
    intro n; rw [p1]; cases n <;> simp
  have hbl : ∀ b : Nat, f.blocks.get? b = if b = 0 then some ⟨statements, .intrinsic .exit [] unitPlace none, .regular⟩ else none := by
    intro b; rw [g2]; cases b <;> simp
  have ha : f.args = [] := List.eq_nil_of_length_eq_zero g5
  refine ⟨programOf [f] [], f, by simp [smallProgram, hf], hfn, p3, g1, g9, ha, hbl, ?_, p4, ?_, ?_, ?_⟩
  · have hv : (programOf [f] []).checkWf = .ok () ↔ f.checkWf (programOf [f] []) = .ok () := by
      have e1 : (programOf [f] []).functions.values = [f] := rfl
      have e2 : (programOf [f] []).vtables.values = [] := rfl
      have e3 : (programOf [f] []).globals.values = [] := rfl
      have e4 : (programOf [f] []).functions.get? (programOf [f] []).start = some f := hfn 0
      have e5 : f.locals.get f.ret = .ok unitTy := by simp [Map.get, g9, unwrap]
      simp only [Program.checkWf, e1, e2, e3, e4, checkVTables, checkFunctions, checkGlobals, g4, e5, Crate.unitTy_layout, ha, Res.bind_ok]
      cases f.checkWf (programOf [f] []) <;> simp
    rw [hv]
    have hc : f.locals.contains f.ret = true := by simp [Map.contains, g9]
    have hb : f.blocks.values = [⟨statements, .intrinsic .exit [] unitPlace none, .regular⟩] := by
      unfold functionOf at hf
      obtain ⟨x, -, hx⟩ := Res.bind_eq_ok.1 hf
      cases hx
      rfl
    have ht : Terminator.checkWf (programOf [f] []) f .regular (.intrinsic .exit [] unitPlace none) = .ok () := by
      simp [Terminator.checkWf, Crate.unitPlace_wf, checkIntrinsicArgs, IntrinsicOp.checkWf, Function.checkNextOpt, Crate.unitTy_layout, LayoutStrategy.isSized]
    have hl : checkLocals (programOf [f] []) f.locals.values = .ok () ↔ ∀ t ∈ locals, LocalTyOk (programOf [f] []) t := by
      constructor
      · intro h t hmem
        obtain ⟨i, hi, rfl⟩ := List.getElem_of_mem hmem
        have : f.locals.get? i = some locals[i] := by rw [g1 i hi]; simp
        obtain ⟨h1, n, a, h2⟩ := checkLocals_mem h (Map.mem_values this)
        exact ⟨⟨_, h2, rfl⟩, h1⟩
      · intro h
        refine checkLocals_ok fun t hmem => ?_
        obtain ⟨k, hk⟩ := (Crate.mem_values_iff g6).1 hmem
        rcases Nat.lt_trichotomy k locals.length with h1 | h1 | h1
        · rw [g1 k h1] at hk
          exact h t (List.mem_of_getElem? hk)
        · rw [g8] at g9
          rw [h1, g9] at hk
          cases hk
          exact unitTy_ok
        · rw [g10 k h1] at hk; cases hk
    have hs : checkStatements (programOf [f] []) f statements = .ok () ↔ ∀ st ∈ statements, st.checkWf (programOf [f] []) f = .ok () := by
      constructor
      · intro h st hst; exact checkStatements_mem h hst
      · generalize statements = l
        intro h
        induction l with
        | nil => rfl
        | cons a l ih =>
          simp only [checkStatements, h a List.mem_cons_self, Res.bind_ok]
          exact ih fun st hst => h st (List.mem_cons_of_mem _ hst)
    simp only [Function.checkWf, ha, checkArgs, hc, hb, checkBlocks, ht, Res.bind_eq_ok, ← hl, ← hs]
    constructor
    · rintro ⟨⟨⟩, h1, _, h2, ⟨⟩, -, h3⟩
      cases h2
      simp only [List.not_mem_nil, if_false, Res.bind_eq_ok] at h3
      obtain ⟨⟨⟩, h3, -⟩ := h3
      exact ⟨h1, h3⟩
    · rintro ⟨h1, h2⟩
      refine ⟨(), h1, [], rfl, (), rfl, ?_⟩
      simp [h2]
  · intro n g hg
    rw [hfn] at hg
    split at hg <;> cases hg
    refine Function.LoopFree.of_lt fun ⟨b, bb⟩ hx c hc => ?_
    have := Map.get?_of_mem g7 hx
    rw [hbl] at this
    split at this <;> cases this
    cases hc
  · intro n g b bb c hg hb hcal
    rw [hfn] at hg
    split at hg <;> cases hg
    rw [hbl] at hb
    split at hb <;> cases hb
    cases hcal
  · refine Program.NoRecursion.of_lt fun ⟨n, fn⟩ hx g hc => ?_
    have := Map.get?_of_mem p4.functions hx
    rw [hfn] at this
    split at this <;> cases this
    obtain ⟨b, bb, ty, hb, hcal⟩ := hc
    rw [hbl] at hb
    split at hb <;> cases hb
    cases hcal

end

/-! ### The hypotheses can be met -/

section
variable {M P F : Type} [Memory M P F] [DecidableEq P]
attribute [local instance] x86_64 x86_64_lawful

/-- `true xor (not false)` is false, in every state. -/
example (s : Machine M P F) : evalValue (mkBool .bitXor (mkConstBool true) (mkNot (mkConstBool false))) s = .ok ((.bool false, .bool), s) :=
  (C92_bool_ops (a := true) (b := true) rfl (C92_not (a := false) rfl)).2.2

/-- Converting `true` to `u128` gives 1. -/
example (s : Machine M P F) : ∃ e, mkBoolToInt .u128 (mkConstBool true) = .ok e ∧
    evalValue e s = .ok ((.int 1, .int ⟨.unsigned, 16⟩), s) := by
  obtain ⟨e, h1, h2⟩ := C92_bool_to_int (M := M) (P := P) (F := F) (t := .u128) rfl (mkConstBool true)
  exact ⟨e, h1, h2 s s true rfl⟩

/-- The address of the null pointer is 0. -/
example (s : Machine M P F) : evalValue (mkPtrAddr mkNull) s = .ok ((.int 0, .int usizeTy), s) :=
  C92_ptr_addr (p := ⟨⟨0, none⟩, none⟩) C92_null rfl rfl rfl

/-- A global at the address 18, read as `u32`, is a misaligned place. -/
example (s : Machine M P F) (h : s.globalPtrs = [((3 : Nat), ⟨18, none⟩)]) : ∃ e, mkGlobal .u32 (3 : Nat) = .ok e ∧
    evalPlace e s = .ok ((⟨⟨⟨18, none⟩, none⟩, false⟩, .int ⟨.unsigned, 4⟩), s) := by
  refine C92_global (n := 4) (al := ⟨2⟩) rfl ?_ (by rw [h]; rfl) rfl
  rfl

/-- An array of two booleans. -/
example (s : Machine M P F) : evalValue (mkArray [mkConstBool true, mkConstBool false] .bool) s =
    .ok ((.tuple [.bool true, .bool false], .array .bool 2), s) :=
  C92_array (vs := [(.bool true, .bool), (.bool false, .bool)]) rfl

/-- A small program with a local variable that is used. -/
example : ∃ prog, smallProgram [.bool] [.storageLive (0 : Nat), .assign (.local (0 : Nat)) (mkConstBool true)] = .ok prog ∧
    prog.checkWf = .ok () ∧ prog.Straight := by
  obtain ⟨prog, f, h1, -, -, h2, -, ha, -, h3, h4⟩ := C92_small_program [.bool] [.storageLive (0 : Nat), .assign (.local (0 : Nat)) (mkConstBool true)]
  refine ⟨prog, h1, h3.2 ⟨?_, ?_⟩, h4⟩
  · intro t ht
    cases List.mem_singleton.1 ht
    exact ⟨⟨_, rfl, rfl⟩, rfl⟩
  · have hl : f.locals.get? (0 : Nat) = some .bool := h2 0 (by decide)
    have hb : Ty.bool.checkWf prog = .ok () := rfl
    have hy : Ty.bool.layout = .ok (.sized 1 Align.one) := rfl
    intro st hst
    rcases List.mem_cons.1 hst with rfl | hst
    · simp [Statement.checkWf, Map.contains, hl]
    · cases List.mem_singleton.1 hst
      simp [Statement.checkWf, PlaceExpr.checkWf, hl, mkConstBool, ValueExpr.checkWf, hb, hy, Constant.checkWf, rassert, LayoutStrategy.isSized]

end
end MiniRust
