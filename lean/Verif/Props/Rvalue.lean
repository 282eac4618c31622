import Verif.Lemmas.Rvalue
import Verif.Props.Operators
import Verif.Props.PtrOps
import Verif.Props.Places
import Verif.Props.Statements
/-
Property C68: the rvalues of MIR are translated to expressions that compute what Rust says they compute.
-/
set_option linter.unusedSectionVars false
namespace MiniRust

section
variable {M P F : Type} [Memory M P F] [DecidableEq P] [T : Target] {s s1 s2 : Machine M P F} {n : Nat}

/-! ### Integers -/

/-- C68: arithmetic, bitwise operators and shifts of integers (checked for overflow or not), with operands in range. -/
theorem C68_integers {op : RsBinOp} (hop : op.Arith) {t tr : IntType} (ht : 0 < t.size) {l r : RsOperand} {a b : Int} (size : Nat)
    (hl : l.run n s = .ok ((.int a, .int t), s1)) (hr : r.run n s1 = .ok ((.int b, .int tr), s2))
    (ha : t.InRange a) (hb : op = .div ∨ op = .rem → t.InRange b) :
    ∃ x, RustInt t a b op x ∧
      (RsRvalue.binary op (.int t) (.int tr) size l r).run n s = withState (x.map fun x => (.int x, .int t)) s2 := by
  obtain ⟨el, el1, el2⟩ := RsOperand.run_ok hl
  obtain ⟨er, er1, er2⟩ := RsOperand.run_ok hr
  obtain ⟨⟨x1, p1, q1⟩, ⟨x2, p2, q2⟩, ⟨x3, p3, q3⟩⟩ := C10_arithmetic_wraps s2 t ht a b (.int tr)
  obtain ⟨⟨x4, p4, q4, w4⟩, ⟨x5, p5, q5, w5⟩, ⟨x6, p6, q6, w6⟩⟩ := C10_bitwise_digitwise s2 t ht a b (.int tr)
  obtain ⟨k, hk, ⟨x7, p7, q7⟩, ⟨x8, p8, q8, w8⟩⟩ := C10_shifts_wrap s2 t ht a b (.int tr)
  obtain ⟨u1, u2, u3, u4, u5, u6⟩ := C11_unchecked_ub_iff_overflow s2 t ht a b (.int tr)
  obtain ⟨v1, v2⟩ := C11_unchecked_shift_ub_iff s2 t a b (.int tr)
  have key : ∀ (o : IntBinOp) (x : Res Int), RustInt t a b op x →
      op.translate (.int t) (.int tr) size el er = .ok (mkInt o el er) →
      s2.evalBinOp (.int o) (.int a, .int t) (.int b, .int tr) = x.map (fun x => (.int x, .int t)) →
      ∃ x, RustInt t a b op x ∧
      (RsRvalue.binary op (.int t) (.int tr) size l r).run n s = withState (x.map fun x => (.int x, .int t)) s2 := by
    intro o x hx htr hev
    refine ⟨x, hx, ?_⟩
    rw [RsRvalue.binary_run (a := (.int a, .int t)) (b := (.int b, .int tr)) el1 er1 htr, mkInt, evalBinary el2 er2, hev]
  have hkk : ∀ hbk : 0 ≤ b ∧ b < t.bits, (k : Int) = b := fun hbk => by rw [hk, Int.emod_eq_of_lt hbk.1 hbk.2]
  have hop' := hop
  simp only [RsBinOp.Arith, List.mem_cons, List.not_mem_nil, or_false] at hop
  rcases hop with rfl | rfl | rfl | rfl | rfl | rfl | rfl | rfl | rfl | rfl | rfl | rfl | rfl | rfl | rfl
  · exact key .add (.ok x1) (.wrap (.inl rfl) rfl q1) rfl p1
  · by_cases h : t.InRange (a + b)
    · exact key .addUnchecked _ (.unchecked (.inl rfl) rfl h) rfl (u1 h)
    · exact key .addUnchecked _ (.overflow (.inl rfl) rfl h) rfl (u2 h)
  · exact key .sub (.ok x2) (.wrap (.inr (.inl rfl)) rfl q2) rfl p2
  · by_cases h : t.InRange (a - b)
    · exact key .subUnchecked _ (.unchecked (.inr (.inl rfl)) rfl h) rfl (u3 h)
    · exact key .subUnchecked _ (.overflow (.inr (.inl rfl)) rfl h) rfl (u4 h)
  · exact key .mul (.ok x3) (.wrap (.inr (.inr rfl)) rfl q3) rfl p3
  · by_cases h : t.InRange (a * b)
    · exact key .mulUnchecked _ (.unchecked (.inr (.inr rfl)) rfl h) rfl (u5 h)
    · exact key .mulUnchecked _ (.overflow (.inr (.inr rfl)) rfl h) rfl (u6 h)
  · obtain ⟨d1, d2⟩ := C11_division s2 t ht a b (.int tr) ha (hb (.inl rfl))
    by_cases h : t.DivUb a b
    · exact key .div _ (.divUb h) rfl (d1 h).1
    · obtain ⟨q, m, hd, e1, -, -⟩ := d2 h
      exact key .div _ (.div h hd) rfl e1
  · obtain ⟨d1, d2⟩ := C11_division s2 t ht a b (.int tr) ha (hb (.inr rfl))
    by_cases h : t.DivUb a b
    · exact key .rem _ (.remUb h) rfl (d1 h).2.1
    · obtain ⟨q, m, hd, -, e1, -⟩ := d2 h
      exact key .rem _ (.rem h hd) rfl e1
  · exact key .bitXor _ (.bitXor q6 w6) rfl p6
  · exact key .bitAnd _ (.bitAnd q4 w4) rfl p4
  · exact key .bitOr _ (.bitOr q5 w5) rfl p5
  · exact key .shl _ (.shl hk q7) rfl p7
  · by_cases h : 0 ≤ b ∧ b < t.bits
    · exact key .shlUnchecked _ (.shlUnchecked (hkk h) h.2 q7) rfl ((v1 h).1.trans p7)
    · exact key .shlUnchecked _ (.shlUb h) rfl (v2 h).1
  · exact key .shr _ (.shr hk) rfl (by rw [← w8 ha]; exact p8)
  · by_cases h : 0 ≤ b ∧ b < t.bits
    · exact key .shrUnchecked _ (.shrUnchecked (hkk h) h.2) rfl (by rw [← w8 ha]; exact (v1 h).2.trans p8)
    · exact key .shrUnchecked _ (.shrUb h) rfl (v2 h).2

/-- The rules of `RustInt`, sorted by operator. -/
def RustIntInv (t : IntType) (l r : Int) (x : Res Int) : RsBinOp → Prop
  | .add => ∃ y, t.IsWrap (l + r) y ∧ x = .ok y
  | .sub => ∃ y, t.IsWrap (l - r) y ∧ x = .ok y
  | .mul => ∃ y, t.IsWrap (l * r) y ∧ x = .ok y
  | .addUnchecked => (t.InRange (l + r) ∧ x = .ok (l + r)) ∨ (¬ t.InRange (l + r) ∧ x = .error .ub)
  | .subUnchecked => (t.InRange (l - r) ∧ x = .ok (l - r)) ∨ (¬ t.InRange (l - r) ∧ x = .error .ub)
  | .mulUnchecked => (t.InRange (l * r) ∧ x = .ok (l * r)) ∨ (¬ t.InRange (l * r) ∧ x = .error .ub)
  | .div => (¬ t.DivUb l r ∧ ∃ q m, TruncDiv l r q m ∧ x = .ok q) ∨ (t.DivUb l r ∧ x = .error .ub)
  | .rem => (¬ t.DivUb l r ∧ ∃ q m, TruncDiv l r q m ∧ x = .ok m) ∨ (t.DivUb l r ∧ x = .error .ub)
  | .bitAnd => ∃ y, t.InRange y ∧ (∀ n < t.bits, binDigit y n = (binDigit l n && binDigit r n)) ∧ x = .ok y
  | .bitOr => ∃ y, t.InRange y ∧ (∀ n < t.bits, binDigit y n = (binDigit l n || binDigit r n)) ∧ x = .ok y
  | .bitXor => ∃ y, t.InRange y ∧ (∀ n < t.bits, binDigit y n = (binDigit l n ^^ binDigit r n)) ∧ x = .ok y
  | .shl => ∃ (k : Nat) (y : Int), (k : Int) = r % t.bits ∧ t.IsWrap (l * 2 ^ k) y ∧ x = .ok y
  | .shr => ∃ k : Nat, (k : Int) = r % t.bits ∧ x = .ok (l / 2 ^ k)
  | .shlUnchecked => (∃ (k : Nat) (y : Int), (k : Int) = r ∧ r < t.bits ∧ t.IsWrap (l * 2 ^ k) y ∧ x = .ok y) ∨
      (¬ (0 ≤ r ∧ r < t.bits) ∧ x = .error .ub)
  | .shrUnchecked => (∃ k : Nat, (k : Int) = r ∧ r < t.bits ∧ x = .ok (l / 2 ^ k)) ∨
      (¬ (0 ≤ r ∧ r < t.bits) ∧ x = .error .ub)
  | _ => False

theorem RustInt.inv {t : IntType} {l r : Int} {op : RsBinOp} {x : Res Int} (h : RustInt t l r op x) : RustIntInv t l r x op := by
  cases h with
  | wrap h1 h2 h3 =>
    rcases h1 with rfl | rfl | rfl <;> simp only [RsBinOp.exact, Option.some.injEq] at h2 <;> subst h2 <;> exact ⟨_, h3, rfl⟩
  | unchecked h1 h2 h3 =>
    rcases h1 with rfl | rfl | rfl <;> simp only [RsBinOp.exact, Option.some.injEq] at h2 <;> subst h2 <;> exact .inl ⟨h3, rfl⟩
  | overflow h1 h2 h3 =>
    rcases h1 with rfl | rfl | rfl <;> simp only [RsBinOp.exact, Option.some.injEq] at h2 <;> subst h2 <;> exact .inr ⟨h3, rfl⟩
  | div h1 h2 => exact .inl ⟨h1, _, _, h2, rfl⟩
  | divUb h1 => exact .inr ⟨h1, rfl⟩
  | rem h1 h2 => exact .inl ⟨h1, _, _, h2, rfl⟩
  | remUb h1 => exact .inr ⟨h1, rfl⟩
  | bitAnd h1 h2 => exact ⟨_, h1, h2, rfl⟩
  | bitOr h1 h2 => exact ⟨_, h1, h2, rfl⟩
  | bitXor h1 h2 => exact ⟨_, h1, h2, rfl⟩
  | shl h1 h2 => exact ⟨_, _, h1, h2, rfl⟩
  | shr h1 => exact ⟨_, h1, rfl⟩
  | shlUnchecked h1 h2 h3 => exact .inl ⟨_, _, h1, h2, h3, rfl⟩
  | shrUnchecked h1 h2 => exact .inl ⟨_, h1, h2, rfl⟩
  | shlUb h => exact .inr ⟨h, rfl⟩
  | shrUb h => exact .inr ⟨h, rfl⟩

/-- C68: the results of these operators are determined by what Rust says about them. -/
theorem C68_integers_deterministic {op : RsBinOp} {t : IntType} (ht : 0 < t.size) {a b : Int} {x y : Res Int}
    (hx : RustInt t a b op x) (hy : RustInt t a b op y) : x = y := by
  replace hx := hx.inv
  replace hy := hy.inv
  have kk : ∀ {k k' : Nat} {z : Int}, (k : Int) = z → (k' : Int) = z → k = k' := fun h h' => by omega
  have hw : ∀ {z : Int}, (∃ w, t.IsWrap z w ∧ x = .ok w) → (∃ w, t.IsWrap z w ∧ y = .ok w) → x = y := by
    rintro z ⟨w, h1, rfl⟩ ⟨w', h2, rfl⟩
    rw [isWrap_unique ht h1 h2]
  have hu : ∀ {p : Prop} {r : Res Int}, (p ∧ x = r) ∨ (¬ p ∧ x = .error .ub) → (p ∧ y = r) ∨ (¬ p ∧ y = .error .ub) → x = y := by
    rintro p r (⟨h1, rfl⟩ | ⟨h1, rfl⟩) (⟨h2, rfl⟩ | ⟨h2, rfl⟩)
    · rfl
    · exact absurd h1 h2
    · exact absurd h2 h1
    · rfl
  have hdg : ∀ {d : Nat → Bool}, (∃ w, t.InRange w ∧ (∀ n < t.bits, binDigit w n = d n) ∧ x = .ok w) →
      (∃ w, t.InRange w ∧ (∀ n < t.bits, binDigit w n = d n) ∧ y = .ok w) → x = y := by
    rintro d ⟨w, h1, h2, rfl⟩ ⟨w', h3, h4, rfl⟩
    rw [eq_of_digits ht h1 h3 fun n hn => (h2 n hn).trans (h4 n hn).symm]
  cases op with
  | add => exact hw hx hy
  | sub => exact hw hx hy
  | mul => exact hw hx hy
  | addUnchecked => exact hu hx hy
  | subUnchecked => exact hu hx hy
  | mulUnchecked => exact hu hx hy
  | div =>
    rcases hx with ⟨h1, q, m, h2, rfl⟩ | ⟨h1, rfl⟩ <;> rcases hy with ⟨h3, q', m', h4, rfl⟩ | ⟨h3, rfl⟩
    · rw [(truncDiv_unique h2 h4).1]
    · exact absurd h3 h1
    · exact absurd h1 h3
    · rfl
  | rem =>
    rcases hx with ⟨h1, q, m, h2, rfl⟩ | ⟨h1, rfl⟩ <;> rcases hy with ⟨h3, q', m', h4, rfl⟩ | ⟨h3, rfl⟩
    · rw [(truncDiv_unique h2 h4).2]
    · exact absurd h3 h1
    · exact absurd h1 h3
    · rfl
  | bitAnd => exact hdg hx hy
  | bitOr => exact hdg hx hy
  | bitXor => exact hdg hx hy
  | shl =>
    obtain ⟨k, w, h1, h2, rfl⟩ := hx
    obtain ⟨k', w', h3, h4, rfl⟩ := hy
    cases kk h1 h3
    rw [isWrap_unique ht h2 h4]
  | shr =>
    obtain ⟨k, h1, rfl⟩ := hx
    obtain ⟨k', h3, rfl⟩ := hy
    cases kk h1 h3
    rfl
  | shlUnchecked =>
    rcases hx with ⟨k, w, h1, h2, h3, rfl⟩ | ⟨h1, rfl⟩ <;> rcases hy with ⟨k', w', h4, h5, h6, rfl⟩ | ⟨h4, rfl⟩
    · cases kk h1 h4
      rw [isWrap_unique ht h3 h6]
    · exact absurd ⟨by omega, h2⟩ h4
    · exact absurd ⟨by omega, h5⟩ h1
    · rfl
  | shrUnchecked =>
    rcases hx with ⟨k, h1, h2, rfl⟩ | ⟨h1, rfl⟩ <;> rcases hy with ⟨k', h4, h5, rfl⟩ | ⟨h4, rfl⟩
    · cases kk h1 h4
      rfl
    · exact absurd ⟨by omega, h2⟩ h4
    · exact absurd ⟨by omega, h5⟩ h1
    · rfl
  | _ => exact hx.elim

/-- C68: `-` and `!` on integers. -/
theorem C68_integers_unary {t : IntType} (ht : 0 < t.size) {o : RsOperand} {a : Int} (ho : o.run n s = .ok ((.int a, .int t), s1)) :
    (∃ x, t.IsWrap (-a) x ∧ (RsRvalue.unary .neg (.int t) o).run n s = .ok ((.int x, .int t), s1)) ∧
    (∃ x, t.InRange x ∧ (∀ k < t.bits, binDigit x k = !binDigit a k) ∧
      (RsRvalue.unary .not (.int t) o).run n s = .ok ((.int x, .int t), s1)) := by
  obtain ⟨e, e1, e2⟩ := RsOperand.run_ok ho
  obtain ⟨⟨x, hx, hw⟩, -⟩ := C10_unary_wraps s1 t ht a
  obtain ⟨y, hy, hr, hb⟩ := C10_not_flips_bits s1 t ht a
  refine ⟨⟨x, hw, ?_⟩, y, hr, hb, ?_⟩
  · rw [RsRvalue.run_eq (e := .unOp (.int .neg) e) (by simp only [RsRvalue.translate, e1, Res.bind_ok, RsUnOp.translate]),
      evalUnary e2, hx]; rfl
  · rw [RsRvalue.run_eq (e := .unOp (.int .bitNot) e) (by simp only [RsRvalue.translate, e1, Res.bind_ok, RsUnOp.translate]),
      evalUnary e2, hy]; rfl

/-- C68: arithmetic that reports overflow gives the wrapped result and whether the exact one is out of range. -/
theorem C68_checked {op : RsBinOp} {t : IntType} (hwf : t.checkWf = .ok ()) {l r : RsOperand} {a b y : Int} {rTy : Ty}
    (hop : op = .add ∨ op = .sub ∨ op = .mul) (hy : op.exact a b = some y)
    (hl : l.run n s = .ok ((.int a, .int t), s1)) (hr : r.run n s1 = .ok ((.int b, rTy), s2)) :
    ∃ ty x flag, t.withOverflow = .ok ty ∧ t.IsWrap y x ∧ (flag = true ↔ ¬ t.InRange y) ∧
      (RsRvalue.checkedBinary op l r).run n s = .ok ((.tuple [.int x, .bool flag], ty), s2) := by
  obtain ⟨el, el1, el2⟩ := RsOperand.run_ok hl
  obtain ⟨er, er1, er2⟩ := RsOperand.run_ok hr
  have key : ∀ (o : IntBinOpWithOverflow), op.withOverflow = .ok o →
      ((match o with | .add => RsBinOp.add | .sub => .sub | .mul => .mul) = op) →
      ∃ ty x flag, t.withOverflow = .ok ty ∧ t.IsWrap y x ∧ (flag = true ↔ ¬ t.InRange y) ∧
      (RsRvalue.checkedBinary op l r).run n s = .ok ((.tuple [.int x, .bool flag], ty), s2) := by
    intro o ho hoy
    obtain ⟨ty, x, flag, h1, h2, h3, h4⟩ := C12_overflow_flag_exact s2 t hwf o a b rTy
    have h3 : t.IsWrap y x := by
      cases o <;> simp only at hoy <;> subst hoy <;> simp only [RsBinOp.exact, Option.some.injEq] at hy <;> subst hy <;> exact h3
    have h4 : flag = true ↔ ¬ t.InRange y := by
      cases o <;> simp only at hoy <;> subst hoy <;> simp only [RsBinOp.exact, Option.some.injEq] at hy <;> subst hy <;> exact h4
    refine ⟨ty, x, flag, h2, h3, h4, ?_⟩
    rw [RsRvalue.run_eq (e := .binOp (.intWithOverflow o) el er)
      (by simp only [RsRvalue.translate, el1, er1, Res.bind_ok, ho]), evalBinary el2 er2, h1]
    rfl
  rcases hop with rfl | rfl | rfl
  · exact key .add rfl rfl
  · exact key .sub rfl rfl
  · exact key .mul rfl rfl

/-! ### Booleans, comparisons, casts -/

theorem boolToInt_run {e : ValueExpr} {b : Bool} (h : evalValue e s = .ok ((.bool b, .bool), s1)) :
    evalValue (FnBuilder.boolToInt e) s = .ok ((.int (if b then 1 else 0), u8Ty), s1) := by
  have : evalValue (.unOp (.cast (.transmute u8Ty)) e) s = .ok ((.int (if b then 1 else 0), u8Ty), s1) := by
    rw [evalUnary h, transmute_bool_u8]; rfl
  exact this

theorem bool_bitop (a b : Bool) (m : Machine M P F) (rTy : Ty) :
    m.evalBinOp (.int .bitAnd) (.int (if a then 1 else 0), u8Ty) (.int (if b then 1 else 0), rTy) =
      .ok (.int (if a && b then 1 else 0), u8Ty) ∧
    m.evalBinOp (.int .bitOr) (.int (if a then 1 else 0), u8Ty) (.int (if b then 1 else 0), rTy) =
      .ok (.int (if a || b then 1 else 0), u8Ty) ∧
    m.evalBinOp (.int .bitXor) (.int (if a then 1 else 0), u8Ty) (.int (if b then 1 else 0), rTy) =
      .ok (.int (if a ^^ b then 1 else 0), u8Ty) := by
  cases a <;> cases b <;> exact ⟨rfl, rfl, rfl⟩

/-- C68: `&`, `|` and `^` on booleans. -/
theorem C68_booleans {op : RsBinOp} {f : Bool → Bool → Bool} (hop : op.onBools = some f) {l r : RsOperand} {a b : Bool}
    (rTy : Ty) (size : Nat) (hl : l.run n s = .ok ((.bool a, .bool), s1)) (hr : r.run n s1 = .ok ((.bool b, .bool), s2)) :
    (RsRvalue.binary op .bool rTy size l r).run n s = .ok ((.bool (f a b), .bool), s2) := by
  obtain ⟨el, el1, el2⟩ := RsOperand.run_ok hl
  obtain ⟨er, er1, er2⟩ := RsOperand.run_ok hr
  have key : ∀ o : IntBinOp, op.translate .bool rTy size el er = .ok (mkBool o el er) →
      s2.evalBinOp (.int o) (.int (if a then 1 else 0), u8Ty) (.int (if b then 1 else 0), u8Ty) =
        .ok (.int (if f a b then 1 else 0), u8Ty) →
      (RsRvalue.binary op .bool rTy size l r).run n s = .ok ((.bool (f a b), .bool), s2) := by
    intro o ho hev
    rw [RsRvalue.binary_run (a := (.bool a, .bool)) (b := (.bool b, .bool)) el1 er1 ho]
    have h1 : evalValue (mkInt o (FnBuilder.boolToInt el) (FnBuilder.boolToInt er)) s =
        .ok ((.int (if f a b then 1 else 0), u8Ty), s2) := by
      rw [mkInt, evalBinary (boolToInt_run el2) (boolToInt_run er2), hev]; rfl
    rw [mkBool, mkTransmute, evalUnary h1, transmute_u8_bool]; rfl
  obtain ⟨b1, b2, b3⟩ := bool_bitop a b s2 u8Ty
  cases op <;> simp only [RsBinOp.onBools, Option.some.injEq, reduceCtorEq] at hop
  · subst hop; exact key .bitXor rfl b3
  · subst hop; exact key .bitAnd rfl b1
  · subst hop; exact key .bitOr rfl b2

/-- C68: `!` on booleans. -/
theorem C68_not {o : RsOperand} {a : Bool} (ho : o.run n s = .ok ((.bool a, .bool), s1)) :
    (RsRvalue.unary .not .bool o).run n s = .ok ((.bool (!a), .bool), s1) := by
  obtain ⟨e, e1, e2⟩ := RsOperand.run_ok ho
  rw [RsRvalue.run_eq (e := mkNot e) (by simp only [RsRvalue.translate, e1, Res.bind_ok, RsUnOp.translate])]
  have h0 : evalValue (.constant (.int 1) u8Ty) s = .ok ((.int 1, u8Ty), s) := rfl
  have h1 : evalValue (.binOp (.int .sub) (.constant (.int 1) u8Ty) (FnBuilder.boolToInt e)) s =
      .ok ((.int (if !a then 1 else 0), u8Ty), s1) := by
    rw [evalBinary h0 (boolToInt_run e2)]
    cases a <;> rfl
  rw [mkNot, mkTransmute, evalUnary h1, transmute_u8_bool]; rfl

/-- C68: comparisons of integers, booleans and pointers: numbers by size, `false` before `true`, pointers by address and
then by metadata. -/
theorem C68_comparisons {op : RsBinOp} {ty rTy : Ty} {a b : Value P} {res : Bool} (hop : op.onOrder (cmpKey a) (cmpKey b) = some res)
    {l r : RsOperand} (size : Nat) (hl : l.run n s = .ok ((a, ty), s1)) (hr : r.run n s1 = .ok ((b, rTy), s2))
    (ha : Comparable ty a) (hb : Comparable ty b) :
    (RsRvalue.binary op ty rTy size l r).run n s = .ok ((.bool res, .bool), s2) := by
  obtain ⟨el, el1, el2⟩ := RsOperand.run_ok hl
  obtain ⟨er, er1, er2⟩ := RsOperand.run_ok hr
  obtain ⟨c1, c2, c3, c4, c5, c6, -⟩ := C13_comparisons_total_order s2 ty rTy a b ha hb
  have key : ∀ o : RelOp, op.translate ty rTy size el er = .ok (mkRel o el er) →
      s2.evalBinOp (.rel o) (a, ty) (b, rTy) = .ok (.bool res, .bool) →
      (RsRvalue.binary op ty rTy size l r).run n s = .ok ((.bool res, .bool), s2) := by
    intro o ho hev
    rw [RsRvalue.binary_run (a := (a, ty)) (b := (b, rTy)) el1 er1 ho, mkRel, evalBinary el2 er2, hev]; rfl
  cases op <;> simp only [RsBinOp.onOrder, Option.some.injEq, reduceCtorEq] at hop <;> subst hop
  · exact key .eq (by unfold RsBinOp.translate; split <;> simp_all) c5
  · exact key .lt (by unfold RsBinOp.translate; split <;> simp_all) c1
  · exact key .le (by unfold RsBinOp.translate; split <;> simp_all) c2
  · exact key .ne (by unfold RsBinOp.translate; split <;> simp_all) c6
  · exact key .ge (by unfold RsBinOp.translate; split <;> simp_all) c4
  · exact key .gt (by unfold RsBinOp.translate; split <;> simp_all) c3

/-- C68: the three-way comparison gives the right variant of `Ordering`. -/
theorem C68_ordering {ty rTy : Ty} {a b : Value P} {l r : RsOperand} (size : Nat)
    (hl : l.run n s = .ok ((a, ty), s1)) (hr : r.run n s1 = .ok ((b, rTy), s2)) (ha : Comparable ty a) (hb : Comparable ty b) :
    ∃ oTy, orderingTy = .ok oTy ∧
      (RsRvalue.binary .cmp ty rTy size l r).run n s = .ok ((.variant (orderingOf (cmpKey a) (cmpKey b)) (.tuple []), oTy), s2) := by
  obtain ⟨el, el1, el2⟩ := RsOperand.run_ok hl
  obtain ⟨er, er1, er2⟩ := RsOperand.run_ok hr
  obtain ⟨-, -, -, -, -, -, c7⟩ := C13_comparisons_total_order s2 ty rTy a b ha hb
  refine ⟨ordTy, orderingTy_eq, ?_⟩
  rw [RsRvalue.binary_run (a := (a, ty)) (b := (b, rTy)) (e := mkTransmute (mkRel .cmp el er) ordTy) el1 er1
    (by unfold RsBinOp.translate; split <;> simp_all [orderingTy_eq])]
  have h1 : evalValue (mkRel .cmp el er) s = .ok ((.int (orderingOf (cmpKey a) (cmpKey b)), .int ⟨.signed, 1⟩), s2) := by
    rw [mkRel, evalBinary el2 er2, c7]; rfl
  rw [mkTransmute, evalUnary h1, transmute_ord]
  · rfl
  · unfold orderingOf; split
    · simp
    · split <;> simp

/-- C68: casts between integer types wrap; `true` is cast to 1 and `false` to 0. -/
theorem C68_int_casts {t : IntType} (ht : 0 < t.size) {o : RsOperand} :
    (∀ a t', o.run n s = .ok ((.int a, .int t'), s1) →
      ∃ x, t.IsWrap a x ∧ (RsRvalue.intToInt (.int t') (.int t) o).run n s = .ok ((.int x, .int t), s1)) ∧
    (∀ b, o.run n s = .ok ((.bool b, .bool), s1) →
      (RsRvalue.intToInt .bool (.int t) o).run n s = .ok ((.int (if b then 1 else 0), .int t), s1)) := by
  constructor
  · intro a t' ho
    obtain ⟨e, e1, e2⟩ := RsOperand.run_ok ho
    obtain ⟨-, h⟩ := C10_unary_wraps s1 t ht a
    obtain ⟨x, hx, hw⟩ := h (.int t')
    refine ⟨x, hw, ?_⟩
    rw [RsRvalue.run_eq (e := .unOp (.cast (.intToInt t)) e)
      (by simp only [RsRvalue.translate, e1, Res.bind_ok, translateIntToInt]), evalUnary e2, hx]
    rfl
  · intro b ho
    obtain ⟨e, e1, e2⟩ := RsOperand.run_ok ho
    obtain ⟨-, h⟩ := C10_unary_wraps s1 t ht (if b then 1 else 0)
    obtain ⟨x, hx, hw⟩ := h u8Ty
    have hin : t.InRange (if b then 1 else 0) := by
      have hb : 8 ≤ t.bits := by unfold IntType.bits; omega
      have h1 : (2 : Int) ^ 7 ≤ 2 ^ (t.bits - 1) := pow_le_pow_right₀ (by norm_num) (by omega)
      have h2 : (2 : Int) ^ 8 ≤ 2 ^ t.bits := pow_le_pow_right₀ (by norm_num) hb
      unfold IntType.InRange IntType.minVal IntType.maxVal
      cases t.signed <;> cases b <;> simp <;> omega
    rw [C10_wrapping_unique ht hw (C10_wrapping_in_range hin)] at hx
    rw [RsRvalue.run_eq (e := .unOp (.cast (.intToInt t)) (mkTransmute e u8Ty))
      (by simp only [RsRvalue.translate, e1, Res.bind_ok, translateIntToInt])]
    have h1 : evalValue (mkTransmute e u8Ty) s = .ok ((.int (if b then 1 else 0), u8Ty), s1) := boolToInt_run e2
    rw [evalUnary h1, hx]; rfl

/-! ### Putting values together -/

theorem evalValues_of_run {os : List RsOperand} {vs} (h : OperandsRun n os s vs s1) :
    ∃ es, RsOperand.translateAll n os = .ok es ∧ evalValues es s = .ok (vs, s1) := by
  induction h with
  | nil => exact ⟨[], rfl, rfl⟩
  | cons h1 _ ih =>
    obtain ⟨e, e1, e2⟩ := RsOperand.run_ok h1
    obtain ⟨es, h2, h3⟩ := ih
    refine ⟨e :: es, by simp only [RsOperand.translateAll, e1, h2, Res.bind_ok], ?_⟩
    simp only [evalValues, EM.bind_of_ok e2, EM.bind_of_ok h3]
    rfl

theorem evalTuple {es : List ValueExpr} {vs : List (Value P × Ty)} (ty : Ty) (h : evalValues es s = .ok (vs, s1)) :
    evalValue (.tuple es ty) s = .ok ((.tuple (vs.map (·.1)), ty), s1) := by
  simp only [evalValue, EM.bind_of_ok h]; rfl

/-- C68: structs, tuples, closures and arrays consist of the values of the operands, in order; variants of enums
of the given variant with these values. -/
theorem C68_aggregates {os : List RsOperand} {vs} (h : OperandsRun n os s vs s1) :
    (∀ ty, (∃ f hd u, ty = .tuple f hd u) ∨ (∃ e c, ty = .array e c) →
      (RsRvalue.aggregate ty none none os).run n s = .ok ((.tuple (vs.map (·.1)), ty), s1)) ∧
    (∀ variants dt disc size align d vt tagger, Map.get? variants d = some (vt, tagger) →
      (RsRvalue.aggregate (.enum variants dt disc size align) none (some d) os).run n s =
        .ok ((.variant d (.tuple (vs.map (·.1))), .enum variants dt disc size align), s1)) := by
  obtain ⟨es, h1, h2⟩ := evalValues_of_run h
  constructor
  · intro ty hty
    rw [RsRvalue.run_eq (e := .tuple es ty), evalTuple ty h2]
    simp only [RsRvalue.translate, h1, Res.bind_ok]
    rcases hty with ⟨f, hd, u, rfl⟩ | ⟨e, c, rfl⟩ <;> rfl
  · intro variants dt disc size align d vt tagger hv
    rw [RsRvalue.run_eq (e := .variant d (.tuple es vt) (.enum variants dt disc size align))
      (by simp only [RsRvalue.translate, h1, Res.bind_ok, translateAggregate, hv])]
    simp only [evalValue, EM.bind_apply, h2]
    rfl

/-- C68: `[x; count]` is an array of `count` copies of the operand, if evaluating the operand leaves the state as it is. -/
theorem C68_repeat {o : RsOperand} {v : Value P} {ty : Ty} (ho : o.run n s = .ok ((v, ty), s)) (count : Nat) :
    (RsRvalue.repeat o ty count).run n s = .ok ((.tuple (List.replicate count v), .array ty count), s) := by
  obtain ⟨e, e1, e2⟩ := RsOperand.run_ok ho
  have h : evalValues (List.replicate count e) s = .ok (List.replicate count (v, ty), s) := by
    induction count with
    | zero => rfl
    | succ k ih =>
      simp only [List.replicate_succ, evalValues, EM.bind_of_ok e2, EM.bind_of_ok ih]; rfl
  rw [RsRvalue.run_eq (e := .tuple (List.replicate count e) (.array ty count))
    (by simp only [RsRvalue.translate, e1, Res.bind_ok]), evalTuple _ h]
  simp

/-! ### Evaluation order -/

/-- C68: the operands are evaluated first, from left to right, whatever the operator is; if one of them fails, so does
the rvalue. -/
theorem C68_operand_errors {op : RsBinOp} {lTy rTy : Ty} {size : Nat} {l r : RsOperand} {el er e : ValueExpr} {err : Err}
    (hl : l.translate n = .ok el) (hr : r.translate n = .ok er)
    (ht : (RsRvalue.binary op lTy rTy size l r).translate n = .ok e) :
    (l.run n s = .error err → (RsRvalue.binary op lTy rTy size l r).run n s = .error err) ∧
    (∀ a, l.run n s = .ok (a, s1) → (lTy = .bool → ∃ b, a = (.bool b, .bool)) → r.run n s1 = .error err →
      (RsRvalue.binary op lTy rTy size l r).run n s = .error err) := by
  have ht' := ht
  simp only [RsRvalue.translate, hl, hr, Res.bind_ok] at ht'
  simp only [RsRvalue.run_eq ht, RsOperand.run, hl, hr]
  unfold RsBinOp.translate at ht'
  constructor
  · intro h
    split at ht' <;> simp only [orderingTy_eq, Res.bind_ok, Except.ok.injEq, panic, reduceCtorEq] at ht' <;> subst ht' <;>
      simp only [mkInt, mkRel, mkBool, mkTransmute, FnBuilder.boolToInt, evalValue, EM.bind_apply, h]
  · intro a h hb h'
    have hb' : lTy = .bool → ∃ x, evalValue (.unOp (.cast (.transmute u8Ty)) el) s = .ok (x, s1) := by
      intro hl
      obtain ⟨b, rfl⟩ := hb hl
      exact ⟨_, boolToInt_run h⟩
    simp only [evalValue, EM.bind_apply, u8Ty] at hb'
    split at ht' <;> simp only [orderingTy_eq, Res.bind_ok, Except.ok.injEq, panic, reduceCtorEq] at ht' <;> subst ht' <;>
      simp only [mkInt, mkRel, mkBool, mkTransmute, FnBuilder.boolToInt, evalValue, EM.bind_apply, h, h']
    all_goals
      obtain ⟨x, hx⟩ := hb' rfl
      simp only [h] at hx
      simp only [hx, h']

end

/-! ### Pointers -/

section
variable {M PE AE F : Type} [T : Target] [DecidableEq PE] [Memory M (AllocId × PE) F]
  [SoftMem M (AllocId × PE) F] [B : BasicBacked M PE AE F]
variable {s s1 s2 : Machine M (AllocId × PE) F} {prog : Program} {fn : Function} {n : Nat}
include B

theorem Evaluating.run {o : RsOperand} {r} (hs : Evaluating prog fn s) (h : o.run n s = .ok (r, s1)) : Evaluating prog fn s1 := by
  obtain ⟨e, -, e2⟩ := RsOperand.run_ok h
  exact .value hs e2

theorem Evaluating.vtables [LawfulTarget T] [RawRetag M (AllocId × PE) F] (hT : prog.Tame) (hs : Evaluating prog fn s) : s.VTablesOk := (hs.ready hT).1.vt

/-- C68: moving a pointer by a number of elements, with a pointer in the address space whose provenance is real: the result is
this many times the size of the pointee further, if that stays in the allocation the pointer belongs to (or is no
distance at all), and undefined otherwise. The number is an `isize` or a `usize`. -/
theorem C68_offset [LawfulTarget T] {l r : RsOperand} {p : ThinPtr (AllocId × PE)} {pt : PtrType} {t : IntType} {d : Int} {size : Nat}
    (htt : t = isize ∨ t = IntType.usize) (hd : t.InRange d)
    (hl : l.run n s = .ok ((.ptr ⟨p, none⟩, .ptr pt), s1)) (hr : r.run n s1 = .ok ((.int d, .int t), s2))
    {h : MemHistory PE} (hm : MemReach (F := F) h s2.mem.memory) (hg : Genuine h p) (hp : IntType.usize.Fits p.addr) :
    (d * size = 0 ∨ Spans h p (d * size) →
      (RsRvalue.binary .offset (.ptr pt) (.int t) size l r).run n s =
        .ok ((.ptr ⟨⟨p.addr + d * size, p.prov⟩, none⟩, .ptr pt), s2)) ∧
    (¬ (d * size = 0 ∨ Spans h p (d * size)) →
      (RsRvalue.binary .offset (.ptr pt) (.int t) size l r).run n s = .error .ub) := by
  obtain ⟨el, el1, el2⟩ := RsOperand.run_ok hl
  obtain ⟨er, er1, er2⟩ := RsOperand.run_ok hr
  have hps : 0 < T.ptrSize := isPowerOfTwo_pos LawfulTarget.ptr_pow
  have ht : 0 < t.size := by rcases htt with rfl | rfl <;> exact hps
  rw [RsRvalue.binary_run (a := (.ptr ⟨p, none⟩, .ptr pt)) (b := (.int d, .int t))
    (e := .binOp (.ptrOffset true) el (mkInt .mulUnchecked er (.constant (.int size) (.int t)))) el1 er1 rfl]
  have hc : evalValue (.constant (.int size) (.int t)) s2 = .ok ((.int (size : Int), .int t), s2) := rfl
  obtain ⟨-, -, -, -, u5, u6⟩ := C11_unchecked_ub_iff_overflow s2 t ht d size (.int t)
  obtain ⟨o1, o2⟩ := C44_offset_inbounds (s := s2) hm hg hp (d * size) (.ptr pt) (.int t)
  have hfit : d * size = 0 ∨ Spans h p (d * size) → t.InRange (d * size) := by
    intro hh
    have hpow : (2 : Int) ^ (8 * T.ptrSize) = 2 * 2 ^ (8 * T.ptrSize - 1) := by
      rw [← pow_succ']; congr 1; omega
    have hpp : (0 : Int) < 2 ^ (8 * T.ptrSize - 1) := by positivity
    rcases hh with h0 | ⟨id, i, _, h2, h3, h4⟩
    · rw [h0]
      rcases htt with rfl | rfl <;>
        simp only [IntType.InRange, IntType.minVal, IntType.maxVal, IntType.bits, IntType.usize] <;> omega
    · obtain ⟨p1, _, p3, p4⟩ := C16_placement hm h2
      have hv := LawfulTarget.valid_isize _ p4
      simp only [inBounds, decide_eq_true_eq] at hv
      rcases htt with rfl | rfl
      · simp only [IntType.InRange, IntType.minVal, IntType.maxVal, IntType.bits]
        omega
      · simp only [IntType.InRange, IntType.minVal, IntType.maxVal, IntType.bits, IntType.usize] at hd ⊢
        have : 0 ≤ d * size := mul_nonneg hd.1 (by omega)
        omega
  constructor
  · intro hh
    have hmul : evalValue (mkInt .mulUnchecked er (.constant (.int size) (.int t))) s1 = .ok ((.int (d * size), .int t), s2) := by
      rw [mkInt, evalBinary er2 hc, u5 (hfit hh)]; rfl
    rw [evalBinary el2 hmul, o1 hh]; rfl
  · intro hh
    by_cases hf : t.InRange (d * size)
    · have hmul : evalValue (mkInt .mulUnchecked er (.constant (.int size) (.int t))) s1 = .ok ((.int (d * size), .int t), s2) := by
        rw [mkInt, evalBinary er2 hc, u5 hf]; rfl
      rw [evalBinary el2 hmul, o2 hh]; rfl
    · have hmul : evalValue (mkInt .mulUnchecked er (.constant (.int size) (.int t))) s1 = .error .ub := by
        rw [mkInt, evalBinary er2 hc, u6 hf]; rfl
      simp only [evalValue, EM.bind_of_ok el2, EM.bind_of_error hmul]

/-- C68: casts between raw pointers keep the address, the provenance, and the metadata if the new type has any. -/
theorem C68_ptr_casts {o : RsOperand} {p : Pointer (AllocId × PE)} {k k' : MetaKind}
    (ho : o.run n s = .ok ((.ptr p, .ptr (.raw k)), s1)) :
    (k = k' → (RsRvalue.ptrToPtr (.ptr (.raw k)) (.ptr (.raw k')) o).run n s = .ok ((.ptr p, .ptr (.raw k')), s1)) ∧
    (k' = .none → k ≠ k' → (RsRvalue.ptrToPtr (.ptr (.raw k)) (.ptr (.raw k')) o).run n s =
      .ok ((.ptr ⟨p.thin, none⟩, .ptr (.raw k')), s1)) := by
  obtain ⟨e, e1, e2⟩ := RsOperand.run_ok ho
  constructor
  · rintro rfl
    rw [RsRvalue.run_eq (e := e) (by simp only [RsRvalue.translate, e1, Res.bind_ok, translatePtrToPtr, if_true]), e2]
  · rintro rfl hk
    rw [RsRvalue.run_eq (e := .unOp .getThinPointer e)
      (by simp only [RsRvalue.translate, e1, Res.bind_ok, translatePtrToPtr, if_neg hk, if_true]), evalUnary e2]
    rfl

/-- C68: turning a pointer to an array into a pointer to a slice gives the wide pointer with the length of the array if it is
valid at the new type, and is undefined otherwise. -/
theorem C68_unsize_slice [LawfulTarget T] [RawRetag M (AllocId × PE) F] (hT : prog.Tame) (hs : Evaluating prog fn s) {o : RsOperand} {p : ThinPtr (AllocId × PE)} {pTy : Ty}
    {t : PtrType} (hw : t.checkWf prog = .ok ()) (hk : t.metaKind = .elementCount) (count : Nat)
    (ho : o.run n s = .ok ((.ptr ⟨p, none⟩, pTy), s1)) {h : MemHistory PE} (hm : MemReach (F := F) h s1.mem.memory)
    (hg : Genuine h p) :
    (s1.ValidPtr h ⟨p, some (.elementCount count)⟩ t → (RsRvalue.unsize (.arrayToSlice true count) (.ptr t) o).run n s =
      .ok ((.ptr ⟨p, some (.elementCount count)⟩, .ptr t), s1)) ∧
    (¬ s1.ValidPtr h ⟨p, some (.elementCount count)⟩ t →
      (RsRvalue.unsize (.arrayToSlice true count) (.ptr t) o).run n s = .error .ub) := by
  obtain ⟨e, e1, e2⟩ := RsOperand.run_ok ho
  have hc : evalValue (mkUsize count) s1 = .ok ((.int (count : Int), .int usizeTy), s1) := rfl
  rw [RsRvalue.run_eq (e := .binOp (.constructWidePointer t) e (mkUsize count))
    (by simp only [RsRvalue.translate, e1, Res.bind_ok, translateUnsize, rassert, if_true, mkWide]), evalBinary e2 hc]
  obtain ⟨x1, x2⟩ := construct_wide_exact (s := s1) ((hs.run ho).vtables hT) hm hg hw (m := some (.elementCount count))
    (by rw [hk]; trivial) pTy (.int usizeTy)
  constructor
  · intro hv
    have := x1 hv
    rw [MetaValue] at this
    rw [this]; rfl
  · intro hv
    have := x2 hv
    rw [MetaValue] at this
    rw [this]; rfl

/-- C68: turning a pointer into a trait object gives the wide pointer with a pointer to the vtable if it is valid at the new
type, and is undefined otherwise. -/
theorem C68_unsize_dyn [LawfulTarget T] [RawRetag M (AllocId × PE) F] (hT : prog.Tame) (hs : Evaluating prog fn s) {o : RsOperand} {p q : ThinPtr (AllocId × PE)} {pTy : Ty}
    {t : PtrType} (hw : t.checkWf prog = .ok ()) {tr : TraitName} (hk : t.metaKind = .vtablePointer tr) {v : VTableName}
    (ho : o.run n s = .ok ((.ptr ⟨p, none⟩, pTy), s1)) (hv : s1.vtablePtrs.get? v = some q)
    {h : MemHistory PE} (hm : MemReach (F := F) h s1.mem.memory) (hg : Genuine h p) :
    (s1.ValidPtr h ⟨p, some (.vtablePointer q)⟩ t → (RsRvalue.unsize (.toDyn v tr) (.ptr t) o).run n s =
      .ok ((.ptr ⟨p, some (.vtablePointer q)⟩, .ptr t), s1)) ∧
    (¬ s1.ValidPtr h ⟨p, some (.vtablePointer q)⟩ t → (RsRvalue.unsize (.toDyn v tr) (.ptr t) o).run n s = .error .ub) := by
  obtain ⟨e, e1, e2⟩ := RsOperand.run_ok ho
  have hc : evalValue (mkVTable v tr) s1 = .ok ((.ptr ⟨q, none⟩, .ptr (.vtablePtr tr)), s1) := by
    have : s1.evalConstant (.vtablePointer v) = .ok (.ptr ⟨q, none⟩) := by
      simp only [Machine.evalConstant, Map.get, hv, unwrap_some, Res.bind_ok]; rfl
    simp only [mkVTable, evalValue, EM.bind_of_ok (EM.read_of_ok (f := fun s => s.evalConstant (.vtablePointer v)) this)]
    rfl
  rw [RsRvalue.run_eq (e := .binOp (.constructWidePointer t) e (mkVTable v tr))
    (by simp only [RsRvalue.translate, e1, Res.bind_ok, translateUnsize, mkWide]), evalBinary e2 hc]
  obtain ⟨x1, x2⟩ := construct_wide_exact (s := s1) ((hs.run ho).vtables hT) hm hg hw (m := some (.vtablePointer q))
    (by rw [hk]; trivial) pTy (.ptr (.vtablePtr tr))
  constructor
  · intro hv
    have := x1 hv
    rw [MetaValue] at this
    rw [this]; rfl
  · intro hv
    have := x2 hv
    rw [MetaValue] at this
    rw [this]; rfl

/-- C68: `PtrMetadata` gives the metadata of the pointer. -/
theorem C68_metadata [LawfulTarget T] [RawRetag M (AllocId × PE) F] (hT : prog.Tame) (hs : Evaluating prog fn s) {o : RsOperand} {p : Pointer (AllocId × PE)} {t : PtrType}
    (ho : o.run n s = .ok ((.ptr p, .ptr t), s1)) {h : MemHistory PE} (hm : MemReach (F := F) h s1.mem.memory)
    (hv : s1.ValidPtr h p t) :
    (RsRvalue.unary .ptrMetadata (.ptr t) o).run n s = .ok ((MetaValue p.metadata, t.metaKind.ty), s1) := by
  obtain ⟨e, e1, e2⟩ := RsOperand.run_ok ho
  obtain ⟨-, x2, -⟩ := wide_parts_exact ((hs.run ho).vtables hT) hm hv
  rw [RsRvalue.run_eq (e := .unOp .getMetadata e) (by simp only [RsRvalue.translate, e1, Res.bind_ok, RsUnOp.translate]),
    evalUnary e2, x2]
  rfl

/-! ### Places -/

omit B in
omit [SoftMem M (AllocId × PE) F] in
/-- C68: a local is at its storage in the topmost activation, with its type; it is undefined behavior if it has none. -/
theorem C68_place_local {l : Nat} (hl : l < n) {f : StackFrame (AllocId × PE) F} (hf : s.curFrame = .ok f) {ty : Ty}
    (ht : f.func.locals.get? l = some ty) :
    (∀ p, f.locals.get? l = some p → (RsPlace.mk l []).run n s = .ok ((⟨⟨p, none⟩, true⟩, ty), s)) ∧
    (f.locals.get? l = none → (RsPlace.mk l []).run n s = .error .ub) := by
  have e : (RsPlace.mk l []).translate n = .ok (.local l) := by
    simp only [RsPlace.translate, localNameOf, if_pos hl, RsProj.fold, Res.bind_ok]
  rw [RsPlace.run_eq e]
  constructor
  · intro p hp
    refine EM.read_of_ok ?_
    simp only [Machine.localPlace, hf, Res.bind_ok, Map.get, ht, unwrap_some, hp]
    rfl
  · intro hp
    refine EM.read_of_error ?_
    simp only [Machine.localPlace, hf, Res.bind_ok, Map.get, ht, unwrap_some, hp]

/-- C68: a field of a place is at the offset of the field; it is undefined behavior if that is outside the allocation. -/
theorem C68_place_field [LawfulTarget T] [RawRetag M (AllocId × PE) F] (hT : prog.Tame) (hs : Evaluating prog fn s) {pl : RsPlace}
    {e : PlaceExpr} (htr : pl.translate n = .ok e) {ty : Ty} (hc : e.checkWf prog fn.locals = .ok ty) (ht : e.Tame prog fn.locals)
    {p ty'} (he : pl.run n s = .ok ((p, ty'), s1)) {k off : Nat} {t md} (hf : FieldAt s1.VTableAt p.ptr.metadata ty k off t md)
    {h : MemHistory PE} (hm : MemReach (F := F) h s1.mem.memory) :
    (off = 0 ∨ Spans h p.ptr.thin off →
      (pl.proj (.field k)).run n s = .ok ((⟨⟨p.ptr.thin.shift off, md⟩, p.aligned⟩, t), s1)) ∧
    (¬ (off = 0 ∨ Spans h p.ptr.thin off) → (pl.proj (.field k)).run n s = .error .ub) := by
  rw [RsPlace.run_eq htr] at he
  rw [RsPlace.run_eq (e := .field e k) (RsPlace.translate_proj htr rfl)]
  exact C45_field hT hs hc ht he hf hm

/-- C68: element number `i` of an array or slice, where `i` is the value of a local, is at `i` times the size of an element;
it is undefined behavior if there is no such element, or if it is outside the allocation. -/
theorem C68_place_index [LawfulTarget T] [RawRetag M (AllocId × PE) F] (hT : prog.Tame) (hs : Evaluating prog fn s) {pl : RsPlace}
    {e : PlaceExpr} (htr : pl.translate n = .ok e) {ty it : Ty} (hc : e.checkWf prog fn.locals = .ok ty)
    (ht : e.Tame prog fn.locals) {l : Nat} (hi : (ValueExpr.load (.local l)).checkWf prog fn.locals = .ok it)
    (hti : (ValueExpr.load (.local l)).Tame prog fn.locals)
    {p ty'} (he : pl.run n s = .ok ((p, ty'), s1)) {i it'}
    (hl : (RsOperand.copy ⟨l, []⟩).run n s1 = .ok ((.int i, it'), s2)) {count : Int} {elem : Ty}
    (hn : Elements p.ptr.metadata ty count elem) {size : Nat} (hsz : elem.size = .ok size) {h : MemHistory PE}
    (hm : MemReach (F := F) h s2.mem.memory) :
    ((0 ≤ i ∧ i < count) ∧ (i * size = 0 ∨ Spans h p.ptr.thin (i * size)) →
      (pl.proj (.index l)).run n s = .ok ((⟨⟨p.ptr.thin.shift (i * size), none⟩, p.aligned⟩, elem), s2)) ∧
    (¬ ((0 ≤ i ∧ i < count) ∧ (i * size = 0 ∨ Spans h p.ptr.thin (i * size))) →
      (pl.proj (.index l)).run n s = .error .ub) := by
  obtain ⟨o, o1, o2⟩ := RsOperand.run_ok hl
  simp only [RsOperand.translate, RsPlace.translate, Res.bind_eq_ok, localNameOf, RsProj.fold] at o1
  obtain ⟨_, ⟨x, h1, h2⟩, h3⟩ := o1
  split at h1
  case isFalse => cases h1
  case isTrue hln =>
  cases h1; cases h2; cases h3
  rw [RsPlace.run_eq htr] at he
  rw [RsPlace.run_eq (e := .index e (.load (.local l)))
    (RsPlace.translate_proj htr (by simp only [RsProj.translate, localNameOf, if_pos hln, Res.bind_ok]))]
  exact C45_index hT hs hc ht hi hti he o2 hn hsz hm

/-- C68: dereferencing a place loads a pointer from it, and is the place this pointer points to. -/
theorem C68_place_deref [LawfulTarget T] [RawRetag M (AllocId × PE) F] (hT : prog.Tame) (hs : Evaluating prog fn s) {pl : RsPlace}
    {e : PlaceExpr} (htr : pl.translate n = .ok e) {t ty : Ty} (hc : (PlaceExpr.deref (.load e) t).checkWf prog fn.locals = .ok ty)
    (ht : e.Tame prog fn.locals) {v vt} (he : (RsOperand.copy pl).run n s = .ok ((v, vt), s1)) :
    ∃ ptr l size align b, v = .ptr ptr ∧ t.layout = .ok l ∧ PointeeLayout s1.VTableAt l ptr.metadata size align ∧
      (b = true ↔ Aligned align ptr.thin.addr) ∧ (pl.proj (.deref t)).run n s = .ok ((⟨ptr, b⟩, t), s1) := by
  obtain ⟨o, o1, o2⟩ := RsOperand.run_ok he
  simp only [RsOperand.translate, htr, Res.bind_ok, Except.ok.injEq] at o1
  subst o1
  rw [RsPlace.run_eq (e := .deref (.load e) t) (RsPlace.translate_proj htr rfl)]
  exact C45_deref hT hs hc (by simpa only [ValueExpr.Tame] using ht) o2

/-- C68: a variant of an enum is at the place of the enum. -/
theorem C68_place_downcast [LawfulTarget T] [RawRetag M (AllocId × PE) F] {pl : RsPlace} {p variants dt disc sz al}
    (he : pl.run n s = .ok ((p, .enum variants dt disc sz al), s1)) {d : Int} {t g} (hd : Map.get? variants d = some (t, g)) :
    (pl.proj (.downcast d)).run n s = .ok ((p, t), s1) := by
  obtain ⟨e, e1, e2⟩ := RsPlace.run_ok he
  rw [RsPlace.run_eq (e := .downcast e d) (RsPlace.translate_proj e1 rfl)]
  exact C45_downcast e2 hd

/-- C68: the address of a place. A raw pointer to it is exactly the pointer of the place. A reference to it has the same
address and metadata, and the place must be a valid value of the reference type. -/
theorem C68_address_of [LawfulTarget T] [RawRetag M (AllocId × PE) F] (hT : prog.Tame) (hs : Evaluating prog fn s) {pl : RsPlace}
    {p ty} (he : pl.run n s = .ok ((p, ty), s1)) {v t} {h : MemHistory PE} (hm : MemReach (F := F) h s1.mem.memory) :
    (∀ k, (RsRvalue.addressOf k pl).run n s = .ok ((v, t), s2) → v = .ptr p.ptr ∧ t = .ptr (.raw k)) ∧
    (∀ m pointee, (RsRvalue.ref m pointee pl).run n s = .ok ((v, t), s2) →
      (∃ q, v = .ptr q ∧ q.thin.addr = p.ptr.thin.addr ∧ q.metadata = p.ptr.metadata) ∧ t = .ptr (.ref m pointee) ∧
      s1.ValidPtr h p.ptr (.ref m pointee)) ∧
    (∀ m pointee, Genuine h p.ptr.thin → (PtrType.ref m pointee).checkWf prog = .ok () →
      ¬ s1.ValidPtr h p.ptr (.ref m pointee) → (RsRvalue.ref m pointee pl).run n s = .error .ub) := by
  obtain ⟨e, e1, e2⟩ := RsPlace.run_ok he
  have hs1 : Evaluating prog fn s1 := .place hs e2
  have hvt := hs1.vtables hT
  refine ⟨fun k hx => ?_, fun m pointee hx => ?_, fun m pointee hg hw hv => ?_⟩
  · rw [RsRvalue.run_eq (e := .addrOf e (.raw k)) (by simp only [RsRvalue.translate, e1, Res.bind_ok])] at hx
    simp only [evalValue, EM.bind_of_ok e2, addrOf] at hx
    simp only [EM.bind_eq_ok] at hx
    obtain ⟨_, _, _, q, s3, h2, h3⟩ := hx
    cases h3
    obtain ⟨f, f', mm, hr⟩ := retagPtrM_eq_ok h2
    rw [RawRetag.raw _ _ _ _ _ _ _ _ _ rfl hr]
    exact ⟨rfl, rfl⟩
  · rw [RsRvalue.run_eq (e := .addrOf e (.ref m pointee)) (by simp only [RsRvalue.translate, e1, Res.bind_ok])] at hx
    simp only [evalValue, EM.bind_of_ok e2, addrOf] at hx
    simp only [EM.bind_eq_ok] at hx
    obtain ⟨_, s3', h1, q, s3, h2, h3⟩ := hx
    cases h3
    obtain ⟨f, f', mm, hr⟩ := retagPtrM_eq_ok h2
    obtain ⟨g1, g2, _⟩ := B.retagSame _ _ _ _ _ _ _ _ _ hr
    have hval : checkPtr s1.valEnv p.ptr (.ref m pointee) = .ok () := by
      by_contra hne
      obtain ⟨hok, -⟩ := EM.read_eq_ok.1 h1
      simp only [checkValue] at hok
      exact hne hok
    exact ⟨⟨q, rfl, g2, g1⟩, rfl, (checkPtr_iff hvt hm).1 hval⟩
  · rw [RsRvalue.run_eq (e := .addrOf e (.ref m pointee)) (by simp only [RsRvalue.translate, e1, Res.bind_ok])]
    simp only [evalValue, EM.bind_of_ok e2, addrOf]
    refine EM.bind_of_error (EM.read_of_error ?_)
    simp only [checkValue]
    rcases checkPtr_ub hvt hm (ptr := p.ptr) hg hw with h1 | h1
    · exact absurd ((checkPtr_iff hvt hm).1 h1) hv
    · exact h1

omit [SoftMem M (AllocId × PE) F] B in
/-- C68: copying, moving and re-reading a place before dereferencing it all load the value at the place, and a constant
operand is the constant. -/
theorem C68_use {pl : RsPlace} {e : PlaceExpr} (htr : pl.translate n = .ok e) (v : ValueExpr) :
    (RsRvalue.use (.copy pl)).run n s = evalValue (.load e) s ∧ (RsRvalue.use (.move pl)).run n s = evalValue (.load e) s ∧
    (RsRvalue.copyForDeref pl).run n s = evalValue (.load e) s ∧ (RsRvalue.use (.const v)).run n s = evalValue v s := by
  refine ⟨?_, ?_, ?_, RsRvalue.run_eq rfl⟩ <;>
    exact RsRvalue.run_eq (by simp only [RsRvalue.translate, RsOperand.translate, htr, Res.bind_ok])

/-- C68: `Len` of a slice is the number of elements in the metadata of the place, and `Len` of an array is the length in its
type. -/
theorem C68_len [LawfulTarget T] [RawRetag M (AllocId × PE) F] {pl : RsPlace} {p} {elem : Ty} :
    (∀ {c : Int} {ty v t}, pl.run n s = .ok ((p, ty), s1) → p.ptr.metadata = some (.elementCount c) →
      (RsRvalue.len (.slice elem) pl).run n s = .ok ((v, t), s2) → v = .int c) ∧
    (∀ c : Nat, (RsRvalue.len (.array elem c) pl).run n s = .ok ((.int c, .int IntType.usize), s)) := by
  refine ⟨fun {c ty v t} he hp hx => ?_, fun c => (RsRvalue.run_eq rfl).trans rfl⟩
  obtain ⟨e, e1, e2⟩ := RsPlace.run_ok he
  rw [RsRvalue.run_eq (e := .unOp .getMetadata (.addrOf e (.raw .elementCount)))
    (by simp only [RsRvalue.translate, translateLen, e1, Res.bind_ok])] at hx
  rw [evalValue, EM.bind_eq_ok] at hx
  obtain ⟨r, s4, h0, h5⟩ := hx
  simp only [evalValue, EM.bind_of_ok e2, addrOf] at h0
  simp only [EM.bind_eq_ok] at h0
  obtain ⟨_, s3', h1, q, s3, h2, h3⟩ := h0
  cases h3
  obtain ⟨h5, -⟩ := EM.read_eq_ok.1 h5
  obtain ⟨f, f', mm, hr⟩ := retagPtrM_eq_ok h2
  rw [RawRetag.raw _ _ _ _ _ _ _ _ _ rfl hr] at h5
  have h6 : Machine.evalUnOp s4 .getMetadata (.ptr p.ptr, .ptr (.raw .elementCount)) = .ok (v, t) := h5
  obtain ⟨x, g1, h7⟩ := Res.bind_eq_ok.1 h6
  obtain ⟨_, _, h8⟩ := Res.bind_eq_ok.1 h7
  obtain ⟨_, _, g2⟩ := Res.bind_eq_ok.1 h8
  rw [hp] at g1
  cases g1; cases g2; rfl

/-- C67: what a drop calls. For a trait object it is method 0 of the vtable in the metadata of the place, and the argument is a
thin pointer to the place. Otherwise it is the drop glue of the type, and the argument is a pointer to the place. -/
theorem C67_drop_call [LawfulTarget T] [RawRetag M (AllocId × PE) F] (hT : prog.Tame) (hs : Evaluating prog fn s) {e : PlaceExpr} {p ty}
    (he : evalPlace e s = .ok ((p, ty), s1)) {v t} :
    (∀ tr, evalValue (FnCtxt.dropCall (.dyn tr) e).1 s = .ok ((v, t), s2) →
      ∃ q vtable f g, p.ptr.metadata = some (.vtablePointer q) ∧ s1.VTableAt q vtable ∧ vtable.methods.get? 0 = some f ∧
        s1.fnPtrs.get? f = some g ∧ v = .ptr ⟨g, none⟩) ∧
    (∀ tr, evalValue (FnCtxt.dropCall (.dyn tr) e).2 s = .ok ((v, t), s2) → v = .ptr ⟨p.ptr.thin, none⟩) ∧
    (∀ f, evalValue (FnCtxt.dropCall (.glue f) e).1 s = .ok ((v, t), s2) → ∃ g, s.fnPtrs.get? f = some g ∧ v = .ptr ⟨g, none⟩) ∧
    (∀ f, evalValue (FnCtxt.dropCall (.glue f) e).2 s = .ok ((v, t), s2) → v = .ptr p.ptr) := by
  have hs1 : Evaluating prog fn s1 := .place hs he
  have key : ∀ {k v t s2}, evalValue (.addrOf e (.raw k)) s = .ok ((v, t), s2) → v = .ptr p.ptr ∧ t = .ptr (.raw k) ∧
      s2.vtablePtrs = s1.vtablePtrs ∧ s2.prog = s1.prog ∧ s2.fnPtrs = s1.fnPtrs := by
    intro k v t s2 h0
    simp only [evalValue, EM.bind_of_ok he, addrOf] at h0
    simp only [EM.bind_eq_ok] at h0
    obtain ⟨_, s3', h1, q, s3, h2, h3⟩ := h0
    cases h3
    obtain ⟨-, rfl⟩ := EM.read_eq_ok.1 h1
    obtain ⟨f, f', mm, hr⟩ := retagPtrM_eq_ok h2
    rw [RawRetag.raw _ _ _ _ _ _ _ _ _ rfl hr]
    have h4 := h2
    unfold retagPtrM at h4
    obtain ⟨t, fr, rest, fr', s5, t1, fr1, rest1, k1, k2, k3, k4, k5, rfl⟩ := mutateCurFrame_eq_ok.1 h4
    simp only [Res.bind_eq_ok, Prod.exists, Except.ok.injEq, Prod.mk.injEq] at k3
    obtain ⟨_, _, _, _, _, rfl⟩ := k3
    exact ⟨rfl, rfl, rfl, rfl, rfl⟩
  refine ⟨fun tr h => ?_, fun tr h => ?_, fun f h => ?_, fun f h => (key h).1⟩
  · simp only [FnCtxt.dropCall] at h
    rw [evalValue, EM.bind_eq_ok] at h
    obtain ⟨⟨w, wt⟩, s3, h1, h2⟩ := h
    rw [evalValue, EM.bind_eq_ok] at h1
    obtain ⟨⟨x, xt⟩, s4, h3, h4⟩ := h1
    obtain ⟨rfl, rfl, k1, k2, k3⟩ := key h3
    obtain ⟨h4, rfl⟩ := EM.read_eq_ok.1 h4
    obtain ⟨h2, rfl⟩ := EM.read_eq_ok.1 h2
    have h6 : Machine.evalUnOp _ .getMetadata (.ptr p.ptr, .ptr (.raw (.vtablePointer tr))) = .ok (w, wt) := h4
    obtain ⟨m, g1, h7⟩ := Res.bind_eq_ok.1 h6
    obtain ⟨_, _, h8⟩ := Res.bind_eq_ok.1 h7
    obtain ⟨_, _, g2⟩ := Res.bind_eq_ok.1 h8
    cases g2
    have h9 : Machine.evalVTableMethodLookup _ 0 (w, _) = .ok (v, t) := h2
    generalize hm : p.ptr.metadata = md at g1
    cases md with
    | none => cases g1
    | some md =>
      cases md with
      | elementCount c => cases g1
      | vtablePointer q =>
        cases g1
        unfold Machine.evalVTableMethodLookup at h9
        split at h9
        · rename_i x1 ptr x2 hx
          cases hx
          simp only [Res.bind_eq_ok, Except.ok.injEq, Prod.mk.injEq, Map.get_eq_ok] at h9
          obtain ⟨vt, a1, f, a2, g, a3, rfl, rfl⟩ := h9
          have a4 : s1.vtableLookup q = .ok vt := by
            rw [← a1]; unfold Machine.vtableLookup; rw [k1, k2]; rfl
          exact ⟨q, vt, f, g, rfl, (vtableLookup_iff (hs1.vtables hT) _ _).1 a4, a2, by rw [← k3]; exact a3, rfl⟩
        · cases h9
  · simp only [FnCtxt.dropCall] at h
    rw [evalValue, EM.bind_eq_ok] at h
    obtain ⟨⟨w, wt⟩, s3, h1, h2⟩ := h
    obtain ⟨rfl, rfl, -, -, -⟩ := key h1
    obtain ⟨h2, -⟩ := EM.read_eq_ok.1 h2
    cases h2
    rfl
  · simp only [FnCtxt.dropCall, mkFnPtr, evalValue] at h
    obtain ⟨w, s3, h1, h2⟩ := EM.bind_eq_ok.1 h
    obtain ⟨h1, rfl⟩ := EM.read_eq_ok.1 h1
    obtain ⟨g, h3, h4⟩ := Res.bind_eq_ok.1 h1
    cases h4; cases h2
    exact ⟨g, Map.get_eq_ok.1 h3, rfl⟩

/-- C68: `Discriminant` gives the discriminant of the variant that loading the place gives. -/
theorem C68_discriminant [LawfulTarget T] [RawRetag M (AllocId × PE) F] {pl : RsPlace} {d v ty} (hl : (RsOperand.copy pl).run n s = .ok ((.variant d v, ty), s1))
    (hw : ty.checkWf prog = .ok ()) {w t} (h : (RsRvalue.discriminant pl).run n s = .ok ((w, t), s2)) : w = .int d := by
  obtain ⟨o, o1, o2⟩ := RsOperand.run_ok hl
  simp only [RsOperand.translate, Res.bind_eq_ok] at o1
  obtain ⟨e, e1, e2⟩ := o1
  cases e2
  rw [RsRvalue.run_eq (e := .getDiscriminant e) (by simp only [RsRvalue.translate, e1, Res.bind_ok])] at h
  exact C50_get_discriminant o2 hw h

omit [SoftMem M (AllocId × PE) F] B in
/-- C68: `Transmute` gives the value that has the bytes of the operand at the new type. It is undefined behavior if these bytes
are not a valid value. -/
theorem C68_transmute {o : RsOperand} {v : Value (AllocId × PE)} {ty ty' : Ty} {size : Nat} {bytes}
    (ho : o.run n s = .ok ((v, ty), s1)) (h1 : ty.size = .ok size) (h2 : ty'.size = .ok size) (h3 : encode ty v = .ok bytes) :
    (∀ v', decode ty' bytes = .ok v' → (checkValue s1.valEnv ty' v' = .ok () →
        (RsRvalue.transmute ty' o).run n s = .ok ((v', ty'), s1)) ∧
      (checkValue s1.valEnv ty' v' = .error .ub → (RsRvalue.transmute ty' o).run n s = .error .ub)) ∧
    (decode ty' bytes = .error .none → (RsRvalue.transmute ty' o).run n s = .error .ub) := by
  obtain ⟨e, e1, e2⟩ := RsOperand.run_ok ho
  rw [RsRvalue.run_eq (e := mkTransmute e ty') (by simp only [RsRvalue.translate, e1, Res.bind_ok])]
  rw [mkTransmute, evalUnary e2]
  refine ⟨fun v' h4 => ⟨fun h5 => ?_, fun h5 => ?_⟩, fun h4 => ?_⟩
  · rw [evalTransmute h1 h2 h3 h4 h5]; rfl
  · simp [Machine.evalUnOp, Machine.evalCastOp, h1, h2, transmute, h3, h4, h5, rassert, withState, Res.bind_error]; rfl
  · simp [Machine.evalUnOp, Machine.evalCastOp, h1, h2, transmute, h3, h4, rassert, withState, Res.bind_error, ub]; rfl

/-- C68: a wide pointer made from a pointer and its metadata, if that is valid at the type. -/
theorem C68_wide_aggregate [LawfulTarget T] [RawRetag M (AllocId × PE) F] (hT : prog.Tame) (hs : Evaluating prog fn s)
    {o o' : RsOperand} {p : ThinPtr (AllocId × PE)} {pTy mTy : Ty} {k : MetaKind} {m : Option (PtrMeta (AllocId × PE))}
    (hk : MetaShape k m) (hw : (PtrType.raw k).checkWf prog = .ok ())
    (ho : o.run n s = .ok ((.ptr ⟨p, none⟩, pTy), s1)) (ho' : o'.run n s1 = .ok ((MetaValue m, mTy), s2))
    {h : MemHistory PE} (hm : MemReach (F := F) h s2.mem.memory) (hg : Genuine h p) (hp : IntType.usize.Fits p.addr) (x y) :
    (s2.MetaOk k m → (RsRvalue.aggregate (.ptr (.raw k)) x y [o, o']).run n s = .ok ((.ptr ⟨p, m⟩, .ptr (.raw k)), s2)) ∧
    (¬ s2.MetaOk k m → (RsRvalue.aggregate (.ptr (.raw k)) x y [o, o']).run n s = .error .ub) := by
  obtain ⟨e, e1, e2⟩ := RsOperand.run_ok ho
  obtain ⟨e', e1', e2'⟩ := RsOperand.run_ok ho'
  rw [RsRvalue.run_eq (e := .binOp (.constructWidePointer (.raw k)) e e')
    (by simp only [RsRvalue.translate, RsOperand.translateAll, e1, e1', Res.bind_ok, translateAggregate, mkWide]), evalBinary e2 e2']
  obtain ⟨x1, x2⟩ := construct_wide_exact (s := s2) (((hs.run ho).run ho').vtables hT) hm hg hw (m := m) hk pTy mTy
  simp only [IntType.Fits, IntType.usize] at hp
  have hiff : s2.ValidPtr h ⟨p, m⟩ (.raw k) ↔ s2.MetaOk k m :=
    ⟨fun hv => hv.2.2.1, fun hv => ⟨hp.1, by simpa using hp.2, hv, trivial⟩⟩
  rw [hiff] at x1 x2
  constructor
  · intro hv; rw [x1 hv]; rfl
  · intro hv; rw [x2 hv]; rfl

/-! ### Intrinsics that compute a value -/

omit [SoftMem M (AllocId × PE) F] B in
/-- C68: `ctpop` counts the binary digits that are set. -/
theorem C68_ctpop {o : MirOperand} {t : IntType} (ht : t.bits < 2 ^ 32) {i : Int} (ho : o.run s = .ok ((.int i, .int t), s1)) :
    RsIntrinsic.ctpop.run [o] s = .ok ((.int ((List.range t.bits).countP (binDigit i) : Nat), .int ⟨.unsigned, 4⟩), s1) := by
  show evalValue (.unOp (.int .countOnes) o.translate) s = _
  rw [evalUnary ho, C10_countOnes_counts s1 t ht i]
  rfl

omit [SoftMem M (AllocId × PE) F] B in
theorem divExact_eval {t : IntType} (ht : 0 < t.size) {i j : Int} (ty' : Ty) (hi : t.InRange i) (hj : t.InRange j) :
    (∀ q, j ≠ 0 → i = q * j → t.InRange q → s.evalBinOp (.int .divExact) (.int i, .int t) (.int j, ty') = .ok (.int q, .int t)) ∧
    (¬ (∃ q, j ≠ 0 ∧ i = q * j ∧ t.InRange q) → s.evalBinOp (.int .divExact) (.int i, .int t) (.int j, ty') = .error .ub) := by
  obtain ⟨c1, c2⟩ := C11_division s t ht i j ty' hi hj
  constructor
  · intro q hj0 hq hqr
    have hnb : ¬ (j = 0 ∨ (t.signed = .signed ∧ i = t.minVal ∧ j = -1)) := by
      rintro (h0 | ⟨hs, hmin, rfl⟩)
      · exact hj0 h0
      · have : q = -i := by omega
        subst this
        simp only [IntType.InRange, IntType.minVal, IntType.maxVal, hs] at hqr hmin
        omega
    obtain ⟨q', m', hq', -, -, h3⟩ := c2 hnb
    have hu := truncDiv_unique hq' (q' := q) (m' := 0) ⟨by omega, by simpa using hj0, fun _ => le_refl _, fun _ => le_refl _⟩
    obtain ⟨rfl, rfl⟩ := hu
    rw [h3, if_pos rfl]
  · intro hn
    by_cases hb : j = 0 ∨ (t.signed = .signed ∧ i = t.minVal ∧ j = -1)
    · exact (c1 hb).2.2
    · obtain ⟨q', m', hq', -, -, h3⟩ := c2 hb
      rw [h3]
      split
      · rename_i hm0
        subst hm0
        exfalso
        refine hn ⟨q', fun h0 => hb (.inl h0), by have := hq'.1; omega, ?_⟩
        exact (quotient_inRange_iff ht hi hj hq').2 fun h => hb (.inr h)
      · rfl

omit [SoftMem M (AllocId × PE) F] B in
/-- C68: `exact_div` divides. It is undefined behavior to divide by zero, to divide the smallest number by -1, and if there is a
remainder. -/
theorem C68_exact_div {o o' : MirOperand} {t : IntType} (ht : 0 < t.size) {i j : Int} {ty' : Ty}
    (ho : o.run s = .ok ((.int i, .int t), s1)) (ho' : o'.run s1 = .ok ((.int j, ty'), s2)) (hi : t.InRange i) (hj : t.InRange j) :
    (∀ q, j ≠ 0 → i = q * j → t.InRange q → RsIntrinsic.exactDiv.run [o, o'] s = .ok ((.int q, .int t), s2)) ∧
    (¬ (∃ q, j ≠ 0 ∧ i = q * j ∧ t.InRange q) → RsIntrinsic.exactDiv.run [o, o'] s = .error .ub) := by
  have e : RsIntrinsic.exactDiv.run [o, o'] s = withState (s2.evalBinOp (.int .divExact) (.int i, .int t) (.int j, ty')) s2 :=
    evalBinary (show evalValue o.translate s = _ from ho) ho'
  obtain ⟨c1, c2⟩ := divExact_eval (s := s2) ht ty' hi hj
  rw [e]
  exact ⟨fun q h1 h2 h3 => by rw [c1 q h1 h2 h3]; rfl, fun h => by rw [c2 h]; rfl⟩

/-- C68: `size_of_val` and `align_of_val` of a pointer are the size and the alignment of what it points to, as given by the
layout of the type and the metadata of the pointer. -/
theorem C68_size_of_val [LawfulTarget T] [RawRetag M (AllocId × PE) F] (hT : prog.Tame) (hs : Evaluating prog fn s)
    {o : MirOperand} {p : Pointer (AllocId × PE)} {pt : PtrType} (ho : o.run s = .ok ((.ptr p, .ptr pt), s1))
    {h : MemHistory PE} (hm : MemReach (F := F) h s1.mem.memory) (hv : s1.ValidPtr h p pt) {ty : Ty} (hk : pt.metaKind = ty.metaKind)
    {l : LayoutStrategy} (hl : ty.layout = .ok l) {size : Nat} {align : Align}
    (hp : PointeeLayout s1.VTableAt l p.metadata size align) :
    (RsIntrinsic.sizeOfVal ty).run [o] s = .ok ((.int size, .int IntType.usize), s1) ∧
    (RsIntrinsic.alignOfVal ty).run [o] s = .ok ((.int (2 ^ align.log), .int IntType.usize), s1) := by
  have hs1 : Evaluating prog fn s1 := .value hs ho
  have hvt := hs1.vtables hT
  obtain ⟨-, x2, -⟩ := wide_parts_exact hvt hm hv
  obtain ⟨y1, y2⟩ := size_and_align_exact hvt hl (by rw [← hk]; exact hv.2.2.1) pt.metaKind.ty hp
  have e : evalValue (.unOp .getMetadata o.translate) s = .ok ((MetaValue p.metadata, pt.metaKind.ty), s1) := by
    rw [evalUnary (show evalValue o.translate s = _ from ho), x2]; rfl
  constructor
  · show evalValue (.unOp (.computeSize ty) (.unOp .getMetadata o.translate)) s = _
    rw [evalUnary e, y1]; rfl
  · show evalValue (.unOp (.computeAlign ty) (.unOp .getMetadata o.translate)) s = _
    rw [evalUnary e, y2]; rfl

/-- C68: `arith_offset` moves a pointer by a number of elements, wrapping around at the end of the address space, and keeps its
provenance, if the distance in bytes fits the type of the number. Rust says that this always wraps. -/
theorem C68_arith_offset_partial [LawfulTarget T] {l r : MirOperand} {p : ThinPtr (AllocId × PE)} {pTy : Ty} {t : IntType}
    (ht : 0 < t.size) {d : Int} {size : Nat} (hl : l.run s = .ok ((.ptr ⟨p, none⟩, pTy), s1))
    (hr : r.run s1 = .ok ((.int d, .int t), s2)) (hd : t.InRange (d * size)) :
    ∃ a, (RsIntrinsic.arithOffset size (.int t)).run [l, r] s = .ok ((.ptr ⟨⟨a, p.prov⟩, none⟩, pTy), s2) ∧
      IntType.usize.IsWrap (p.addr + d * size) a := by
  obtain ⟨-, -, -, -, u5, -⟩ := C11_unchecked_ub_iff_overflow s2 t ht d size (.int t)
  obtain ⟨a, h1, h2⟩ := C44_offset_wraps (s := s2) p (d * size) pTy (.int t)
  refine ⟨a, ?_, h2⟩
  have hc : evalValue (.constant (.int size) (.int t)) s2 = .ok ((.int (size : Int), .int t), s2) := rfl
  have hmul : evalValue (.binOp (.int .mulUnchecked) r.translate (.constant (.int size) (.int t))) s1 =
      .ok ((.int (d * size), .int t), s2) := by
    rw [evalBinary (show evalValue r.translate s1 = _ from hr) hc, u5 hd]; rfl
  show evalValue (.binOp (.ptrOffset false) l.translate _) s = _
  rw [evalBinary (show evalValue l.translate s = _ from hl) hmul, h1]; rfl

omit [SoftMem M (AllocId × PE) F] B in
/-- C68: what is missing in `C68_arith_offset_partial`: if the distance in bytes does not fit, the translation is undefined
behavior where Rust wraps around. -/
theorem C68_arith_offset_overflow {l r : MirOperand} {x} {t : IntType} (ht : 0 < t.size) {d : Int} {size : Nat}
    (hl : l.run s = .ok (x, s1)) (hr : r.run s1 = .ok ((.int d, .int t), s2)) (hd : ¬ t.InRange (d * size)) :
    (RsIntrinsic.arithOffset size (.int t)).run [l, r] s = .error .ub := by
  obtain ⟨-, -, -, -, -, u6⟩ := C11_unchecked_ub_iff_overflow s2 t ht d size (.int t)
  have hc : evalValue (.constant (.int size) (.int t)) s2 = .ok ((.int (size : Int), .int t), s2) := rfl
  have hmul : evalValue (.binOp (.int .mulUnchecked) r.translate (.constant (.int size) (.int t))) s1 = .error .ub := by
    rw [evalBinary (show evalValue r.translate s1 = _ from hr) hc, u6 hd]; rfl
  show evalValue (.binOp (.ptrOffset false) l.translate _) s = _
  rw [evalValue, EM.bind_of_ok (show evalValue l.translate s = _ from hl), EM.bind_of_error hmul]

/-- C68: `ptr_offset_from` is the number of elements between two pointers at a distance that fits an `isize`. It is undefined
behavior if the distance is not a multiple of the size of an element; for `ptr_offset_from_unsigned` also if it is negative.
Missing: Rust says that it is also undefined behavior if the two pointers do not belong to the same allocation. The translation
does not look at the provenance of the pointers. -/
theorem C68_ptr_offset_from_partial [LawfulTarget T] {l r : MirOperand} {p q : ThinPtr (AllocId × PE)} {pTy qTy : Ty}
    {size : Nat} (hsz : isize.InRange size) (hl : l.run s = .ok ((.ptr ⟨p, none⟩, pTy), s1))
    (hr : r.run s1 = .ok ((.ptr ⟨q, none⟩, qTy), s2)) (hd : isize.InRange (p.addr - q.addr)) :
    (∀ d, size ≠ 0 → p.addr - q.addr = d * size →
      (RsIntrinsic.ptrOffsetFrom false size).run [l, r] s = .ok ((.int d, .int isize), s2) ∧
      (0 ≤ d → (RsIntrinsic.ptrOffsetFrom true size).run [l, r] s = .ok ((.int d, .int IntType.usize), s2)) ∧
      (d < 0 → (RsIntrinsic.ptrOffsetFrom true size).run [l, r] s = .error .ub)) ∧
    (¬ (∃ d, size ≠ 0 ∧ p.addr - q.addr = d * size) → ∀ b, (RsIntrinsic.ptrOffsetFrom b size).run [l, r] s = .error .ub) := by
  have hps : 0 < isize.size := isPowerOfTwo_pos (LawfulTarget.ptr_pow (T := T))
  have hdist : ∀ b : Bool, evalValue (.binOp (.ptrOffsetFrom false b) l.translate r.translate) s =
      if b = true ∧ p.addr - q.addr < 0 then .error .ub else .ok ((.int (p.addr - q.addr), .int isize), s2) := by
    intro b
    obtain ⟨x, h1, h2⟩ := C44_distance_wraps (s := s2) p q b pTy qTy
    obtain rfl : x = p.addr - q.addr := isWrap_unique hps h1 (C10_wrapping_in_range hd)
    rw [evalBinary (show evalValue l.translate s = _ from hl) hr, h2]
    split <;> rfl
  have hc : evalValue (.constant (.int size) (.int isizeTy)) s2 = .ok ((.int (size : Int), .int isizeTy), s2) := rfl
  obtain ⟨v1, v2⟩ := divExact_eval (s := s2) hps (.int isizeTy) hd hsz
  have key : ∀ b : Bool, ¬ (b = true ∧ p.addr - q.addr < 0) →
      evalValue (.binOp (.int .divExact) (.binOp (.ptrOffsetFrom false b) l.translate r.translate) (.constant (.int size) (.int isizeTy))) s =
      withState (s2.evalBinOp (.int .divExact) (.int (p.addr - q.addr), .int isize) (.int size, .int isizeTy)) s2 := by
    intro b hb
    exact evalBinary (by rw [hdist b, if_neg hb]) hc
  have hub : ∀ b : Bool, evalValue (.binOp (.int .divExact) (.binOp (.ptrOffsetFrom false b) l.translate r.translate) (.constant (.int size) (.int isizeTy))) s =
      .error .ub → (RsIntrinsic.ptrOffsetFrom b size).run [l, r] s = .error .ub := by
    intro b hb
    cases b with
    | false => exact hb
    | true =>
      show evalValue (.unOp (.cast (.intToInt usizeTy)) _) s = _
      rw [evalValue, EM.bind_of_error hb]
  have hneg : p.addr - q.addr < 0 → (RsIntrinsic.ptrOffsetFrom true size).run [l, r] s = .error .ub := by
    intro hlt
    refine hub true ?_
    rw [evalValue, EM.bind_of_error (by rw [hdist true, if_pos ⟨rfl, hlt⟩])]
  constructor
  · intro d h0 hdd
    have hs1 : (1 : Int) ≤ size := by omega
    have hdr : isize.InRange d := by
      simp only [IntType.InRange, IntType.minVal, IntType.maxVal] at hd ⊢
      rw [hdd] at hd
      rcases Int.le_total 0 d with hp | hp
      · have : d ≤ d * size := le_mul_of_one_le_right hp hs1
        omega
      · have : d * size ≤ d := by nlinarith
        omega
    have hok := v1 d (by omega) hdd hdr
    refine ⟨?_, fun h => ?_, fun h => hneg (by rw [hdd]; nlinarith)⟩
    · have := key false (by simp)
      rw [hok] at this
      exact this
    · have hnn : ¬ (true = true ∧ p.addr - q.addr < 0) := by
        rintro ⟨-, h'⟩
        rw [hdd] at h'
        have : 0 ≤ d * size := by positivity
        omega
      show evalValue (.unOp (.cast (.intToInt usizeTy)) _) s = _
      rw [evalUnary (by rw [key true hnn, hok]; rfl)]
      show Except.ok ((Value.int (IntType.usize.bringInBounds d), _), _) = _
      have hu : IntType.usize.InRange d := by
        have hpow : (2 : Int) ^ (8 * T.ptrSize) = 2 * 2 ^ (8 * T.ptrSize - 1) := by
          rw [← pow_succ']; congr 1
          have : 0 < T.ptrSize := hps
          omega
        simp only [IntType.InRange, IntType.minVal, IntType.maxVal, IntType.bits, IntType.usize] at hdr ⊢
        omega
      rw [bring_of_inRange (t := IntType.usize) hps hu]
      rfl
  · intro hn b
    by_cases hb : b = true ∧ p.addr - q.addr < 0
    · obtain ⟨rfl, hlt⟩ := hb
      exact hneg hlt
    · refine hub b ?_
      rw [key b hb, v2 (fun ⟨x, hx1, hx2, _⟩ => hn ⟨x, by omega, hx2⟩)]; rfl

end
end MiniRust

namespace MiniRust.Ex
attribute [local instance] x86_64

/-- The value, if there is one. -/
def valOf {P M : Type} (r : Res ((Value P × Ty) × M)) : Option (Value P) := r.toOption.map (·.1.1)
def i8c (i : Int) : RsOperand := .const (.constant (.int i) (.int i8))
def uszc (i : Int) : RsOperand := .const (.constant (.int i) (.int IntType.usize))
def boolc (b : Bool) : RsOperand := .const (.constant (.bool b) .bool)
/-- A pointer to byte `off` of global `g`. -/
def glob (g : Nat) (off : Nat) : RsOperand := .const (.constant (.globalPointer ⟨g, off⟩) rawTy)
def mglob (g : Nat) (off : Nat) : MirOperand := .const (.constant (.globalPointer ⟨g, off⟩) rawTy)
def musz (i : Int) : MirOperand := .const (.constant (.int i) (.int isize))

-- Integers, overflow, undefined behavior, booleans, comparisons, casts, aggregates.
example : ∃ s : BMach, Reachable staticsProg s ∧
    valOf ((RsRvalue.binary .add (.int i8) (.int i8) 0 (i8c 100) (i8c 100)).run 1 s) = some (.int (-56)) ∧
    errOf ((RsRvalue.binary .addUnchecked (.int i8) (.int i8) 0 (i8c 100) (i8c 100)).run 1 s) = some .ub ∧
    valOf ((RsRvalue.binary .div (.int i8) (.int i8) 0 (i8c (-7)) (i8c 2)).run 1 s) = some (.int (-3)) ∧
    errOf ((RsRvalue.binary .div (.int i8) (.int i8) 0 (i8c (-128)) (i8c (-1))).run 1 s) = some .ub ∧
    valOf ((RsRvalue.binary .shr (.int i8) (.int i8) 0 (i8c (-7)) (i8c 9)).run 1 s) = some (.int (-4)) ∧
    valOf ((RsRvalue.checkedBinary .mul (i8c 100) (i8c 2)).run 1 s) = some (.tuple [.int (-56), .bool true]) ∧
    valOf ((RsRvalue.unary .neg (.int i8) (i8c (-128))).run 1 s) = some (.int (-128)) ∧
    valOf ((RsRvalue.binary .bitXor .bool .bool 0 (boolc true) (boolc true)).run 1 s) = some (.bool false) ∧
    valOf ((RsRvalue.unary .not (.int i8) (i8c 5)).run 1 s) = some (.int (-6)) :=
  exists_reachable staticsRun 0 _ (by decide +kernel)

example : ∃ s : BMach, Reachable staticsProg s ∧
    valOf ((RsRvalue.unary .not .bool (boolc true)).run 1 s) = some (.bool false) ∧
    valOf ((RsRvalue.binary .le (.int i8) (.int i8) 0 (i8c (-1)) (i8c 2)).run 1 s) = some (.bool true) ∧
    valOf ((RsRvalue.binary .cmp (.int i8) (.int i8) 0 (i8c (-1)) (i8c 2)).run 1 s) = some (.variant (-1) (.tuple [])) ∧
    valOf ((RsRvalue.intToInt (.int i8) (.int IntType.usize) (i8c (-1))).run 1 s) = some (.int (2 ^ 64 - 1)) ∧
    valOf ((RsRvalue.intToInt .bool (.int i8) (boolc true)).run 1 s) = some (.int 1) ∧
    valOf ((RsRvalue.aggregate (.array (.int i8) 2) none none [i8c 1, i8c 2]).run 1 s) = some (.tuple [.int 1, .int 2]) ∧
    valOf ((RsRvalue.repeat (i8c 7) (.int i8) 3).run 1 s) = some (.tuple [.int 7, .int 7, .int 7]) ∧
    valOf ((RsRvalue.transmute (.int i8) (.const (.constant (.int 255) (.int ⟨.unsigned, 1⟩)))).run 1 s) = some (.int (-1)) ∧
    errOf ((RsRvalue.transmute .bool (i8c 2)).run 1 s) = some .ub :=
  exists_reachable staticsRun 0 _ (by decide +kernel)

-- Pointers: moving a pointer in an allocation of 8 bytes at 16, casts, unsizing, metadata.
example : ∃ s : BMach, Reachable staticsProg s ∧
    valOf ((RsRvalue.binary .offset rawTy (.int IntType.usize) 4 (glob 0 0) (uszc 2)).run 1 s) = some (thinAt 24 (some (0, ()))) ∧
    errOf ((RsRvalue.binary .offset rawTy (.int IntType.usize) 4 (glob 0 0) (uszc 3)).run 1 s) = some .ub ∧
    errOf ((RsRvalue.binary .offset rawTy (.int IntType.usize) 4 (glob 0 0) (uszc (2 ^ 62))).run 1 s) = some .ub ∧
    valOf ((RsRvalue.unsize (.arrayToSlice true 2) (.ptr (.raw .elementCount)) (glob 0 0)).run 1 s) =
      some (.ptr ⟨⟨16, some (0, ())⟩, some (.elementCount 2)⟩) ∧
    valOf ((RsRvalue.unsize (.toDyn 0 0) (.ptr (.raw (.vtablePointer 0))) (glob 0 0)).run 1 s) =
      some (.ptr ⟨⟨16, some (0, ())⟩, some (.vtablePointer ⟨58, some (4, ())⟩)⟩) ∧
    valOf ((RsRvalue.aggregate (.ptr (.raw .elementCount)) none none [glob 0 0, uszc 5]).run 1 s) =
      some (.ptr ⟨⟨16, some (0, ())⟩, some (.elementCount 5)⟩) ∧
    errOf ((RsRvalue.aggregate (.ptr (.raw .elementCount)) none none [glob 0 0, uszc (-1)]).run 1 s) = some .ub ∧
    valOf ((RsRvalue.ptrToPtr rawTy rawTy (glob 0 4)).run 1 s) = some (thinAt 20 (some (0, ()))) :=
  exists_reachable staticsRun 0 _ (by decide +kernel)

example : staticsProg.Tame := Program.tameB_eq (by decide +kernel)
-- Dropping a trait object in global 0 with vtable 0, whose method 0 is function 1 at address 57; and with drop glue.
example : ∃ (s : BMach) (fn : Function), Evaluating staticsProg fn s ∧ fn.locals = [(0, unitTy)] ∧
    (let e : PlaceExpr := .deref (.binOp (.constructWidePointer (.raw (.vtablePointer 0))) (.constant (.globalPointer ⟨0, 0⟩) rawTy)
      (.constant (.vtablePointer 0) (.ptr (.vtablePtr 0)))) (.traitObject 0)
    errOf (evalPlace e s) = none ∧
    valOf (evalValue (FnCtxt.dropCall (.dyn 0) e).1 s) = some (thinAt 57 (some (3, ()))) ∧
    valOf (evalValue (FnCtxt.dropCall (.dyn 0) e).2 s) = some (thinAt 16 (some (0, ()))) ∧
    valOf (evalValue (FnCtxt.dropCall (.glue 1) (.local 0)).1 s) = some (thinAt 57 (some (3, ())))) :=
  exists_evaluating staticsRun 0 _ _ (by decide +kernel)

-- Intrinsics: counting bits; exact division; sizes; distances, also between two allocations; moving by too many bytes.
example : ∃ s : BMach, Reachable staticsProg s ∧
    valOf (RsIntrinsic.ctpop.run [.const (.constant (.int (-1)) (.int i8))] s) = some (.int 8) ∧
    valOf (RsIntrinsic.exactDiv.run [musz (-12), musz 4] s) = some (.int (-3)) ∧
    errOf (RsIntrinsic.exactDiv.run [musz (-13), musz 4] s) = some .ub ∧
    valOf ((RsIntrinsic.sizeOfVal (.int i8)).run [mglob 0 0] s) = some (.int 1) ∧
    valOf ((RsIntrinsic.ptrOffsetFrom true 4).run [mglob 0 8, mglob 0 0] s) = some (.int 2) ∧
    errOf ((RsIntrinsic.ptrOffsetFrom true 4).run [mglob 0 0, mglob 0 8] s) = some .ub ∧
    valOf ((RsIntrinsic.ptrOffsetFrom false 4).run [mglob 1 0, mglob 0 0] s) = some (.int 4) ∧
    valOf ((RsIntrinsic.arithOffset 4 (.int isize)).run [mglob 0 0, musz (-5)] s) = some (thinAt (2 ^ 64 - 4) (some (0, ()))) ∧
    errOf ((RsIntrinsic.arithOffset 4 (.int isize)).run [mglob 0 0, musz (2 ^ 61)] s) = some .ub :=
  exists_reachable staticsRun 0 _ (by decide +kernel)

/-- C68: undefined behavior that the translation of `ptr_offset_from` misses: the pointers belong to different
allocations, in a state that a well-formed program reaches. -/
theorem C68_ptr_offset_from_missed_ub : ∃ s : BMach, Reachable staticsProg s ∧
    valOf ((mglob 1 0).run s) = some (thinAt 32 (some (1, ()))) ∧ valOf ((mglob 0 0).run s) = some (thinAt 16 (some (0, ()))) ∧
    valOf ((RsIntrinsic.ptrOffsetFrom false 4).run [mglob 1 0, mglob 0 0] s) = some (.int 4) :=
  exists_reachable staticsRun 0 _ (by decide +kernel)

/-- C68: undefined behavior that the translation of `Len` and of `[x; 0]` misses: neither the place nor the operand is
evaluated. Here the place is a local without storage. -/
theorem C68_missed_ub : ∃ (s : BMach) (fn : Function), Evaluating loopProg fn s ∧
    fn.locals = [(0, unitTy), (1, arrTy), (2, pairTy), (3, .ptr refU32)] ∧
    (errOf ((RsOperand.copy ⟨1, []⟩).run 4 s) = some .ub ∧ errOf ((RsPlace.mk 1 []).run 4 s) = some .ub ∧
      valOf ((RsRvalue.len arrTy ⟨1, []⟩).run 4 s) = some (.int 4) ∧
      valOf ((RsRvalue.repeat (.copy ⟨1, []⟩) arrTy 0).run 4 s) = some (.tuple [])) :=
  exists_evaluating loopRun 0 _ _ (by decide +kernel)

-- Places while `loopProg` runs: a local, a field, an element, the value a pointer to an element points to.
example : ∃ (s : BMach) (fn : Function), Evaluating loopProg fn s ∧
    fn.locals = [(0, unitTy), (1, arrTy), (2, pairTy), (3, .ptr refU32)] ∧
    (errOf ((RsPlace.mk 2 []).run 4 s) = none ∧ errOf ((RsPlace.mk 2 [.field 1]).run 4 s) = none ∧
      errOf ((RsOperand.copy ⟨2, [.field 1]⟩).run 4 s) = none ∧
      errOf ((RsRvalue.addressOf .none ⟨2, [.field 1]⟩).run 4 s) = none) :=
  exists_evaluating loopRun 6 _ _ (by decide +kernel)

end MiniRust.Ex
