import Verif.Spec.Rvalue
import Verif.Lemmas.Eval
import Verif.Lemmas.Operators
/-
Lemmas for C68: evaluating translated operands, transmuting single bytes.
-/
set_option linter.unusedSectionVars false
namespace MiniRust

section
variable {M P F : Type} [Memory M P F] [DecidableEq P] [T : Target] {s s1 s2 : Machine M P F} {n : Nat}

theorem RsOperand.run_ok {o : RsOperand} {r} (h : o.run n s = .ok r) : ∃ e, o.translate n = .ok e ∧ evalValue e s = .ok r := by
  unfold RsOperand.run at h
  split at h
  · next e he => exact ⟨e, he, h⟩
  · cases h

theorem RsPlace.run_ok {o : RsPlace} {r} (h : o.run n s = .ok r) : ∃ e, o.translate n = .ok e ∧ evalPlace e s = .ok r := by
  unfold RsPlace.run at h
  split at h
  · next e he => exact ⟨e, he, h⟩
  · cases h

theorem RsRvalue.run_eq {rv : RsRvalue} {e} (h : rv.translate n = .ok e) : rv.run n s = evalValue e s := by
  simp only [RsRvalue.run, h]

theorem evalBinary {l r : ValueExpr} {a b : Value P × Ty} {op : BinOp} (hl : evalValue l s = .ok (a, s1))
    (hr : evalValue r s1 = .ok (b, s2)) : evalValue (.binOp op l r) s = withState (s2.evalBinOp op a b) s2 := by
  simp only [evalValue, EM.bind_of_ok hl, EM.bind_of_ok hr, withState]
  cases h : s2.evalBinOp op a b with
  | ok x => exact EM.read_of_ok h
  | error e => exact EM.read_of_error h

theorem evalUnary {v : ValueExpr} {a : Value P × Ty} {op : UnOp} (hv : evalValue v s = .ok (a, s1)) :
    evalValue (.unOp op v) s = withState (s1.evalUnOp op a) s1 := by
  simp only [evalValue, EM.bind_of_ok hv, withState]
  cases h : s1.evalUnOp op a with
  | ok x => exact EM.read_of_ok h
  | error e => exact EM.read_of_error h

theorem RsRvalue.binary_run {op : RsBinOp} {lTy rTy size l r} {a b : Value P × Ty} {el er e}
    (hl : RsOperand.translate n l = .ok el) (hr : RsOperand.translate n r = .ok er)
    (h : op.translate lTy rTy size el er = .ok e) :
    (RsRvalue.binary op lTy rTy size l r).run n s = evalValue e s := by
  apply RsRvalue.run_eq
  simp only [RsRvalue.translate, hl, hr, Res.bind_ok, h]

/-! ### Numbers -/

omit [Memory M P F] [DecidableEq P] T in
theorem binDigit_mod (x : Int) (N n : Nat) : binDigit (x % 2 ^ N) n = (decide (n < N) && binDigit x n) := by
  induction N generalizing x n with
  | zero => simp [binDigit_zero_left, Int.emod_one]
  | succ N ih =>
    have h2 : x % 2 ^ (N + 1) / 2 = x / 2 % 2 ^ N := by
      have hp : (0 : Int) < 2 ^ N := by positivity
      rw [pow_succ]
      generalize (2 : Int) ^ N = p at *
      have e1 := Int.emod_add_mul_ediv x 2
      have e2 := Int.emod_add_mul_ediv (x / 2) p
      have e3 := Int.emod_nonneg (x / 2) (Int.ne_of_gt hp)
      have e4 := Int.emod_lt_of_pos (x / 2) hp
      have : x % (p * 2) = 2 * (x / 2 % p) + x % 2 := by
        rw [Int.emod_eq_iff (by omega)]
        refine ⟨by omega, by rw [Int.natAbs_of_nonneg (by omega)]; omega, -(x / 2 / p), ?_⟩
        linear_combination 2 * e2 + e1
      omega
    cases n with
    | zero =>
      rw [binDigit_zero, binDigit_zero]
      have : x % 2 ^ (N + 1) % 2 = x % 2 := Int.emod_emod_of_dvd _ ⟨2 ^ N, by rw [pow_succ, mul_comm]⟩
      simp [this]
    | succ n =>
      rw [binDigit_succ, h2, ih, binDigit_succ]
      simp

omit [Memory M P F] [DecidableEq P] T in
theorem eq_of_digits {t : IntType} (ht : 0 < t.size) {x y : Int} (hx : t.InRange x) (hy : t.InRange y)
    (h : ∀ n < t.bits, binDigit x n = binDigit y n) : x = y := by
  have hm : x % 2 ^ t.bits = y % 2 ^ t.bits := by
    apply binDigit_ext
    intro n
    rw [binDigit_mod, binDigit_mod]
    by_cases hn : n < t.bits
    · rw [h n hn]
    · simp [hn]
  have h1 := Int.emod_add_mul_ediv x (2 ^ t.bits)
  have h2 := Int.emod_add_mul_ediv y (2 ^ t.bits)
  refine isWrap_unique ht (x := y) ⟨hx, x / 2 ^ t.bits - y / 2 ^ t.bits, ?_⟩ ⟨hy, 0, by ring⟩
  rw [hm] at h1
  linear_combination h2 - h1

/-! ### Transmuting bytes -/

theorem encode_byte (e : Endianness) : e.encode .unsigned 1 0 = some [0] ∧ e.encode .unsigned 1 1 = some [1] ∧
    e.encode .signed 1 (-1) = some [255] ∧ e.encode .signed 1 0 = some [0] ∧ e.encode .signed 1 1 = some [1] := by
  cases e <;> decide +kernel
theorem decode_byte (e : Endianness) : e.decode .unsigned [0] = 0 ∧ e.decode .unsigned [1] = 1 ∧
    e.decode .signed [255] = -1 ∧ e.decode .signed [0] = 0 ∧ e.decode .signed [1] = 1 := by
  cases e <;> decide +kernel
theorem byte_size (sg : Signedness) : (Ty.int ⟨sg, 1⟩).size = .ok 1 := by
  simp [Ty.size, Ty.layout, LayoutStrategy.expectSize, IntType.align]
  rfl

theorem evalTransmute {v v' : Value P} {ty ty' : Ty} {n : Nat} {bytes} (h1 : ty.size = .ok n) (h2 : ty'.size = .ok n)
    (h3 : encode ty v = .ok bytes) (h4 : decode ty' bytes = .ok v') (h5 : checkValue s.valEnv ty' v' = .ok ()) :
    s.evalUnOp (.cast (.transmute ty')) (v, ty) = .ok (v', ty') := by
  simp [Machine.evalUnOp, Machine.evalCastOp, h1, h2, transmute, h3, h4, h5, rassert]

theorem decodeInt_byte {sg : Signedness} {b : UInt8} {x : Int} (h : T.endianness.decode sg [b] = x) :
    decodeInt (P := P) ⟨sg, 1⟩ [.init b none] = .ok x := by
  simp only [decodeInt, bytesData, AByte.data, Res.bind_ok, h, rassert]
  rfl

theorem encodeInt_byte {sg : Signedness} {b : UInt8} {x : Int} (h : T.endianness.encode sg 1 x = some [b]) :
    encodeInt (P := P) ⟨sg, 1⟩ x = .ok [.init b none] := by
  simp only [encodeInt, h, unwrap_some, Res.bind_ok, List.map]

theorem transmute_bool_u8 (b : Bool) :
    s.evalUnOp (.cast (.transmute u8Ty)) (.bool b, .bool) = .ok (.int (if b then 1 else 0), u8Ty) := by
  obtain ⟨d1, d2, -⟩ := decode_byte T.endianness
  have h8 : u8Ty.size = .ok 1 := byte_size _
  refine evalTransmute (n := 1) rfl h8 rfl (bytes := encodeBool b) ?_ ?_
  · cases b
    · simp only [u8Ty, decode, encodeBool]
      rw [if_neg Bool.false_ne_true, decodeInt_byte d1]; rfl
    · simp only [u8Ty, decode, encodeBool]
      rw [if_pos trivial, decodeInt_byte d2]; rfl
  · cases b <;> rfl

theorem transmute_u8_bool (b : Bool) :
    s.evalUnOp (.cast (.transmute .bool)) (.int (if b then 1 else 0), u8Ty) = .ok (.bool b, .bool) := by
  obtain ⟨d1, d2, -⟩ := encode_byte T.endianness
  have h8 : u8Ty.size = .ok 1 := byte_size _
  refine evalTransmute (n := 1) h8 rfl (bytes := encodeBool b) ?_ ?_ ?_
  · cases b
    · simp only [u8Ty, encode, encodeBool]
      exact encodeInt_byte d1
    · simp only [u8Ty, encode, encodeBool]
      exact encodeInt_byte d2
  · cases b <;> rfl
  · cases b <;> rfl

/-- The translation of the type `Ordering`. -/
def ordTy : Ty := directEnum 0 ⟨.signed, 1⟩ ⟨.signed, 1⟩
  [(-1, tupleTy [] 1 Align.one), (0, tupleTy [] 1 Align.one), (1, tupleTy [] 1 Align.one)] 1 Align.one
theorem orderingTy_eq : orderingTy = .ok ordTy := by rfl

theorem transmute_ord {i : Int} (hi : i = -1 ∨ i = 0 ∨ i = 1)  :
    s.evalUnOp (.cast (.transmute ordTy)) (.int i, .int ⟨.signed, 1⟩) = .ok (.variant i (.tuple []), ordTy) := by
  obtain ⟨-, -, e1, e2, e3⟩ := encode_byte T.endianness
  obtain ⟨-, -, d1, d2, d3⟩ := decode_byte T.endianness
  have hd : ∀ (b : UInt8) (x : Int), T.endianness.decode .signed [b] = x → (x = -1 ∨ x = 0 ∨ x = 1) →
      decode (P := P) ordTy [.init b none] = .ok (.variant x (.tuple [])) := by
    intro b x hb hx
    have ha : sliceAccessor [AByte.init (P := P) b none] () 0 1 = .ok ([.init b none], ()) := rfl
    have hdd : decodeDiscriminant (sliceAccessor [AByte.init (P := P) b none])
        (directDiscriminator 0 ⟨.signed, 1⟩ [(-1, tupleTy [] 1 Align.one), (0, tupleTy [] 1 Align.one), (1, tupleTy [] 1 Align.one)]) () =
        .ok (some x, ()) := by
      simp only [directDiscriminator, decodeDiscriminant, ha, decodeInt_byte hb]
      rcases hx with rfl | rfl | rfl <;> rfl
    simp only [ordTy, directEnum, decode, rassert, hdd]
    rcases hx with rfl | rfl | rfl <;> rfl
  have h8 : Ty.size ordTy = .ok 1 := by rfl
  rcases hi with rfl | rfl | rfl
  · exact evalTransmute (n := 1) (byte_size _) h8 (bytes := [.init 255 none]) (encodeInt_byte e1) (hd _ _ d1 (by simp)) rfl
  · exact evalTransmute (n := 1) (byte_size _) h8 (bytes := [.init 0 none]) (encodeInt_byte e2) (hd _ _ d2 (by simp)) rfl
  · exact evalTransmute (n := 1) (byte_size _) h8 (bytes := [.init 1 none]) (encodeInt_byte e3) (hd _ _ d3 (by simp)) rfl

end
theorem RsProj.fold_append (n : Nat) (q : RsProj) : ∀ (ps : List RsProj) (e : PlaceExpr),
    RsProj.fold n e (ps ++ [q]) = (RsProj.fold n e ps >>= q.translate n)
  | [], e => by
    simp only [List.nil_append, RsProj.fold, Res.bind_ok]
    cases q.translate n e <;> rfl
  | p :: ps, e => by
    simp only [List.cons_append, RsProj.fold]
    cases p.translate n e with
    | error => rfl
    | ok e' => simpa only [Res.bind_ok] using RsProj.fold_append n q ps e'

theorem RsPlace.translate_proj {n : Nat} {p : RsPlace} {q : RsProj} {e e' : PlaceExpr} (h : p.translate n = .ok e)
    (hq : q.translate n e = .ok e') : (p.proj q).translate n = .ok e' := by
  simp only [RsPlace.translate, Res.bind_eq_ok] at h ⊢
  obtain ⟨l, h1, h2⟩ := h
  exact ⟨l, h1, by rw [RsPlace.proj, RsProj.fold_append, h2, Res.bind_ok, hq]⟩

theorem RsPlace.run_eq {M P F : Type} [Memory M P F] [DecidableEq P] [T : Target] {s : Machine M P F} {n : Nat} {p : RsPlace}
    {e : PlaceExpr} (h : p.translate n = .ok e) : p.run n s = evalPlace e s := by
  simp only [RsPlace.run, h]

end MiniRust
