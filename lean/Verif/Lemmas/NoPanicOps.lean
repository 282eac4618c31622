import Verif.Lemmas.NoPanicMem
import Verif.Lemmas.Operators
import Verif.Lemmas.Abi
/-
Constants and operators on valid values: they do not panic and give valid values.
-/
set_option linter.unusedSectionVars false
namespace MiniRust
variable {M PE AE F : Type} [T : Target] [DecidableEq PE] [Memory M (AllocId × PE) F] [LawfulTarget T]
  [SoftMem M (AllocId × PE) F] [RawRetag M (AllocId × PE) F] [B : BasicBacked M PE AE F]
variable {s s' : Machine M (AllocId × PE) F} {prog : Program} {fn : Function}

section
variable {P : Type} {env : ValEnv P}
theorem checkValue_int {t : IntType} {v : Value P} : checkValue env (.int t) v = .ok () ↔ ∃ i, v = .int i ∧ t.canRepresent i = true := by
  cases v <;> simp [checkValue, ensureUb_eq_ok]
theorem checkValue_bool {v : Value P} : checkValue env .bool v = .ok () ↔ ∃ b, v = .bool b := by
  cases v <;> simp [checkValue]
theorem checkValue_ptr {p : PtrType} {v : Value P} (h : checkValue env (.ptr p) v = .ok ()) : ∃ ptr, v = .ptr ptr := by
  cases v <;> simp [checkValue] at h ⊢
theorem checkValue_unit {v : Value P} : checkValue env unitTy v = .ok () ↔ v = .tuple [] := by
  cases v with
  | tuple vs =>
    simp only [checkValue, unitTy, Res.bind_eq_ok, rassert_eq_ok, ensureUb_eq_ok]
    cases vs <;> simp [checkFields]
  | _ => simp [checkValue, unitTy]
end

theorem NpR.mapGet {K V : Type} [DecidableEq K] {m : Map K V} {k : K} {v : V} {pl : Prop} {Q : V → Prop} (h : m.get? k = some v)
    (hq : Q v) : NpR pl (m.get k) Q := .ofOk (by simp [Map.get, h, unwrap]) hq

theorem isOk_of_ok {α : Type} {r : Res α} {a : α} (h : r = .ok a) : isOk r = .ok true := by subst h; rfl

theorem checkVTables_mem : ∀ {vs : List VTable} {v}, checkVTables prog vs = .ok () → v ∈ vs →
    ∃ ms, prog.traits.get? v.traitName = some ms ∧ ∀ m ∈ ms, ∃ f, v.methods.get? m = some f
  | [], v, _, h => by cases h
  | x :: vs, v, hc, h => by
    simp only [checkVTables, Res.bind_eq_ok] at hc
    obtain ⟨_, _, _, _, hc⟩ := hc
    cases ht : prog.traits.get? x.traitName with
    | none => rw [ht] at hc; cases hc
    | some ms =>
      rw [ht] at hc
      simp only [Res.bind_eq_ok, ensureWf_eq_ok, Bool.and_eq_true, List.all_eq_true, decide_eq_true_eq] at hc
      obtain ⟨_, ⟨_, h1⟩, h2⟩ := hc
      rcases List.mem_cons.1 h with rfl | h
      · refine ⟨ms, ht, fun m hm => ?_⟩
        obtain ⟨p, hp, rfl⟩ := List.mem_map.1 (h1 m hm)
        exact Map.get?_isSome_of_key (List.mem_map_of_mem hp)
      · exact checkVTables_mem h2 h

theorem Program.vtable_methods (h : prog.checkWf = .ok ()) {x v} (hv : prog.vtables.get? x = some v) :
    ∃ ms, prog.traits.get? v.traitName = some ms ∧ ∀ m ∈ ms, ∃ f, v.methods.get? m = some f := by
  simp only [Program.checkWf, Res.bind_eq_ok] at h
  obtain ⟨_, h, _⟩ := h
  exact checkVTables_mem h (Map.mem_values hv)

theorem inSpace_offset {p : ThinPtr (AllocId × PE)} {d : Int} : InSpace (p.wrappingOffset d) :=
  inBounds_unsigned_iff.1 (bringInBounds_inBounds _ _ _)

include B

/-- The type and validity of a value. -/
def Typed (prog : Program) (s : Machine M (AllocId × PE) F) (ty : Ty) (r : Value (AllocId × PE) × Ty) : Prop :=
  r.2 = ty ∧ ty.checkWf prog = .ok () ∧ checkValue s.valEnv ty r.1 = .ok ()

theorem ValueOk.typed {ty r} (h : ValueOk prog s ty r) : Typed prog s ty r := ⟨h.isTy, h.wf, h.valid⟩

theorem ValueOk.int {t : IntType} {r} (h : ValueOk prog s (.int t) r) : ∃ i, r = (.int i, .int t) ∧ t.canRepresent i = true := by
  obtain ⟨v, ty⟩ := r
  obtain ⟨rfl, _, h, _⟩ := h
  obtain ⟨i, rfl, hi⟩ := checkValue_int.1 h
  exact ⟨i, rfl, hi⟩
theorem ValueOk.bool {r} (h : ValueOk prog s .bool r) : ∃ b, r = (.bool b, .bool) := by
  obtain ⟨v, ty⟩ := r
  obtain ⟨rfl, _, h, _⟩ := h
  obtain ⟨i, rfl⟩ := checkValue_bool.1 h
  exact ⟨i, rfl⟩
theorem ValueOk.ptr {p : PtrType} {r} (hr : Ready prog fn s) (h : ValueOk prog s (.ptr p) r) :
    ∃ ptr, r = (.ptr ptr, .ptr p) ∧ checkValue s.valEnv (.ptr p) (.ptr ptr) = .ok () ∧ InSpace ptr.thin ∧
      s.MetaOk p.metaKind ptr.metadata ∧ VK made (cnt s) (.ptr ptr) := by
  obtain ⟨v, ty⟩ := r
  obtain ⟨rfl, _, h, hk⟩ := h
  obtain ⟨ptr, rfl⟩ := checkValue_ptr h
  obtain ⟨h1, h2⟩ := validPtr_meta hr.toBase h
  exact ⟨ptr, rfl, h, h1, h2, hk⟩

theorem NpR.constant (hr : Ready prog fn s) {c : Constant} {ty : Ty} (hw : ty.checkWf prog = .ok ())
    (hc : c.checkWf prog ty = .ok ()) (ht : c.Tame ty) (pl : Prop) :
    NpR pl (s.evalConstant c) (fun v => checkValue s.valEnv ty v = .ok ()) := by
  cases c with
  | int i =>
    cases ty <;> simp only [Constant.checkWf, reduceCtorEq, ensureWf_eq_ok] at hc
    exact .ok (checkValue_int.2 ⟨i, rfl, hc⟩)
  | bool b =>
    cases ty <;> simp only [Constant.checkWf, reduceCtorEq] at hc
    exact .ok (checkValue_bool.2 ⟨b, rfl⟩)
  | globalPointer r =>
    obtain ⟨p, rfl, hp, hk⟩ := ht
    simp only [Constant.checkWf, Relocation.checkWf] at hc
    cases hg : prog.globals.get? r.name with
    | none => rw [hg] at hc; cases hc
    | some g =>
      obtain ⟨q, hq⟩ := hr.globals _ _ hg
      refine .bind (.mapGet hq rfl) fun q' _ e => .ok ?_
      refine validPtr_plain hr.toBase hp inSpace_offset ?_
      rw [hk]; rfl
  | fnPointer f =>
    cases ty <;> simp only [Constant.checkWf, reduceCtorEq, Res.bind_eq_ok, ensureWf_eq_ok, decide_eq_true_eq] at hc
    obtain ⟨_, rfl, hf⟩ := hc
    obtain ⟨fu, hf⟩ := Map.contains_eq.1 hf
    obtain ⟨p, hp, hs⟩ := hr.fns _ _ hf
    refine .bind (.mapGet (Q := fun q => q = p) hp rfl) fun q _ e => .ok ?_
    subst e
    exact validPtr_plain hr.toBase trivial hs rfl
  | vtablePointer x =>
    cases ty <;> simp only [Constant.checkWf, reduceCtorEq] at hc
    rename_i p
    cases hv : prog.vtables.get? x with
    | none => rw [hv] at hc; cases hc
    | some v =>
      rw [hv] at hc
      simp only [ensureWf_eq_ok, decide_eq_true_eq] at hc
      subst hc
      obtain ⟨q, hq⟩ := hr.vtables _ _ hv
      refine .bind (.mapGet (Q := fun q' => q' = q) hq rfl) fun q' _ e => .ok ?_
      subst e
      obtain ⟨h, hm⟩ := hr.mem
      have hat : s.VTableAt q' v := ⟨x, hq, by rw [hr.isProg]; exact hv⟩
      have ha := hr.vt.addr _ _ hat
      simp only [checkValue]
      exact (checkPtr_iff hr.vt hm).2 ⟨ha.1, ha.2, rfl, v, hat, rfl⟩
  | pointerWithoutProvenance a =>
    obtain ⟨p, rfl, hp, hk⟩ := ht
    simp only [Constant.checkWf, ensureWf_eq_ok] at hc
    refine .ok (validPtr_plain hr.toBase hp (inBounds_unsigned_iff.1 hc) ?_)
    rw [hk]; rfl

/-! ### Metadata -/

theorem decodeMetaVal (hr : Ready prog fn s) {k : MetaKind} {v : Value (AllocId × PE)} (hv : checkValue s.valEnv k.ty v = .ok ()) :
    ∃ m, k.decodeValue v = .ok m ∧ s.MetaOk k m := by
  cases k with
  | none =>
    obtain rfl := checkValue_unit.1 hv
    exact ⟨none, rfl, rfl⟩
  | elementCount =>
    obtain ⟨i, rfl, hi⟩ := checkValue_int.1 hv
    obtain ⟨h0, h1⟩ := inBounds_unsigned_iff.1 hi
    obtain ⟨n, rfl⟩ := Int.eq_ofNat_of_zero_le h0
    refine ⟨_, rfl, n, rfl, ?_⟩
    have : ((n : Nat) : Int) < ((2 ^ (8 * T.ptrSize) : Nat) : Int) := by push_cast; exact h1
    exact Int.ofNat_lt.1 this
  | vtablePointer t =>
    obtain ⟨ptr, rfl⟩ := checkValue_ptr hv
    obtain ⟨h, hm⟩ := hr.mem
    simp only [MetaKind.ty, checkValue] at hv
    obtain ⟨_, _, h3, x, h4, h5⟩ := (checkPtr_iff hr.vt hm).1 hv
    obtain ⟨thin, mm⟩ := ptr
    obtain rfl : mm = none := h3
    exact ⟨_, rfl, thin, x, rfl, h4, h5⟩

theorem encodeMetaVal (hr : Ready prog fn s) {k : MetaKind} {m : Option (PtrMeta (AllocId × PE))} (hm : s.MetaOk k m) :
    ∃ v, k.encodeAsValue m = .ok v ∧ checkValue s.valEnv k.ty v = .ok () := by
  cases k with
  | none =>
    obtain rfl : m = none := hm
    exact ⟨_, rfl, checkValue_unit.2 rfl⟩
  | elementCount =>
    obtain ⟨n, rfl, hn⟩ := hm
    refine ⟨_, rfl, checkValue_int.2 ⟨n, rfl, inBounds_unsigned_iff.2 ⟨by omega, ?_⟩⟩⟩
    have : ((n : Nat) : Int) < ((2 ^ (8 * T.ptrSize) : Nat) : Int) := Int.ofNat_lt.2 hn
    push_cast at this; exact this
  | vtablePointer t =>
    obtain ⟨p, v, rfl, h1, h2⟩ := hm
    obtain ⟨h, hm⟩ := hr.mem
    have ha := hr.vt.addr _ _ h1
    refine ⟨_, rfl, ?_⟩
    simp only [MetaKind.ty, checkValue]
    exact (checkPtr_iff hr.vt hm).2 ⟨ha.1, ha.2, rfl, v, h1, h2⟩

theorem possible (hr : Ready prog fn s) {l : LayoutStrategy} {m : Option (PtrMeta (AllocId × PE))} {n a}
    (hm : s.MetaOk l.metaKind m) (h : l.computeSizeAndAlign s.vtableLookup m = .ok (n, a)) : PossibleLayout prog l n a := by
  have hp := (computeSizeAndAlign_iff (vtableLookup_iff hr.vt) (metaOk_count hm)).1 h
  clear h
  induction hp with
  | sized => exact .sized
  | slice =>
    obtain ⟨k, hk, hl⟩ := hm
    simp only [Option.some.injEq, PtrMeta.elementCount.injEq] at hk
    exact .slice (by omega)
  | traitObject h =>
    obtain ⟨p, v, hk, ⟨x, h1, h2⟩, hl⟩ := hm
    cases hk
    have e1 := (hr.vt.found _ _).2 ⟨x, h1, h2⟩
    have e2 := (hr.vt.found _ _).2 h
    rw [e1] at e2; cases e2
    exact .traitObject (by rw [← hr.isProg]; exact h2) hl
  | tuple _ ih => exact .tuple (ih hm)

/-! ### Unary operators -/

theorem NpR.unOp (hr : Ready prog fn s) (hprog : prog.checkWf = .ok ())
    (hvm : ∀ x v m f, prog.vtables.get? x = some v → v.methods.get? m = some f → prog.functions.contains f = true)
    {op : UnOp} {r : Value (AllocId × PE) × Ty} {oty ty : Ty} (hv : ValueOk prog s oty r)
    (hc : op.checkWf prog oty = .ok ty) (ht : op.Tame prog oty) (hw : ty.checkWf prog = .ok ()) (pl : Prop) :
    NpR pl (s.evalUnOp op r) (Typed prog s ty) := by
  cases op with
  | int op =>
    cases oty <;> simp only [UnOp.checkWf, reduceCtorEq, Except.ok.injEq] at hc
    subst hc
    rename_i ity
    obtain ⟨i, rfl, hi⟩ := hv.int
    have hfit : (op.retTy ity).canRepresent (evalIntUnOp op i ity) = true := by
      cases op with
      | neg => exact bringInBounds_inBounds _ _ _
      | bitNot => exact bringInBounds_inBounds _ _ _
      | countOnes =>
        have hb := ht ity rfl
        have hle : (List.range ity.bits).countP (binDigit i) ≤ ity.bits := by
          simpa using List.countP_le_length (p := binDigit i) (l := List.range ity.bits)
        simp only [evalIntUnOp, evalCountOnes_eq, IntType.canRepresent, IntUnOp.retTy, inBounds_unsigned_iff]
        simp only [IntType.bits] at hle ⊢
        constructor
        · omega
        · norm_num; omega
    have hcv := checkValue_int (env := s.valEnv).2 ⟨_, rfl, hfit⟩
    refine .bind (Q := fun b => b = true) (.ofOk (isOk_of_ok hcv) rfl) fun b _ hb => ?_
    subst hb
    exact .ok ⟨rfl, hw, hcv⟩
  | cast op =>
    cases op with
    | intToInt ity =>
      cases oty <;> simp only [UnOp.checkWf, CastOp.checkWf, reduceCtorEq, Except.ok.injEq] at hc
      subst hc
      obtain ⟨i, rfl, hi⟩ := hv.int
      exact .ok ⟨rfl, hw, checkValue_int.2 ⟨_, rfl, bringInBounds_inBounds _ _ _⟩⟩
    | transmute newTy =>
      simp only [UnOp.checkWf, CastOp.checkWf, Res.bind_eq_ok, ensureWf_eq_ok, Except.ok.injEq] at hc
      obtain ⟨l1, hl1, _, hs1, l2, hl2, _, hs2, rfl⟩ := hc
      have hg1 := Ty.good_of_isSized hv.wf hl1 hs1
      have hg2 := Ty.good_of_isSized hw hl2 hs2
      obtain ⟨v, ty'⟩ := r
      obtain ⟨rfl, _, hval, hk⟩ := hv
      simp only at hval hk
      obtain ⟨bs, hbs⟩ := encode_total_good _ hg1 hval
      have hlen := encode_length_good hg1 hbs
      obtain ⟨h, hm⟩ := hr.mem
      simp only [Machine.evalUnOp, Machine.evalCastOp, hg1.size, hg2.size]
      refine .bind (Q := fun n => n = ty'.sz) (.ok rfl) fun n _ e => .bind (Q := fun n => n = newTy.sz) (.ok rfl) fun n' _ e' => ?_
      subst e e'
      refine .ite (fun _ => .ub) fun he => ?_
      simp only [ne_eq, not_not] at he
      refine .bind (Q := fun v => checkValue s.valEnv newTy v = .ok ()) ?_ fun v _ hv => .ok ⟨rfl, hw, hv⟩
      simp only [transmute, hg1.size, hg2.size]
      refine .bind (Q := fun n => n = ty'.sz) (.ok rfl) fun n _ e => .bind (Q := fun n => n = newTy.sz) (.ok rfl) fun n' _ e' => ?_
      subst e e'
      refine .bind (Q := fun _ => True) ?_ fun _ _ _ => ?_
      · exact .ofOk (a := ()) (rassert_eq_ok.2 (by simp [he])) trivial
      refine .bind (Q := fun b => b = bs) (.ofOk hbs rfl) fun b _ e => ?_
      subst e
      rcases decode_total_good hg2 (hlen.trans he) with ⟨v', hd⟩ | hd
      · simp only [hd]
        rcases checkValue_okOrUb hr.vt hm hg2 (fun p hc => Ty.ptr_checkWf hw hc) hd
          (fun p hp => (made_iff hm).1 (hk p (encode_prov ty' hbs (decode_prov newTy hd hp)))) with hc | hc
        · simp only [hc]; exact .ok hc
        · simp only [hc]; exact .ub
      · simp only [hd]; exact .ub
  | getThinPointer =>
    cases oty <;> simp only [UnOp.checkWf, reduceCtorEq, Except.ok.injEq] at hc
    subst hc
    obtain ⟨ptr, rfl, _, h1, h2, h3⟩ := hv.ptr hr
    exact .ok ⟨rfl, hw, validPtr_plain hr.toBase trivial h1 rfl⟩
  | getMetadata =>
    cases oty <;> simp only [UnOp.checkWf, reduceCtorEq, Except.ok.injEq] at hc
    subst hc
    obtain ⟨ptr, rfl, _, h1, h2, h3⟩ := hv.ptr hr
    obtain ⟨v, he, hcv⟩ := encodeMetaVal hr h2
    simp only [Machine.evalUnOp, Machine.evalGetMetadata, he]
    refine .bind (Q := fun x => x = v) (.ok rfl) fun x _ e => ?_
    subst e
    refine .bind (Q := fun b => b = true) (.ofOk (isOk_of_ok hcv) rfl) fun b _ hb => ?_
    subst hb
    exact .ok ⟨rfl, hw, hcv⟩
  | computeSize t =>
    simp only [UnOp.checkWf, Res.bind_eq_ok] at hc
    obtain ⟨_, hwt, hc⟩ := hc
    split at hc
    · cases hc
    rename_i hoty
    simp only [ne_eq, not_not] at hoty
    cases hc
    subst hoty
    obtain ⟨m, hm, hmo⟩ := decodeMetaVal hr hv.valid
    obtain ⟨l, n, a, h1, _, h2, h3, _, h4⟩ := computedTy hr.toBase hwt hmo
    simp only [Machine.evalUnOp, hm, h1]
    refine .bind (Q := fun x => x = m) (.ok rfl) fun x _ e => ?_
    refine .bind (Q := fun x => x = l) (.ok rfl) fun y _ e' => ?_
    subst e e'
    rw [h3]
    refine .bind (Q := fun x => x = n) (.ok rfl) fun z _ e' => ?_
    subst e'
    have hb := ht _ _ _ h1 (possible hr (by rw [h2]; exact hmo) h4)
    refine .ok ⟨rfl, hw, checkValue_int.2 ⟨_, rfl, inBounds_unsigned_iff.2 ⟨by omega, ?_⟩⟩⟩
    have : ((z : Nat) : Int) < ((2 ^ (8 * T.ptrSize) : Nat) : Int) := Int.ofNat_lt.2 hb
    push_cast at this; exact this
  | computeAlign t =>
    simp only [UnOp.checkWf, Res.bind_eq_ok] at hc
    obtain ⟨_, hwt, hc⟩ := hc
    split at hc
    · cases hc
    rename_i hoty
    simp only [ne_eq, not_not] at hoty
    cases hc
    subst hoty
    obtain ⟨m, hm, hmo⟩ := decodeMetaVal hr hv.valid
    obtain ⟨l, n, a, h1, _, h2, _, h3, h4⟩ := computedTy hr.toBase hwt hmo
    simp only [Machine.evalUnOp, hm, h1]
    refine .bind (Q := fun x => x = m) (.ok rfl) fun x _ e => ?_
    refine .bind (Q := fun x => x = l) (.ok rfl) fun y _ e' => ?_
    subst e e'
    rw [h3]
    refine .bind (Q := fun x => x = a) (.ok rfl) fun z _ e' => ?_
    subst e'
    have hb := ht _ _ _ h1 (possible hr (by rw [h2]; exact hmo) h4)
    refine .ok ⟨rfl, hw, checkValue_int.2 ⟨_, rfl, inBounds_unsigned_iff.2 ⟨by omega, ?_⟩⟩⟩
    have : ((z.bytes : Nat) : Int) < ((2 ^ (8 * T.ptrSize) : Nat) : Int) := Int.ofNat_lt.2 hb
    push_cast at this; exact this
  | vtableMethodLookup method =>
    cases oty <;> simp only [UnOp.checkWf, reduceCtorEq] at hc
    rename_i p
    cases p <;> simp only [reduceCtorEq, Res.bind_eq_ok, ensureWf_eq_ok, decide_eq_true_eq, Except.ok.injEq] at hc
    rename_i t
    obtain ⟨ms, hms, _, hmem, rfl⟩ := hc
    obtain ⟨ptr, rfl, hval, h1, h2, h3⟩ := hv.ptr hr
    obtain ⟨h, hm⟩ := hr.mem
    simp only [checkValue] at hval
    obtain ⟨_, _, _, v, hat, htr⟩ := (checkPtr_iff hr.vt hm).1 hval
    have hl := (vtableLookup_iff hr.vt _ _).2 hat
    simp only [Machine.evalUnOp, Machine.evalVTableMethodLookup, hl]
    refine .bind (Q := fun x => x = v) (.ok rfl) fun y _ e => ?_
    subst e
    obtain ⟨x', hx1, hx2⟩ := hat
    rw [hr.isProg] at hx2
    obtain ⟨ms', hms', hall⟩ := Program.vtable_methods hprog hx2
    rw [htr] at hms'
    simp only [Map.get, hms', unwrap, Except.ok.injEq] at hms
    subst hms
    obtain ⟨f, hf⟩ := hall method hmem
    refine .bind (Q := fun x => x = f) (.mapGet hf rfl) fun x _ e => ?_
    subst e
    obtain ⟨fu, hfu⟩ := Map.contains_eq.1 (hvm _ _ _ _ hx2 hf)
    obtain ⟨q, hq, hs⟩ := hr.fns _ _ hfu
    refine .bind (Q := fun x => x = q) (.mapGet hq rfl) fun x _ e => ?_
    subst e
    exact .ok ⟨rfl, hw, validPtr_plain hr.toBase trivial hs rfl⟩

/-! ### Binary operators -/

omit B in
theorem NpR.intBinOp {op : IntBinOp} {l r : Int} {t : IntType} (h : isPowerOfTwo t.size = true) (pl : Prop) :
    NpR pl (evalIntBinOpWrapped op l r t) (fun i => t.canRepresent i = true) := by
  have hp := isPowerOfTwo_pos h
  refine NpR.bind (Q := fun _ => True) ⟨fun _ hx => ?_, fun _ _ => trivial⟩ fun i _ _ => .ok (bringInBounds_inBounds _ _ _)
  have h0 : ¬ 8 * t.size = 0 := by omega
  unfold evalIntBinOp at hx
  split at hx <;> (try simp only [h0, if_false] at hx) <;> (repeat' split at hx) <;> cases hx

theorem isize_fits {h : MemHistory PE} (hm : MemReach (F := F) h s.mem.memory) {p : ThinPtr (AllocId × PE)} {d : Int}
    (hs : d = 0 ∨ Spans h p d) : inBounds .signed T.ptrSize d = true ∧ inBounds .signed T.ptrSize (-d) = true := by
  by_cases h0 : d = 0
  · subst h0
    simp only [inBounds, decide_eq_true_eq]
    have := two_pow_pos' (8 * T.ptrSize)
    omega
  · obtain ⟨id, i, _, h2, h3, h4⟩ := hs.resolve_left h0
    obtain ⟨p1, _, p3, p4⟩ := C16_placement hm h2
    have := LawfulTarget.valid_isize _ p4
    simp only [inBounds, decide_eq_true_eq] at this ⊢
    omega

theorem NpR.signedDeref (hr : Ready prog fn s) {p : ThinPtr (AllocId × PE)} (hp : PK made (cnt s) p) (d : Int) (pl : Prop) :
    NpR pl (s.mem.signedDereferenceable p d) (fun _ => inBounds .signed T.ptrSize d = true ∧ inBounds .signed T.ptrSize (-d) = true) := by
  obtain ⟨h, hm⟩ := hr.mem
  obtain ⟨h1, h2⟩ := signedDeref_exact hm (PK.genuine hp hm) d
  by_cases hc : d = 0 ∨ Spans h p d
  · exact .ofOk (h1 hc) (isize_fits hm hc)
  · have : s.mem.signedDereferenceable p d = .error .ub := h2 hc
    rw [this]; exact .ub

theorem NpR.binOp (hr : Ready prog fn s) {op : BinOp} {l r : Value (AllocId × PE) × Ty} {lty rty ty : Ty}
    (hl : ValueOk prog s lty l) (hrv : ValueOk prog s rty r)
    (hc : op.checkWf lty rty = .ok ty) (ht : op.Tame lty) (hw : ty.checkWf prog = .ok ()) (pl : Prop) :
    NpR pl (s.evalBinOp op l r) (Typed prog s ty) := by
  cases op with
  | int op =>
    cases lty <;> cases rty <;> simp only [BinOp.checkWf, reduceCtorEq] at hc
    obtain rfl : ty = .int _ := by
      split at hc
      · simp only [Res.bind_eq_ok, Except.ok.injEq] at hc
        obtain ⟨_, _, h⟩ := hc
        exact h.symm
      · exact (Except.ok.inj hc).symm
    obtain ⟨i, rfl, hi⟩ := hl.int
    obtain ⟨j, rfl, hj⟩ := hrv.int
    have hpow := hl.wf
    simp only [Ty.checkWf, IntType.checkWf, Res.bind_eq_ok, ensureWf_eq_ok] at hpow
    obtain ⟨_, hpow, _⟩ := hpow
    exact .bind (NpR.intBinOp hpow _) fun x _ hx => .ok ⟨rfl, hw, checkValue_int.2 ⟨_, rfl, hx⟩⟩
  | intWithOverflow op =>
    cases lty <;> simp only [BinOp.checkWf, reduceCtorEq, Res.bind_eq_ok, ensureWf_eq_ok, decide_eq_true_eq] at hc
    rename_i t
    obtain ⟨_, rfl, hc⟩ := hc
    obtain ⟨i, rfl, hi⟩ := hl.int
    obtain ⟨j, rfl, hj⟩ := hrv.int
    simp only [Machine.evalBinOp, evalIntWithOverflow, hc]
    refine .bind (Q := fun x => x = ty) (.ok rfl) fun x _ e => ?_
    subst e
    refine .ok ⟨rfl, hw, ?_⟩
    simp only [IntType.withOverflow, Res.bind_eq_ok, Except.ok.injEq] at hc
    obtain ⟨a, _, rfl⟩ := hc
    simp only [checkValue, checkFields]
    have : checkValue s.valEnv (.int t) (.int (t.bringInBounds (op.exact i j))) = .ok () :=
      checkValue_int.2 ⟨_, rfl, bringInBounds_inBounds _ _ _⟩
    simp only [checkValue] at this
    rw [this]; rfl
  | rel op =>
    simp only [BinOp.checkWf, Res.bind_eq_ok, ensureWf_eq_ok, decide_eq_true_eq] at hc
    obtain ⟨_, hk, _, rfl, hc⟩ := hc
    refine .bind (Q := fun _ => True) (.mono (Q := fun _ => True) ?_ (fun _ _ _ => trivial)) fun o _ _ => .ok ?_
    · refine .ofEx ?_
      cases rty <;> simp only [reduceCtorEq] at hk
      · obtain ⟨i, rfl, hi⟩ := hl.int
        obtain ⟨j, rfl, hj⟩ := hrv.int
        exact ⟨_, rfl, trivial⟩
      · obtain ⟨i, rfl⟩ := hl.bool
        obtain ⟨j, rfl⟩ := hrv.bool
        exact ⟨_, rfl, trivial⟩
      · obtain ⟨p, rfl, _, _, h2, _⟩ := hl.ptr hr
        obtain ⟨q, rfl, _, _, h3, _⟩ := hrv.ptr hr
        simp only [compareValues, comparePtr]
        have : ∃ o, compareMeta p.metadata q.metadata = .ok o := by
          revert h2 h3
          generalize PtrType.metaKind _ = k
          cases k with
          | none => intro h2 h3; rw [show p.metadata = none from h2, show q.metadata = none from h3]; exact ⟨_, rfl⟩
          | elementCount =>
            rintro ⟨_, e1, _⟩ ⟨_, e2, _⟩; rw [e1, e2]; exact ⟨_, rfl⟩
          | vtablePointer t =>
            rintro ⟨_, _, e1, _⟩ ⟨_, _, e2, _⟩; rw [e1, e2]; exact ⟨_, rfl⟩
        obtain ⟨o, ho⟩ := this
        rw [ho]; exact ⟨_, rfl, trivial⟩
    · cases op <;> simp only [Except.ok.injEq] at hc <;> subst hc
      case cmp =>
        refine ⟨rfl, hw, checkValue_int.2 ⟨_, rfl, ?_⟩⟩
        cases o <;> decide
      all_goals exact ⟨rfl, hw, checkValue_bool.2 ⟨_, rfl⟩⟩
  | ptrOffset inb =>
    cases lty <;> simp only [BinOp.checkWf, reduceCtorEq] at hc
    rename_i p
    split at hc
    · cases hc
    rename_i hk
    simp only [ne_eq, not_not] at hk
    cases rty <;> simp only [reduceCtorEq, Except.ok.injEq] at hc
    subst hc
    obtain ⟨q, rfl, _, h1, h2, h3⟩ := hl.ptr hr
    obtain ⟨j, rfl, hj⟩ := hrv.int
    rw [hk] at h2
    obtain ⟨thin, mt⟩ := q
    obtain rfl : mt = none := h2
    simp only [Machine.evalBinOp, Machine.evalPtrOffset]
    refine .ite (fun _ => ?_) fun _ => ?_
    · refine .bind (NpR.ptrOffset hr.toBase (VK.thin h3) h1 j _) fun q _ hq => .ok ⟨rfl, hw, ?_⟩
      exact validPtr_plain hr.toBase (ht p rfl) hq.1 (by rw [hk]; rfl)
    · exact .ok ⟨rfl, hw, validPtr_plain hr.toBase (ht p rfl) inSpace_offset (by rw [hk]; rfl)⟩
  | ptrOffsetFrom inb nn =>
    cases lty <;> simp only [BinOp.checkWf, reduceCtorEq] at hc
    split at hc
    · cases hc
    rename_i hk
    simp only [ne_eq, not_not] at hk
    cases rty <;> simp only [reduceCtorEq] at hc
    split at hc
    · cases hc
    rename_i hk'
    simp only [ne_eq, not_not] at hk'
    simp only [Except.ok.injEq] at hc
    subst hc
    obtain ⟨q, rfl, _, h1, h2, h3⟩ := hl.ptr hr
    obtain ⟨q', rfl, _, h1', h2', h3'⟩ := hrv.ptr hr
    rw [hk] at h2
    rw [hk'] at h2'
    obtain ⟨thin, mt⟩ := q
    obtain rfl : mt = none := h2
    obtain ⟨thin', mt⟩ := q'
    obtain rfl : mt = none := h2'
    simp only [Machine.evalBinOp, Machine.evalPtrOffsetFrom]
    refine .bind (Q := fun d => inBounds .signed T.ptrSize d = true) ?_ fun d _ hd => ?_
    · unfold Machine.ptrDistance
      refine .ite (fun _ => ?_) fun _ => .ok (bringInBounds_inBounds _ _ _)
      exact .bind (NpR.signedDeref hr (VK.thin h3) _ _) fun _ _ hx =>
        .bind (NpR.signedDeref hr (VK.thin h3') _ _) fun _ _ hy => .ok hy.1
    · exact .ite (fun _ => .ub) fun _ => .ok ⟨rfl, hw, checkValue_int.2 ⟨_, rfl, hd⟩⟩
  | constructWidePointer pty =>
    cases lty <;> simp only [BinOp.checkWf, reduceCtorEq] at hc
    split at hc
    · cases hc
    rename_i hk
    simp only [ne_eq, not_not] at hk
    split at hc
    · cases hc
    rename_i hk'
    simp only [ne_eq, not_not] at hk'
    cases hc
    subst hk'
    obtain ⟨q, rfl, _, h1, h2, h3⟩ := hl.ptr hr
    rw [hk] at h2
    obtain ⟨thin, mt⟩ := q
    obtain rfl : mt = none := h2
    obtain ⟨m, hm, hmo⟩ := decodeMetaVal hr hrv.valid
    simp only [Machine.evalBinOp, Machine.evalConstructWidePointer, hm]
    refine .bind (Q := fun x => x = m) (.ok rfl) fun x _ e => ?_
    subst e
    have hpw : pty.checkWf prog = .ok () := Ty.ptr_checkWf hw .refl
    have hcp := checkPtr_np hr.toBase (ptr := ⟨thin, x⟩) hpw (VK.thin (p := ⟨thin, none⟩) h3)
    refine .bind (Q := fun _ => checkValue s.valEnv (.ptr pty) (.ptr ⟨thin, x⟩) = .ok ()) ?_ fun _ _ hv => .ok ⟨rfl, hw, hv⟩
    rcases hcp with h | h
    · exact .ofOk h h
    · rw [h]; exact .ub

end MiniRust
