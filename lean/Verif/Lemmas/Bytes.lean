import Verif.Lemmas.Good
/-
Auxiliary lemmas: the definedness order on byte lists, and scalar encodings.
-/
set_option linter.unusedSectionVars false
namespace MiniRust
variable {P : Type} [DecidableEq P]

/-! ### Definedness of bytes -/

/-- Pointwise definedness of byte lists. -/
abbrev BLe (a b : List (AByte P)) : Prop := List.Forall₂ (fun x y => AByte.le x y = true) a b

theorem listLe_iff {α : Type} {le : α → α → Bool} {a b : List α} :
    listLe le a b = true ↔ List.Forall₂ (fun x y => le x y = true) a b := by
  induction a generalizing b with
  | nil => cases b <;> simp [listLe]
  | cons x a ih => cases b <;> simp [listLe, ih]

@[simp] theorem AByte.le_uninit (b : AByte P) : AByte.le .uninit b = true := rfl

theorem AByte.le_refl (b : AByte P) : b.le b = true := by
  rcases b with _ | ⟨d, _ | f⟩ <;> simp [AByte.le]

theorem AByte.le_trans {a b c : AByte P} (h1 : a.le b = true) (h2 : b.le c = true) :
    a.le c = true := by
  rcases a with _ | ⟨d, _ | f⟩ <;> rcases b with _ | ⟨d', _ | f'⟩ <;>
    rcases c with _ | ⟨d'', _ | f''⟩ <;> simp_all [AByte.le]

theorem AByte.le_antisymm {a b : AByte P} (h1 : a.le b = true) (h2 : b.le a = true) : a = b := by
  rcases a with _ | ⟨d, _ | f⟩ <;> rcases b with _ | ⟨d', _ | f'⟩ <;> simp_all [AByte.le]

theorem BLe.refl (a : List (AByte P)) : BLe a a := by
  induction a with
  | nil => exact .nil
  | cons x a ih => exact .cons (AByte.le_refl x) ih

theorem BLe.trans {a b c : List (AByte P)} (h1 : BLe a b) (h2 : BLe b c) : BLe a c := by
  induction h1 generalizing c with
  | nil => exact h2
  | cons hxy _ ih =>
    cases h2 with
    | cons hyz h2 => exact .cons (AByte.le_trans hxy hyz) (ih h2)

theorem BLe.antisymm {a b : List (AByte P)} (h1 : BLe a b) (h2 : BLe b a) : a = b := by
  induction h1 with
  | nil => rfl
  | cons hxy _ ih =>
    cases h2 with
    | cons hyx h2 => rw [AByte.le_antisymm hxy hyx, ih h2]

theorem BLe.length {a b : List (AByte P)} (h : BLe a b) : a.length = b.length := h.length_eq

theorem BLe.append {a b c d : List (AByte P)} (h1 : BLe a b) (h2 : BLe c d) :
    BLe (a ++ c) (b ++ d) := by
  induction h1 with
  | nil => exact h2
  | cons hxy _ ih => exact .cons hxy ih

theorem BLe.replicate_uninit (b : List (AByte P)) : BLe (List.replicate b.length .uninit) b := by
  induction b with
  | nil => exact .nil
  | cons x b ih => exact .cons rfl ih

theorem BLe.take {a b : List (AByte P)} (h : BLe a b) (n : Nat) : BLe (a.take n) (b.take n) :=
  List.forall₂_take n h

theorem BLe.drop {a b : List (AByte P)} (h : BLe a b) (n : Nat) : BLe (a.drop n) (b.drop n) :=
  List.forall₂_drop n h

theorem BLe.subslice {a b x : List (AByte P)} {off n : Nat} (h : BLe a b)
    (hx : subslice a off n = .ok x) : ∃ y, subslice b off n = .ok y ∧ BLe x y := by
  rw [subslice_eq_ok] at hx
  obtain ⟨h1, rfl⟩ := hx
  exact ⟨_, subslice_isOk (by rw [← h.length]; exact h1), (h.drop off).take n⟩

theorem BLe.write {a b s t x : List (AByte P)} {off : Nat} (h : BLe a b) (hst : BLe s t)
    (hx : writeSubslice a off s = .ok x) : ∃ y, writeSubslice b off t = .ok y ∧ BLe x y := by
  rw [writeSubslice_eq_ok] at hx
  obtain ⟨h1, rfl⟩ := hx
  refine ⟨_, writeSubslice_isOk (by rw [← h.length, ← hst.length]; exact h1), ?_⟩
  rw [← hst.length]
  exact ((h.take off).append hst).append (h.drop _)

/-- Writing a less defined slice of `b` into something below `b` stays below `b`. -/
theorem BLe.write_below {a b s t : List (AByte P)} {off n : Nat} (h : BLe a b)
    (ht : MiniRust.subslice b off n = .ok t) (hst : BLe s t) :
    ∃ y, writeSubslice a off s = .ok y ∧ BLe y b := by
  rw [subslice_eq_ok] at ht
  obtain ⟨h1, rfl⟩ := ht
  have hl : s.length = n := by rw [hst.length]; simp; omega
  refine ⟨_, writeSubslice_isOk (by rw [h.length, hl]; exact h1), ?_⟩
  have hb : b = b.take off ++ (b.drop off).take n ++ b.drop (off + n) := by
    rw [List.append_assoc, ← List.drop_drop, List.take_append_drop, List.take_append_drop]
  rw [hl]
  conv => rhs; rw [hb]
  exact ((h.take off).append hst).append (h.drop _)

/-! ### Data of bytes -/

theorem bytesData_eq_ok {bs : List (AByte P)} {ds : List UInt8} :
    bytesData bs = .ok ds ↔ bs.map AByte.data = ds.map some := by
  induction bs generalizing ds with
  | nil => cases ds <;> simp [bytesData]
  | cons b bs ih =>
    simp only [bytesData]
    cases hb : b.data with
    | none => cases ds <;> simp [hb]
    | some d =>
      cases h : bytesData bs with
      | error e =>
        cases ds with
        | nil => simp
        | cons d' ds =>
          simp only [reduceCtorEq, List.map_cons, hb, List.cons.injEq, Option.some.injEq, false_iff,
            not_and]
          intro _ hds
          rw [← ih, h] at hds; cases hds
      | ok ds' =>
        have h' := ih.1 h
        cases ds with
        | nil => simp
        | cons d' ds =>
          simp only [Except.ok.injEq, List.cons.injEq, List.map_cons, hb, h', Option.some.injEq]
          constructor
          · rintro ⟨rfl, rfl⟩; exact ⟨rfl, rfl⟩
          · rintro ⟨rfl, h⟩
            exact ⟨rfl, List.map_injective_iff.2 (Option.some_injective _) h⟩

theorem bytesData_error {bs : List (AByte P)} {e : Err} (h : bytesData bs = .error e) : e = .none := by
  induction bs with
  | nil => simp [bytesData] at h
  | cons b bs ih =>
    simp only [bytesData] at h
    split at h
    · cases h; rfl
    · split at h
      · cases h
      · rename_i h'; cases h; exact ih h'

theorem bytesData_length {bs : List (AByte P)} {ds : List UInt8} (h : bytesData bs = .ok ds) :
    ds.length = bs.length := by
  have := congrArg List.length (bytesData_eq_ok.1 h)
  simpa using this.symm

theorem bytesData_mono {a b : List (AByte P)} {ds : List UInt8} (h : BLe a b)
    (ha : bytesData a = .ok ds) : bytesData b = .ok ds := by
  rw [bytesData_eq_ok] at *
  induction h generalizing ds with
  | nil => exact ha
  | @cons x y _ _ hxy _ ih =>
    cases ds with
    | nil => simp at ha
    | cons d ds =>
      simp only [List.map_cons, List.cons.injEq] at ha ⊢
      refine ⟨?_, ih ha.2⟩
      rcases x with _ | ⟨d, _ | f⟩ <;> rcases y with _ | ⟨d', _ | f'⟩ <;>
        simp_all [AByte.le, AByte.data]

theorem bytesData_init (ds : List UInt8) :
    bytesData (ds.map fun b => (AByte.init b none : AByte P)) = .ok ds := by
  rw [bytesData_eq_ok]; simp [AByte.data, Function.comp_def]

/-- Initialized bytes without provenance are below any bytes with the same data. -/
theorem init_below {bs : List (AByte P)} {ds : List UInt8} (h : bytesData bs = .ok ds) :
    BLe (ds.map fun b => AByte.init b none) bs := by
  rw [bytesData_eq_ok] at h
  induction bs generalizing ds with
  | nil => cases ds <;> simp_all
  | cons b bs ih =>
    cases ds with
    | nil => simp at h
    | cons d ds =>
      simp only [List.map_cons, List.cons.injEq] at h
      refine .cons ?_ (ih h.2)
      rcases b with _ | ⟨d', _ | f⟩ <;> simp_all [AByte.data, AByte.le]

/-! ### Integers -/
section
variable [T : Target]

theorem encodeInt_ok {i : IntType} {n : Int} (h : i.canRepresent n = true) :
    ∃ ds, T.endianness.encode i.signed i.size n = some ds ∧
      (encodeInt i n : Res (List (AByte P))) = .ok (ds.map fun b => .init b none) := by
  have := encode_isSome T.endianness i.signed i.size n
  rw [IntType.canRepresent] at h
  rw [h, Option.isSome_iff_exists] at this
  obtain ⟨ds, hds⟩ := this
  exact ⟨ds, hds, by simp [encodeInt, hds]⟩

theorem encodeInt_eq_ok {i : IntType} {n : Int} {bs : List (AByte P)} (h : encodeInt i n = .ok bs) :
    i.canRepresent n = true ∧ ∃ ds, T.endianness.encode i.signed i.size n = some ds ∧
      bs = ds.map fun b => .init b none := by
  simp only [encodeInt, Res.bind_eq_ok, unwrap_eq_ok, Except.ok.injEq] at h
  obtain ⟨ds, h1, h2⟩ := h
  exact ⟨encode_inBounds h1, ds, h1, h2.symm⟩

theorem encodeInt_length {i : IntType} {n : Int} {bs : List (AByte P)} (h : encodeInt i n = .ok bs) :
    bs.length = i.size := by
  obtain ⟨_, ds, h1, rfl⟩ := encodeInt_eq_ok h
  simp [encode_length h1]

theorem decodeInt_eq_ok {i : IntType} {n : Int} {bs : List (AByte P)} :
    decodeInt i bs = .ok n ↔ bs.length = i.size ∧
      ∃ ds, bytesData bs = .ok ds ∧ n = T.endianness.decode i.signed ds := by
  simp only [decodeInt, Res.bind_eq_ok, rassert_eq_ok, beq_iff_eq, Except.ok.injEq]
  constructor
  · rintro ⟨_, h1, ds, h2, h3⟩; exact ⟨h1, ds, h2, h3.symm⟩
  · rintro ⟨h1, ds, h2, h3⟩; exact ⟨(), h1, ds, h2, h3.symm⟩

theorem decodeInt_total {i : IntType} {bs : List (AByte P)} (hl : bs.length = i.size) :
    (∃ n, decodeInt i bs = .ok n) ∨ decodeInt i bs = .error .none := by
  simp only [decodeInt, hl, beq_self_eq_true, rassert_true, Res.bind_ok]
  cases h : bytesData bs with
  | ok ds => left; exact ⟨_, rfl⟩
  | error e => right; rw [bytesData_error h]; rfl

theorem decodeInt_encodeInt {i : IntType} {n : Int} {bs : List (AByte P)} (h : encodeInt i n = .ok bs) :
    decodeInt i bs = .ok n := by
  obtain ⟨_, ds, h1, rfl⟩ := encodeInt_eq_ok h
  rw [decodeInt_eq_ok]
  exact ⟨by simp [encode_length h1], ds, bytesData_init ds, (decode_encode h1).symm⟩

theorem decodeInt_canRepresent {i : IntType} {n : Int} {bs : List (AByte P)}
    (h : decodeInt i bs = .ok n) : i.canRepresent n = true := by
  obtain ⟨hl, ds, h1, rfl⟩ := decodeInt_eq_ok.1 h
  have := decode_inBounds T.endianness i.signed ds
  rwa [bytesData_length h1, hl] at this

theorem encodeInt_decodeInt {i : IntType} {n : Int} {bs : List (AByte P)} (h : decodeInt i bs = .ok n) :
    ∃ bs', (encodeInt i n : Res (List (AByte P))) = .ok bs' ∧ BLe bs' bs := by
  obtain ⟨hl, ds, h1, rfl⟩ := decodeInt_eq_ok.1 h
  have := encode_decode T.endianness i.signed ds
  rw [bytesData_length h1, hl] at this
  exact ⟨_, by simp only [encodeInt, this]; rfl, init_below h1⟩

theorem decodeInt_mono {i : IntType} {n : Int} {a b : List (AByte P)} (hab : BLe a b)
    (h : decodeInt i a = .ok n) : decodeInt i b = .ok n := by
  obtain ⟨hl, ds, h1, rfl⟩ := decodeInt_eq_ok.1 h
  exact decodeInt_eq_ok.2 ⟨by rw [← hab.length]; exact hl, ds, bytesData_mono hab h1, rfl⟩

/-- If the bytes decode to the integer `n`, then the encoding of `n` is below them. -/
theorem encodeInt_below {i : IntType} {n : Int} {bs bs' : List (AByte P)} (h : decodeInt i bs = .ok n)
    (he : encodeInt i n = .ok bs') : BLe bs' bs := by
  obtain ⟨b2, h1, h2⟩ := encodeInt_decodeInt h
  rw [he] at h1; cases h1; exact h2

end

/-! ### Booleans -/

theorem decodeBool_total {bs : List (AByte P)} (hl : bs.length = 1) :
    (∃ b, decodeBool bs = .ok b) ∨ decodeBool bs = .error .none := by
  match bs, hl with
  | [b], _ =>
    unfold decodeBool
    split <;> simp_all

theorem decodeBool_length {bs : List (AByte P)} {b : Bool} (h : decodeBool bs = .ok b) :
    bs.length = 1 := by
  unfold decodeBool at h; split at h <;> simp_all

theorem decodeBool_eq_ok {bs : List (AByte P)} {b : Bool} :
    decodeBool bs = .ok b ↔ ∃ f, bs = [.init (if b then 1 else 0) f] := by
  unfold decodeBool
  split
  · cases b <;> simp
  · cases b <;> simp
  · rename_i x h0 h1
    cases b <;> simp only [reduceCtorEq, List.cons.injEq, and_true, false_iff, not_exists,
      if_true, Bool.false_eq_true, if_false] <;> intro f hf <;> subst hf
    · exact h0 _ rfl
    · exact h1 _ rfl
  · rename_i h0 h1 h2
    simp only [reduceCtorEq, false_iff, not_exists]
    intro f hf; subst hf; exact h2 _ rfl

theorem decodeBool_encodeBool (b : Bool) : decodeBool (encodeBool b : List (AByte P)) = .ok b := by
  rw [decodeBool_eq_ok]; exact ⟨none, rfl⟩

theorem encodeBool_decodeBool {bs : List (AByte P)} {b : Bool} (h : decodeBool bs = .ok b) :
    BLe (encodeBool b) bs := by
  obtain ⟨f, rfl⟩ := decodeBool_eq_ok.1 h
  exact .cons (by cases f <;> simp [AByte.le]) .nil

theorem decodeBool_mono {a b : List (AByte P)} {x : Bool} (hab : BLe a b)
    (h : decodeBool a = .ok x) : decodeBool b = .ok x := by
  obtain ⟨f, rfl⟩ := decodeBool_eq_ok.1 h
  cases hab with
  | cons hxy hnil =>
    cases hnil
    rename_i y
    rw [decodeBool_eq_ok]
    rcases y with _ | ⟨d', _ | f'⟩ <;> cases f <;> simp_all [AByte.le]

/-! ### Pointers -/

theorem foldProv_eq_some {bs : List (AByte P)} {idx : Nat} {acc : Option P} {p : P} :
    foldProv bs idx acc = some p ↔
      acc = some p ∧ ∀ (i : Nat) (b : AByte P), bs[i]? = some b → b.frag = some ⟨p, idx + i⟩ := by
  induction bs generalizing idx acc with
  | nil => simp [foldProv]
  | cons b bs ih =>
    simp only [foldProv, ih]
    constructor
    · rintro ⟨h1, h2⟩
      cases hf : b.frag with
      | none => simp [hf] at h1
      | some f =>
        simp only [hf] at h1
        split at h1
        · rename_i hc
          refine ⟨h1, ?_⟩
          intro i b' hb'
          cases i with
          | zero =>
            simp only [List.getElem?_cons_zero, Option.some.injEq] at hb'
            subst hb'
            rw [hf]
            obtain ⟨pr, po⟩ := f
            simp only at hc
            rw [h1] at hc
            obtain ⟨rfl, hc⟩ := hc
            cases hc; rfl
          | succ i =>
            have := h2 i b' (by simpa using hb')
            rw [this]; congr 2; omega
        · cases h1
    · rintro ⟨rfl, h2⟩
      have h0 := h2 0 b rfl
      simp only [Nat.add_zero] at h0
      refine ⟨by simp [h0], fun i b' hb' => ?_⟩
      rw [h2 (i + 1) b' (by simpa using hb')]
      congr 2; omega

section
variable [T : Target]

theorem decodePtr_eq_ok {bs : List (AByte P)} {ptr : ThinPtr P} :
    decodePtr bs = .ok ptr ↔ bs.length = T.ptrSize ∧ ∃ ds b0, bytesData bs = .ok ds ∧
      bs[0]? = some b0 ∧
      ptr = ⟨T.endianness.decode .unsigned ds, foldProv bs 0 (b0.frag.map (·.prov))⟩ := by
  simp only [decodePtr, index, Res.bind_eq_ok, rassert_eq_ok, unwrap_eq_ok, beq_iff_eq, Except.ok.injEq]
  constructor
  · rintro ⟨_, h1, ds, h2, b0, h3, h4⟩; exact ⟨h1, ds, b0, h2, h3, h4.symm⟩
  · rintro ⟨h1, ds, b0, h2, h3, h4⟩; exact ⟨(), h1, ds, h2, b0, h3, h4.symm⟩

theorem decodePtr_length {bs : List (AByte P)} {ptr : ThinPtr P} (h : decodePtr bs = .ok ptr) :
    bs.length = T.ptrSize := (decodePtr_eq_ok.1 h).1

theorem decodePtr_inBounds {bs : List (AByte P)} {ptr : ThinPtr P} (h : decodePtr bs = .ok ptr) :
    inBounds .unsigned T.ptrSize ptr.addr = true := by
  obtain ⟨hl, ds, b0, h1, h2, rfl⟩ := decodePtr_eq_ok.1 h
  have := decode_inBounds T.endianness .unsigned ds
  rwa [bytesData_length h1, hl] at this

theorem encodePtr_eq_ok {bs : List (AByte P)} {ptr : ThinPtr P} :
    encodePtr ptr = .ok bs ↔ ∃ ds, T.endianness.encode .unsigned T.ptrSize ptr.addr = some ds ∧
      bs = ds.mapIdx fun i b => .init b (ptr.prov.map fun p => ⟨p, i⟩) := by
  simp only [encodePtr, Res.bind_eq_ok, unwrap_eq_ok, Except.ok.injEq]
  constructor
  · rintro ⟨ds, h1, h2⟩; exact ⟨ds, h1, h2.symm⟩
  · rintro ⟨ds, h1, h2⟩; exact ⟨ds, h1, h2.symm⟩

theorem encodePtr_ok {ptr : ThinPtr P} (h : inBounds .unsigned T.ptrSize ptr.addr = true) :
    ∃ bs, encodePtr ptr = .ok bs := by
  have := encode_isSome T.endianness .unsigned T.ptrSize ptr.addr
  rw [h, Option.isSome_iff_exists] at this
  obtain ⟨ds, hds⟩ := this
  exact ⟨_, by simp only [encodePtr, hds]; rfl⟩

theorem encodePtr_length {bs : List (AByte P)} {ptr : ThinPtr P} (h : encodePtr ptr = .ok bs) :
    bs.length = T.ptrSize := by
  obtain ⟨ds, h1, rfl⟩ := encodePtr_eq_ok.1 h
  simp [encode_length h1]

theorem bytesData_mapIdx (ds : List UInt8) (f : Nat → Option (Frag P)) :
    bytesData (ds.mapIdx fun i b => AByte.init b (f i)) = .ok ds := by
  rw [bytesData_eq_ok]
  apply List.ext_getElem?
  intro i
  simp only [List.getElem?_map, List.getElem?_mapIdx, Option.map_map]
  rfl

theorem decodePtr_encodePtr (hpos : 0 < T.ptrSize) {bs : List (AByte P)} {ptr : ThinPtr P}
    (h : encodePtr ptr = .ok bs) : decodePtr bs = .ok ptr := by
  have hl := encodePtr_length h
  obtain ⟨ds, h1, hbs⟩ := encodePtr_eq_ok.1 h
  have hlen : ds.length = T.ptrSize := encode_length h1
  cases ds with
  | nil => simp at hlen; omega
  | cons d ds =>
    rw [decodePtr_eq_ok]
    refine ⟨hl, d :: ds, .init d (ptr.prov.map fun p => ⟨p, 0⟩), ?_, ?_, ?_⟩
    · rw [hbs]; exact bytesData_mapIdx (d :: ds) (fun i => ptr.prov.map fun p => ⟨p, i⟩)
    · rw [hbs]; simp [List.mapIdx_cons]
    · obtain ⟨addr, prov⟩ := ptr
      simp only [ThinPtr.mk.injEq]
      refine ⟨(decode_encode h1).symm, ?_⟩
      cases prov with
      | none =>
        simp only [AByte.frag, Option.map_none]
        cases hf : foldProv bs 0 (none : Option P) with
        | none => rfl
        | some p => rw [foldProv_eq_some] at hf; simp at hf
      | some p =>
        simp only [AByte.frag, Option.map_some]
        symm
        rw [foldProv_eq_some]
        refine ⟨rfl, ?_⟩
        intro i b hb
        rw [hbs, List.getElem?_mapIdx] at hb
        cases hd : (d :: ds)[i]? with
        | none => rw [hd] at hb; simp at hb
        | some d' =>
          rw [hd] at hb
          simp only [Option.map_some, Option.some.injEq] at hb
          subst hb
          simp [AByte.frag]

theorem encodePtr_decodePtr {bs : List (AByte P)} {ptr : ThinPtr P} (h : decodePtr bs = .ok ptr) :
    ∃ bs', encodePtr ptr = .ok bs' ∧ BLe bs' bs := by
  obtain ⟨hl, ds, b0, h1, h2, rfl⟩ := decodePtr_eq_ok.1 h
  have := encode_decode T.endianness .unsigned ds
  rw [bytesData_length h1, hl] at this
  refine ⟨_, by simp only [encodePtr, this]; rfl, ?_⟩
  cases hp : foldProv bs 0 (b0.frag.map (·.prov)) with
  | none =>
    have h0 := init_below h1
    have : (ds.mapIdx fun i b => AByte.init b ((none : Option P).map fun p => (⟨p, i⟩ : Frag P))) =
        ds.map fun b => AByte.init b none := by
      apply List.ext_getElem?
      intro i
      simp [List.getElem?_mapIdx]
    rw [this]; exact h0
  | some p =>
    have hfr := (foldProv_eq_some.1 hp).2
    have hd := bytesData_eq_ok.1 h1
    suffices bs = ds.mapIdx fun i b => AByte.init b (some ⟨p, i⟩) by
      simp only [Option.map_some]; rw [← this]; exact BLe.refl _
    apply List.ext_getElem?
    intro i
    rw [List.getElem?_mapIdx]
    have hdi := congrArg (fun l => l[i]?) hd
    simp only [List.getElem?_map] at hdi
    cases hb : bs[i]? with
    | none => rw [hb] at hdi; cases hds : ds[i]? <;> simp_all
    | some b =>
      have := hfr i b hb
      rw [hb] at hdi
      cases hds : ds[i]? with
      | none => rw [hds] at hdi; simp at hdi
      | some d =>
        rw [hds] at hdi
        rcases b with _ | ⟨d', f⟩
        · simp [AByte.frag] at this
        · simp_all [AByte.data, AByte.frag]

theorem decodePtr_total (hpos : 0 < T.ptrSize) {bs : List (AByte P)} (hl : bs.length = T.ptrSize) :
    (∃ p, decodePtr bs = .ok p) ∨ decodePtr bs = .error .none := by
  simp only [decodePtr, hl, beq_self_eq_true, rassert_true, Res.bind_ok]
  cases h : bytesData bs with
  | ok ds =>
    left
    have : 0 < bs.length := by omega
    simp only [Res.bind_ok, index, List.getElem?_eq_getElem this, unwrap_some]
    exact ⟨_, rfl⟩
  | error e => right; rw [bytesData_error h]; rfl

theorem foldProv_mono {a b : List (AByte P)} (hab : BLe a b) {idx : Nat} {acc : Option P} {p : P}
    (h : foldProv a idx acc = some p) : foldProv b idx acc = some p := by
  rw [foldProv_eq_some] at *
  refine ⟨h.1, ?_⟩
  intro i y hy
  have hlen := hab.length
  obtain ⟨hi, rfl⟩ := List.getElem?_eq_some_iff.1 hy
  have hx : a[i]? = some a[i] := List.getElem?_eq_getElem (by omega)
  have h1 := h.2 i _ hx
  have hle : AByte.le a[i] b[i] = true := List.Forall₂.get hab (by omega) hi
  generalize a[i] = x at *
  generalize b[i] = y at *
  rcases x with _ | ⟨d, _ | f⟩ <;> rcases y with _ | ⟨d', _ | f'⟩ <;> simp_all [AByte.le, AByte.frag]

theorem decodePtr_mono {a b : List (AByte P)} {p : ThinPtr P} (hab : BLe a b)
    (h : decodePtr a = .ok p) : ∃ q, decodePtr b = .ok q ∧ p.le q = true := by
  obtain ⟨hl, ds, a0, h1, h2, rfl⟩ := decodePtr_eq_ok.1 h
  have hlen := hab.length
  have hb0 : ∃ b0, b[0]? = some b0 := by
    obtain ⟨h0, _⟩ := List.getElem?_eq_some_iff.1 h2
    exact ⟨b[0], List.getElem?_eq_getElem (by omega)⟩
  obtain ⟨b0, hb0⟩ := hb0
  refine ⟨_, decodePtr_eq_ok.2 ⟨by omega, ds, b0, bytesData_mono hab h1, hb0, rfl⟩, ?_⟩
  simp only [ThinPtr.le, beq_self_eq_true, Bool.true_and]
  cases hp : foldProv a 0 (a0.frag.map (·.prov)) with
  | none => rfl
  | some p =>
    have hm := foldProv_mono hab hp
    have ha := (foldProv_eq_some.1 hp)
    have hb := (foldProv_eq_some.1 hm)
    have : b0.frag.map (·.prov) = a0.frag.map (·.prov) := by
      rw [ha.1, hb.2 0 b0 hb0]; rfl
    rw [this, hm]; simp

theorem encodePtr_mono {p q : ThinPtr P} {a b : List (AByte P)} (hpq : p.le q = true)
    (ha : encodePtr p = .ok a) (hb : encodePtr q = .ok b) : BLe a b := by
  obtain ⟨ds, h1, rfl⟩ := encodePtr_eq_ok.1 ha
  obtain ⟨ds', h2, rfl⟩ := encodePtr_eq_ok.1 hb
  simp only [ThinPtr.le, Bool.and_eq_true, beq_iff_eq] at hpq
  rw [hpq.1, h2] at h1; cases h1
  show List.Forall₂ _ _ _
  rw [List.forall₂_iff_get]
  refine ⟨by simp, ?_⟩
  intro i hi1 hi2
  simp only [List.get_eq_getElem, List.getElem_mapIdx]
  have hds : i < ds.length := by simpa using hi1
  generalize ds[i] = d
  obtain ⟨pa, pp⟩ := p
  obtain ⟨qa, qp⟩ := q
  cases pp with
  | none => cases qp <;> simp [AByte.le]
  | some x => cases qp <;> simp_all [AByte.le]

end
end MiniRust
