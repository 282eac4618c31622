import Verif.Lemmas.ReprLaws3
/-
Properties C01-C08, C33, C34 (representation of values).

All theorems are about every target satisfying `LawfulTarget` (`x86_64` is proved to be one), every
program `prog` (for the declared traits), every type accepted by `Ty.checkWf` (the model of
`Type::check_wf`), and every provenance type `P`.
-/
set_option linter.unusedSectionVars false
namespace MiniRust

/-! ### Concrete cases used to show that hypotheses are satisfiable -/
namespace Ex
attribute [local instance] x86_64
instance : LawfulTarget x86_64 := x86_64_lawful

def prog : Program := ⟨[], 0, [], [], []⟩
/-- A machine in which every pointer is dereferenceable and no vtables exist. -/
def env : ValEnv Nat := ⟨fun _ => ub, fun _ => panic, fun _ _ => .ok ()⟩

def u8 : IntType := ⟨.unsigned, 1⟩
def u16 : IntType := ⟨.unsigned, 2⟩
/-- `(u8, u16)` with a padding byte. -/
def pair : Ty := .tuple [(0, .int u8), (2, .int u16)] ⟨4, ⟨1⟩, none⟩ none
/-- `Option<u8>`: a directly tagged enum. -/
def optU8 : Ty := directEnum 0 u8 ⟨.signed, 8⟩
  [(0, .tuple [] ⟨2, ⟨0⟩, none⟩ none), (1, .tuple [(1, .int u8)] ⟨2, ⟨0⟩, none⟩ none)] 2 ⟨0⟩
/-- A union of `u16` and `(u8, padding)`. -/
def uni : Ty := .union [(0, .int u16), (0, .int u8)] [(0, 2)] 2 ⟨1⟩
/-- `[(Option<u8>, union, *const (), (u8, u16)); 3]`. -/
def big : Ty := .array (.tuple [(0, optU8), (2, uni), (8, .ptr (.raw .elementCount)), (4, pair)]
  ⟨24, ⟨3⟩, none⟩ none) 3
def bigElem : Value Nat := .tuple [.variant 1 (.tuple [.int 7]), .union [[.uninit, .init 3 none]],
  .ptr ⟨⟨0x1000, some 5⟩, some (.elementCount 4)⟩, .tuple [.int 255, .int 65535]]
def bigVal : Value Nat := .tuple [bigElem, bigElem, bigElem]

theorem big_wf : big.checkWf prog = .ok () := by decide
theorem big_size : big.size = .ok 72 := by decide
theorem bigVal_valid : checkValue env big bigVal = .ok () := by decide

/-- All enums in `optU8` are coherent. -/
theorem optU8_coherent : optU8.Coherent env := by
  intro vs dt disc s a h
  generalize hx : Ty.enum vs dt disc s a = x at h
  cases h with
  | refl =>
    cases hx
    apply directEnum_coherent
    · decide
    · intro v hv i h1 h2 hu
      have h2' : i < 1 := h2
      simp only [List.mem_cons, List.not_mem_nil, or_false] at hv
      rcases hv with rfl | rfl
      · cases hu with
        | field hf _ => cases hf
      · cases hu with
        | field hf _ =>
          simp only [List.mem_cons, List.not_mem_nil, or_false, Prod.mk.injEq] at hf
          obtain ⟨rfl, -⟩ := hf
          omega
  | variant hv hc =>
    subst hx
    exfalso
    simp only [List.map_cons, directVariants, List.map_nil, List.mem_cons, List.not_mem_nil, or_false] at hv
    rcases hv with rfl | rfl
    · cases hc with
      | field hf _ => cases hf
    · cases hc with
      | field hf hc =>
        simp only [List.mem_cons, List.not_mem_nil, or_false] at hf
        subst hf
        cases hc

theorem component_leaf {t u : Ty} (hu : ∀ fs h tl, u ≠ .tuple fs h tl) (hu2 : ∀ e n, u ≠ .array e n)
    (hu3 : ∀ vs dt disc s a, u ≠ .enum vs dt disc s a) (h : Component t u) : t = u := by
  cases h with
  | refl => rfl
  | field => exact absurd rfl (hu _ _ _)
  | elem => exact absurd rfl (hu2 _ _)
  | variant => exact absurd rfl (hu3 _ _ _ _ _)

theorem big_coherent : big.Coherent env := by
  intro vs dt disc s a h
  generalize hx : Ty.enum vs dt disc s a = x at h
  cases h with
  | refl => cases hx
  | elem h =>
    cases h with
    | refl => cases hx
    | field hf h =>
      simp only [List.mem_cons, List.not_mem_nil, or_false] at hf
      rcases hf with rfl | rfl | rfl | rfl
      · exact optU8_coherent vs dt disc s a (hx ▸ h)
      · have := component_leaf (by simp [uni]) (by simp [uni]) (by simp [uni]) h
        subst this; cases hx
      · have := component_leaf (by simp) (by simp) (by simp) h
        subst this; cases hx
      · cases h with
        | refl => cases hx
        | field hf h =>
          simp only [List.mem_cons, List.not_mem_nil, or_false] at hf
          rcases hf with rfl | rfl
          · have := component_leaf (by simp) (by simp) (by simp) h
            subst this; cases hx
          · have := component_leaf (by simp) (by simp) (by simp) h
            subst this; cases hx

end Ex

section
variable {P : Type} [DecidableEq P] [T : Target] [LT : LawfulTarget T]

theorem good_of_size {prog : Program} {ty : Ty} {n : Nat} (hwf : ty.checkWf prog = .ok ())
    (hsz : ty.size = .ok n) : ty.Good ∧ ty.sz = n := by
  have hl : ∃ s a, ty.layout = .ok (.sized s a) := by
    simp only [Ty.size, Res.bind_eq_ok] at hsz
    obtain ⟨l, h1, h2⟩ := hsz
    cases l with
    | sized s a => exact ⟨s, a, h1⟩
    | _ => cases h2
  have hg := Ty.good_of_checkWf prog ty hwf hl
  have := hg.size
  rw [hsz] at this
  cases this
  exact ⟨hg, rfl⟩

/-! ### C01 -/

/-- C01: encoding a well-formed value of a sized well-formed type does not panic and gives exactly
`size` bytes. -/
theorem C01_encode_size (prog : Program) (ty : Ty) (n : Nat) (hwf : ty.checkWf prog = .ok ())
    (hsz : ty.size = .ok n) (env : ValEnv P) (v : Value P) (hv : checkValue env ty v = .ok ()) :
    ∃ bytes, encode ty v = .ok bytes ∧ bytes.length = n := by
  obtain ⟨hg, rfl⟩ := good_of_size hwf hsz
  obtain ⟨bs, h⟩ := encode_total_good env hg hv
  exact ⟨bs, h, encode_length_good hg h⟩

/-- C01: only byte lists of exactly that length are ever decoded to a value, and on byte lists of
that length decoding gives a value or `None`, never a panic. -/
theorem C01_decode_size (prog : Program) (ty : Ty) (n : Nat) (hwf : ty.checkWf prog = .ok ())
    (hsz : ty.size = .ok n) (bytes : List (AByte P)) :
    (∀ v, decode ty bytes = .ok v → bytes.length = n) ∧
    (bytes.length = n → (∃ v, decode ty bytes = .ok v) ∨ decode ty bytes = .error .none) := by
  obtain ⟨hg, rfl⟩ := good_of_size hwf hsz
  exact ⟨fun v h => decode_length_good hg h, fun h => decode_total_good hg h⟩

end

section
attribute [local instance] x86_64
example : ∃ bytes, encode Ex.big Ex.bigVal = .ok bytes ∧ bytes.length = 72 :=
  C01_encode_size Ex.prog Ex.big 72 Ex.big_wf Ex.big_size Ex.env Ex.bigVal Ex.bigVal_valid
example : (∃ v, decode Ex.big (List.replicate 72 (.init 0 none) : List (AByte Nat)) = .ok v) ∧
    decode Ex.big (List.replicate 72 .uninit : List (AByte Nat)) = .error .none := by
  refine ⟨?_, by decide +kernel⟩
  rcases (C01_decode_size Ex.prog Ex.big 72 Ex.big_wf Ex.big_size
    (List.replicate 72 (.init 0 none) : List (AByte Nat))).2 (by decide) with h | h
  · exact h
  · exact absurd h (by decide +kernel)
end

section
variable {P : Type} [DecidableEq P] [T : Target] [LT : LawfulTarget T]

/-! ### C02, C03 -/

/-- C02, for types whose enums are coherent (`Ty.Coherent`: taggers do not overwrite data and the
discriminator inverts them). Missing for the full property: enums that `check_wf` accepts although
they are not coherent; `C02_fails_for_incoherent_enum` shows that the full property is false there. -/
theorem C02_decode_encode_partial (prog : Program) (ty : Ty) (n : Nat) (hwf : ty.checkWf prog = .ok ())
    (hsz : ty.size = .ok n) (env : ValEnv P) (hco : ty.Coherent env)
    (v : Value P) (hv : checkValue env ty v = .ok ()) :
    (encode ty v >>= fun bytes => decode ty bytes) = .ok v := by
  obtain ⟨hg, rfl⟩ := good_of_size hwf hsz
  obtain ⟨bs, h⟩ := encode_total_good env hg hv
  rw [h]
  exact decode_encode_good env hg hco hv h

/-- C03, for types whose enums are coherent: whatever was decoded can be encoded again, and the result
is byte for byte less or equally defined. -/
theorem C03_encode_decode_partial (prog : Program) (ty : Ty) (n : Nat) (hwf : ty.checkWf prog = .ok ())
    (hsz : ty.size = .ok n) (env : ValEnv P) (hco : ty.Coherent env)
    (bytes : List (AByte P)) (v : Value P) (hv : decode ty bytes = .ok v) :
    ∃ bytes', encode ty v = .ok bytes' ∧ BytesLe bytes' bytes := by
  obtain ⟨hg, rfl⟩ := good_of_size hwf hsz
  obtain ⟨bs, h1, h2⟩ := encode_decode_good env hg hco (decode_length_good hg hv) hv
  exact ⟨bs, h1, bLe_iff.1 h2⟩

/-- Enums translated by `minimize` with a direct tag are coherent, whatever their variants, as
long as rustc's layout keeps the tag and the variants' data apart and discriminants are distinct. -/
theorem C02_direct_enums_coherent (env : ValEnv P) (off : Nat) (tagTy : IntType) (vs : List RustVariant)
    (size : Nat) (hnd : (vs.map (·.1)).Nodup)
    (hdata : ∀ v ∈ vs, ∀ i, off ≤ i → i < off + tagTy.size → ¬ UsesByte v.2 i) :
    EnumCoherent env (directVariants off tagTy vs) (directDiscriminator off tagTy vs) size :=
  directEnum_coherent env hnd hdata

/-- Enums translated by `minimize` with a niche are coherent, as long as tagged variants do not use
the bytes of the tag, the branches are disjoint (as `check_wf` demands) and valid data of the untagged
variant never looks like a tag. -/
theorem C02_niche_enums_coherent (env : ValEnv P) (n : Niche) (vs : List (Nat × RustVariant)) (size : Nat)
    (hnd : (vs.map (·.2.1)).Nodup) (hidx : ∀ v ∈ vs, v.1 = n.untagged ↔ v.2.1 = n.untagged)
    (hdisj : (n.variantChildren vs ++ n.rangeChildren).Pairwise
      fun c c' => c.1.2 ≤ c'.1.1 ∨ c'.1.2 ≤ c.1.1)
    (hdata : ∀ v ∈ vs, v.1 ≠ n.untagged → ∀ i, n.tagOffset ≤ i → i < n.tagOffset + n.tagTy.size →
      ¬ UsesByte v.2.2 i)
    (hniche : ∀ v ∈ vs, v.1 = n.untagged → ∀ data, checkValue env v.2.2 data = .ok () →
      ∀ bytes, encode v.2.2 data = .ok bytes → ∃ tag val, subslice bytes n.tagOffset n.tagTy.size = .ok tag ∧
        decodeInt n.tagTy tag = .ok val ∧
        ∀ c ∈ n.variantChildren vs ++ n.rangeChildren, ¬ (c.1.1 ≤ val ∧ val < c.1.2)) :
    EnumCoherent env (n.variants vs) (n.discriminator vs) size :=
  nicheEnum_coherent env hnd hidx hdisj hdata hniche

end

section
attribute [local instance] x86_64
example : (encode Ex.big Ex.bigVal >>= fun bytes => decode Ex.big bytes) = .ok Ex.bigVal :=
  C02_decode_encode_partial Ex.prog Ex.big 72 Ex.big_wf Ex.big_size Ex.env Ex.big_coherent Ex.bigVal
    Ex.bigVal_valid
/-- `Some(7)` with provenance on its data byte: re-encoding drops the provenance. -/
example : ∃ bytes', encode Ex.optU8 (.variant 1 (.tuple [.int 7]) : Value Nat) = .ok bytes' ∧
    BytesLe bytes' [.init 1 none, .init 7 (some ⟨3, 0⟩)] :=
  C03_encode_decode_partial Ex.prog Ex.optU8 2 (by decide) (by decide) Ex.env Ex.optU8_coherent
    _ _ (by decide)

/-- `Option<&u8>`-like: the null pointer is the niche. The non-vacuity of the niche theorem. -/
def Ex.nicheTy : Niche := ⟨0, ⟨.unsigned, 8⟩, 1, (0, 0), 0, (0, 2 ^ 64 - 1)⟩
def Ex.refU8 : PtrType := .ref .imm ⟨.sized 1 ⟨0⟩, true, .sized [], true, true⟩
def Ex.nicheVs : List (Nat × RustVariant) :=
  [(0, (0, .tuple [] ⟨8, ⟨3⟩, none⟩ none)), (1, (1, .tuple [(0, .ptr Ex.refU8)] ⟨8, ⟨3⟩, none⟩ none))]
example : (Ex.nicheTy.enum ⟨.signed, 8⟩ Ex.nicheVs 8 ⟨3⟩).checkWf Ex.prog = .ok () := by decide

theorem Ex.niche_coherent :
    EnumCoherent Ex.env (Ex.nicheTy.variants Ex.nicheVs) (Ex.nicheTy.discriminator Ex.nicheVs) 8 := by
  apply C02_niche_enums_coherent
  · decide
  · decide
  · simp [Niche.variantChildren, Niche.rangeChildren, Ex.nicheTy, Ex.nicheVs]
  · intro v hv hne i _ _ hu
    simp only [Ex.nicheVs, List.mem_cons, List.not_mem_nil, or_false] at hv
    rcases hv with rfl | rfl
    · cases hu with
      | field hf => cases hf
    · exact absurd rfl hne
  · intro v hv hu data hd bytes hb
    simp only [Ex.nicheVs, List.mem_cons, List.not_mem_nil, or_false] at hv
    rcases hv with rfl | rfl
    · exact absurd hu (by decide)
    cases data with
    | tuple vs =>
      match vs, hd, hb with
      | [.ptr q], hd, hb =>
        have hc : checkPtr Ex.env q Ex.refU8 = .ok () := by
          simp only [checkValue, checkFields, Res.bind_eq_ok] at hd
          obtain ⟨_, _, _, _, _, h, _⟩ := hd
          exact h
        have hne : q.thin.addr ≠ 0 := by
          simp only [checkPtr, Ex.refU8, PtrType.safePointee, Res.bind_eq_ok, ensureUb_eq_ok,
            bne_iff_ne] at hc
          obtain ⟨_, _, _, _, _, _, _, _, _, _, _, h, _⟩ := hc
          exact h
        have hm : q.metadata = none := by
          simp only [checkPtr, Ex.refU8, PtrType.metaKind, LayoutStrategy.metaKind, Res.bind_eq_ok] at hc
          obtain ⟨_, _, _, h, _⟩ := hc
          cases hq : q.metadata with
          | none => rfl
          | some m => rw [hq] at h; cases m <;> cases h
        have hs : (Ty.ptr Ex.refU8).size = .ok 8 := by decide
        have hw : ∃ pb, encodePtr q.thin = .ok pb ∧ bytes = pb := by
          simp only [encode, encodeFields, List.length_singleton, beq_self_eq_true, rassert_true,
            Res.bind_ok, Res.bind_eq_ok] at hb
          obtain ⟨pb, h1, b, h2, h3⟩ := hb
          rw [encodePtrTy_thin rfl, hm] at h1
          simp only [Option.isNone_none, rassert_true, Res.bind_ok] at h1
          have hpl : pb.length = 8 := encodePtr_length h1
          cases h3
          refine ⟨pb, h1, ?_⟩
          rw [writeSubslice_eq_ok] at h2
          rw [h2.2, hpl]
          show [] ++ pb ++ List.drop 8 (List.replicate 8 _) = pb
          simp
        obtain ⟨pb, h1, rfl⟩ := hw
        have hl : bytes.length = 8 := encodePtr_length h1
        obtain ⟨ds, h2, h3⟩ := encodePtr_eq_ok.1 h1
        refine ⟨bytes, q.thin.addr, ?_, ?_, ?_⟩
        · rw [subslice_eq_ok]; constructor
          · show 0 + 8 ≤ bytes.length; omega
          · show bytes = (bytes.drop 0).take 8
            rw [List.drop_zero, List.take_of_length_le (by omega)]
        · rw [decodeInt_eq_ok]
          refine ⟨hl, ds, ?_, ?_⟩
          · rw [h3]; exact bytesData_mapIdx ds _
          · exact (decode_encode h2).symm
        · have hcs : Ex.nicheTy.variantChildren Ex.nicheVs ++ Ex.nicheTy.rangeChildren =
              [((0, 1), .known 0)] := by rfl
          rw [hcs]
          intro c hc
          simp only [List.mem_cons, List.not_mem_nil, or_false] at hc
          subst hc
          simp only
          omega
      | [], hd, _ => simp [checkValue, ensureUb] at hd
      | [.int _], hd, _ => simp [checkValue, checkFields] at hd
      | [.bool _], hd, _ => simp [checkValue, checkFields] at hd
      | [.tuple _], hd, _ => simp [checkValue, checkFields] at hd
      | [.variant _ _], hd, _ => simp [checkValue, checkFields] at hd
      | [.union _], hd, _ => simp [checkValue, checkFields] at hd
      | _ :: _ :: _, hd, _ => simp [checkValue, ensureUb] at hd
    | _ => cases hd

/-- An enum whose tag overlaps the data of its only variant. -/
def Ex.overlap : Ty := .enum [(0, (.tuple [(0, .int Ex.u8)] ⟨1, ⟨0⟩, none⟩ none, [(0, (Ex.u8, 0))]))]
  Ex.u8 (.known 0) 1 ⟨0⟩

/-- The full C02 is false: `check_wf` accepts an enum whose tag overlaps its data, and then
decoding the encoding of the valid value `variant 0 (7)` gives `variant 0 (0)`. -/
theorem C02_fails_for_incoherent_enum :
    Ex.overlap.checkWf Ex.prog = .ok () ∧
    checkValue Ex.env Ex.overlap (.variant 0 (.tuple [.int 7])) = .ok () ∧
    (encode Ex.overlap (.variant 0 (.tuple [.int 7]) : Value Nat) >>= fun bytes => decode Ex.overlap bytes) =
      .ok (.variant 0 (.tuple [.int 0])) := by decide

/-- The full C03 is false: the same enum decodes the byte 3, but the value re-encodes to byte 0. -/
theorem C03_fails_for_incoherent_enum :
    Ex.overlap.checkWf Ex.prog = .ok () ∧
    decode Ex.overlap ([.init 3 none] : List (AByte Nat)) = .ok (.variant 0 (.tuple [.int 3])) ∧
    encode Ex.overlap (.variant 0 (.tuple [.int 3]) : Value Nat) = .ok [.init 0 none] ∧
    ¬ BytesLe ([.init 0 none] : List (AByte Nat)) [.init 3 none] := by
  refine ⟨by decide, by decide, by decide, ?_⟩
  rw [← bytesLe_iff]; decide
end

section
variable {P : Type} [DecidableEq P] [T : Target] [LT : LawfulTarget T]

/-! ### C04, C05 -/

/-- C04: encoding is monotone. (Well-formedness of the values is not even needed: it is enough that
both can be encoded, which C01 gives for well-formed values.) -/
theorem C04_encode_monotone (prog : Program) (ty : Ty) (n : Nat) (hwf : ty.checkWf prog = .ok ())
    (hsz : ty.size = .ok n) (v w : Value P) (hvw : ValueLe v w) (a b : List (AByte P))
    (ha : encode ty v = .ok a) (hb : encode ty w = .ok b) : BytesLe a b := by
  obtain ⟨hg, rfl⟩ := good_of_size hwf hsz
  exact bLe_iff.1 (encode_mono_good hg (valueLe_iff.2 hvw) ha hb)

/-- C05: decoding is monotone: more defined bytes decode at least as often, to a more defined value. -/
theorem C05_decode_monotone (prog : Program) (ty : Ty) (n : Nat) (hwf : ty.checkWf prog = .ok ())
    (hsz : ty.size = .ok n) (a b : List (AByte P)) (hab : BytesLe a b) (v : Value P)
    (hv : decode ty a = .ok v) : ∃ w, decode ty b = .ok w ∧ ValueLe v w := by
  obtain ⟨hg, rfl⟩ := good_of_size hwf hsz
  obtain ⟨w, h1, h2⟩ := decode_mono_good hg (decode_length_good hg hv) (bLe_iff.2 hab) hv
  exact ⟨w, h1, valueLe_iff.1 h2⟩

end

section
attribute [local instance] x86_64
example : BytesLe ([.uninit, .init 3 none] : List (AByte Nat)) [.init 9 none, .init 3 (some ⟨1, 2⟩)] :=
  C04_encode_monotone Ex.prog Ex.uni 2 (by decide) (by decide) (.union [[.uninit, .init 3 none]])
    (.union [[.init 9 none, .init 3 (some ⟨1, 2⟩)]]) (by rw [← valueLe_iff]; decide) _ _ (by decide) (by decide)
example : ∃ w, decode Ex.uni ([.init 9 none, .init 3 (some ⟨1, 2⟩)] : List (AByte Nat)) = .ok w ∧
    ValueLe (.union [[.uninit, .init 3 none]]) w :=
  C05_decode_monotone Ex.prog Ex.uni 2 (by decide) (by decide) [.uninit, .init 3 none]
    [.init 9 none, .init 3 (some ⟨1, 2⟩)] (by rw [← bytesLe_iff]; decide) _ (by decide)
end

section
variable {P : Type} [DecidableEq P] [T : Target] [LT : LawfulTarget T]

/-! ### C06 -/

omit T LT in
/-- C06: the executable `le_defined` on abstract bytes, byte lists and values decides the declarative
definedness relations of `Spec/Representation`. -/
theorem C06_le_defined_correct :
    (∀ a b : AByte P, a.le b = true ↔ ByteLe a b) ∧
    (∀ a b : List (AByte P), listLe AByte.le a b = true ↔ BytesLe a b) ∧
    (∀ a b : ThinPtr P, a.le b = true ↔ ThinLe a b) ∧
    (∀ a b : Value P, a.le b = true ↔ ValueLe a b) :=
  ⟨fun _ _ => byteLe_iff, fun _ _ => bytesLe_iff, fun _ _ => thinLe_iff, fun _ _ => valueLe_iff⟩

/-- `le` is a partial order. -/
def IsPartialOrderB {α : Type} (le : α → α → Bool) : Prop :=
  (∀ a, le a a = true) ∧ (∀ a b c, le a b = true → le b c = true → le a c = true) ∧
  (∀ a b, le a b = true → le b a = true → a = b)

omit T LT in
/-- C06: `le_defined` is a partial order on abstract bytes, byte lists, thin pointers, pointers and values. -/
theorem C06_le_defined_partial_order :
    IsPartialOrderB (AByte.le (P := P)) ∧ IsPartialOrderB (listLe (AByte.le (P := P))) ∧
    IsPartialOrderB (ThinPtr.le (P := P)) ∧ IsPartialOrderB (Pointer.le (P := P)) ∧
    IsPartialOrderB (Value.le (P := P)) := by
  have hv : IsPartialOrderB (Value.le (P := P)) :=
    ⟨fun a => valueLe_iff.2 (ValueLe.refl a),
      fun a b c h1 h2 => valueLe_iff.2 ((valueLe_iff.1 h1).trans (valueLe_iff.1 h2)),
      fun a b h1 h2 => (valueLe_iff.1 h1).antisymm (valueLe_iff.1 h2)⟩
  refine ⟨⟨AByte.le_refl, fun a b c => AByte.le_trans, fun a b => AByte.le_antisymm⟩, ?_, ?_, ?_, hv⟩
  · exact ⟨fun a => bytesLe_iff.2 (BytesLe.refl a),
      fun a b c h1 h2 => bytesLe_iff.2 ((bytesLe_iff.1 h1).trans (bytesLe_iff.1 h2)),
      fun a b h1 h2 => (bytesLe_iff.1 h1).antisymm (bytesLe_iff.1 h2)⟩
  · exact ⟨fun a => thinLe_iff.2 (ThinLe.refl a),
      fun a b c h1 h2 => thinLe_iff.2 ((thinLe_iff.1 h1).trans (thinLe_iff.1 h2)),
      fun a b h1 h2 => (thinLe_iff.1 h1).antisymm (thinLe_iff.1 h2)⟩
  · obtain ⟨h1, h2, h3⟩ := hv
    refine ⟨fun a => h1 (.ptr a), fun a b c => h2 (.ptr a) (.ptr b) (.ptr c), fun a b h h' => ?_⟩
    have := h3 (.ptr a) (.ptr b) h h'
    cases this; rfl

/-- The order is not trivial. -/
example : Value.le (.union [[.uninit]] : Value Nat) (.union [[.init 1 none]]) = true ∧
    Value.le (.union [[.init 1 none]] : Value Nat) (.union [[.uninit]]) = false ∧
    Value.le (.ptr ⟨⟨1, none⟩, none⟩ : Value Nat) (.ptr ⟨⟨1, some 3⟩, none⟩) = true := by decide

/-! ### C07 -/

omit T LT [DecidableEq P] in
/-- C07: encoding succeeds exactly on in-range integers, has the right length, and is inverted by
decoding; decoding is inverted by encoding; big-endian is reversed little-endian. -/
theorem C07_int_encoding_bijection (s : Signedness) (size : Nat) :
    (∀ (e : Endianness) i, (e.encode s size i).isSome ↔
      match s with
      | .unsigned => 0 ≤ i ∧ i < 2 ^ (8 * size)
      | .signed => -(2 ^ (8 * size)) ≤ 2 * i ∧ 2 * i < 2 ^ (8 * size)) ∧
    (∀ (e : Endianness) i bytes, e.encode s size i = some bytes → bytes.length = size ∧ e.decode s bytes = i) ∧
    (∀ (e : Endianness) bytes, bytes.length = size → e.encode s size (e.decode s bytes) = some bytes) ∧
    (∀ i, Endianness.big.encode s size i = (Endianness.little.encode s size i).map List.reverse) ∧
    (∀ bytes, Endianness.big.decode s bytes = Endianness.little.decode s bytes.reverse) := by
  refine ⟨?_, ?_, ?_, ?_, ?_⟩
  · intro e i
    rw [encode_isSome]
    cases s <;> simp [inBounds]
  · intro e i bytes h
    exact ⟨encode_length h, decode_encode h⟩
  · intro e bytes h
    subst h
    exact encode_decode e s bytes
  · intro i
    unfold Endianness.encode
    split <;> rfl
  · intro bytes
    simp [Endianness.decode]

/-- Little-endian means: byte `k` is the `k`-th base-256 digit. -/
theorem C07_little_endian_digits (size : Nat) (i : Int) (bytes : List UInt8) (k : Nat) (hk : k < size)
    (h : Endianness.little.encode .unsigned size i = some bytes) :
    bytes[k]? = some (UInt8.ofNat ((i.toNat / 256 ^ k) % 256)) := by
  rw [Endianness.encode_def] at h
  split at h
  · rename_i hb
    simp only [Option.some.injEq] at h
    simp only [inBounds, decide_eq_true_eq] at hb
    rw [Int.emod_eq_of_lt hb.1 hb.2] at h
    subst h
    show (leEncode size i.toNat)[k]? = _
    generalize i.toNat = x
    clear hb
    induction size generalizing k x with
    | zero => omega
    | succ n ih =>
      rcases k with _ | k
      · simp [leEncode]
      · simp only [leEncode, List.getElem?_cons_succ]
        rw [ih k (by omega), Nat.div_div_eq_div_mul, Nat.pow_succ, Nat.mul_comm]
  · cases h

example : Endianness.little.encode .signed 2 (-2) = some [0xfe, 0xff] ∧
    Endianness.big.encode .signed 2 (-2) = some [0xff, 0xfe] ∧
    Endianness.little.encode .signed 2 32768 = none := by decide

/-! ### C08 -/

/-- C08: decoding a thin pointer gives provenance `p` exactly when every byte is initialized and
byte `i` carries fragment `i` of `p`. -/
theorem C08_decoded_provenance (pt : PtrType) (hthin : pt.metaKind = .none) (bytes : List (AByte P))
    (hl : bytes.length = T.ptrSize) (p : P) :
    (∃ addr, decode (.ptr pt) bytes = .ok (.ptr ⟨⟨addr, some p⟩, none⟩)) ↔
      ∀ i < T.ptrSize, ∃ d, bytes[i]? = some (.init d (some ⟨p, i⟩)) := by
  show (∃ addr, decodePtrTy pt bytes = _) ↔ _
  rw [decodePtrTy_thin hthin]
  simp only [Res.bind_eq_ok, Except.ok.injEq, Value.ptr.injEq, ThinPtr.widen, Pointer.mk.injEq, and_true]
  constructor
  · rintro ⟨addr, t, h, rfl⟩ i hi
    obtain ⟨_, ds, b0, h1, h2, h3⟩ := decodePtr_eq_ok.1 h
    injection h3 with _ h3
    have := (foldProv_eq_some.1 h3.symm).2 i _ (List.getElem?_eq_getElem (by omega))
    rw [Nat.zero_add] at this
    rw [List.getElem?_eq_getElem (by omega)]
    cases hb : bytes[i]'(by omega) with
    | uninit => rw [hb] at this; cases this
    | init d f =>
      rw [hb] at this
      simp only [AByte.frag] at this
      exact ⟨d, by rw [this]⟩
  · intro h
    have hpos := ptrSize_pos (T := T)
    have hdata : ∃ ds, bytesData bytes = .ok ds := by
      cases hb : bytesData bytes with
      | ok ds => exact ⟨ds, rfl⟩
      | error e =>
        exfalso
        have key : ∀ bs : List (AByte P), (∀ b ∈ bs, b.data ≠ none) → ∃ ds, bytesData bs = .ok ds := by
          intro bs
          induction bs with
          | nil => intro _; exact ⟨[], rfl⟩
          | cons b bs ih =>
            intro hbs
            obtain ⟨ds, hds⟩ := ih fun x hx => hbs x (by simp [hx])
            cases hd : b.data with
            | none => exact absurd hd (hbs b (by simp))
            | some d => exact ⟨d :: ds, by simp [bytesData, hd, hds]⟩
        obtain ⟨ds, hds⟩ := key bytes (by
          intro b hb hn
          obtain ⟨i, hi, rfl⟩ := List.getElem_of_mem hb
          obtain ⟨d, hd⟩ := h i (by omega)
          rw [List.getElem?_eq_getElem hi, Option.some.injEq] at hd
          rw [hd] at hn; cases hn)
        rw [hds] at hb; cases hb
    obtain ⟨ds, hds⟩ := hdata
    obtain ⟨d0, hd0⟩ := h 0 hpos
    refine ⟨T.endianness.decode .unsigned ds, _, decodePtr_eq_ok.2 ⟨hl, ds, _, hds, hd0, rfl⟩, ?_⟩
    congr 1
    rw [foldProv_eq_some]
    refine ⟨rfl, ?_⟩
    intro i b hb
    have hi : i < T.ptrSize := by
      have := (List.getElem?_eq_some_iff.1 hb).1; omega
    obtain ⟨d, hd⟩ := h i hi
    rw [hd] at hb; cases hb
    simp [AByte.frag]

/-- C08: whenever decoding gives a pointer and some byte does not carry its fragment, the pointer
has no provenance; it has its address from the data bytes in any case. -/
theorem C08_broken_provenance (pt : PtrType) (hthin : pt.metaKind = .none) (bytes : List (AByte P))
    (q : Pointer P) (h : decode (.ptr pt) bytes = .ok (.ptr q)) :
    q.metadata = none ∧ (∃ data, bytes.map AByte.data = data.map some ∧
      q.thin.addr = T.endianness.decode .unsigned data) ∧
    ((∃ (i : Nat) (b : AByte P), bytes[i]? = some b ∧ ∀ p, q.thin.prov = some p → b.frag ≠ some ⟨p, i⟩) → q.thin.prov = none) := by
  have hl : bytes.length = T.ptrSize := by
    have := decodePtrTy_length (v := .ptr q) h
    simpa [Ty.sz, hthin] using this
  have h' := h
  simp only [decode] at h
  rw [decodePtrTy_thin hthin] at h
  simp only [Res.bind_eq_ok, Except.ok.injEq, Value.ptr.injEq, ThinPtr.widen] at h
  obtain ⟨t, h, rfl⟩ := h
  obtain ⟨_, ds, b0, h1, h2, h3⟩ := decodePtr_eq_ok.1 h
  refine ⟨rfl, ⟨ds, bytesData_eq_ok.1 h1, by rw [h3]⟩, ?_⟩
  rintro ⟨i, b, hb, hne⟩
  cases hp : t.prov with
  | none => rfl
  | some p =>
    exfalso
    have := (C08_decoded_provenance pt hthin bytes hl p).1 ⟨t.addr, by rw [h', ← hp]⟩ i (by
      have := (List.getElem?_eq_some_iff.1 hb).1; omega)
    obtain ⟨d, hd⟩ := this
    rw [hd] at hb; cases hb
    exact hne p hp rfl

/-- C08: a pointer (thin or wide) that can be stored is loaded back unchanged, with address,
provenance and metadata. -/
theorem C08_pointer_round_trip (pt : PtrType) (q : Pointer P) (bytes : List (AByte P))
    (h : encode (.ptr pt) (.ptr q) = .ok bytes) : decode (.ptr pt) bytes = .ok (.ptr q) := by
  have hg : (Ty.ptr pt).Good := .ptr
  by_cases hk : pt.metaKind = .none
  · have h' := h
    simp only [encode] at h'
    rw [encodePtrTy_thin hk, Res.bind_eq_ok] at h'
    obtain ⟨_, h1, h2⟩ := h'
    rw [rassert_eq_ok] at h1
    simp only [decode]
    rw [decodePtrTy_thin hk, decodePtr_encodePtr ptrSize_pos h2]
    obtain ⟨t, m⟩ := q
    cases m with
    | none => rfl
    | some m => cases h1
  · have hl := encode_length_good hg h
    simp only [encode] at h
    rw [encodePtrTy_wide_eq_ok hk] at h
    obtain ⟨m, a, b, h1, h2, h3, rfl⟩ := h
    have hla := encodePtr_length h2
    simp only [Ty.sz, hk, if_false] at hl
    simp only [decode]
    rw [decodePtrTy_wide hk _ hl, List.take_left' hla, List.drop_left' hla,
      decodePtr_encodePtr ptrSize_pos h2, Res.bind_ok, decodeMetaBytes_encode h3]
    obtain ⟨t, m'⟩ := q
    simp only at h1
    subst h1; rfl

end

section
attribute [local instance] x86_64
def Ex.ptrBytes : List (AByte Nat) :=
  [.init 0 (some ⟨7, 0⟩), .init 16 (some ⟨7, 1⟩), .init 0 (some ⟨7, 2⟩), .init 0 (some ⟨7, 3⟩),
   .init 0 (some ⟨7, 4⟩), .init 0 (some ⟨7, 5⟩), .init 0 (some ⟨7, 6⟩), .init 0 (some ⟨7, 7⟩)]
example : decode (.ptr (.raw .none)) Ex.ptrBytes = .ok (.ptr ⟨⟨4096, some 7⟩, none⟩) := by decide
example : decode (.ptr (.raw .none)) (Ex.ptrBytes.set 3 (.init 0 (some ⟨8, 3⟩))) =
    .ok (.ptr ⟨⟨4096, none⟩, none⟩) := by decide
example : decode (.ptr (.raw .none)) ((Ex.ptrBytes.set 3 (.init 0 (some ⟨7, 4⟩))).set 4 (.init 0 (some ⟨7, 3⟩))) =
    .ok (.ptr ⟨⟨4096, none⟩, none⟩) := by decide
example : encode (.ptr (.raw .none)) (.ptr ⟨⟨4096, some 7⟩, none⟩) = .ok Ex.ptrBytes := by decide
end

section
variable {P : Type} [DecidableEq P] [T : Target] [LT : LawfulTarget T]

/-! ### C33 -/

/-- C33: the discriminant computed for an accepted enum type is one of its variants. -/
theorem C33_discriminant_exists (prog : Program) (vs : Variants) (dt : IntType) (disc : Discriminator)
    (size : Nat) (align : Align) (hwf : (Ty.enum vs dt disc size align).checkWf prog = .ok ())
    (bytes : List (AByte P)) (hl : bytes.length = size) :
    discriminantOf disc bytes = .ok none ∨
    ∃ d ty tagger, (d, (ty, tagger)) ∈ vs ∧ discriminantOf disc bytes = .ok (some d) := by
  simp only [Ty.checkWf, Res.bind_eq_ok] at hwf
  obtain ⟨_, _, _, h, _⟩ := hwf
  rcases discriminantOf_total hl disc h with h | ⟨d, h1, h2⟩
  · exact Or.inl h
  · right
    rw [Option.isSome_iff_exists] at h1
    obtain ⟨⟨ty, tg⟩, h1⟩ := h1
    exact ⟨d, ty, tg, Map.get?_mem h1, h2⟩

/-- C33: it does not depend on the order in which the branches are enumerated, at any nesting depth. -/
theorem C33_order_independent (prog : Program) (vs : Variants) (dt : IntType) (disc disc' : Discriminator)
    (size : Nat) (align : Align) (hwf : (Ty.enum vs dt disc size align).checkWf prog = .ok ())
    (h : DiscReorder disc disc') (bytes : List (AByte P)) :
    discriminantOf disc bytes = discriminantOf disc' bytes := by
  simp only [Ty.checkWf, Res.bind_eq_ok] at hwf
  obtain ⟨_, _, _, hd, _⟩ := hwf
  exact (h.sound (Discriminator.disjAll_of_checkWf disc hd)).2 bytes

/-- C33: it only depends on the bytes the discriminator branches on. -/
theorem C33_only_tag_bytes (disc : Discriminator) (a b : List (AByte P)) (hl : a.length = b.length)
    (h : ∀ i, disc.Reads i → a[i]? = b[i]?) : discriminantOf disc a = discriminantOf disc b :=
  discriminantOf_congr hl disc h

/-- C33: with disjoint branches, a branch answers with the one child whose range contains the tag,
and with the fallback exactly when no range does. -/
theorem C33_branch_meaning (prog : Program) (vs : Variants) (dt : IntType) (o : Nat) (vt : IntType)
    (f : Discriminator) (cs : List ((Int × Int) × Discriminator)) (size : Nat) (align : Align)
    (hwf : (Ty.enum vs dt (.branch o vt f cs) size align).checkWf prog = .ok ())
    (bytes tag : List (AByte P)) (val : Int) (h1 : subslice bytes o vt.size = .ok tag)
    (h2 : decodeInt vt tag = .ok val) :
    (∀ c ∈ cs, c.1.1 ≤ val → val < c.1.2 →
      discriminantOf (.branch o vt f cs) bytes = discriminantOf c.2 bytes) ∧
    ((∀ c ∈ cs, ¬ (c.1.1 ≤ val ∧ val < c.1.2)) →
      discriminantOf (.branch o vt f cs) bytes = discriminantOf f bytes) := by
  simp only [Ty.checkWf, Res.bind_eq_ok] at hwf
  obtain ⟨_, _, _, hd, _⟩ := hwf
  have hdisj := checkWf_branch_disj hd
  rw [discriminantOf_branch_ok h1 h2]
  constructor
  · intro c hc h3 h4
    rw [(pickChild_eq_some hdisj).2 ⟨c, hc, rfl, h3, h4⟩]
  · intro h
    rw [pickChild_eq_none.2 h]

end

section
attribute [local instance] x86_64
example : Ex.optU8.checkWf Ex.prog = .ok () ∧
    discriminantOf (directDiscriminator 0 Ex.u8 [(0, unitTy), (1, unitTy)])
      ([.init 1 none, .uninit] : List (AByte Nat)) = .ok (some 1) ∧
    discriminantOf (directDiscriminator 0 Ex.u8 [(1, unitTy), (0, unitTy)])
      ([.init 1 none, .uninit] : List (AByte Nat)) = .ok (some 1) ∧
    discriminantOf (directDiscriminator 0 Ex.u8 [(1, unitTy), (0, unitTy)])
      ([.init 2 none, .uninit] : List (AByte Nat)) = .ok none := by decide
example : DiscReorder (directDiscriminator 0 Ex.u8 [(0, unitTy), (1, unitTy)])
    (directDiscriminator 0 Ex.u8 [(1, unitTy), (0, unitTy)]) := .perm (List.Perm.swap _ _ _)
end

section
variable {P : Type} [DecidableEq P] [T : Target] [LT : LawfulTarget T]

/-! ### C34 (the part about decoding; the part about typed loads and stores is in `Props/Machine`) -/

/-- C34: every decoded value of a type without safe pointers is valid in every machine state.
(For safe pointers, validity depends on memory and is checked by the typed load.) -/
theorem C34_decoded_valid (prog : Program) (ty : Ty) (n : Nat) (hwf : ty.checkWf prog = .ok ())
    (hsz : ty.size = .ok n) (hp : ty.NoSafePtr) (env : ValEnv P) (bytes : List (AByte P)) (v : Value P)
    (hv : decode ty bytes = .ok v) : checkValue env ty v = .ok () := by
  obtain ⟨hg, rfl⟩ := good_of_size hwf hsz
  exact decode_valid_good env hg hp hv

end

section
attribute [local instance] x86_64
example : Ty.NoSafePtr (.tuple [(0, .ptr (.raw .elementCount)), (16, .bool)] ⟨24, ⟨3⟩, none⟩ none) := by
  intro p h
  cases h with
  | field hf h =>
    simp only [List.mem_cons, List.not_mem_nil, or_false] at hf
    rcases hf with rfl | rfl
    · cases h; simp
    · cases h
end

section
variable {P : Type} [DecidableEq P] [T : Target] [LT : LawfulTarget T]

end
end MiniRust
