import Verif.Lemmas.Repr
/-
The representation laws for `Good` types: totality, sizes, monotonicity and round trips.
-/
set_option linter.unusedSectionVars false
namespace MiniRust
variable {P : Type} [DecidableEq P]
section
variable [T : Target] [LT : LawfulTarget T]

/-! ### Sizes of encodings -/

theorem encodeFields_length {fs : List (Nat × Ty)} {vs : List (Value P)} {a b : List (AByte P)}
    (h : encodeFields fs vs a = .ok b) : b.length = a.length := by
  induction fs generalizing vs a with
  | nil => simp [encodeFields] at h; rw [h]
  | cons f fs ih =>
    obtain ⟨o, t⟩ := f
    cases vs with
    | nil => simp [encodeFields] at h; rw [h]
    | cons v vs =>
      simp only [encodeFields, Res.bind_eq_ok] at h
      obtain ⟨e, _, a', h2, h3⟩ := h
      rw [ih h3, writeSubslice_length h2]

theorem encodeChunks_length {cs : List (Nat × Nat)} {ds : List (List (AByte P))} {a b : List (AByte P)}
    (h : encodeChunks cs ds a = .ok b) : b.length = a.length := by
  induction cs generalizing ds a with
  | nil => simp [encodeChunks] at h; rw [h]
  | cons c cs ih =>
    obtain ⟨o, n⟩ := c
    cases ds with
    | nil => simp [encodeChunks] at h; rw [h]
    | cons d ds =>
      simp only [encodeChunks, Res.bind_eq_ok] at h
      obtain ⟨_, _, a', h2, h3⟩ := h
      rw [ih h3, writeSubslice_length h2]

theorem encodeElems_length {enc : Value P → Res (List (AByte P))} {n : Nat} {vs : List (Value P)}
    {b : List (AByte P)} (h : encodeElems enc n vs = .ok b) : b.length = n * vs.length := by
  induction vs generalizing b with
  | nil => simp [encodeElems] at h; simp [← h]
  | cons v vs ih =>
    simp only [encodeElems, Res.bind_eq_ok, rassert_eq_ok, beq_iff_eq, Except.ok.injEq] at h
    obtain ⟨e, _, _, h2, r, h3, rfl⟩ := h
    simp [ih h3, h2, Nat.mul_add, Nat.add_comm]

theorem encode_array_eq {e : Ty} {n : Int} {vs : List (Value P)} (he : e.Good)
    (hn : (vs.length : Int) = n) :
    encode (.array e n) (.tuple vs) = encodeElems (fun v => encode e v) e.sz vs := by
  simp only [encode, hn, beq_self_eq_true, rassert_true, Res.bind_ok, he.size]
  cases vs <;> rfl

theorem encode_array_len {e : Ty} {n : Int} {vs : List (Value P)} {b : List (AByte P)}
    (h : encode (.array e n) (.tuple vs) = .ok b) : (vs.length : Int) = n := by
  simp only [encode, Res.bind_eq_ok, rassert_eq_ok, beq_iff_eq] at h
  exact h.choose_spec.1

theorem encode_length_good {ty : Ty} (hg : ty.Good) {v : Value P} {bs : List (AByte P)}
    (h : encode ty v = .ok bs) : bs.length = ty.sz := by
  induction hg generalizing v bs with
  | @int i hp =>
    cases v with
    | int n => simp only [encode] at h; rw [encodeInt_length h]; rfl
    | _ => simp [encode] at h
  | bool =>
    cases v with
    | bool b => simp only [encode, Except.ok.injEq] at h; rw [← h]; rfl
    | _ => simp [encode] at h
  | @ptr p =>
    simp only [encode] at h
    cases v with
    | ptr q =>
      by_cases hk : p.metaKind = .none
      · rw [encodePtrTy_thin hk] at h
        simp only [Res.bind_eq_ok] at h
        obtain ⟨_, _, h⟩ := h
        rw [encodePtr_length h]; simp [Ty.sz, hk]
      · rw [encodePtrTy_wide_eq_ok hk] at h
        obtain ⟨m, a, b, _, h1, h2, rfl⟩ := h
        simp [Ty.sz, hk, encodePtr_length h1, encodeMetaBytes_length h2]; omega
    | _ => simp [encodePtrTy] at h
  | tuple =>
    cases v with
    | tuple vs =>
      simp only [encode, Res.bind_eq_ok] at h
      obtain ⟨_, _, h⟩ := h
      rw [encodeFields_length h]; simp [Ty.sz]
    | _ => simp [encode] at h
  | @array e n hn he ih =>
    cases v with
    | tuple vs =>
      have hl := encode_array_len h
      rw [encode_array_eq he hl] at h
      rw [encodeElems_length h]
      simp only [Ty.sz]; congr 1; omega
    | _ => simp [encode] at h
  | union =>
    cases v with
    | union ds =>
      simp only [encode, Res.bind_eq_ok] at h
      obtain ⟨_, _, h⟩ := h
      rw [encodeChunks_length h]; simp [Ty.sz]
    | _ => simp [encode] at h
  | @enum vs dt d s a hv hs ht _ hd ih =>
    cases v with
    | variant d data =>
      simp only [encode] at h
      rw [encodeVariant_eq] at h
      cases hm : Map.get? vs d with
      | none => simp [hm] at h
      | some w =>
        rw [hm] at h
        have hmem := Map.get?_mem hm
        simp only [Res.bind_eq_ok] at h
        obtain ⟨b, h1, h2⟩ := h
        rw [encodeDiscriminant_length h2, ih _ hmem h1, hs _ hmem]; rfl
    | _ => simp [encode] at h

/-! ### Well-formed values can be encoded -/

theorem checkPtrMetadata_ok {env : ValEnv P} {m : Option (PtrMeta P)} {k : MetaKind}
    (h : checkPtrMetadata env m k = .ok ()) :
    (k = .none ∧ m = none) ∨ (k ≠ .none ∧ ∃ m' b, m = some m' ∧ encodeMetaBytes k m' = .ok b) := by
  rcases m with _ | m
  · cases k with
    | none => left; exact ⟨rfl, rfl⟩
    | _ => simp [checkPtrMetadata] at h
  · right
    cases m with
    | elementCount n =>
      cases k with
      | elementCount =>
        simp only [checkPtrMetadata, ensureUb_eq_ok] at h
        obtain ⟨ds, _, h2⟩ := encodeInt_ok (P := P) h
        exact ⟨by simp, _, _, rfl, h2⟩
      | _ => simp [checkPtrMetadata] at h
    | vtablePointer p =>
      cases k with
      | vtablePointer t =>
        simp only [checkPtrMetadata, checkVTablePtr, Res.bind_eq_ok, ensureUb_eq_ok] at h
        obtain ⟨_, h1, _⟩ := h
        obtain ⟨bs, h2⟩ := encodePtr_ok h1
        exact ⟨by simp, _, _, rfl, h2⟩
      | _ => simp [checkPtrMetadata] at h

theorem checkElems_ok {chk : Value P → Res Unit} {vs : List (Value P)} (h : checkElems chk vs = .ok ()) :
    ∀ v ∈ vs, chk v = .ok () := by
  induction vs with
  | nil => intro v hv; cases hv
  | cons v vs ih =>
    simp only [checkElems, Res.bind_eq_ok] at h
    obtain ⟨_, h1, h2⟩ := h
    intro w hw
    rcases List.mem_cons.1 hw with rfl | hw
    · exact h1
    · exact ih h2 w hw

theorem encode_total_good (env : ValEnv P) {ty : Ty} (hg : ty.Good) {v : Value P}
    (h : checkValue env ty v = .ok ()) : ∃ bs, encode ty v = .ok bs := by
  induction hg generalizing v with
  | @int i hp =>
    cases v with
    | int n =>
      simp only [checkValue, ensureUb_eq_ok] at h
      obtain ⟨ds, _, h2⟩ := encodeInt_ok (P := P) h
      exact ⟨_, h2⟩
    | _ => simp [checkValue] at h
  | bool =>
    cases v with
    | bool b => exact ⟨_, rfl⟩
    | _ => simp [checkValue] at h
  | @ptr p =>
    cases v with
    | ptr q =>
      simp only [checkValue, checkPtr, Res.bind_eq_ok, ensureUb_eq_ok] at h
      obtain ⟨_, h1, _, h2, _⟩ := h
      obtain ⟨bs, hbs⟩ := encodePtr_ok h1
      simp only [encode]
      rcases checkPtrMetadata_ok h2 with ⟨hk, hm⟩ | ⟨hk, m, b, hm, hb⟩
      · rw [encodePtrTy_thin hk, hm]; exact ⟨bs, by simp [hbs]⟩
      · exact ⟨bs ++ b, (encodePtrTy_wide_eq_ok hk).2 ⟨m, bs, b, hm, hbs, hb, rfl⟩⟩
    | _ => simp [checkValue] at h
  | @tuple fs hd hgood hpw hbound ih =>
    cases v with
    | tuple vs =>
      simp only [checkValue, Res.bind_eq_ok, ensureUb_eq_ok, beq_iff_eq] at h
      obtain ⟨_, _, _, hl, h⟩ := h
      simp only [encode, hl, beq_self_eq_true, rassert_true, Res.bind_ok]
      have : ∀ (acc : List (AByte P)), acc.length = hd.headSizeAndAlign.1 →
          ∃ bs, encodeFields fs vs acc = .ok bs := by
        clear hpw hl
        induction fs generalizing vs with
        | nil => intro acc _; exact ⟨acc, by simp [encodeFields]⟩
        | cons f fs ihl =>
          obtain ⟨o, t⟩ := f
          cases vs with
          | nil => intro acc _; exact ⟨acc, by simp [encodeFields]⟩
          | cons v vs =>
            intro acc hacc
            simp only [checkFields, Res.bind_eq_ok] at h
            obtain ⟨_, h1, h2⟩ := h
            obtain ⟨e, he⟩ := ih (o, t) List.mem_cons_self h1
            have hlen := encode_length_good (hgood (o, t) List.mem_cons_self) he
            have hb := hbound (o, t) List.mem_cons_self
            simp only at hlen hb
            have hw := writeSubslice_isOk (l := acc) (off := o) (src := e) (by omega)
            simp only [encodeFields, he, Res.bind_ok, hw]
            exact ihl (fun f hf => hgood f (List.mem_cons_of_mem _ hf))
              (fun f hf => hbound f (List.mem_cons_of_mem _ hf))
              (fun f hf => ih f (List.mem_cons_of_mem _ hf)) _ h2 _
              (by rw [writeSubslice_length hw, hacc])
      exact this _ (by simp)
    | _ => simp [checkValue] at h
  | @array e n hn he ih =>
    cases v with
    | tuple vs =>
      simp only [checkValue, Res.bind_eq_ok, ensureUb_eq_ok, beq_iff_eq] at h
      obtain ⟨_, hl, h⟩ := h
      rw [encode_array_eq he hl]
      have hall := checkElems_ok h
      clear h hl
      induction vs with
      | nil => exact ⟨[], rfl⟩
      | cons v vs ihl =>
        obtain ⟨b, hb⟩ := ih (hall v List.mem_cons_self)
        obtain ⟨r, hr⟩ := ihl fun v hv => hall v (List.mem_cons_of_mem _ hv)
        exact ⟨b ++ r, by simp [encodeElems, hb, hr, encode_length_good he hb]⟩
    | _ => simp [checkValue] at h
  | @union fs cs s a _ _ hpw hbound =>
    cases v with
    | union ds =>
      simp only [checkValue, Res.bind_eq_ok, ensureUb_eq_ok, beq_iff_eq] at h
      obtain ⟨_, hl, h⟩ := h
      simp only [encode, hl, beq_self_eq_true, rassert_true, Res.bind_ok]
      have : ∀ (acc : List (AByte P)), acc.length = s → ∃ bs, encodeChunks cs ds acc = .ok bs := by
        clear hpw hl
        induction cs generalizing ds with
        | nil => intro acc _; exact ⟨acc, by simp [encodeChunks]⟩
        | cons c cs ihl =>
          obtain ⟨o, n⟩ := c
          cases ds with
          | nil => intro acc _; exact ⟨acc, by simp [encodeChunks]⟩
          | cons d ds =>
            intro acc hacc
            simp only [checkChunks, Res.bind_eq_ok, ensureUb_eq_ok, beq_iff_eq] at h
            obtain ⟨_, h1, h2⟩ := h
            have hb := hbound (o, n) List.mem_cons_self
            simp only at hb
            have hw := writeSubslice_isOk (l := acc) (off := o) (src := d) (by omega)
            subst h1
            simp only [encodeChunks, beq_self_eq_true, rassert_true, Res.bind_ok, hw]
            exact ihl (fun c hc => hbound c (List.mem_cons_of_mem _ hc)) _ h2 _
              (by rw [writeSubslice_length hw, hacc])
      exact this _ (by simp)
    | _ => simp [checkValue] at h
  | @enum vs dt disc s a hv hs ht _ hd ih =>
    cases v with
    | variant d data =>
      simp only [checkValue] at h
      rw [checkVariant_eq] at h
      simp only [encode]
      rw [encodeVariant_eq]
      cases hm : Map.get? vs d with
      | none => simp [hm] at h
      | some w =>
        rw [hm] at h
        have hmem := Map.get?_mem hm
        obtain ⟨b, hb⟩ := ih _ hmem h
        simp only [hb, Res.bind_ok]
        apply encodeDiscriminant_ok
        rw [encode_length_good (hv _ hmem) hb, hs _ hmem]
        exact ht _ hmem
    | _ => simp [checkValue] at h

/-! ### Decoding never panics -/

theorem decode_total_good {ty : Ty} (hg : ty.Good) {bs : List (AByte P)} (hl : bs.length = ty.sz) :
    (∃ v, decode ty bs = .ok v) ∨ decode ty bs = .error .none := by
  induction hg generalizing bs with
  | @int i hp =>
    simp only [decode]
    rcases decodeInt_total hl with ⟨n, h⟩ | h <;> simp [h]
  | bool =>
    simp only [decode]
    rcases decodeBool_total hl with ⟨n, h⟩ | h <;> simp [h]
  | @ptr p =>
    simp only [decode]
    by_cases hk : p.metaKind = .none
    · rw [decodePtrTy_thin hk]
      rcases decodePtr_total ptrSize_pos (bs := bs) (by simpa [Ty.sz, hk] using hl) with ⟨n, h⟩ | h <;>
        simp [h]
    · have hl' : bs.length = 2 * T.ptrSize := by simpa [Ty.sz, hk] using hl
      rw [decodePtrTy_wide hk _ hl']
      rcases decodePtr_total ptrSize_pos (bs := bs.take T.ptrSize) (by simp; omega) with ⟨n, h⟩ | h
      · simp only [h, Res.bind_ok]
        rcases decodeMetaBytes_total hk (bs := bs.drop T.ptrSize) (by simp; omega) with ⟨m, h⟩ | h <;>
          simp [h]
      · simp [h]
  | @tuple fs hd hgood hpw hbound ih =>
    have hl' : bs.length = hd.headSizeAndAlign.1 := hl
    simp only [decode, hl', beq_self_eq_true, rassert_true, Res.bind_ok]
    suffices (∃ vs, decodeFields fs bs = .ok vs) ∨ decodeFields fs bs = .error .none by
      rcases this with ⟨vs, h⟩ | h <;> simp [h]
    clear hpw hl
    induction fs with
    | nil => left; exact ⟨[], rfl⟩
    | cons f fs ihl =>
      obtain ⟨o, t⟩ := f
      have hb := hbound (o, t) List.mem_cons_self
      have hgt := hgood (o, t) List.mem_cons_self
      simp only at hb
      have hs := subslice_isOk (l := bs) (off := o) (len := t.sz) (by omega)
      simp only [decodeFields, hgt.size, hs, Res.bind_ok]
      rcases ih (o, t) List.mem_cons_self (subslice_length hs) with ⟨v, h⟩ | h
      · simp only [h, Res.bind_ok]
        rcases ihl (fun f hf => hgood f (List.mem_cons_of_mem _ hf))
          (fun f hf => hbound f (List.mem_cons_of_mem _ hf))
          (fun f hf => ih f (List.mem_cons_of_mem _ hf)) with ⟨vs, h⟩ | h <;> simp [h]
      · simp [h]
  | @array e n hn he ih =>
    have hl' : bs.length = e.sz * n.toNat := hl
    simp only [decode, he.size, sizeMul_ok hn, hl', beq_self_eq_true, rassert_true, Res.bind_ok]
    suffices ∀ k (bs : List (AByte P)), bs.length = e.sz * k →
        (∃ vs, decodeElems (fun b => decode e b) e.sz k bs = .ok vs) ∨
        decodeElems (fun b => decode e b) e.sz k bs = .error .none by
      rcases this _ _ hl' with ⟨vs, h⟩ | h <;> simp [h]
    intro k
    induction k with
    | zero => intro bs _; left; exact ⟨[], rfl⟩
    | succ k ihk =>
      intro bs hbs
      rw [Nat.mul_succ] at hbs
      have hs := subslice_isOk (l := bs) (off := 0) (len := e.sz) (by omega)
      simp only [decodeElems, hs, Res.bind_ok]
      rcases ih (subslice_length hs) with ⟨v, h⟩ | h
      · simp only [h, Res.bind_ok]
        rcases ihk (bs.drop e.sz) (by simp; omega) with ⟨vs, h⟩ | h <;> simp [h]
      · right; simp only [h, Res.bind_error]
  | @union fs cs s a _ _ hpw hbound =>
    have hl' : bs.length = s := hl
    left
    simp only [decode, hl', beq_self_eq_true, rassert_true, Res.bind_ok]
    suffices ∃ ds, decodeChunks bs cs = .ok ds by
      obtain ⟨ds, h⟩ := this; exact ⟨_, by simp [h]; rfl⟩
    clear hpw hl
    induction cs with
    | nil => exact ⟨[], rfl⟩
    | cons c cs ihl =>
      obtain ⟨o, n⟩ := c
      have hb := hbound (o, n) List.mem_cons_self
      simp only at hb
      obtain ⟨ds, h⟩ := ihl fun c hc => hbound c (List.mem_cons_of_mem _ hc)
      have hs := subslice_isOk (l := bs) (off := o) (len := n) (by omega)
      exact ⟨_, by simp only [decodeChunks, hs, Res.bind_ok, h]; rfl⟩
  | @enum vs dt disc s a hv hs ht _ hd ih =>
    have hl : bs.length = s := hl
    rw [decode_enum_eq hl]
    rcases discriminantOf_total hl disc hd with h | ⟨d, hd, h⟩
    · right; simp [h]
    · simp only [h, Res.bind_ok]
      rw [decodeVariant_eq]
      obtain ⟨w, hw⟩ := Option.isSome_iff_exists.1 hd
      have hmem := Map.get?_mem hw
      simp only [hw]
      rcases ih _ hmem (bs := bs) (by rw [hs _ hmem]; exact hl) with ⟨v, h⟩ | h <;> simp [h]

end
end MiniRust
