import Verif.Lemmas.ReprLaws
/-
The representation laws for `Good` types, part 2: monotonicity and round trips.
-/
set_option linter.unusedSectionVars false
namespace MiniRust
variable {P : Type} [DecidableEq P]
theorem Value.leL_iff {vs ws : List (Value P)} :
    Value.leL vs ws = true ↔ List.Forall₂ (fun v w => Value.le v w = true) vs ws := by
  induction vs generalizing ws with
  | nil => cases ws <;> simp [Value.leL]
  | cons v vs ih => cases ws <;> simp [Value.leL, ih]

section
variable [T : Target] [LT : LawfulTarget T]


/-! ### Monotonicity of `encode` -/

theorem encode_mono_good {ty : Ty} (hg : ty.Good) {v w : Value P} {a b : List (AByte P)}
    (hvw : v.le w = true) (ha : encode ty v = .ok a) (hb : encode ty w = .ok b) : BLe a b := by
  induction hg generalizing v w a b with
  | @int i hp =>
    cases v <;> simp only [encode, reduceCtorEq] at ha
    cases w <;> simp only [encode, reduceCtorEq] at hb
    simp only [Value.le, beq_iff_eq] at hvw
    subst hvw; rw [ha] at hb; cases hb; exact BLe.refl _
  | bool =>
    cases v <;> simp only [encode, reduceCtorEq] at ha
    cases w <;> simp only [encode, reduceCtorEq] at hb
    simp only [Value.le, beq_iff_eq] at hvw
    subst hvw; rw [ha] at hb; cases hb; exact BLe.refl _
  | @ptr p =>
    simp only [encode] at ha hb
    cases v <;> try (simp [encodePtrTy] at ha; done)
    rename_i q
    cases w <;> try (simp [encodePtrTy] at hb; done)
    rename_i q'
    simp only [Value.le, Pointer.le, Bool.and_eq_true] at hvw
    by_cases hk : p.metaKind = .none
    · rw [encodePtrTy_thin hk] at ha hb
      simp only [Res.bind_eq_ok] at ha hb
      obtain ⟨-, -, ha⟩ := ha
      obtain ⟨-, -, hb⟩ := hb
      exact encodePtr_mono hvw.1 ha hb
    · rw [encodePtrTy_wide_eq_ok hk] at ha hb
      obtain ⟨m, x, y, hm, h1, h2, rfl⟩ := ha
      obtain ⟨m', x', y', hm', h1', h2', rfl⟩ := hb
      rw [hm, hm'] at hvw
      exact (encodePtr_mono hvw.1 h1 h1').append (encodeMetaBytes_mono hvw.2 h2 h2')
  | @tuple fs hd hgood hpw hbound ih =>
    cases v <;> simp only [encode, reduceCtorEq] at ha
    cases w <;> simp only [encode, reduceCtorEq] at hb
    rename_i vs ws
    simp only [Res.bind_eq_ok] at ha hb
    obtain ⟨-, -, ha⟩ := ha
    obtain ⟨-, -, hb⟩ := hb
    simp only [Value.le] at hvw
    rw [Value.leL_iff] at hvw
    have : ∀ (x y : List (AByte P)), BLe x y → encodeFields fs vs x = .ok a →
        encodeFields fs ws y = .ok b → BLe a b := by
      clear ha hb hpw hbound hgood
      induction fs generalizing vs ws with
      | nil => intro x y hxy ha hb; simp [encodeFields] at ha hb; subst ha; subst hb; exact hxy
      | cons f fs ihl =>
        obtain ⟨o, t⟩ := f
        intro x y hxy ha hb
        cases hvw with
        | nil => simp [encodeFields] at ha hb; subst ha; subst hb; exact hxy
        | cons h1 h2 =>
          simp only [encodeFields, Res.bind_eq_ok] at ha hb
          obtain ⟨e, e1, x', e2, ha⟩ := ha
          obtain ⟨e', e1', y', e2', hb⟩ := hb
          have hle := ih (o, t) List.mem_cons_self h1 e1 e1'
          obtain ⟨y'', e3, e4⟩ := hxy.write hle e2
          rw [e2'] at e3; cases e3
          exact ihl (fun f hf => ih f (List.mem_cons_of_mem _ hf)) _ _ h2 _ _ e4 ha hb
    exact this _ _ (BLe.refl _) ha hb
  | @array e n hn he ih =>
    cases v with
    | tuple vs =>
      cases w with
      | tuple ws =>
        rw [encode_array_eq he (encode_array_len ha)] at ha
        rw [encode_array_eq he (encode_array_len hb)] at hb
        simp only [Value.le] at hvw
        rw [Value.leL_iff] at hvw
        induction hvw generalizing a b with
        | nil => simp [encodeElems] at ha hb; subst ha; subst hb; exact .nil
        | cons h1 _ ihl =>
          simp only [encodeElems, Res.bind_eq_ok, Except.ok.injEq] at ha hb
          obtain ⟨x, e1, _, _, r, e2, rfl⟩ := ha
          obtain ⟨x', e1', _, _, r', e2', rfl⟩ := hb
          exact (ih h1 e1 e1').append (ihl e2 e2')
      | _ => simp [encode] at hb
    | _ => simp [encode] at ha
  | @union fs cs s al _ _ hpw hbound =>
    cases v <;> simp only [encode, reduceCtorEq] at ha
    cases w <;> simp only [encode, reduceCtorEq] at hb
    rename_i ds es
    simp only [Res.bind_eq_ok] at ha hb
    obtain ⟨-, -, ha⟩ := ha
    obtain ⟨-, -, hb⟩ := hb
    simp only [Value.le] at hvw
    rw [listLe_iff] at hvw
    have : ∀ (x y : List (AByte P)), BLe x y → encodeChunks cs ds x = .ok a →
        encodeChunks cs es y = .ok b → BLe a b := by
      clear ha hb hpw hbound
      induction cs generalizing ds es with
      | nil => intro x y hxy ha hb; simp [encodeChunks] at ha hb; subst ha; subst hb; exact hxy
      | cons c cs ihl =>
        obtain ⟨o, n⟩ := c
        intro x y hxy ha hb
        cases hvw with
        | nil => simp [encodeChunks] at ha hb; subst ha; subst hb; exact hxy
        | cons h1 h2 =>
          simp only [encodeChunks, Res.bind_eq_ok] at ha hb
          obtain ⟨_, _, x', e2, ha⟩ := ha
          obtain ⟨_, _, y', e2', hb⟩ := hb
          obtain ⟨y'', e3, e4⟩ := hxy.write (listLe_iff.1 h1) e2
          rw [e2'] at e3; cases e3
          exact ihl _ _ h2 _ _ e4 ha hb
    exact this _ _ (BLe.refl _) ha hb
  | @enum vs dt disc s al hv hs ht _ hd ih =>
    cases v <;> simp only [encode, reduceCtorEq] at ha
    cases w <;> simp only [encode, reduceCtorEq] at hb
    rename_i d x e y
    simp only [Value.le, Bool.and_eq_true, beq_iff_eq] at hvw
    obtain ⟨rfl, hvw⟩ := hvw
    rw [encodeVariant_eq] at ha hb
    cases hm : Map.get? vs d with
    | none => simp [hm] at ha
    | some w =>
      rw [hm] at ha hb
      simp only [Res.bind_eq_ok] at ha hb
      obtain ⟨x', h1, h2⟩ := ha
      obtain ⟨y', g1, g2⟩ := hb
      exact encodeDiscriminant_mono (ih _ (Map.get?_mem hm) hvw h1 g1) h2 g2

/-! ### Monotonicity of `decode` -/

theorem decodeElems_mono {dec : List (AByte P) → Res (Value P)} {n k : Nat}
    (ih : ∀ (a b : List (AByte P)) v, BLe a b → dec a = .ok v → ∃ w, dec b = .ok w ∧ v.le w = true)
    {a b : List (AByte P)} {vs : List (Value P)} (hab : BLe a b) (h : decodeElems dec n k a = .ok vs) :
    ∃ ws, decodeElems dec n k b = .ok ws ∧ List.Forall₂ (fun v w => Value.le v w = true) vs ws := by
  induction k generalizing a b vs with
  | zero => simp [decodeElems] at h; subst h; exact ⟨[], rfl, .nil⟩
  | succ k ihk =>
    simp only [decodeElems, Res.bind_eq_ok, Except.ok.injEq] at h
    obtain ⟨x, h1, v, h2, vs', h3, rfl⟩ := h
    obtain ⟨y, g1, hle⟩ := hab.subslice h1
    obtain ⟨w, g2, hvw⟩ := ih _ _ _ hle h2
    obtain ⟨ws, g3, hvs⟩ := ihk (hab.drop n) h3
    exact ⟨w :: ws, by simp [decodeElems, g1, g2, g3], .cons hvw hvs⟩

theorem decode_mono_good {ty : Ty} (hg : ty.Good) {a b : List (AByte P)} {v : Value P}
    (hl : a.length = ty.sz) (hab : BLe a b) (h : decode ty a = .ok v) :
    ∃ w, decode ty b = .ok w ∧ v.le w = true := by
  induction hg generalizing a b v with
  | @int i hp =>
    simp only [decode, Res.bind_eq_ok, Except.ok.injEq] at h ⊢
    obtain ⟨n, h, rfl⟩ := h
    exact ⟨_, ⟨n, decodeInt_mono hab h, rfl⟩, by simp [Value.le]⟩
  | bool =>
    simp only [decode, Res.bind_eq_ok, Except.ok.injEq] at h ⊢
    obtain ⟨n, h, rfl⟩ := h
    exact ⟨_, ⟨n, decodeBool_mono hab h, rfl⟩, by simp [Value.le]⟩
  | @ptr p =>
    simp only [decode] at h ⊢
    by_cases hk : p.metaKind = .none
    · rw [decodePtrTy_thin hk] at h ⊢
      simp only [Res.bind_eq_ok, Except.ok.injEq] at h ⊢
      obtain ⟨q, h1, rfl⟩ := h
      obtain ⟨q', h2, h3⟩ := decodePtr_mono hab h1
      exact ⟨_, ⟨q', h2, rfl⟩, by simp [Value.le, Pointer.le, ThinPtr.widen, h3, optLe]⟩
    · have hl' : a.length = 2 * T.ptrSize := by simpa [Ty.sz, hk] using hl
      have hl2 : b.length = 2 * T.ptrSize := by rw [← hab.length]; exact hl'
      rw [decodePtrTy_wide hk _ hl'] at h
      rw [decodePtrTy_wide hk _ hl2]
      simp only [Res.bind_eq_ok, Except.ok.injEq] at h ⊢
      obtain ⟨q, h1, m, h2, rfl⟩ := h
      obtain ⟨q', g1, g2⟩ := decodePtr_mono (hab.take T.ptrSize) h1
      obtain ⟨m', g3, g4⟩ := decodeMetaBytes_mono (hab.drop T.ptrSize) h2
      exact ⟨_, ⟨q', g1, m', g3, rfl⟩, by simp [Value.le, Pointer.le, ThinPtr.widen, g2, optLe, g4]⟩
  | @tuple fs hd hgood hpw hbound ih =>
    simp only [decode, Res.bind_eq_ok, Except.ok.injEq, rassert_eq_ok, beq_iff_eq] at h ⊢
    obtain ⟨_, h0, vs, h1, rfl⟩ := h
    suffices ∃ ws, decodeFields fs b = .ok ws ∧ List.Forall₂ (fun v w => Value.le v w = true) vs ws by
      obtain ⟨ws, g1, g2⟩ := this
      exact ⟨_, ⟨(), by rw [← hab.length]; exact h0, ws, g1, rfl⟩,
        by simp only [Value.le]; exact Value.leL_iff.2 g2⟩
    clear hpw hl hbound h0
    induction fs generalizing vs with
    | nil => simp [decodeFields] at h1; subst h1; exact ⟨[], rfl, .nil⟩
    | cons f fs ihl =>
      obtain ⟨o, t⟩ := f
      have hgt := hgood (o, t) List.mem_cons_self
      simp only at hgt
      simp only [decodeFields, hgt.size, Res.bind_ok, Res.bind_eq_ok, Except.ok.injEq] at h1
      obtain ⟨x, e1, v, e2, vs', e3, rfl⟩ := h1
      obtain ⟨y, g1, hle⟩ := hab.subslice e1
      obtain ⟨w, g2, hvw⟩ := ih (o, t) List.mem_cons_self (subslice_length e1) hle e2
      obtain ⟨ws, g3, hvs⟩ := ihl (fun f hf => hgood f (List.mem_cons_of_mem _ hf))
        (fun f hf => ih f (List.mem_cons_of_mem _ hf)) _ e3
      exact ⟨w :: ws, by simp [decodeFields, hgt.size, g1, g2, g3], .cons hvw hvs⟩
  | @array e n hn he ih =>
    simp only [decode, he.size, sizeMul_ok hn, Res.bind_ok, Res.bind_eq_ok, Except.ok.injEq,
      rassert_eq_ok, beq_iff_eq] at h ⊢
    obtain ⟨_, h0, vs, h1, rfl⟩ := h
    suffices ∃ ws, decodeElems (fun bs => decode e bs) e.sz n.toNat b = .ok ws ∧
        List.Forall₂ (fun v w => Value.le v w = true) vs ws by
      obtain ⟨ws, g1, g2⟩ := this
      exact ⟨_, ⟨(), by rw [← hab.length]; exact h0, ws, g1, rfl⟩,
        by simp only [Value.le]; exact Value.leL_iff.2 g2⟩
    clear hl h0 hn
    generalize n.toNat = k at *
    induction k generalizing a b vs with
    | zero => simp [decodeElems] at h1; subst h1; exact ⟨[], rfl, .nil⟩
    | succ k ihk =>
      simp only [decodeElems, Res.bind_eq_ok, Except.ok.injEq] at h1
      obtain ⟨x, h1, v, h2, vs', h3, rfl⟩ := h1
      obtain ⟨y, g1, hle⟩ := hab.subslice h1
      obtain ⟨w, g2, hvw⟩ := ih (subslice_length h1) hle h2
      obtain ⟨ws, g3, hvs⟩ := ihk (hab.drop e.sz) _ h3
      exact ⟨w :: ws, by simp [decodeElems, g1, g2, g3], .cons hvw hvs⟩
  | @union fs cs s al _ _ hpw hbound =>
    simp only [decode, Res.bind_eq_ok, Except.ok.injEq, rassert_eq_ok, beq_iff_eq] at h ⊢
    obtain ⟨_, h0, vs, h1, rfl⟩ := h
    suffices ∃ ws, decodeChunks b cs = .ok ws ∧
        List.Forall₂ (fun v w => listLe AByte.le v w = true) vs ws by
      obtain ⟨ws, g1, g2⟩ := this
      exact ⟨_, ⟨(), by rw [← hab.length]; exact h0, ws, g1, rfl⟩,
        by simp only [Value.le]; exact listLe_iff.2 g2⟩
    clear hl h0 hpw hbound
    induction cs generalizing vs with
    | nil => simp [decodeChunks] at h1; subst h1; exact ⟨[], rfl, .nil⟩
    | cons c cs ihl =>
      obtain ⟨o, n⟩ := c
      simp only [decodeChunks, Res.bind_eq_ok, Except.ok.injEq] at h1
      obtain ⟨x, e1, xs, e2, rfl⟩ := h1
      obtain ⟨y, g1, g2⟩ := hab.subslice e1
      obtain ⟨ys, g3, g4⟩ := ihl _ e2
      exact ⟨y :: ys, by simp [decodeChunks, g1, g3], .cons (listLe_iff.2 g2) g4⟩
  | @enum vs dt disc s al hv hs ht _ hd ih =>
    have hl1 : a.length = s := hl
    have hl2 : b.length = s := by rw [← hab.length]; exact hl1
    rw [decode_enum_eq hl1] at h
    rw [decode_enum_eq hl2]
    simp only [Res.bind_eq_ok] at h
    obtain ⟨o, h1, h2⟩ := h
    cases o with
    | none => cases h2
    | some d =>
      rw [discriminantOf_mono hab disc h1]
      simp only [Res.bind_eq_ok, Except.ok.injEq, Res.bind_ok] at h2 ⊢
      obtain ⟨v', h2, rfl⟩ := h2
      rw [decodeVariant_eq] at h2 ⊢
      cases hm : Map.get? vs d with
      | none => simp [hm] at h2
      | some w =>
        rw [hm] at h2
        have hmem := Map.get?_mem hm
        obtain ⟨w', g1, g2⟩ := ih _ hmem (by rw [hs _ hmem]; exact hl1) hab h2
        exact ⟨_, ⟨w', g1, rfl⟩, by simp [Value.le, g2]⟩

/-! ### `decode` only looks at the bytes a type uses -/

theorem decode_congr_good {ty : Ty} (hg : ty.Good) {a b : List (AByte P)}
    (hla : a.length = ty.sz) (hlb : b.length = ty.sz)
    (hab : ∀ i, UsesByte ty i → a[i]? = b[i]?) : decode ty a = decode ty b := by
  induction hg generalizing a b with
  | @int i hp =>
    have : a = b := by
      apply List.ext_getElem?
      intro j
      by_cases hj : j < i.size
      · exact hab j (.int hj)
      · have : (Ty.int i).sz = i.size := rfl
        rw [List.getElem?_eq_none (by omega), List.getElem?_eq_none (by omega)]
    rw [this]
  | bool =>
    have : a = b := by
      apply List.ext_getElem?
      intro j
      by_cases hj : j = 0
      · subst hj; exact hab 0 .bool
      · have : Ty.bool.sz = 1 := rfl
        rw [List.getElem?_eq_none (by omega), List.getElem?_eq_none (by omega)]
    rw [this]
  | @ptr p =>
    have : a = b := by
      apply List.ext_getElem?
      intro j
      by_cases hk : p.metaKind = .none
      · by_cases hj : j < T.ptrSize
        · exact hab j (.thin hk hj)
        · have : (Ty.ptr p).sz = T.ptrSize := by simp [Ty.sz, hk]
          rw [List.getElem?_eq_none (by omega), List.getElem?_eq_none (by omega)]
      · by_cases hj : j < 2 * T.ptrSize
        · exact hab j (.wide hk hj)
        · have : (Ty.ptr p).sz = 2 * T.ptrSize := by simp [Ty.sz, hk]
          rw [List.getElem?_eq_none (by omega), List.getElem?_eq_none (by omega)]
    rw [this]
  | @tuple fs hd hgood hpw hbound ih =>
    replace hla : a.length = hd.headSizeAndAlign.1 := hla
    replace hlb : b.length = hd.headSizeAndAlign.1 := hlb
    simp only [decode, hla, hlb]
    have : decodeFields fs a = decodeFields fs b := by
      have hab' : ∀ f ∈ fs, ∀ i, UsesByte f.2 i → a[f.1 + i]? = b[f.1 + i]? :=
        fun f hf i hi => hab _ (.field (off := f.1) (ty := f.2) hf hi)
      clear hab hpw
      induction fs with
      | nil => rfl
      | cons f fs ihl =>
        obtain ⟨o, t⟩ := f
        have hgt := hgood (o, t) List.mem_cons_self
        have hb := hbound (o, t) List.mem_cons_self
        simp only at hgt hb
        have hsa := subslice_isOk (l := a) (off := o) (len := t.sz) (by omega)
        have hsb := subslice_isOk (l := b) (off := o) (len := t.sz) (by omega)
        have hdec := ih (o, t) List.mem_cons_self (a := (a.drop o).take t.sz)
          (b := (b.drop o).take t.sz) (subslice_length hsa) (subslice_length hsb) (by
            intro i hi
            rw [List.getElem?_take, List.getElem?_take]
            split
            · rw [List.getElem?_drop, List.getElem?_drop]
              exact hab' (o, t) List.mem_cons_self i hi
            · rfl)
        simp only at hdec
        simp only [decodeFields, hgt.size, Res.bind_ok, hsa, hsb, hdec]
        rw [ihl (fun f hf => hgood f (List.mem_cons_of_mem _ hf))
          (fun f hf => hbound f (List.mem_cons_of_mem _ hf))
          (fun f hf => ih f (List.mem_cons_of_mem _ hf))
          (fun f hf => hab' f (List.mem_cons_of_mem _ hf))]
    rw [this]
  | @array e n hn he ih =>
    have hla' : a.length = e.sz * n.toNat := hla
    have hlb' : b.length = e.sz * n.toNat := hlb
    simp only [decode, he.size, sizeMul_ok hn, Res.bind_ok, hla', hlb']
    have : decodeElems (fun bs => decode e bs) e.sz n.toNat a =
        decodeElems (fun bs => decode e bs) e.sz n.toNat b := by
      have hab' : ∀ k, k < n.toNat → ∀ i, UsesByte e i → a[k * e.sz + i]? = b[k * e.sz + i]? :=
        fun k hk i hi => hab _ (.elem he.size (by omega) hi)
      clear hab hla hlb
      generalize n.toNat = m at *
      induction m generalizing a b with
      | zero => rfl
      | succ m ihm =>
        rw [Nat.mul_succ] at hla' hlb'
        have hsa := subslice_isOk (l := a) (off := 0) (len := e.sz) (by omega)
        have hsb := subslice_isOk (l := b) (off := 0) (len := e.sz) (by omega)
        have hdec := ih (a := (a.drop 0).take e.sz) (b := (b.drop 0).take e.sz)
          (subslice_length hsa) (subslice_length hsb) (by
            intro i hi
            rw [List.getElem?_take, List.getElem?_take]
            split
            · rw [List.getElem?_drop, List.getElem?_drop]
              have := hab' 0 (by omega) i hi
              simpa using this
            · rfl)
        simp only [decodeElems, hsa, hsb, Res.bind_ok, hdec]
        rw [ihm (a := a.drop e.sz) (b := b.drop e.sz) (by simp; omega) (by simp; omega) (by
          intro k hk i hi
          rw [List.getElem?_drop, List.getElem?_drop]
          have := hab' (k + 1) (by omega) i hi
          rw [Nat.succ_mul] at this
          rw [show e.sz + (k * e.sz + i) = k * e.sz + e.sz + i by omega]
          exact this)]
    rw [this]
  | @union fs cs s al _ _ hpw hbound =>
    replace hla : a.length = s := hla
    replace hlb : b.length = s := hlb
    simp only [decode, hla, hlb]
    have : decodeChunks a cs = decodeChunks b cs := by
      have hab' : ∀ c ∈ cs, ∀ i, c.1 ≤ i → i < c.1 + c.2 → a[i]? = b[i]? :=
        fun c hc i h1 h2 => hab _ (.chunk (off := c.1) (n := c.2) hc h1 h2)
      clear hab hpw hbound
      induction cs with
      | nil => rfl
      | cons c cs ihl =>
        obtain ⟨o, n⟩ := c
        simp only [decodeChunks]
        rw [subslice_congr (by omega) (hab' (o, n) List.mem_cons_self),
          ihl fun c hc => hab' c (List.mem_cons_of_mem _ hc)]
    rw [this]
  | @enum vs dt disc s al hv hs ht _ hd ih =>
    replace hla : a.length = s := hla
    replace hlb : b.length = s := hlb
    rw [decode_enum_eq hla, decode_enum_eq hlb]
    rw [discriminantOf_congr (by omega) disc fun i hi => hab i (.disc hi)]
    cases discriminantOf disc b with
    | error e => rfl
    | ok o =>
      cases o with
      | none => rfl
      | some d =>
        simp only [Res.bind_ok]
        rw [decodeVariant_eq, decodeVariant_eq]
        cases hm : Map.get? vs d with
        | none => rfl
        | some w =>
          have hmem := Map.get?_mem hm
          simp only
          rw [ih _ hmem (by rw [hs _ hmem]; exact hla) (by rw [hs _ hmem]; exact hlb)
            fun i hi => hab i (.variant hmem hi)]

/-! ### Round trips -/

theorem encodeFields_frame {fs : List (Nat × Ty)} (hgood : ∀ f ∈ fs, f.2.Good) {vs : List (Value P)}
    {a b : List (AByte P)} (h : encodeFields fs vs a = .ok b) (i : Nat)
    (hi : ∀ f ∈ fs, ¬ (f.1 ≤ i ∧ i < f.1 + f.2.sz)) : b[i]? = a[i]? := by
  induction fs generalizing vs a with
  | nil => simp [encodeFields] at h; rw [h]
  | cons f fs ih =>
    obtain ⟨o, t⟩ := f
    cases vs with
    | nil => simp [encodeFields] at h; rw [h]
    | cons v vs =>
      simp only [encodeFields, Res.bind_eq_ok] at h
      obtain ⟨e, h1, a', h2, h3⟩ := h
      rw [ih (fun f hf => hgood f (List.mem_cons_of_mem _ hf)) h3
        (fun f hf => hi f (List.mem_cons_of_mem _ hf)), writeSubslice_getElem? h2,
        encode_length_good (hgood (o, t) List.mem_cons_self) h1, if_neg (hi _ List.mem_cons_self)]

theorem encodeChunks_frame {cs : List (Nat × Nat)} {ds : List (List (AByte P))}
    {a b : List (AByte P)} (h : encodeChunks cs ds a = .ok b) (i : Nat)
    (hi : ∀ c ∈ cs, ¬ (c.1 ≤ i ∧ i < c.1 + c.2)) : b[i]? = a[i]? := by
  induction cs generalizing ds a with
  | nil => simp [encodeChunks] at h; rw [h]
  | cons c cs ih =>
    obtain ⟨o, n⟩ := c
    cases ds with
    | nil => simp [encodeChunks] at h; rw [h]
    | cons d ds =>
      simp only [encodeChunks, Res.bind_eq_ok, rassert_eq_ok, beq_iff_eq] at h
      obtain ⟨_, h1, a', h2, h3⟩ := h
      rw [ih h3 (fun f hf => hi f (List.mem_cons_of_mem _ hf)), writeSubslice_getElem? h2,
        ← h1, if_neg (hi _ List.mem_cons_self)]

theorem Ty.Coherent.sub {env : ValEnv P} {t ty : Ty} (h : ty.Coherent env) 
    (hc : ∀ x, Component x t → Component x ty) : t.Coherent env :=
  fun vs dt disc s a hx => h vs dt disc s a (hc _ hx)

theorem decode_encode_good (env : ValEnv P) {ty : Ty} (hg : ty.Good) (hco : ty.Coherent env)
    {v : Value P} {bs : List (AByte P)} (hv : checkValue env ty v = .ok ())
    (h : encode ty v = .ok bs) : decode ty bs = .ok v := by
  induction hg generalizing v bs with
  | @int i hp =>
    cases v <;> simp only [encode, reduceCtorEq] at h
    simp [decode, decodeInt_encodeInt h]
  | bool =>
    cases v <;> simp only [encode, reduceCtorEq] at h
    cases h
    simp [decode, decodeBool_encodeBool]
  | @ptr p =>
    simp only [encode, decode] at h ⊢
    cases v with
    | ptr q =>
      by_cases hk : p.metaKind = .none
      · rw [encodePtrTy_thin hk] at h
        rw [decodePtrTy_thin hk]
        simp only [Res.bind_eq_ok, rassert_eq_ok] at h
        obtain ⟨_, h1, h2⟩ := h
        obtain ⟨thin, md⟩ := q
        simp only [Option.isNone_iff_eq_none] at h1
        subst h1
        simp only at h2
        simp [decodePtr_encodePtr ptrSize_pos h2, ThinPtr.widen]
      · rw [encodePtrTy_wide_eq_ok hk] at h
        obtain ⟨m, x, y, hm, h1, h2, rfl⟩ := h
        have hx := encodePtr_length h1
        have hy := encodeMetaBytes_length h2
        rw [decodePtrTy_wide hk _ (by simp; omega)]
        rw [List.take_left' hx, List.drop_left' hx]
        obtain ⟨thin, md⟩ := q
        simp only at hm h1; subst hm
        simp [decodePtr_encodePtr ptrSize_pos h1, decodeMetaBytes_encode h2, ThinPtr.widen]
    | _ => simp [encodePtrTy] at h
  | @tuple fs hd hgood hpw hbound ih =>
    have hlen := encode_length_good (.tuple hgood hpw hbound) h
    replace hlen : bs.length = hd.headSizeAndAlign.1 := hlen
    cases v with
    | tuple vs =>
      simp only [checkValue, Res.bind_eq_ok, ensureUb_eq_ok, beq_iff_eq] at hv
      obtain ⟨_, _, _, hl, hv⟩ := hv
      simp only [encode, hl, beq_self_eq_true, rassert_true, Res.bind_ok] at h
      simp only [decode, hlen, beq_self_eq_true, rassert_true, Res.bind_ok]
      suffices decodeFields fs bs = .ok vs by simp [this]
      have hco' : ∀ f ∈ fs, f.2.Coherent env := fun f hf =>
        hco.sub fun x hx => .field hf hx
      clear hco
      generalize List.replicate hd.headSizeAndAlign.1 AByte.uninit = acc at h
      induction fs generalizing vs acc with
      | nil => cases vs <;> simp_all [decodeFields]
      | cons f fs ihl =>
        obtain ⟨o, t⟩ := f
        cases vs with
        | nil => simp at hl
        | cons v vs =>
          simp only [checkFields, Res.bind_eq_ok] at hv
          obtain ⟨_, hv1, hv2⟩ := hv
          simp only [encodeFields, Res.bind_eq_ok] at h
          obtain ⟨e, h1, acc', h2, h3⟩ := h
          have hgt := hgood (o, t) List.mem_cons_self
          simp only at hgt
          have hel := encode_length_good hgt h1
          rw [List.pairwise_cons] at hpw
          have hrest := ihl (fun f hf => hgood f (List.mem_cons_of_mem _ hf)) hpw.2
            (fun f hf => hbound f (List.mem_cons_of_mem _ hf))
            (fun f hf => ih f (List.mem_cons_of_mem _ hf)) vs (by simpa using hl) hv2
            (fun f hf => hco' f (List.mem_cons_of_mem _ hf)) _ h3
          have hacc : acc'.length = bs.length := (encodeFields_length h3).symm
          have hsub : subslice bs o t.sz = .ok e := by
            rw [← hel, ← subslice_writeSubslice_same h2]
            apply subslice_congr hacc.symm
            intro i hi1 hi2
            apply encodeFields_frame (fun f hf => hgood f (List.mem_cons_of_mem _ hf)) h3
            intro f hf
            have := hpw.1 f hf
            simp only [Disj] at this
            omega
          have hd := ih (o, t) List.mem_cons_self (hco' (o, t) List.mem_cons_self) hv1 h1
          simp only at hd
          simp [decodeFields, hgt.size, hsub, hd, hrest]
    | _ => simp [checkValue] at hv
  | @array e n hn he ih =>
    have hlen := encode_length_good (.array hn he) h
    replace hlen : bs.length = e.sz * n.toNat := hlen
    cases v with
    | tuple vs =>
      simp only [checkValue, Res.bind_eq_ok, ensureUb_eq_ok, beq_iff_eq] at hv
      obtain ⟨_, hl, hv⟩ := hv
      rw [encode_array_eq he hl] at h
      simp only [decode, he.size, sizeMul_ok hn, Res.bind_ok, hlen, beq_self_eq_true, rassert_true]
      have hall := checkElems_ok hv
      have hco' : e.Coherent env := hco.sub fun x hx => .elem hx
      suffices decodeElems (fun bs => decode e bs) e.sz vs.length bs = .ok vs by
        rw [show n.toNat = vs.length by omega]; simp [this]
      clear hl hv hco hlen
      induction vs generalizing bs with
      | nil => rfl
      | cons v vs ihl =>
        simp only [encodeElems, Res.bind_eq_ok, rassert_eq_ok, beq_iff_eq, Except.ok.injEq] at h
        obtain ⟨x, h1, _, hx, r, h2, rfl⟩ := h
        have hs : subslice (x ++ r) 0 e.sz = .ok x := by
          rw [subslice_eq_ok]
          exact ⟨by simp; omega, by rw [List.drop_zero, List.take_left' hx]⟩
        have hr := ihl h2 fun v hv => hall v (List.mem_cons_of_mem _ hv)
        simp [decodeElems, hs, ih hco' (hall v List.mem_cons_self) h1, List.drop_left' hx, hr]
    | _ => simp [checkValue] at hv
  | @union fs cs s al hfg hfs hpw hbound =>
    have hlen := encode_length_good (.union (a := al) hfg hfs hpw hbound) h
    replace hlen : bs.length = s := hlen
    cases v with
    | union ds =>
      simp only [checkValue, Res.bind_eq_ok, ensureUb_eq_ok, beq_iff_eq] at hv
      obtain ⟨_, hl, hv⟩ := hv
      simp only [encode, hl, beq_self_eq_true, rassert_true, Res.bind_ok] at h
      simp only [decode, hlen, beq_self_eq_true, rassert_true, Res.bind_ok]
      suffices decodeChunks bs cs = .ok ds by simp [this]
      clear hco
      generalize List.replicate s AByte.uninit = acc at h
      induction cs generalizing ds acc with
      | nil => cases ds <;> simp_all [decodeChunks]
      | cons c cs ihl =>
        obtain ⟨o, n⟩ := c
        cases ds with
        | nil => simp at hl
        | cons d ds =>
          simp only [checkChunks, Res.bind_eq_ok, ensureUb_eq_ok, beq_iff_eq] at hv
          obtain ⟨_, hv1, hv2⟩ := hv
          simp only [encodeChunks, Res.bind_eq_ok] at h
          obtain ⟨_, _, acc', h2, h3⟩ := h
          rw [List.pairwise_cons] at hpw
          have hrest := ihl hpw.2
            (fun f hf => hbound f (List.mem_cons_of_mem _ hf)) ds (by simpa using hl) hv2 _ h3
          have hacc : acc'.length = bs.length := (encodeChunks_length h3).symm
          have hsub : subslice bs o n = .ok d := by
            rw [← hv1, ← subslice_writeSubslice_same h2]
            apply subslice_congr hacc.symm
            intro i hi1 hi2
            apply encodeChunks_frame h3
            intro f hf
            have := hpw.1 f hf
            simp only [Disj] at this
            omega
          simp [decodeChunks, hsub, hrest]
    | _ => simp [checkValue] at hv
  | @enum vs dt disc s al hvg hs ht hdt hd ih =>
    have hlen := encode_length_good (.enum (a := al) hvg hs ht hdt hd) h
    replace hlen : bs.length = s := hlen
    have hcoh := hco vs dt disc s al .refl
    cases v with
    | variant d data =>
      simp only [checkValue] at hv
      rw [checkVariant_eq] at hv
      simp only [encode] at h
      have h' := h
      rw [encodeVariant_eq] at h'
      cases hm : Map.get? vs d with
      | none => simp [hm] at hv
      | some w =>
        rw [hm] at hv h'
        have hmem := Map.get?_mem hm
        simp only [Res.bind_eq_ok] at h'
        obtain ⟨b, h1, h2⟩ := h'
        have hdisc := hcoh.disc_complete _ hmem data hv bs h
        rw [decode_enum_eq hlen, hdisc]
        simp only [Res.bind_ok]
        rw [decodeVariant_eq, hm]
        have hdec := ih _ hmem (hco.sub fun x hx => .variant hmem hx) hv h1
        have hbl := encode_length_good (hvg _ hmem) h1
        simp only at hdec hbl ⊢
        rw [decode_congr_good (hvg _ hmem) (b := b) (by rw [hs _ hmem]; exact hlen) hbl, hdec]
        · rfl
        · intro i hi
          apply encodeDiscriminant_frame h2
          rintro e he ⟨h3, h4⟩
          exact hcoh.tag_not_data _ hmem e he i h3 h4 hi
    | _ => simp [checkValue] at hv

theorem encode_decode_good (env : ValEnv P) {ty : Ty} (hg : ty.Good) (hco : ty.Coherent env)
    {v : Value P} {bs : List (AByte P)} (hl : bs.length = ty.sz) (h : decode ty bs = .ok v) :
    ∃ bs', encode ty v = .ok bs' ∧ BLe bs' bs := by
  induction hg generalizing v bs with
  | @int i hp =>
    simp only [decode, Res.bind_eq_ok, Except.ok.injEq] at h
    obtain ⟨n, h, rfl⟩ := h
    simp only [encode]
    exact encodeInt_decodeInt h
  | bool =>
    simp only [decode, Res.bind_eq_ok, Except.ok.injEq] at h
    obtain ⟨n, h, rfl⟩ := h
    exact ⟨_, rfl, encodeBool_decodeBool h⟩
  | @ptr p =>
    simp only [encode, decode] at h ⊢
    by_cases hk : p.metaKind = .none
    · rw [decodePtrTy_thin hk] at h
      simp only [Res.bind_eq_ok, Except.ok.injEq] at h
      obtain ⟨q, h1, rfl⟩ := h
      obtain ⟨x, h2, h3⟩ := encodePtr_decodePtr h1
      exact ⟨x, by rw [encodePtrTy_thin hk]; simp [ThinPtr.widen, h2], h3⟩
    · have hl' : bs.length = 2 * T.ptrSize := by simpa [Ty.sz, hk] using hl
      rw [decodePtrTy_wide hk _ hl'] at h
      simp only [Res.bind_eq_ok, Except.ok.injEq] at h
      obtain ⟨q, h1, m, h2, rfl⟩ := h
      obtain ⟨x, h3, h4⟩ := encodePtr_decodePtr h1
      obtain ⟨y, h5, h6⟩ := encodeMetaBytes_decode h2
      refine ⟨x ++ y, (encodePtrTy_wide_eq_ok hk).2 ⟨m, x, y, rfl, h3, h5, rfl⟩, ?_⟩
      have := h4.append h6
      rwa [List.take_append_drop] at this
  | @tuple fs hd hgood hpw hbound ih =>
    replace hl : bs.length = hd.headSizeAndAlign.1 := hl
    simp only [decode, hl, beq_self_eq_true, rassert_true, Res.bind_ok, Res.bind_eq_ok,
      Except.ok.injEq] at h
    obtain ⟨vs, h, rfl⟩ := h
    have hvl : vs.length = fs.length := by
      clear hpw hbound ih hco
      induction fs generalizing vs with
      | nil => simp [decodeFields] at h; simp [← h]
      | cons f fs ihl =>
        obtain ⟨o, t⟩ := f
        simp only [decodeFields, Res.bind_eq_ok, Except.ok.injEq] at h
        obtain ⟨_, _, _, _, _, _, vs', h3, rfl⟩ := h
        simp [ihl (fun f hf => hgood f (List.mem_cons_of_mem _ hf)) _ h3]
    simp only [encode, hvl, beq_self_eq_true, rassert_true, Res.bind_ok]
    have hco' : ∀ f ∈ fs, f.2.Coherent env := fun f hf =>
      hco.sub fun x hx => .field hf hx
    have : ∀ acc, BLe acc bs → ∃ bs', encodeFields fs vs acc = .ok bs' ∧ BLe bs' bs := by
      clear hpw hvl hco
      induction fs generalizing vs with
      | nil => intro acc hacc; exact ⟨acc, by simp [encodeFields], hacc⟩
      | cons f fs ihl =>
        intro acc hacc
        obtain ⟨o, t⟩ := f
        have hgt := hgood (o, t) List.mem_cons_self
        simp only at hgt
        simp only [decodeFields, hgt.size, Res.bind_ok, Res.bind_eq_ok, Except.ok.injEq] at h
        obtain ⟨x, e1, v, e2, vs', e3, rfl⟩ := h
        obtain ⟨y, g1, g2⟩ := ih (o, t) List.mem_cons_self (hco' (o, t) List.mem_cons_self)
          (subslice_length e1) e2
        obtain ⟨acc', g3, g4⟩ := hacc.write_below e1 g2
        obtain ⟨z, g5, g6⟩ := ihl (fun f hf => hgood f (List.mem_cons_of_mem _ hf))
          (fun f hf => hbound f (List.mem_cons_of_mem _ hf))
          (fun f hf => ih f (List.mem_cons_of_mem _ hf)) _ e3
          (fun f hf => hco' f (List.mem_cons_of_mem _ hf)) acc' g4
        simp only at g1
        exact ⟨z, by simp [encodeFields, g1, g3, g5], g6⟩
    rw [← hl]
    exact this _ (BLe.replicate_uninit bs)
  | @array e n hn he ih =>
    replace hl : bs.length = e.sz * n.toNat := hl
    simp only [decode, he.size, sizeMul_ok hn, hl, beq_self_eq_true, rassert_true, Res.bind_ok,
      Res.bind_eq_ok, Except.ok.injEq] at h
    obtain ⟨vs, h, rfl⟩ := h
    have hvl : ∀ k (bs : List (AByte P)) vs, decodeElems (fun bs => decode e bs) e.sz k bs = .ok vs →
        vs.length = k := by
      intro k
      induction k with
      | zero => intro bs vs h; simp [decodeElems] at h; simp [← h]
      | succ k ihk =>
        intro bs vs h
        simp only [decodeElems, Res.bind_eq_ok, Except.ok.injEq] at h
        obtain ⟨_, _, _, _, vs', h3, rfl⟩ := h
        simp [ihk _ _ h3]
    replace hvl := hvl _ _ _ h
    rw [encode_array_eq he (by omega)]
    have hco' : e.Coherent env := hco.sub fun x hx => .elem hx
    clear hvl hco hn
    generalize n.toNat = k at *
    induction k generalizing bs vs with
    | zero =>
      simp [decodeElems] at h; subst h
      simp at hl; subst hl
      exact ⟨[], rfl, .nil⟩
    | succ k ihk =>
      rw [Nat.mul_succ] at hl
      simp only [decodeElems, Res.bind_eq_ok, Except.ok.injEq] at h
      obtain ⟨x, h1, v, h2, vs', h3, rfl⟩ := h
      obtain ⟨y, g1, g2⟩ := ih hco' (subslice_length h1) h2
      obtain ⟨z, g3, g4⟩ := ihk (bs := bs.drop e.sz) _ (by simp; omega) h3
      refine ⟨y ++ z, by simp [encodeElems, g1, encode_length_good he g1, g3], ?_⟩
      obtain ⟨_, rfl⟩ := subslice_eq_ok.1 h1
      have := g2.append g4
      rwa [List.drop_zero, List.take_append_drop] at this
  | @union fs cs s al _ _ hpw hbound =>
    replace hl : bs.length = s := hl
    simp only [decode, hl, beq_self_eq_true, rassert_true, Res.bind_ok, Res.bind_eq_ok,
      Except.ok.injEq] at h
    obtain ⟨ds, h, rfl⟩ := h
    have hvl : ds.length = cs.length := by
      clear hpw hbound hco
      induction cs generalizing ds with
      | nil => simp [decodeChunks] at h; simp [← h]
      | cons f fs ihl =>
        obtain ⟨o, t⟩ := f
        simp only [decodeChunks, Res.bind_eq_ok, Except.ok.injEq] at h
        obtain ⟨_, _, vs', h3, rfl⟩ := h
        simp [ihl _ h3]
    simp only [encode, hvl, beq_self_eq_true, rassert_true, Res.bind_ok]
    have : ∀ acc, BLe acc bs → ∃ bs', encodeChunks cs ds acc = .ok bs' ∧ BLe bs' bs := by
      clear hpw hvl hco
      induction cs generalizing ds with
      | nil => intro acc hacc; exact ⟨acc, by simp [encodeChunks], hacc⟩
      | cons c cs ihl =>
        intro acc hacc
        obtain ⟨o, n⟩ := c
        simp only [decodeChunks, Res.bind_eq_ok, Except.ok.injEq] at h
        obtain ⟨x, e1, ds', e3, rfl⟩ := h
        obtain ⟨acc', g3, g4⟩ := hacc.write_below e1 (BLe.refl x)
        obtain ⟨z, g5, g6⟩ := ihl (fun f hf => hbound f (List.mem_cons_of_mem _ hf)) _ e3 acc' g4
        exact ⟨z, by simp [encodeChunks, subslice_length e1, g3, g5], g6⟩
    rw [← hl]
    exact this _ (BLe.replicate_uninit bs)
  | @enum vs dt disc s al hvg hs ht hdt hd ih =>
    replace hl : bs.length = s := hl
    have hcoh := hco vs dt disc s al .refl
    rw [decode_enum_eq hl] at h
    simp only [Res.bind_eq_ok] at h
    obtain ⟨o, h1, h2⟩ := h
    cases o with
    | none => cases h2
    | some d =>
      simp only [Res.bind_eq_ok, Except.ok.injEq] at h2
      obtain ⟨v', h2, rfl⟩ := h2
      rw [decodeVariant_eq] at h2
      simp only [encode]
      rw [encodeVariant_eq]
      cases hm : Map.get? vs d with
      | none => simp [hm] at h2
      | some w =>
        rw [hm] at h2
        have hmem := Map.get?_mem hm
        obtain ⟨y, g1, g2⟩ := ih _ hmem (hco.sub fun x hx => .variant hmem hx)
          (by rw [hs _ hmem]; exact hl) h2
        simp only at g1
        simp only [g1, Res.bind_ok]
        exact encodeDiscriminant_below g2 (hcoh.disc_sound bs hl _ hmem h1)

end
end MiniRust
