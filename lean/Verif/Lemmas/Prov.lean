import Verif.Lemmas.ReprLaws3
/-
Encoding and decoding do not invent provenance.
-/
set_option linter.unusedSectionVars false
namespace MiniRust
variable {P : Type} [DecidableEq P] [T : Target]

theorem ProvInBytes.subslice {p : P} {bs r : List (AByte P)} {off len} (h : MiniRust.subslice bs off len = .ok r)
    (hp : ProvInBytes p r) : ProvInBytes p bs := by
  obtain ⟨_, rfl⟩ := subslice_eq_ok.1 h
  obtain ⟨b, hb, i, hi⟩ := hp
  exact ⟨b, List.mem_of_mem_drop (List.mem_of_mem_take hb), i, hi⟩

theorem ProvInBytes.write {p : P} {bs r src : List (AByte P)} {off} (h : writeSubslice bs off src = .ok r)
    (hp : ProvInBytes p r) : ProvInBytes p bs ∨ ProvInBytes p src := by
  obtain ⟨_, rfl⟩ := writeSubslice_eq_ok.1 h
  obtain ⟨b, hb, i, hi⟩ := hp
  simp only [List.mem_append] at hb
  rcases hb with (hb | hb) | hb
  · exact .inl ⟨b, List.mem_of_mem_take hb, i, hi⟩
  · exact .inr ⟨b, hb, i, hi⟩
  · exact .inl ⟨b, List.mem_of_mem_drop hb, i, hi⟩

theorem not_provInBytes_replicate {p : P} {n} : ¬ ProvInBytes p (List.replicate n AByte.uninit) := by
  rintro ⟨b, hb, i, hi⟩
  rw [List.mem_replicate] at hb
  obtain ⟨_, rfl⟩ := hb
  cases hi

theorem not_provInBytes_encodeInt {p : P} {t i} {bs : List (AByte P)} (h : encodeInt t i = .ok bs) : ¬ ProvInBytes p bs := by
  simp only [encodeInt, Res.bind_eq_ok, Except.ok.injEq] at h
  obtain ⟨d, _, rfl⟩ := h
  rintro ⟨b, hb, i, hi⟩
  rw [List.mem_map] at hb
  obtain ⟨_, _, rfl⟩ := hb
  cases hi

theorem decodePtr_prov {p : P} {bs : List (AByte P)} {q : ThinPtr P} (h : decodePtr bs = .ok q) (hp : q.prov = some p) :
    ProvInBytes p bs := by
  obtain ⟨_, ds, b0, _, h2, rfl⟩ := decodePtr_eq_ok.1 h
  obtain ⟨h3, _⟩ := foldProv_eq_some.1 hp
  rw [Option.map_eq_some_iff] at h3
  obtain ⟨⟨p', i⟩, h3, rfl⟩ := h3
  exact ⟨b0, List.mem_of_getElem? h2, i, h3⟩

theorem encodePtr_prov {p : P} {bs : List (AByte P)} {q : ThinPtr P} (h : encodePtr q = .ok bs) (hp : ProvInBytes p bs) :
    q.prov = some p := by
  simp only [encodePtr, Res.bind_eq_ok, Except.ok.injEq] at h
  obtain ⟨d, _, rfl⟩ := h
  obtain ⟨b, hb, i, hi⟩ := hp
  rw [List.mem_mapIdx] at hb
  obtain ⟨j, hj, rfl⟩ := hb
  simp only [AByte.frag, Option.map_eq_some_iff] at hi
  obtain ⟨p', h1, h2⟩ := hi
  cases h2; exact h1

theorem decodePtrTy_prov {p : P} {t : PtrType} {bs : List (AByte P)} {v : Value P} (h : decodePtrTy t bs = .ok v)
    (hp : ProvIn p v) : ProvInBytes p bs := by
  simp only [decodePtrTy, Res.bind_eq_ok] at h
  obtain ⟨o, _, h⟩ := h
  cases o with
  | none =>
    simp only [Res.bind_eq_ok, Except.ok.injEq] at h
    obtain ⟨q, h1, rfl⟩ := h
    cases hp with
    | thin h2 => exact decodePtr_prov h1 h2
    | vtable h2 => cases h2
  | some _ =>
    simp only [Res.bind_eq_ok, Except.ok.injEq, rassert_eq_ok] at h
    obtain ⟨_, _, b1, hb1, q, h1, b2, hb2, mv, h2, m, h3, _, _, rfl⟩ := h
    cases hp with
    | thin h4 => exact (decodePtr_prov h1 h4).subslice hb1
    | @vtable _ q' h4 h5 =>
      simp only [ThinPtr.widen] at h4
      subst h4
      cases hk : t.metaKind with
      | none => rw [hk] at h2; cases h2
      | elementCount =>
        rw [hk] at h2 h3
        simp only [decodeMeta, Res.bind_eq_ok, Except.ok.injEq] at h2
        obtain ⟨i, _, rfl⟩ := h2
        cases h3
      | vtablePointer tr =>
        rw [hk] at h2 h3
        simp only [decodeMeta, Res.bind_eq_ok, Except.ok.injEq] at h2
        obtain ⟨q2, h6, rfl⟩ := h2
        simp only [ThinPtr.widen, MetaKind.decodeValue, Except.ok.injEq, Option.some.injEq, PtrMeta.vtablePointer.injEq] at h3
        subst h3
        exact (decodePtr_prov h6 h5).subslice hb2

theorem encodePtrTy_prov {p : P} {t : PtrType} {bs : List (AByte P)} {v : Value P} (h : encodePtrTy t v = .ok bs)
    (hp : ProvInBytes p bs) : ProvIn p v := by
  unfold encodePtrTy at h
  cases v with
  | ptr ptr =>
    simp only [Res.bind_eq_ok] at h
    obtain ⟨o, _, h⟩ := h
    cases o with
    | none =>
      simp only [Res.bind_eq_ok] at h
      obtain ⟨_, _, h⟩ := h
      exact .thin (encodePtr_prov h hp)
    | some _ =>
      simp only [Res.bind_eq_ok] at h
      obtain ⟨mv, h1, b1, h2, b2, h3, b3, h4, h5⟩ := h
      rcases hp.write h5 with hp | hp
      · rcases hp.write h3 with hp | hp
        · exact absurd hp not_provInBytes_replicate
        · exact .thin (encodePtr_prov h2 hp)
      · cases hk : t.metaKind with
        | none => rw [hk] at h4; cases mv <;> cases h4
        | elementCount =>
          rw [hk] at h4
          cases mv with
          | int i => exact absurd hp (not_provInBytes_encodeInt h4)
          | _ => cases h4
        | vtablePointer tr =>
          rw [hk] at h1 h4
          unfold MetaKind.encodeAsValue at h1
          obtain ⟨th, md⟩ := ptr
          rcases md with _ | (c | q)
          · cases h1
          · cases h1
          · cases h1
            exact .vtable rfl (encodePtr_prov h4 hp)
  | _ => cases h

theorem decodeElems_prov {p : P} {dec : List (AByte P) → Res (Value P)} {n k : Nat} {bs : List (AByte P)}
    {vs : List (Value P)} (hd : ∀ {bs v}, dec bs = .ok v → ProvIn p v → ProvInBytes p bs)
    (h : decodeElems dec n k bs = .ok vs) {v} (hv : v ∈ vs) (hp : ProvIn p v) : ProvInBytes p bs := by
  induction k generalizing bs vs with
  | zero => simp [decodeElems] at h; subst h; cases hv
  | succ k ih =>
    simp only [decodeElems, Res.bind_eq_ok, Except.ok.injEq] at h
    obtain ⟨b, hb, w, hw, vs', hvs, rfl⟩ := h
    rcases List.mem_cons.1 hv with rfl | hv
    · exact (hd hw hp).subslice hb
    · obtain ⟨b, hb, i, hi⟩ := ih hvs hv
      exact ⟨b, List.mem_of_mem_drop hb, i, hi⟩

theorem decodeChunks_prov {p : P} {bs : List (AByte P)} {cs} {ds : List (List (AByte P))} (h : decodeChunks bs cs = .ok ds)
    {c} (hc : c ∈ ds) (hp : ProvInBytes p c) : ProvInBytes p bs := by
  induction cs generalizing ds with
  | nil => simp [decodeChunks] at h; subst h; cases hc
  | cons x cs ih =>
    obtain ⟨o, n⟩ := x
    simp only [decodeChunks, Res.bind_eq_ok, Except.ok.injEq] at h
    obtain ⟨d, hd, ds', hds, rfl⟩ := h
    rcases List.mem_cons.1 hc with rfl | hc
    · exact hp.subslice hd
    · exact ih hds hc

mutual
theorem decode_prov {p : P} : ∀ (ty : Ty) {bs : List (AByte P)} {v : Value P}, decode ty bs = .ok v → ProvIn p v → ProvInBytes p bs
  | .int i, bs, v, h, hp => by
    simp only [decode, Res.bind_eq_ok, Except.ok.injEq] at h
    obtain ⟨_, _, rfl⟩ := h; cases hp
  | .bool, bs, v, h, hp => by
    simp only [decode, Res.bind_eq_ok, Except.ok.injEq] at h
    obtain ⟨_, _, rfl⟩ := h; cases hp
  | .ptr t, bs, v, h, hp => decodePtrTy_prov h hp
  | .tuple _ _ (some _), _, _, h, _ => by simp [decode] at h
  | .tuple fs hd none, bs, v, h, hp => by
    simp only [decode, Res.bind_eq_ok, Except.ok.injEq] at h
    obtain ⟨_, _, vs, h1, rfl⟩ := h
    cases hp with
    | elem h2 h3 => exact decodeFields_prov fs h1 h2 h3
  | .array e n, bs, v, h, hp => by
    simp only [decode, Res.bind_eq_ok, Except.ok.injEq] at h
    obtain ⟨_, _, _, _, _, _, vs, h1, rfl⟩ := h
    cases hp with
    | elem h2 h3 => exact decodeElems_prov (fun h hp => decode_prov e h hp) h1 h2 h3
  | .union fs cs s a, bs, v, h, hp => by
    simp only [decode, Res.bind_eq_ok, Except.ok.injEq] at h
    obtain ⟨_, _, ds, h1, rfl⟩ := h
    cases hp with
    | chunk h2 h3 h4 => exact decodeChunks_prov h1 h2 ⟨_, h3, _, h4⟩
  | .enum vs dt disc s a, bs, v, h, hp => by
    simp only [decode, Res.bind_eq_ok] at h
    obtain ⟨_, _, ⟨o, u⟩, _, h⟩ := h
    cases o with
    | none => cases h
    | some d =>
      simp only [Res.bind_eq_ok, Except.ok.injEq] at h
      obtain ⟨w, hw, rfl⟩ := h
      cases hp with
      | variant h2 => exact decodeVariant_prov vs hw h2
  | .slice _, _, _, h, _ => by simp [decode] at h
  | .traitObject _, _, _, h, _ => by simp [decode] at h
theorem decodeFields_prov {p : P} : ∀ (fs : List (Nat × Ty)) {bs : List (AByte P)} {vs : List (Value P)},
    decodeFields fs bs = .ok vs → ∀ {v}, v ∈ vs → ProvIn p v → ProvInBytes p bs
  | [], bs, vs, h, v, hv, _ => by simp [decodeFields] at h; subst h; cases hv
  | (o, ty) :: fs, bs, vs, h, v, hv, hp => by
    simp only [decodeFields, Res.bind_eq_ok, Except.ok.injEq] at h
    obtain ⟨n, _, b, hb, w, hw, vs', hvs, rfl⟩ := h
    rcases List.mem_cons.1 hv with rfl | hv
    · exact (decode_prov ty hw hp).subslice hb
    · exact decodeFields_prov fs hvs hv hp
theorem decodeVariant_prov {p : P} : ∀ (vs : List (Int × (Ty × Tagger))) {d : Int} {bs : List (AByte P)} {v : Value P},
    decodeVariant vs d bs = .ok v → ProvIn p v → ProvInBytes p bs
  | [], _, _, _, h, _ => by simp [decodeVariant] at h
  | (d', (ty, _)) :: rest, d, bs, v, h, hp => by
    simp only [decodeVariant] at h
    split at h
    · exact decode_prov ty h hp
    · exact decodeVariant_prov rest h hp
end

theorem encodeElems_prov {p : P} {enc : Value P → Res (List (AByte P))} {n : Nat} {vs : List (Value P)} {bs : List (AByte P)}
    (he : ∀ {v bs}, enc v = .ok bs → ProvInBytes p bs → ProvIn p v)
    (h : encodeElems enc n vs = .ok bs) (hp : ProvInBytes p bs) : ∃ v ∈ vs, ProvIn p v := by
  induction vs generalizing bs with
  | nil =>
    simp [encodeElems] at h; subst h
    obtain ⟨_, h, _⟩ := hp; cases h
  | cons v vs ih =>
    simp only [encodeElems, Res.bind_eq_ok, Except.ok.injEq] at h
    obtain ⟨b, hb, _, _, r, hr, rfl⟩ := h
    obtain ⟨x, hx, i, hi⟩ := hp
    rcases List.mem_append.1 hx with hx | hx
    · exact ⟨v, by simp, he hb ⟨x, hx, i, hi⟩⟩
    · obtain ⟨w, hw, hpw⟩ := ih hr ⟨x, hx, i, hi⟩
      exact ⟨w, by simp [hw], hpw⟩

theorem encodeChunks_prov {p : P} {cs} {ds : List (List (AByte P))} {bs r : List (AByte P)}
    (h : encodeChunks cs ds bs = .ok r) (hp : ProvInBytes p r) : ProvInBytes p bs ∨ ∃ c ∈ ds, ProvInBytes p c := by
  induction cs generalizing ds bs with
  | nil => cases ds <;> (simp [encodeChunks] at h; subst h; exact .inl hp)
  | cons c cs ih =>
    obtain ⟨o, n⟩ := c
    cases ds with
    | nil => simp [encodeChunks] at h; subst h; exact .inl hp
    | cons d ds =>
      simp only [encodeChunks, Res.bind_eq_ok] at h
      obtain ⟨_, _, b, hb, h⟩ := h
      rcases ih h with h1 | ⟨c, hc, h1⟩
      · rcases h1.write hb with h2 | h2
        · exact .inl h2
        · exact .inr ⟨d, by simp, h2⟩
      · exact .inr ⟨c, by simp [hc], h1⟩

theorem encodeDiscriminant_prov {p : P} {tg : Tagger} {bs r : List (AByte P)}
    (h : encodeDiscriminant writeSubslice tg bs = .ok r) (hp : ProvInBytes p r) : ProvInBytes p bs := by
  induction tg generalizing bs with
  | nil => simp [encodeDiscriminant] at h; subst h; exact hp
  | cons t tg ih =>
    obtain ⟨o, vt, v⟩ := t
    simp only [encodeDiscriminant, Res.bind_eq_ok] at h
    obtain ⟨b, hb, b', hb', h⟩ := h
    rcases (ih h).write hb' with h | h
    · exact h
    · exact absurd h (not_provInBytes_encodeInt hb)

mutual
theorem encode_prov {p : P} : ∀ (ty : Ty) {bs : List (AByte P)} {v : Value P}, encode ty v = .ok bs → ProvInBytes p bs → ProvIn p v
  | .int i, bs, v, h, hp => by
    cases v with
    | int n => exact absurd hp (not_provInBytes_encodeInt (by simpa [encode] using h))
    | _ => simp [encode] at h
  | .bool, bs, v, h, hp => by
    cases v with
    | bool b =>
      simp only [encode, Except.ok.injEq] at h
      subst h
      obtain ⟨x, hx, i, hi⟩ := hp
      simp only [encodeBool, List.mem_singleton] at hx
      subst hx; cases hi
    | _ => simp [encode] at h
  | .ptr t, bs, v, h, hp => encodePtrTy_prov (by simpa only [encode] using h) hp
  | .tuple _ _ (some _), _, v, h, _ => by simp [encode] at h
  | .tuple fs hd none, bs, v, h, hp => by
    cases v with
    | tuple vs =>
      simp only [encode, Res.bind_eq_ok] at h
      obtain ⟨_, _, h⟩ := h
      rcases encodeFields_prov fs h hp with h | ⟨v, hv, h⟩
      · exact absurd h not_provInBytes_replicate
      · exact .elem hv h
    | _ => simp [encode] at h
  | .array e n, bs, v, h, hp => by
    cases v with
    | tuple vs =>
      simp only [encode, Res.bind_eq_ok] at h
      obtain ⟨_, _, h⟩ := h
      cases vs with
      | nil =>
        simp only [Except.ok.injEq] at h; subst h
        obtain ⟨_, h, _⟩ := hp; cases h
      | cons w vs =>
        simp only [Res.bind_eq_ok] at h
        obtain ⟨_, _, h⟩ := h
        obtain ⟨v, hv, h⟩ := encodeElems_prov (fun h hp => encode_prov e h hp) h hp
        exact .elem hv h
    | _ => simp [encode] at h
  | .union fs cs s a, bs, v, h, hp => by
    cases v with
    | union ds =>
      simp only [encode, Res.bind_eq_ok] at h
      obtain ⟨_, _, h⟩ := h
      rcases encodeChunks_prov h hp with h | ⟨c, hc, b, hb, i, hi⟩
      · exact absurd h not_provInBytes_replicate
      · exact .chunk hc hb hi
    | _ => simp [encode] at h
  | .enum vs dt disc s a, bs, v, h, hp => by
    cases v with
    | variant d w => exact .variant (encodeVariant_prov vs (by simpa only [encode] using h) hp)
    | _ => simp [encode] at h
  | .slice _, _, v, h, _ => by cases v <;> simp [encode] at h
  | .traitObject _, _, v, h, _ => by cases v <;> simp [encode] at h
theorem encodeFields_prov {p : P} : ∀ (fs : List (Nat × Ty)) {bs r : List (AByte P)} {vs : List (Value P)},
    encodeFields fs vs bs = .ok r → ProvInBytes p r → ProvInBytes p bs ∨ ∃ v ∈ vs, ProvIn p v
  | [], bs, r, vs, h, hp => by cases vs <;> (simp [encodeFields] at h; subst h; exact .inl hp)
  | (o, ty) :: fs, bs, r, [], h, hp => by simp [encodeFields] at h; subst h; exact .inl hp
  | (o, ty) :: fs, bs, r, v :: vs, h, hp => by
    simp only [encodeFields, Res.bind_eq_ok] at h
    obtain ⟨b, hb, b', hb', h⟩ := h
    rcases encodeFields_prov fs h hp with h1 | ⟨w, hw, h1⟩
    · rcases h1.write hb' with h2 | h2
      · exact .inl h2
      · exact .inr ⟨v, by simp, encode_prov ty hb h2⟩
    · exact .inr ⟨w, by simp [hw], h1⟩
theorem encodeVariant_prov {p : P} : ∀ (vs : List (Int × (Ty × Tagger))) {d : Int} {bs : List (AByte P)} {v : Value P},
    encodeVariant vs d v = .ok bs → ProvInBytes p bs → ProvIn p v
  | [], _, _, _, h, _ => by simp [encodeVariant] at h
  | (d', (ty, _)) :: rest, d, bs, v, h, hp => by
    simp only [encodeVariant] at h
    split at h
    · simp only [Res.bind_eq_ok] at h
      obtain ⟨b, hb, h⟩ := h
      exact encode_prov ty hb (encodeDiscriminant_prov h hp)
    · exact encodeVariant_prov rest h hp
end

end MiniRust
