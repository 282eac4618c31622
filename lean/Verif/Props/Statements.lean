import Verif.Lemmas.Discriminant
import Verif.Props.Assign
import Verif.Props.Expr
import Verif.Spec.Statements
/-
C50: the effects of the statements other than assignments, and of reading discriminants.
-/
set_option linter.unusedSectionVars false
namespace MiniRust

section
variable {P : Type} [DecidableEq P] [T : Target]

theorem bytesData_noUninit {b : List (AByte P)} {d} (h : bytesData b = .ok d) (i : Nat) : b[i]? ≠ some .uninit := by
  induction b generalizing d i with
  | nil => simp
  | cons x b ih =>
    cases x with
    | uninit => simp [bytesData, AByte.data] at h
    | init v f =>
      simp only [bytesData, AByte.data] at h
      cases hb : bytesData b with
      | error e => rw [hb] at h; cases h
      | ok ds =>
        cases i with
        | zero => simp
        | succ i => simpa using ih hb i

theorem decodePtr_init {b : List (AByte P)} {d} (h : decodePtr b = .ok d) (i : Nat) : b[i]? ≠ some .uninit := by
  simp only [decodePtr, Res.bind_eq_ok] at h
  obtain ⟨_, _, _, h, _⟩ := h
  exact bytesData_noUninit h i

theorem decodeInt_init {b : List (AByte P)} {t d} (h : decodeInt t b = .ok d) (i : Nat) : b[i]? ≠ some .uninit := by
  simp only [decodeInt, Res.bind_eq_ok] at h
  obtain ⟨_, _, _, h, _⟩ := h
  exact bytesData_noUninit h i

/-- Values of scalar types are only decoded from initialized bytes. -/
theorem decode_scalar_init [LawfulTarget T] {t : Ty} (ht : t.IsScalar) {b : List (AByte P)} {v} (hl : t.size = .ok b.length)
    (h : decode t b = .ok v) (i : Nat) : b[i]? ≠ some .uninit := by
  cases ht with
  | int =>
    simp only [decode, Res.bind_eq_ok] at h
    obtain ⟨_, h, _⟩ := h
    exact decodeInt_init h i
  | bool =>
    simp only [decode, Res.bind_eq_ok] at h
    obtain ⟨_, h, _⟩ := h
    unfold decodeBool at h
    split at h
    · cases i <;> simp
    · cases i <;> simp
    · cases h
    · cases h
  | @ptr p =>
    have hg : (Ty.ptr p).Good := .ptr
    rw [hg.size] at hl
    replace hl := Except.ok.inj hl
    simp only [decode] at h
    by_cases hk : p.metaKind = .none
    · rw [decodePtrTy_thin hk] at h
      simp only [Res.bind_eq_ok] at h
      obtain ⟨_, h, _⟩ := h
      exact decodePtr_init h i
    · have hl' : b.length = 2 * T.ptrSize := by rw [← hl]; simp [Ty.sz, hk]
      rw [decodePtrTy_wide hk _ hl'] at h
      simp only [Res.bind_eq_ok] at h
      obtain ⟨_, h1, _, h2, _⟩ := h
      by_cases hi : i < T.ptrSize
      · have := decodePtr_init h1 i
        rwa [List.getElem?_take_of_lt hi] at this
      · have h3 : (b.drop T.ptrSize)[i - T.ptrSize]? ≠ some .uninit := by
          cases hm : p.metaKind with
          | none => exact absurd hm hk
          | elementCount =>
            rw [hm] at h2
            simp only [decodeMetaBytes, Res.bind_eq_ok] at h2
            obtain ⟨_, h2, _⟩ := h2
            exact decodeInt_init h2 _
          | vtablePointer t =>
            rw [hm] at h2
            simp only [decodeMetaBytes, Res.bind_eq_ok] at h2
            obtain ⟨_, h2, _⟩ := h2
            exact decodePtr_init h2 _
        rw [List.getElem?_drop] at h3
        rwa [show T.ptrSize + (i - T.ptrSize) = i by omega] at h3

/-- An accessor that keeps a property when writing the entries of a tag keeps it. -/
theorem encodeDiscriminant_keeps {S : Type} {acc : S → Nat → List (AByte P) → Res S} {I : S → Prop} {tg : Tagger}
    (hacc : ∀ e ∈ tg, ∀ s bs s', bs.length = e.2.1.size → I s → acc s e.1 bs = .ok s' → I s') {s s' : S} (hs : I s)
    (h : encodeDiscriminant acc tg s = .ok s') : I s' := by
  induction tg generalizing s with
  | nil => simp only [encodeDiscriminant] at h; cases h; exact hs
  | cons e tg ih =>
    obtain ⟨o, vt, val⟩ := e
    simp only [encodeDiscriminant, Res.bind_eq_ok] at h
    obtain ⟨bs, h1, s1, h2, h3⟩ := h
    exact ih (fun e he => hacc e (List.mem_cons_of_mem _ he)) (hacc _ List.mem_cons_self _ _ _ (encodeInt_length h1) hs h2) h3

end

theorem Ranges.apart_iff {a b : Int} {k n : Nat} : Ranges.Apart a k b n ↔ k = 0 ∨ n = 0 ∨ a + k ≤ b ∨ b + n ≤ a := by
  unfold Ranges.Apart
  constructor
  · intro h
    by_contra hc
    exact h ⟨max a b, by omega, by omega⟩
  · rintro h ⟨x, _, _⟩
    omega

theorem BasicMem.At.storeApart {PE AE : Type} {m m' : BasicMem PE AE} {p q n b bs al hx} (hb : m.At p n b) (h : m.store q bs al hx = .ok m')
    (hd : Ranges.Apart p.addr n q.addr bs.length) : m'.At p n b := by
  rcases Ranges.apart_iff.1 hd with rfl | h0 | hd
  · rcases hb with hb | ⟨h, _⟩
    · exact .inl hb
    · exact absurd rfl h
  · rw [BasicMem.store_eq_ok] at h
    obtain ⟨_, ⟨rfl, rfl⟩ | ⟨h1, _⟩⟩ := h
    · exact hb
    · exact absurd (List.length_eq_zero_iff.1 h0) h1
  · exact hb.storeOther h hd

section
variable {M PE AE F : Type} [T : Target] [DecidableEq PE] [Memory M (AllocId × PE) F] [LawfulTarget T]
  [SoftMem M (AllocId × PE) F] [RawRetag M (AllocId × PE) F] [B : BasicBacked M PE AE F]
variable {s s' s1 s2 : Machine M (AllocId × PE) F} {prog : Program} {fn : Function}
include B

theorem valEnv_same (h : SameData (B.mem s.mem.memory) (B.mem s'.mem.memory)) (hs : s' = { s with mem := s'.mem, threads := s'.threads }) :
    s'.valEnv = s.valEnv := by
  have hd : s'.mem.dereferenceable = s.mem.dereferenceable := by
    funext q k
    show Memory.dereferenceable s'.mem.memory q k = Memory.dereferenceable s.mem.memory q k
    rw [B.dereferenceable, B.dereferenceable]
    rw [checkPtr_same h]
  unfold Machine.valEnv
  rw [hd]
  rw [hs]
  rfl

theorem same_memLoad {p : ThinPtr (AllocId × PE)} {n al at' b} (h : memLoad p n al at' s = .ok (b, s')) :
    SameData (B.mem s.mem.memory) (B.mem s'.mem.memory) := by
  obtain ⟨m, h1, rfl⟩ := memLoad_eq_ok.1 h
  exact ReadRel.load (P := AllocId × PE) (F := F) (Rm := SameAllocs (M := M) (B := B)) _ _ _ _ _ _ _ h1

theorem ptrOffset_shift {p q : ThinPtr (AllocId × PE)} {d : Int} (h : s.ptrOffsetInbounds p d = .ok q) : q = p.shift d := by
  simp only [Machine.ptrOffsetInbounds, Res.bind_eq_ok, Except.ok.injEq] at h
  obtain ⟨_, _, _, _, _, _, rfl⟩ := h
  rfl

theorem getDiscriminant_at {p : Place (AllocId × PE)} {vs dt disc size al} (hw : (Ty.enum vs dt disc size al).checkWf prog = .ok ())
    {b} (hat : (B.mem s.mem.memory).At p.ptr.thin size b) {w t} (h : getDiscriminant p (.enum vs dt disc size al) s = .ok ((w, t), s')) :
    p.aligned = true ∧ t = .int dt ∧ ∃ d, w = .int d ∧ discriminantOf disc b = .ok (some d) := by
  simp only [Ty.checkWf, Res.bind_eq_ok] at hw
  obtain ⟨_, _, _, hdw, _⟩ := hw
  unfold getDiscriminant at h
  cases hp : p.aligned with
  | false => rw [hp] at h; cases h
  | true =>
    rw [hp] at h
    obtain ⟨o, s1, h1, h2⟩ := EM.bind_eq_ok.1 h
    have hd := decodeDiscriminant_sound (bytes := b) (size := size)
      (I := fun s : Machine M (AllocId × PE) F => (B.mem s.mem.memory).At p.ptr.thin size b) ?_ disc hdw hat h1
    · cases o with
      | none => cases h2
      | some d => cases h2; exact ⟨rfl, rfl, d, rfl, hd⟩
    · intro s i n c s' hI hn hacc
      obtain ⟨q, hq, hl⟩ := Res.bind_eq_ok.1 hacc
      have := ptrOffset_shift hq
      subst this
      refine ⟨hI.same (same_memLoad hl), ?_⟩
      obtain ⟨m, hl', rfl⟩ := memLoad_eq_ok.1 hl
      have := (at_of_memLoad hl').unique (hI.part hn)
      rw [subslice_eq_ok]
      exact ⟨by rw [hI.length]; exact hn, this⟩

omit B in
theorem discriminantOf_of_decode {vs dt disc size al} {b : List (AByte (AllocId × PE))} {d v}
    (h : decode (.enum vs dt disc size al) b = .ok (.variant d v)) : discriminantOf disc b = .ok (some d) := by
  have hl : b.length = size := by
    simp only [decode, Res.bind_eq_ok, rassert_eq_ok] at h
    obtain ⟨_, h, _⟩ := h
    simpa using h
  rw [decode_enum_eq hl] at h
  obtain ⟨o, h1, h2⟩ := Res.bind_eq_ok.1 h
  cases o with
  | none => cases h2
  | some d' =>
    simp only [Res.bind_eq_ok, Except.ok.injEq, Value.variant.injEq] at h2
    obtain ⟨_, _, rfl, _⟩ := h2
    exact h1

/-- C50: the discriminant read from a place is the one of the value that can be loaded from the place. -/
theorem C50_get_discriminant {e : PlaceExpr} {d v ty} (hl : evalValue (.load e) s = .ok ((.variant d v, ty), s1))
    (hw : ty.checkWf prog = .ok ()) {w t} (h : evalValue (.getDiscriminant e) s = .ok ((w, t), s2)) : w = .int d := by
  obtain ⟨p, s3, n, b, h1, h2, h3, h4, h5, h6⟩ := load_parts hl
  simp only [evalValue, EM.bind_of_ok h1] at h
  cases ty with
  | enum vs dt disc size al =>
    cases h3
    obtain ⟨_, _, d', rfl, hd⟩ := getDiscriminant_at hw h4 h
    rw [discriminantOf_of_decode h5] at hd
    cases hd; rfl
  | _ => simp [checkValue, panic, ub] at h6

/-- The parts of a `SetDiscriminant`. -/
theorem setDiscriminant_at {p : Place (AllocId × PE)} {vs dt disc size al} (hw : (Ty.enum vs dt disc size al).checkWf prog = .ok ())
    {d t tg} (hd : Map.get? vs d = some (t, tg)) {b} (hat : (B.mem s.mem.memory).At p.ptr.thin size b)
    (h : setDiscriminant p (.enum vs dt disc size al) d s = .ok ((), s')) :
    p.aligned = true ∧ s'.valEnv = s.valEnv ∧ ∃ b', (B.mem s'.mem.memory).At p.ptr.thin size b' ∧ encodeDiscriminant writeSubslice tg b = .ok b' := by
  have hg := (good_of_size (n := size) hw rfl).1
  unfold setDiscriminant at h
  cases hp : p.aligned with
  | false => simp [hp, EM.throw] at h
  | true =>
    rw [hp] at h
    simp only [Bool.not_true, Bool.false_eq_true, ↓reduceIte, hd] at h
    obtain ⟨s1, h1, h2⟩ := Res.bind_eq_ok.1 h
    cases h2
    cases hg with
    | enum hvg hs ht hdt hdisc =>
      have hk := encodeDiscriminant_sound (size := size)
        (I := fun (x : Machine M (AllocId × PE) F) c => (B.mem x.mem.memory).At p.ptr.thin size c ∧ x.valEnv = s.valEnv) ?_
        (ht _ (Map.get?_mem hd)) ⟨hat, rfl⟩ h1
      · obtain ⟨b', ⟨h2, h3⟩, h4⟩ := hk
        exact ⟨rfl, h3, b', h2, h4⟩
      · intro x c i bs x' hI hn hacc
        simp only [Res.bind_eq_ok, Prod.exists, Except.ok.injEq] at hacc
        obtain ⟨q, hq, _, x2, hst, rfl⟩ := hacc
        have := ptrOffset_shift hq
        subst this
        obtain ⟨m, hst', rfl⟩ := memStore_eq_ok.1 hst
        obtain ⟨mm, h8, rfl⟩ := ConcMem.store_eq_ok.1 hst'
        obtain ⟨hx, e⟩ := B.store x.mem.memory (p.ptr.thin.shift i) bs Align.one
        rw [h8] at e
        obtain ⟨c', hc', hat'⟩ := hI.1.storePart e.symm (k := i) rfl rfl hn
        exact ⟨c', ⟨hat', (valEnv_store (s := x) e.symm rfl).trans hI.2⟩, hc'⟩

theorem same_placeLoad {p : Place (AllocId × PE)} {ty v} (h : placeLoad p ty s = .ok (v, s')) : s'.valEnv = s.valEnv := by
  unfold placeLoad at h
  cases hp : p.aligned with
  | false => simp [hp, EM.throw] at h
  | true =>
    rw [hp] at h
    obtain ⟨n, bytes, m, h3, h4, rfl, h6, h7⟩ := typedLoad_eq_ok.1 h
    exact valEnv_same (ReadRel.load (P := AllocId × PE) (F := F) (Rm := SameAllocs (M := M) (B := B)) _ _ _ _ _ _ _ h4) rfl

/-- Loading the data of a variant. -/
theorem placeLoad_variant {p : Place (AllocId × PE)} {vs dt disc size al} (hw : (Ty.enum vs dt disc size al).checkWf prog = .ok ())
    {d t tg} (hd : Map.get? vs d = some (t, tg)) {v} (h : placeLoad p t s = .ok (v, s')) : ∃ b,
      p.aligned = true ∧ (B.mem s.mem.memory).At p.ptr.thin size b ∧ decode t b = .ok v ∧ checkValue s.valEnv t v = .ok () := by
  obtain ⟨n, b, h1, h2, h3, h4, h5⟩ := placeLoad_parts h
  rw [same_placeLoad h] at h5
  simp only [Ty.checkWf, Res.bind_eq_ok] at hw
  obtain ⟨_, hw', _⟩ := hw
  obtain ⟨_, _, ⟨al', hl', _⟩, _⟩ := checkVariants_ok hw' _ (Map.get?_mem hd)
  simp only at hl'
  simp only [Ty.size, hl', Res.bind_ok] at h2
  cases h2
  exact ⟨b, h1, h3, h4, h5⟩

/-- C50: once the data of a variant is in place, setting the discriminant makes the place hold that variant of the enum,
with that data, and the discriminant can be read back. -/
theorem C50_set_discriminant {e : PlaceExpr} {d : Int} (h : evalStatement (.setDiscriminant e d) s = .ok ((), s'))
    {p ty} (hp : evalPlace e s = .ok ((p, ty), s1)) (hw : ty.checkWf prog = .ok ()) (hco : ty.Coherent s.valEnv)
    {vs dt disc size al} (hty : ty = .enum vs dt disc size al) {t tg} (hd : Map.get? vs d = some (t, tg))
    {v} (hv : placeLoad p t s = .ok (v, s2)) :
    (∀ w s3, placeLoad p ty s' = .ok (w, s3) → w = .variant d v) ∧
    (∀ w t' s3, getDiscriminant p ty s' = .ok ((w, t'), s3) → w = .int d) := by
  subst hty
  have hg := (good_of_size (n := size) hw rfl).1
  simp only [evalStatement, EM.bind_of_ok hp] at h
  obtain ⟨b, k1, k2, k3, k4⟩ := placeLoad_variant hw hd hv
  have hat := k2.same (same_place hp)
  obtain ⟨a1, a2, b', a3, a4⟩ := setDiscriminant_at hw hd hat h
  obtain ⟨c1, c2⟩ := decode_set_variant hg hco hd hat.length k3 k4 a4
  constructor
  · intro w s3 hl
    obtain ⟨n, b2, _, l1, l2, l3, _⟩ := placeLoad_parts hl
    cases l1
    have := l2.unique a3
    subst this
    rw [c1] at l3
    cases l3; rfl
  · intro w t' s3 hl
    obtain ⟨_, _, d', rfl, hd'⟩ := getDiscriminant_at hw a3 hl
    rw [c2] at hd'
    cases hd'; rfl

/-- C50: setting a discriminant changes nothing but the bytes of the tag: what can be loaded elsewhere stays the same. -/
theorem C50_set_discriminant_elsewhere {e : PlaceExpr} {d : Int} (h : evalStatement (.setDiscriminant e d) s = .ok ((), s'))
    {p ty} (hp : evalPlace e s = .ok ((p, ty), s1)) {vs dt disc size al} (hty : ty = .enum vs dt disc size al) {t tg}
    (hd : Map.get? vs d = some (t, tg)) {q : Place (AllocId × PE)} {u} {k : Nat} (hk : u.size = .ok k)
    (ha : ∀ e ∈ tg, Ranges.Apart q.ptr.thin.addr k (p.ptr.thin.addr + (e.1 : Nat)) e.2.1.size)
    {v} (hv : placeLoad q u s = .ok (v, s2)) {w s3} (hw : placeLoad q u s' = .ok (w, s3)) : w = v := by
  subst hty
  simp only [evalStatement, EM.bind_of_ok hp] at h
  obtain ⟨_, b, _, k1, k2, k3, _⟩ := placeLoad_parts hv
  obtain ⟨_, b', _, l1, l2, l3, _⟩ := placeLoad_parts hw
  rw [hk] at k1 l1; cases k1; cases l1
  have hat := k2.same (same_place hp)
  unfold setDiscriminant at h
  cases ha' : p.aligned with
  | false => simp [ha', EM.throw] at h
  | true =>
    rw [ha'] at h
    simp only [Bool.not_true, Bool.false_eq_true, ↓reduceIte, hd] at h
    obtain ⟨s4, h1, h2⟩ := Res.bind_eq_ok.1 h
    cases h2
    have hk := encodeDiscriminant_keeps (I := fun x : Machine M (AllocId × PE) F => (B.mem x.mem.memory).At q.ptr.thin k b) ?_ hat h1
    · have := l2.unique hk
      subst this
      rw [k3] at l3; cases l3; rfl
    · intro e he x bs x' hl hI hacc
      simp only [Res.bind_eq_ok, Prod.exists, Except.ok.injEq] at hacc
      obtain ⟨r, hr, _, x2, hst, rfl⟩ := hacc
      have := ptrOffset_shift hr
      subst this
      obtain ⟨m, hst', rfl⟩ := memStore_eq_ok.1 hst
      obtain ⟨mm, h8, rfl⟩ := ConcMem.store_eq_ok.1 hst'
      obtain ⟨hx, e'⟩ := B.store x.mem.memory (p.ptr.thin.shift e.1) bs Align.one
      rw [h8] at e'
      have := ha e he
      exact hI.storeApart e'.symm (by rw [hl]; exact this)

/-- Overlapping ranges of accessible bytes have the same bytes in the overlap. -/
theorem at_overlap {h : MemHistory PE} (hm : MemReach (F := F) h s.mem.memory) {p q : ThinPtr (AllocId × PE)} {n k : Nat} {b c}
    (hp : (B.mem s.mem.memory).At p n b) (hq : (B.mem s.mem.memory).At q k c) {i j : Nat} (hi : i < n) (hj : j < k)
    (e : p.addr + i = q.addr + j) : b[i]? = c[j]? := by
  rcases hp with ⟨h0, _⟩ | ⟨_, id, pe, a, off, hp, ha, hl, ho, hn, rfl⟩
  · omega
  rcases hq with ⟨h0, _⟩ | ⟨_, id', pe', a', off', hp', ha', hl', ho', hn', rfl⟩
  · omega
  by_cases hid : id = id'
  · subst hid
    rw [ha] at ha'; cases ha'
    simp only [List.getElem?_take, List.getElem?_drop, hi, hj, if_true]
    congr 1; omega
  · exfalso
    refine (C16_disjoint hm hid ((live_iff hm).2 ⟨a, ha, hl, rfl⟩) ((live_iff hm).2 ⟨a', ha', hl', rfl⟩)).2 (p.addr + i) ?_
    simp only [Alloc.info, Alloc.size]
    omega

theorem deinit_parts {e : PlaceExpr} (h : evalStatement (.deinit e) s = .ok ((), s')) {p ty} (hp : evalPlace e s = .ok ((p, ty), s1)) {n : Nat}
    (hn : ty.size = .ok n) : p.aligned = true ∧ ∃ hx, (B.mem s1.mem.memory).store p.ptr.thin (List.replicate n .uninit) Align.one hx =
      .ok (B.mem s'.mem.memory) := by
  simp only [evalStatement, EM.bind_of_ok hp] at h
  cases ha : p.aligned with
  | false => simp [ha, EM.throw] at h
  | true =>
    simp only [ha, Bool.not_true, Bool.false_eq_true, ↓reduceIte, EM.bind_eq_ok, EM.lift_eq_ok] at h
    obtain ⟨n', s4, ⟨hn', rfl⟩, h⟩ := h
    rw [hn] at hn'; cases hn'
    obtain ⟨m, hst, rfl⟩ := memStore_eq_ok.1 h
    obtain ⟨mm, h8, rfl⟩ := ConcMem.store_eq_ok.1 hst
    obtain ⟨hx, e'⟩ := B.store s4.mem.memory p.ptr.thin (List.replicate n .uninit) Align.one
    rw [h8] at e'
    exact ⟨rfl, hx, e'.symm⟩

/-- C50: after a place was de-initialized, no integer, boolean or pointer can be loaded from memory that overlaps it. -/
theorem C50_deinit {e : PlaceExpr} (h : evalStatement (.deinit e) s = .ok ((), s')) {p ty} (hp : evalPlace e s = .ok ((p, ty), s1)) {n : Nat}
    (hn : ty.size = .ok n) {hist : MemHistory PE} (hm : MemReach (F := F) hist s'.mem.memory) {q : Place (AllocId × PE)} {t : Ty} {k : Nat}
    (ht : t.IsScalar) (hk : t.size = .ok k) (ho : ¬ Ranges.Apart q.ptr.thin.addr k p.ptr.thin.addr n) {v} : placeLoad q t s' ≠ .ok (v, s2) := by
  intro hl
  obtain ⟨_, hx, hst⟩ := deinit_parts h hp hn
  have hat := BasicMem.at_of_store hst
  rw [List.length_replicate] at hat
  obtain ⟨_, b, _, k1, k2, k3, _⟩ := placeLoad_parts hl
  rw [hk] at k1; cases k1
  have hi := decode_scalar_init ht (by rw [k2.length]; exact hk) k3
  obtain ⟨x, hx1, hx2⟩ := not_not.1 ho
  have := at_overlap hm hat k2 (i := (x - p.ptr.thin.addr).toNat) (j := (x - q.ptr.thin.addr).toNat) (by omega) (by omega) (by omega)
  rw [List.getElem?_replicate, if_pos (by omega)] at this
  exact hi _ this.symm

/-- C50: de-initializing a place does not change what can be loaded elsewhere. -/
theorem C50_deinit_elsewhere {e : PlaceExpr} (h : evalStatement (.deinit e) s = .ok ((), s')) {p ty} (hp : evalPlace e s = .ok ((p, ty), s1))
    {n : Nat} (hn : ty.size = .ok n) {q : Place (AllocId × PE)} {t : Ty} {k : Nat} (hk : t.size = .ok k)
    (ha : Ranges.Apart q.ptr.thin.addr k p.ptr.thin.addr n) {v} (hv : placeLoad q t s = .ok (v, s2)) {w s3}
    (hw : placeLoad q t s' = .ok (w, s3)) : w = v := by
  obtain ⟨_, hx, hst⟩ := deinit_parts h hp hn
  obtain ⟨_, b, _, k1, k2, k3, _⟩ := placeLoad_parts hv
  obtain ⟨_, b', _, l1, l2, l3, _⟩ := placeLoad_parts hw
  rw [hk] at k1 l1; cases k1; cases l1
  have := l2.unique ((k2.same (same_place hp)).storeApart hst (by rw [List.length_replicate]; exact ha))
  subst this
  rw [k3] at l3; cases l3; rfl

/-- C50: mentioning a place evaluates it, and does nothing else. -/
theorem C50_placeMention {e : PlaceExpr} :
    (∀ r s1, evalPlace e s = .ok (r, s1) → evalStatement (.placeMention e) s = .ok ((), s1) ∧ OnlyReads s s1) ∧
    (∀ err, evalPlace e s = .error err → evalStatement (.placeMention e) s = .error err) := by
  refine ⟨fun r s1 h => ⟨?_, C53_only_reads.2 e r h⟩, fun err h => ?_⟩
  · simp only [evalStatement, EM.bind_of_ok h]; rfl
  · simp only [evalStatement]; exact EM.bind_of_error h

omit B in
/-- C50: all statements and expressions that access a place require it to be aligned. -/
theorem C50_misaligned {e : PlaceExpr} {p ty} (he : evalPlace e s = .ok ((p, ty), s1)) (hp : p.aligned = false) :
    evalStatement (.deinit e) s = .error .ub ∧ (∀ b, evalStatement (.validate e b) s = .error .ub) ∧
    (∀ vs dt disc n al, ty = .enum vs dt disc n al → evalValue (.getDiscriminant e) s = .error .ub ∧
      ∀ d, evalStatement (.setDiscriminant e d) s = .error .ub) := by
  refine ⟨?_, fun b => ?_, fun vs dt disc n al hty => ⟨?_, fun d => ?_⟩⟩
  · simp [evalStatement, EM.bind_of_ok he, hp, EM.throw]
  · simp only [evalStatement, EM.bind_of_ok he]
    refine EM.bind_of_error ?_
    simp [placeLoad, hp, EM.throw]
  · subst hty
    simp [evalValue, EM.bind_of_ok he, getDiscriminant, hp, EM.throw]
  · subst hty
    simp [evalStatement, EM.bind_of_ok he, setDiscriminant, hp, EM.throw]

end

section
variable [T : Target] {s s' s1 s2 : Machine (BasicMem Unit Unit) (AllocId × Unit) Unit} {prog : Program} {fn : Function}

theorem Blind.withAcc {α : Type} {x : EM (BasicMem Unit Unit) (AllocId × Unit) Unit α} (hx : Blind x) {a} (h : x s = .ok (a, s')) :
    ∃ acc, s' = s.withAcc acc := by
  obtain ⟨r, hr⟩ := hx s
  have h1 := hr s.mem.accesses
  rw [show s.withAcc s.mem.accesses = s from rfl, h] at h1
  cases r with
  | error e => cases h1
  | ok q =>
    obtain ⟨a', n⟩ := q
    simp only [Res.bind_ok, Except.ok.injEq, Prod.mk.injEq] at h1
    exact ⟨_, h1.2⟩

theorem retagPtrM_basic {fr} (h : s.curFrame = .ok fr) {p : Pointer (AllocId × Unit)} {t b} : retagPtrM p t b s = .ok (p, s) := by
  unfold retagPtrM mutateCurFrame
  have h0 := h
  obtain ⟨th, ha, hc⟩ := Res.bind_eq_ok.1 h
  rw [EM.bind_of_ok (EM.read_of_ok h0)]
  refine (EM.bind_of_ok (a := (p, fr)) (s' := s) rfl).trans ?_
  refine (EM.bind_of_ok (EM.read_of_ok ha)).trans ?_
  have ht : th.setCurFrame fr = .ok th := by
    unfold Thread.curFrame at hc
    unfold Thread.setCurFrame
    cases hs : th.stack with
    | nil => rw [hs] at hc; cases hc
    | cons x rest => rw [hs] at hc; cases hc; simp only [← hs]
  refine (EM.bind_of_ok (EM.lift_of_ok ht)).trans ?_
  refine (EM.bind_of_ok (a := ()) (EM.modify_eq_ok.2 rfl)).trans ?_
  have hst : s.setActive th = s := by
    unfold Machine.setActive
    have : s.threads.set s.activeThread th = s.threads := by
      apply List.ext_getElem?
      intro i
      rw [List.getElem?_set]
      split
      · rename_i hi
        subst hi
        have := index_eq_ok.1 ha
        rw [this]
        simp [(List.getElem?_eq_some_iff.1 this).1]
      · rfl
    rw [this]
  rw [hst]
  rfl

theorem checkFields_get {env : ValEnv (AllocId × Unit)} {fields : List (Nat × Ty)} {vs} (h : checkFields env fields vs = .ok ()) (i : Nat) (v ty)
    (hv : vs[i]? = some v) (ht : (fields.map (·.2))[i]? = some ty) : checkValue env ty v = .ok () := by
  induction fields generalizing vs i with
  | nil => simp at ht
  | cons f fields ih =>
    cases vs with
    | nil => simp at hv
    | cons w vs =>
      obtain ⟨off, t⟩ := f
      simp only [checkFields, Res.bind_eq_ok] at h
      obtain ⟨_, h1, h2⟩ := h
      cases i with
      | zero => simp at hv ht; subst hv; subst ht; exact h1
      | succ i => exact ih h2 i (by simpa using hv) (by simpa using ht)

mutual
/-- In the basic memory model, retagging valid values does nothing. -/
theorem retagVal_basic {fr env b} (h : s.curFrame = .ok fr) : ∀ (v : Value (AllocId × Unit)) (ty : Ty), checkValue env ty v = .ok () →
    retagVal b v ty s = .ok (v, s)
  | .int i, ty, hv => by simp only [retagVal]; rfl
  | .bool i, ty, hv => by simp only [retagVal]; rfl
  | .union i, ty, hv => by simp only [retagVal]; rfl
  | .ptr p, ty, hv => by
    cases ty with
    | ptr t => simp only [retagVal, EM.bind_of_ok (retagPtrM_basic h)]; rfl
    | _ => simp [checkValue, panic] at hv
  | .tuple vs, ty, hv => by
    cases ty with
    | tuple fields head tail =>
      simp only [checkValue, Res.bind_eq_ok, ensureUb_eq_ok, beq_iff_eq] at hv
      obtain ⟨_, _, _, hl, hv⟩ := hv
      simp only [retagVal]
      rw [EM.bind_of_ok (retagVals_basic h vs _ (by simpa using hl) (checkFields_get hv))]
      rfl
    | array elem n =>
      simp only [checkValue, Res.bind_eq_ok] at hv
      obtain ⟨_, _, hv⟩ := hv
      simp only [retagVal]
      rw [EM.bind_of_ok (retagVals_basic (env := env) h vs _ (by simp) ?_)]
      · rfl
      · intro i v ty h1 h2
        rw [List.getElem?_replicate] at h2
        split at h2
        · cases h2
          exact (checkElems_iff (M := BasicMem Unit Unit)).1 hv v (List.mem_of_getElem? h1)
        · cases h2
    | _ => simp [checkValue, panic] at hv
  | .variant d v, ty, hv => by
    cases ty with
    | enum vs dt disc n al =>
      simp only [checkValue] at hv
      rw [checkVariant_eq] at hv
      cases hm : Map.get? vs d with
      | none => simp [hm, ub] at hv
      | some w =>
        rw [hm] at hv
        simp only [retagVal]
        rw [EM.bind_of_ok (EM.lift_of_ok (Map.get_eq_ok.2 hm)), EM.bind_of_ok (retagVal_basic h v _ hv)]
        rfl
    | _ => simp [checkValue, panic] at hv
theorem retagVals_basic {fr env b} (h : s.curFrame = .ok fr) : ∀ (vs : List (Value (AllocId × Unit))) (tys : List Ty),
    vs.length = tys.length → (∀ (i : Nat) v ty, vs[i]? = some v → tys[i]? = some ty → checkValue env ty v = .ok ()) →
    retagVals b vs tys s = .ok (vs, s)
  | [], tys, _, _ => by unfold retagVals; rfl
  | v :: vs, [], hl, _ => by cases hl
  | v :: vs, ty :: tys, hl, hv => by
    unfold retagVals
    rw [EM.bind_of_ok (retagVal_basic h v ty (hv 0 _ _ rfl rfl)), EM.bind_of_ok (retagVals_basic h vs tys (by simpa using hl) fun i => hv (i + 1))]
    rfl
end

variable [LawfulTarget T]

/-- C50: in the basic memory model, `Validate` succeeds if the place can be loaded, and leaves the value in place; memory
can only become less defined (in padding). -/
theorem C50_validate (hT : prog.Tame) (hs : Evaluating prog fn s) {e : PlaceExpr} {v ty} (hl : evalValue (.load e) s = .ok ((v, ty), s1))
    (hw : ty.checkWf prog = .ok ()) (hco : ty.Coherent s1.valEnv) (b : Bool) :
    ∃ p s2 s', evalPlace e s = .ok ((p, ty), s2) ∧ evalStatement (.validate e b) s = .ok ((), s') ∧
      MemBytesLe s'.mem.memory s.mem.memory ∧ ∃ s3, placeLoad p ty s' = .ok (v, s3) := by
  obtain ⟨hr, _⟩ := hs.ready hT
  simp only [evalValue, EM.bind_eq_ok, EM.pure_eq_ok, Prod.exists, Prod.mk.injEq] at hl
  obtain ⟨p, ty', s2, h1, v', s3, h2, ⟨rfl, rfl⟩, rfl⟩ := hl
  have hp : p.aligned = true := by
    unfold placeLoad at h2
    cases hp : p.aligned with
    | false => simp [hp, EM.throw] at h2
    | true => rfl
  have h3 : typedLoad p.ptr.thin ty' Align.one .none s2 = .ok (v', s3) := by
    unfold placeLoad at h2
    rw [hp] at h2
    exact h2
  obtain ⟨n, bytes, m, g1, g2, g3, g4, g5⟩ := typedLoad_eq_ok.1 h3
  obtain ⟨fr, hfr, _⟩ := (hr.place h1).1.frame
  have hfr' : s3.curFrame = .ok fr := by rw [g3]; exact hfr
  obtain ⟨s4, s5, h4, h5⟩ := C09_self_assignment_succeeds prog ty' hw s2 s3 hco p.ptr.thin Align.one .none .none .none v' h3
  have h6 := (C09_self_assignment prog ty' hw s2 s3 s4 hco p.ptr.thin Align.one Align.one Align.one .none .none .none v' h3 h4).1
  obtain ⟨acc, hacc⟩ := (Blind.evalPlace e).withAcc h1
  refine ⟨p, s2, s4, h1, ?_, ?_, s5, ?_⟩
  · simp only [evalStatement, EM.bind_of_ok h1, EM.bind_of_ok h2, EM.bind_of_ok (retagVal_basic hfr' v' ty' g5), placeStore, hp]
    exact h4
  · rw [hacc] at h6
    exact h6
  · simp only [placeLoad, hp]
    exact h5

/-- C50: `Validate` is UB where loading is. -/
theorem C50_validate_ub {e : PlaceExpr} {p ty} (hp : evalPlace e s = .ok ((p, ty), s1)) {err} (h : placeLoad p ty s1 = .error err) (b : Bool) :
    evalStatement (.validate e b) s = .error err := by
  simp only [evalStatement, EM.bind_of_ok hp]
  exact EM.bind_of_error h

theorem ptrOffset_at (hr : Base prog s) {p : ThinPtr (AllocId × Unit)} (hp : PK made (cnt s) p) (hs : InSpace p) {n : Nat} {b}
    (hat : s.mem.memory.At p n b) {i : Nat} (hi : i ≤ n) : s.ptrOffsetInbounds p i = .ok (p.shift i) := by
  obtain ⟨h, hm⟩ := hr.mem
  exact (ptrOffset_spans hr hp hs i hm).1 (by simpa using spans_of_at hm hat hi)

/-- C50: in the basic memory model, the discriminant of a loadable enum can be read. -/
theorem C50_get_discriminant_ok (hT : prog.Tame) (hs : Evaluating prog fn s) {e : PlaceExpr} {ty : Ty}
    (hc : e.checkWf prog fn.locals = .ok ty) (ht : e.Tame prog fn.locals) {d v ty'}
    (hl : evalValue (.load e) s = .ok ((.variant d v, ty'), s1)) : ∃ dt s2, evalValue (.getDiscriminant e) s = .ok ((.int d, .int dt), s2) := by
  obtain ⟨hr, hwf⟩ := hs.ready hT
  obtain ⟨p, s3, n, b, h1, h2, h3, h4, h5, h6⟩ := load_parts hl
  have hv := (Np.place hwf e s ty hr hc ht).2 _ _ h1
  have hr1 := (hr.place h1).1
  obtain rfl : ty' = ty := hv.isTy
  simp only [evalValue, EM.bind_of_ok h1]
  cases ty' with
  | enum vs dt disc size al =>
    cases h3
    have hd := discriminantOf_of_decode h5
    have hw := hv.wf
    simp only [Ty.checkWf, Res.bind_eq_ok] at hw
    obtain ⟨_, _, _, hdw, _⟩ := hw
    have hdec := decodeDiscriminant_complete (bytes := b) (size := n)
      (I := fun x : Machine (BasicMem Unit Unit) (AllocId × Unit) Unit => ∃ acc, x = s3.withAcc acc)
      (acc := fun x idx size => do
        let ptr ← x.ptrOffsetInbounds p.ptr.thin idx
        memLoad ptr size Align.one .none x) ?_ disc hdw ⟨s3.mem.accesses, rfl⟩ hd
    · obtain ⟨s4, hdec⟩ := hdec
      refine ⟨dt, s4, ?_⟩
      unfold getDiscriminant
      simp only [h2, Bool.not_true, Bool.false_eq_true, ↓reduceIte]
      exact EM.bind_of_ok hdec
    · rintro x i k ⟨acc, rfl⟩ hk
      have ho : (s3.withAcc acc).ptrOffsetInbounds p.ptr.thin i = .ok (p.ptr.thin.shift i) :=
        ptrOffset_at hr1.toBase (VK.thin hv.known) hv.space h4 (by omega)
      have hp := BasicMem.At.part h4 hk
      have hl : memLoad (p.ptr.thin.shift i) k Align.one .none (s3.withAcc acc) =
          .ok ((b.drop i).take k, s3.withAcc (acc ++ [⟨.load, .none, (p.ptr.thin.shift i).addr, k⟩])) :=
        memLoad_eq_ok.2 ⟨_, ConcMem.load_eq_ok.2 ⟨_, BasicMem.load_of_at hp, rfl⟩, rfl⟩
      exact ⟨_, _, by rw [ho, Res.bind_ok]; exact hl, ⟨_, rfl⟩, subslice_eq_ok.2 ⟨by rw [h4.length]; exact hk, rfl⟩⟩
  | _ => simp [checkValue, panic, ub] at h6

/-- C50: in the basic memory model, the discriminant of an enum can be set to a variant whose data can be loaded, and
afterwards the enum can be loaded as this variant with this data. -/
theorem C50_set_discriminant_ok (hT : prog.Tame) (hs : Evaluating prog fn s) {e : PlaceExpr} {ty : Ty}
    (hc : e.checkWf prog fn.locals = .ok ty) (ht : e.Tame prog fn.locals) (hco : ty.Coherent s.valEnv)
    {vs dt disc size al} (hty : ty = .enum vs dt disc size al) {d : Int} {t tg} (hd : Map.get? vs d = some (t, tg)) {p ty'}
    (hp : evalPlace e s = .ok ((p, ty'), s1)) {v} (hv : placeLoad p t s = .ok (v, s2)) :
    ∃ s', evalStatement (.setDiscriminant e d) s = .ok ((), s') ∧ ∃ s3, placeLoad p ty s' = .ok (.variant d v, s3) := by
  obtain ⟨hr, hwf⟩ := hs.ready hT
  have hpo := (Np.place hwf e s ty hr hc ht).2 _ _ hp
  obtain ⟨hr1, hev, _⟩ := hr.place hp
  obtain rfl : ty' = ty := hpo.isTy
  subst hty
  have hw := hpo.wf
  have hg := (good_of_size (n := size) hw rfl).1
  obtain ⟨b, k1, k2, k3, k4⟩ := placeLoad_variant hw hd hv
  have hat : s1.mem.memory.At p.ptr.thin size b := k2.same (same_place hp)
  have henc : ∃ s', setDiscriminant p (.enum vs dt disc size al) d s1 = .ok ((), s') := by
    cases hg with
    | enum hvg hsz htg hdt hdisc =>
      have hk := encodeDiscriminant_complete (size := size) (tg := tg) (s := s1)
        (I := fun x : Machine (BasicMem Unit Unit) (AllocId × Unit) Unit => (∃ b, x.mem.memory.At p.ptr.thin size b) ∧
          ∀ q n, x.mem.memory.checkPtr q n = s1.mem.memory.checkPtr q n)
        (acc := fun x offset bytes => do
          let ptr ← x.ptrOffsetInbounds p.ptr.thin offset
          let (_, s) ← memStore ptr bytes Align.one .none x
          .ok s) ?_ (htg _ (Map.get?_mem hd)) ⟨⟨b, hat⟩, fun _ _ => rfl⟩
      · obtain ⟨s', hk⟩ := hk
        refine ⟨s', ?_⟩
        unfold setDiscriminant
        simp only [k1, Bool.not_true, Bool.false_eq_true, ↓reduceIte, hd]
        rw [hk]
        rfl
      · rintro x i bs ⟨⟨c, hc⟩, hch⟩ hi
        have ho1 : s1.ptrOffsetInbounds p.ptr.thin i = .ok (p.ptr.thin.shift i) :=
          ptrOffset_at hr1.toBase (VK.thin hpo.known) hpo.space hat (by omega)
        have ho : x.ptrOffsetInbounds p.ptr.thin i = .ok (p.ptr.thin.shift i) := by
          rw [← ho1]
          have hdr : ∀ q n, Memory.dereferenceable (F := Unit) x.mem.memory q n = Memory.dereferenceable (F := Unit) s1.mem.memory q n := by
            intro q n
            show (fun _ => ()) <$> x.mem.memory.checkPtr q n = (fun _ => ()) <$> s1.mem.memory.checkPtr q n
            rw [hch]
          simp only [Machine.ptrOffsetInbounds, ConcMem.signedDereferenceable, Memory.signedDereferenceable, hdr]
        have hpart := hc.part hi
        obtain ⟨m2, hm2⟩ := BasicMem.store_of_load (BasicMem.load_of_at hpart) rfl
        have hst : memStore (p.ptr.thin.shift i) bs Align.one .none x =
            .ok ((), { x with mem := ⟨m2, x.mem.accesses ++ [⟨.store, .none, (p.ptr.thin.shift i).addr, bs.length⟩]⟩ }) :=
          memStore_eq_ok.2 ⟨_, ConcMem.store_eq_ok.2 ⟨m2, hm2, rfl⟩, rfl⟩
        obtain ⟨c', _, hc'⟩ := hc.storePart hm2 (k := i) rfl rfl hi
        exact ⟨_, by rw [ho, Res.bind_ok, hst]; rfl, ⟨c', hc'⟩, fun q n => (BasicMem.Fits_store hm2 q n).trans (hch q n)⟩
  obtain ⟨s', henc⟩ := henc
  refine ⟨s', ?_, ?_⟩
  · simp only [evalStatement, EM.bind_of_ok hp]
    exact henc
  · obtain ⟨a1, a2, b', a3, a4⟩ := setDiscriminant_at hw hd hat henc
    obtain ⟨c1, c2⟩ := decode_set_variant hg hco hd hat.length k3 k4 a4
    refine placeLoad_of_at a1 rfl a3 c1 ?_
    rw [a2, hev.env]
    simp only [checkValue]
    rw [checkVariant_eq, hd]
    exact k4

end
end MiniRust

namespace MiniRust.Ex
attribute [local instance] x86_64

/-- An `Option<u32>` with the tag in front. -/
def optVs : List RustVariant := [(0, .tuple [] ⟨8, ⟨2⟩, none⟩ none), (1, .tuple [(4, u32)] ⟨8, ⟨2⟩, none⟩ none)]
/-- Its type. -/
def optTy : Ty := .enum (directVariants 0 ⟨.unsigned, 4⟩ optVs) ⟨.unsigned, 4⟩ (directDiscriminator 0 ⟨.unsigned, 4⟩ optVs) 8 ⟨2⟩

/-- Makes an enum value in memory: first its data, then its tag. -/
def enumProg : Program := mainProg [(1, optTy)] [
  (0, ⟨[.storageLive 1, .assign (.field (.downcast (.local 1) 1) 0) (lit 7), .setDiscriminant (.local 1) 1, .validate (.local 1) false,
        .deinit (.local 1)], .goto 0, .regular⟩)]

theorem enumProg_tame : enumProg.Tame := Program.tameB_eq (by decide +kernel)

theorem optTy_coherent (env : ValEnv (Nat × Unit)) : optTy.Coherent env := by
  intro vs dt disc s a hc
  cases hc with
  | refl =>
    refine C02_direct_enums_coherent env 0 ⟨.unsigned, 4⟩ optVs 8 (by decide) ?_
    intro v hv i _ h2 hu
    simp only [optVs, List.mem_cons, List.not_mem_nil, or_false] at hv
    rcases hv with rfl | rfl
    · cases hu with
      | field hf => cases hf
    · cases hu with
      | field hf hu =>
        simp only [List.mem_cons, List.not_mem_nil, or_false, Prod.mk.injEq] at hf
        obtain ⟨rfl, rfl⟩ := hf
        simp only at h2
        omega
  | variant hv hc =>
    simp only [directVariants, optVs, List.map_cons, List.map_nil, List.mem_cons, List.not_mem_nil, or_false] at hv
    rcases hv with rfl | rfl
    · cases hc with
      | field hf => cases hf
    · cases hc with
      | field hf hc =>
        simp only [List.mem_cons, List.not_mem_nil, or_false] at hf
        subst hf
        cases hc

/-- The hypotheses of the theorems of C50 are met when `enumProg` runs: while its data is there but not its tag, the enum
cannot be loaded, but the discriminant can be set. -/
example : ∃ (s : BMach) (fn : Function), Evaluating enumProg fn s ∧ fn.locals = [(0, unitTy), (1, optTy)] ∧
    (errOf (evalValue (.load (.downcast (.local 1) 1)) s) = none ∧ errOf (evalValue (.load (.local 1)) s) = some .ub ∧
      errOf (evalStatement (.setDiscriminant (.local 1) 1) s) = none) :=
  exists_evaluating (leakRun.take 5 ++ List.replicate 20 (.int 0)) 2 _ _ (by decide +kernel)

/-- Afterwards it can be loaded and validated, its discriminant can be read, and it can be de-initialized. -/
example : ∃ (s : BMach) (fn : Function), Evaluating enumProg fn s ∧ fn.locals = [(0, unitTy), (1, optTy)] ∧
    ((evalValue (.load (.local 1)) s).map (·.1) = .ok (.variant 1 (.tuple [.int 7]), optTy) ∧
      (evalValue (.getDiscriminant (.local 1)) s).map (·.1) = .ok (.int 1, u32) ∧
      errOf (evalStatement (.validate (.local 1) false) s) = none ∧ errOf (evalStatement (.deinit (.local 1)) s) = none) :=
  exists_evaluating (leakRun.take 5 ++ List.replicate 20 (.int 0)) 3 _ _ (by decide +kernel)

/-- After it was de-initialized, the payload cannot be loaded. -/
example : ∃ (s : BMach) (fn : Function), Evaluating enumProg fn s ∧ fn.locals = [(0, unitTy), (1, optTy)] ∧
    errOf (evalValue (.load (.field (.downcast (.local 1) 1) 0)) s) = some .ub :=
  exists_evaluating (leakRun.take 5 ++ List.replicate 20 (.int 0)) 5 _ _ (by decide +kernel)

end MiniRust.Ex
