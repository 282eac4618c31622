import Verif.Lemmas.NoPanicOps
import Verif.Lemmas.ReprLaws3
/-
Evaluation of well-formed tame expressions: it does not panic and gives valid values and well-typed places.
-/
set_option linter.unusedSectionVars false
namespace MiniRust
variable {M PE AE F : Type} [T : Target] [DecidableEq PE] [Memory M (AllocId × PE) F] [LawfulTarget T]
  [SoftMem M (AllocId × PE) F] [RawRetag M (AllocId × PE) F] [B : BasicBacked M PE AE F]
variable {s s' : Machine M (AllocId × PE) F} {prog : Program} {fn : Function}

/-! ### Types -/

theorem indexInt_eq_ok {α : Type} {l : List α} {i : Int} {a : α} :
    indexInt l i = .ok a ↔ 0 ≤ i ∧ l[i.toNat]? = some a := by
  unfold indexInt
  split
  · simp; omega
  · simp only [index_eq_ok]; exact ⟨fun h => ⟨by omega, h⟩, fun h => h.2⟩

theorem ptr_wf {p : PtrType} (h : p.checkWf prog = .ok ()) : (Ty.ptr p).checkWf prog = .ok () := by
  simp only [Ty.checkWf, Res.bind_eq_ok]
  refine ⟨(), h, ?_⟩
  have hd := ptrAlign_dvd (T := T)
  simp only [checkLayout, Res.bind_eq_ok, rassert_eq_ok, beq_iff_eq]
  by_cases hk : p.metaKind = .none
  · refine ⟨.sized T.ptrSize T.ptrAlign, by simp [Ty.layout, hk], (), ?_, (), ?_, rfl⟩
    · exact ensureWf_eq_ok.2 (LawfulTarget.valid_down _ _ (by omega) LawfulTarget.valid_wide)
    · simp only [LayoutStrategy.checkAligned, ensureWf_eq_ok, beq_iff_eq]
      exact Nat.mod_eq_zero_of_dvd hd
  · refine ⟨.sized (2 * T.ptrSize) T.ptrAlign, by simp [Ty.layout, hk], (), ?_, (), ?_, rfl⟩
    · exact ensureWf_eq_ok.2 LawfulTarget.valid_wide
    · simp only [LayoutStrategy.checkAligned, ensureWf_eq_ok, beq_iff_eq]
      exact Nat.mod_eq_zero_of_dvd (Dvd.dvd.mul_left hd 2)

theorem tuple_parts {fs : List (Nat × Ty)} {head u} (h : (Ty.tuple fs head u).checkWf prog = .ok ()) :
    (∀ f ∈ fs, f.2.checkWf prog = .ok () ∧ (∃ n al, f.2.layout = .ok (.sized n al)) ∧ f.1 ≤ head.end) ∧
    ∀ t, u = some t → t.checkWf prog = .ok () ∧ ∃ l, t.layout = .ok l ∧ l.isSized = false := by
  cases u with
  | none =>
    simp only [Ty.checkWf, Res.bind_eq_ok, ensureWf_eq_ok, decide_eq_true_eq] at h
    obtain ⟨b, h1, _, _, _, h2, _⟩ := h
    obtain ⟨k1, k2, _⟩ := tupleFields_ok h1
    refine ⟨fun f hf => ⟨(k1 f hf).1, ?_, ?_⟩, fun t ht => by cases ht⟩
    · obtain ⟨al, hl⟩ := (k1 f hf).2; exact ⟨_, al, hl⟩
    · have := k2 f hf; omega
  | some t =>
    simp only [Ty.checkWf, Res.bind_eq_ok, ensureWf_eq_ok, decide_eq_true_eq] at h
    obtain ⟨b, h1, _, ht, l, hl, _, hs, _, _, _, h2, _⟩ := h
    obtain ⟨k1, k2, _⟩ := tupleFields_ok h1
    refine ⟨fun f hf => ⟨(k1 f hf).1, ?_, ?_⟩, fun t ht' => by cases ht'; exact ⟨ht, l, hl, by simpa using hs⟩⟩
    · obtain ⟨al, hl⟩ := (k1 f hf).2; exact ⟨_, al, hl⟩
    · have := k2 f hf; omega

theorem union_parts {fs chunks size al} (h : (Ty.union fs chunks size al).checkWf prog = .ok ()) :
    ∀ f ∈ fs, f.2.checkWf prog = .ok () ∧ ∃ n al, f.2.layout = .ok (.sized n al) ∧ f.1 + n ≤ size := by
  simp only [Ty.checkWf, Res.bind_eq_ok] at h
  obtain ⟨_, h, _⟩ := h
  exact checkUnionFields_ok h

theorem array_parts {e n} (h : (Ty.array e n).checkWf prog = .ok ()) : 0 ≤ n ∧ e.checkWf prog = .ok () ∧ e.Good := by
  simp only [Ty.checkWf, Res.bind_eq_ok, ensureWf_eq_ok, decide_eq_true_eq] at h
  obtain ⟨_, h1, l, hl, _, hs, _, h2, _⟩ := h
  exact ⟨h1, h2, Ty.good_of_isSized h2 hl hs⟩

theorem slice_parts {e} (h : (Ty.slice e).checkWf prog = .ok ()) : e.checkWf prog = .ok () ∧ e.Good := by
  simp only [Ty.checkWf, Res.bind_eq_ok, ensureWf_eq_ok] at h
  obtain ⟨l, hl, _, hs, _, h2, _⟩ := h
  exact ⟨h2, Ty.good_of_isSized h2 hl hs⟩

theorem enum_parts {vs dt disc size al} (h : (Ty.enum vs dt disc size al).checkWf prog = .ok ()) {d v g}
    (hv : Map.get? vs d = some (v, g)) : v.checkWf prog = .ok () ∧ v.metaKind = .none := by
  simp only [Ty.checkWf, Res.bind_eq_ok] at h
  obtain ⟨_, h, _⟩ := h
  obtain ⟨_, h1, ⟨al', h2, _⟩, _⟩ := checkVariants_ok h _ (Map.get?_mem hv)
  refine ⟨h1, Ty.Good.metaKind h1 (Ty.good_of_isSized h1 h2 rfl)⟩

theorem metaKind_of_sized {ty : Ty} {n al} (hw : ty.checkWf prog = .ok ()) (h : ty.layout = .ok (.sized n al)) :
    ty.metaKind = .none := Ty.Good.metaKind hw (Ty.good_of_isSized hw h rfl)

theorem checkVariant_iff_get {P : Type} {env : ValEnv P} {vs : Variants} {d ty g v} (h : Map.get? vs d = some (ty, g)) :
    checkVariant env vs d v = checkValue env ty v := by
  induction vs with
  | nil => cases h
  | cons x vs ih =>
    obtain ⟨d', ty', g'⟩ := x
    simp only [Map.get?] at h
    simp only [checkVariant]
    by_cases hd : d' = d
    · simp only [hd, if_true] at h ⊢
      cases h; rfl
    · simp only [hd, if_false] at h ⊢
      exact ih h

/-! ### Union values -/

theorem NpR.unionValue {P : Type} [DecidableEq P] {env : ValEnv P} {fs chunks size al} {field : Int} {off ty} {v : Value P} (pl : Prop)
    (hw : (Ty.union fs chunks size al).checkWf prog = .ok ()) (hf : indexInt fs field = .ok (off, ty))
    (hv : checkValue env ty v = .ok ()) :
    NpR pl (unionValue (.union fs chunks size al) size off ty v)
      (fun u => checkValue env (.union fs chunks size al) u = .ok ()) := by
  obtain ⟨_, hi⟩ := indexInt_eq_ok.1 hf
  obtain ⟨h1, n, al', h2, h3⟩ := union_parts hw _ (List.mem_of_getElem? hi)
  have hg := Ty.good_of_isSized h1 h2 rfl
  have hgu : (Ty.union fs chunks size al).Good := Ty.good_of_checkWf prog _ hw ⟨_, _, rfl⟩
  obtain ⟨bs, hb⟩ := encode_total_good env hg hv
  have hlen : bs.length = ty.sz := encode_length_good hg hb
  have hsz : ty.sz = n := by
    obtain ⟨a, h⟩ := hg.layout
    simp only at h2
    rw [h2] at h; cases h; rfl
  have hlen' : off + bs.length ≤ (List.replicate size (AByte.uninit : AByte P)).length := by
    have h3 : off + n ≤ size := h3
    simp only [List.length_replicate]; omega
  have hws := writeSubslice_isOk hlen'
  have hd := decode_total_good (P := P) hgu
    (bs := (List.replicate size AByte.uninit).take off ++ bs ++ (List.replicate size AByte.uninit).drop (off + bs.length))
    (by rw [writeSubslice_length hws]; simp [Ty.sz])
  have hl2 := writeSubslice_length hws
  simp only [MiniRust.unionValue, hb, Res.bind_ok, hws]
  generalize (List.replicate size AByte.uninit).take off ++ bs ++ (List.replicate size AByte.uninit).drop (off + bs.length) = d at *
  rcases hd with ⟨u, hu⟩ | hu
  · simp only [hu, unwrapDecode]
    refine .ok ?_
    simp only [decode, Res.bind_eq_ok, Except.ok.injEq] at hu
    obtain ⟨_, _, ds, hds, rfl⟩ := hu
    obtain ⟨k1, k2⟩ := decodeChunks_spec hds
    simp [checkValue, k1, k2]
  · exfalso
    cases hgu with
    | union _ _ hpw hc =>
      clear hpw
      simp only [List.length_replicate] at hl2
      simp only [decode, hl2, beq_self_eq_true, rassert_true, Res.bind_ok] at hu
      replace hu := Res.bind_eq_error.1 hu
      rcases hu with hu | ⟨_, _, hu⟩
      · clear hws hlen' hw
        induction chunks with
        | nil => cases hu
        | cons c cs ih =>
          obtain ⟨o, m⟩ := c
          have hs := subslice_isOk (l := d) (off := o) (len := m) (by have := hc (o, m) List.mem_cons_self; simp only at this; omega)
          simp only [decodeChunks, hs, Res.bind_ok] at hu
          rcases Res.bind_eq_error.1 hu with hu | ⟨_, _, hu⟩
          · exact ih (fun c hcm => hc c (List.mem_cons_of_mem _ hcm)) hu
          · cases hu
      · cases hu

include B

/-! ### Places -/

/-- The type of the place, where it is, and its metadata. -/
def TypedPlace (prog : Program) (s : Machine M (AllocId × PE) F) (ty : Ty) (r : Place (AllocId × PE) × Ty) : Prop :=
  r.2 = ty ∧ ty.checkWf prog = .ok () ∧ InSpace r.1.ptr.thin ∧ s.MetaOk ty.metaKind r.1.ptr.metadata

theorem NpR.localPlace (hr : Ready prog fn s) {x : LocalName} {ty} (hx : fn.locals.get? x = some ty)
    (hw : ty.checkWf prog = .ok ()) (hk : ty.metaKind = .none) (pl : Prop) :
    NpR pl (s.localPlace x) (TypedPlace prog s ty) := by
  obtain ⟨fr, h1, rfl, h3⟩ := hr.frame
  simp only [Machine.localPlace, h1, Res.bind_ok]
  refine .bind (.mapGet (Q := fun t => t = ty) hx rfl) fun t _ e => ?_
  subst e
  cases hl : fr.locals.get? x with
  | none => exact .ub
  | some p => exact .ok ⟨rfl, hw, h3 _ (Map.get?_mem hl), by rw [hk]; rfl⟩

omit B in
/-- A valid pointer passes the check at dereferences. -/
theorem checkSafeDeref_ok {p : PtrType} {q} (h1 : checkValue s.valEnv (.ptr p) (.ptr q) = .ok ()) : s.checkSafeDeref q p = .ok () := by
  unfold Machine.checkSafeDeref
  simp only [checkValue, checkPtr, Res.bind_eq_ok] at h1
  obtain ⟨_, _, _, _, h1⟩ := h1
  cases hp : p.safePointee with
  | none => rfl
  | some pt =>
    simp only [hp, Res.bind_eq_ok, ensureUb_eq_ok] at h1
    obtain ⟨n, k1, a, k2, _, _, _, _, _, k3, _, _, b, k4, k5⟩ := h1
    subst k5
    simp only [k1, k2, Res.bind_ok, k3, rassert_true]
    have k4 : isOk (s.mem.dereferenceable q.thin n) = .ok true := k4
    unfold isOk at k4
    split at k4 <;> first | assumption | cases k4

theorem NpR.derefPlace (hr : Ready prog fn s) {p : PtrType} {ty : Ty} {r} (hv : ValueOk prog s (.ptr p) r)
    (hw : ty.checkWf prog = .ok ()) (hk : p.metaKind = ty.metaKind) (pl : Prop) :
    NpR pl (s.derefPlace ty r) (TypedPlace prog s ty) := by
  obtain ⟨q, rfl, h1, h2, h3, _⟩ := hv.ptr hr
  rw [hk] at h3
  have hsd := checkSafeDeref_ok h1
  obtain ⟨l, n, a, l1, _, _, _, l2, _⟩ := computedTy hr.toBase hw h3
  simp only [Machine.derefPlace, hsd, l1, l2, Res.bind_ok]
  exact .ok ⟨rfl, hw, h2, h3⟩

theorem fieldOffset_ok (hr : Ready prog fn s) {rty ty : Ty} {field : Int} {r} (hp : PlaceOk prog s rty r)
    (hf : fieldTy rty field = .ok ty) : ∃ l size off lay, rty.layout = .ok l ∧ s.valEnv.computeSize l r.1.ptr.metadata = .ok size ∧
      s.fieldOffset r.1 r.2 field = .ok (off, ty) ∧ off ≤ size ∧ ty.checkWf prog = .ok () ∧ ty.layout = .ok lay ∧
      s.MetaOk ty.metaKind (if !lay.isSized then r.1.ptr.metadata else none) := by
  obtain ⟨pl', t⟩ := r
  obtain ⟨rfl, hw, h1, h2, h3⟩ := hp
  simp only at hw h1 h2 h3 hf
  obtain ⟨l, size, align, l1, _, _, l2, l3, l4⟩ := computedTy hr.toBase hw h2
  refine ⟨l, size, ?_⟩
  simp only [l1, l2, true_and]
  cases t with
  | tuple fs head u =>
    obtain ⟨p1, p2⟩ := tuple_parts hw
    simp only [fieldTy] at hf
    simp only [Machine.fieldOffset]
    split at hf
    · rename_i hc
      rw [if_pos hc]
      simp only [Res.bind_eq_ok, Except.ok.injEq] at hf
      obtain ⟨⟨off, t⟩, hf, rfl⟩ := hf
      obtain ⟨_, hi⟩ := indexInt_eq_ok.1 hf
      obtain ⟨k1, ⟨n, al, k2⟩, k3⟩ := p1 _ (List.mem_of_getElem? hi)
      refine ⟨off, _, hf, ?_, k1, k2, ?_⟩
      · simp only at k3
        refine k3.trans ?_
        cases u with
        | none =>
          simp only [Ty.layout, Except.ok.injEq] at l1
          subst l1
          simp only [Ty.metaKind] at h2
          rw [show pl'.ptr.metadata = none from h2] at l4
          simp only [LayoutStrategy.computeSizeAndAlign, Except.ok.injEq, Prod.mk.injEq] at l4
          rw [← l4.1]
          exact le_alignTo _ _
        | some t' =>
          simp only [Ty.layout, Res.bind_eq_ok, Except.ok.injEq] at l1
          obtain ⟨lt, _, rfl⟩ := l1
          cases hm : pl'.ptr.metadata with
          | none => rw [hm] at l4; cases l4
          | some m =>
            rw [hm] at l4
            simp only [LayoutStrategy.computeSizeAndAlign, Res.bind_eq_ok, Prod.exists, Except.ok.injEq,
              TupleHeadLayout.fullSizeAndAlign, Prod.mk.injEq] at l4
            obtain ⟨ts, ta, _, rfl, _⟩ := l4
            have h4 := le_alignTo (head.tailOffset ta + ts) ((head.cappedTailAlign ta).max head.align)
            have h5 : head.end ≤ head.tailOffset ta := le_alignTo _ _
            omega
      · simp only at k1 k2
        rw [metaKind_of_sized k1 k2]; rfl
    · rename_i hc
      rw [if_neg hc]
      split at hf
      · rename_i hc'
        rw [if_pos hc']
        cases u with
        | none => cases hf
        | some t' =>
          simp only [Except.ok.injEq] at hf
          subst hf
          obtain ⟨k1, lt, k2, k3⟩ := p2 _ rfl
          simp only [Ty.metaKind] at h2
          obtain ⟨lt', ts, ta, m1, _, _, _, m2, m3⟩ := computedTy hr.toBase k1 h2
          rw [k2] at m1; cases m1
          simp only [unwrap_some, Res.bind_ok, k2, m2]
          refine ⟨_, lt, rfl, ?_, k1, rfl, by rw [k3]; exact h2⟩
          simp only [Ty.layout, k2, Res.bind_ok, Except.ok.injEq] at l1
          subst l1
          cases hm : pl'.ptr.metadata with
          | none => rw [hm] at l4; cases l4
          | some m =>
            rw [hm] at l4 m3
            simp only [LayoutStrategy.computeSizeAndAlign, m3, Res.bind_ok, Except.ok.injEq,
              TupleHeadLayout.fullSizeAndAlign, Prod.mk.injEq] at l4
            obtain ⟨rfl, _⟩ := l4
            have h4 := le_alignTo (head.tailOffset ta + ts) ((head.cappedTailAlign ta).max head.align)
            omega
      · cases hf
  | union fs chunks usize ual =>
    simp only [fieldTy] at hf
    simp only [Machine.fieldOffset]
    cases hi : getInt? fs field with
    | none => rw [hi] at hf; cases hf
    | some f =>
      rw [hi] at hf
      simp only [Except.ok.injEq] at hf
      subst hf
      obtain ⟨h0, hi⟩ := getInt?_eq_some.1 hi
      obtain ⟨k1, n, al, k2, k3⟩ := union_parts hw _ (List.mem_of_getElem? hi)
      refine ⟨f.1, _, indexInt_eq_ok.2 ⟨h0, hi⟩, ?_, k1, k2, ?_⟩
      · simp only [Ty.layout, Except.ok.injEq] at l1
        subst l1
        rw [show pl'.ptr.metadata = none from h2] at l4
        simp only [LayoutStrategy.computeSizeAndAlign, Except.ok.injEq, Prod.mk.injEq] at l4
        omega
      · rw [metaKind_of_sized k1 k2]; rfl
  | _ => cases hf

theorem NpR.fieldPlace (hr : Ready prog fn s) {rty ty : Ty} {field : Int} {r} (hp : PlaceOk prog s rty r)
    (hf : fieldTy rty field = .ok ty) (pl : Prop) : NpR pl (s.fieldPlace field r) (TypedPlace prog s ty) := by
  obtain ⟨l, size, off, lay, l1, l2, k1, k2, k3, k4, k5⟩ := fieldOffset_ok hr hp hf
  obtain ⟨pl', t⟩ := r
  obtain ⟨rfl, hw, h1, h2, h3⟩ := hp
  simp only at h1 h2 h3 l1 l2 k1 k5
  simp only [Machine.fieldPlace, k1, Res.bind_ok, l1, l2, k2, decide_true, rassert_true, k4]
  exact .bind (NpR.ptrOffset hr.toBase (VK.thin h3) h1 _ _) fun q _ hq => .ok ⟨rfl, k3, hq.1, k5⟩

theorem indexInfo_ok (hr : Ready prog fn s) {rty ty : Ty} {r} (hp : PlaceOk prog s rty r)
    (ht : (∃ n, rty = .array ty n) ∨ rty = .slice ty) : ∃ l size count, rty.layout = .ok l ∧
      s.valEnv.computeSize l r.1.ptr.metadata = .ok size ∧ indexInfo r.1 r.2 = .ok (ty, count) ∧ ty.checkWf prog = .ok () ∧
      ty.Good ∧ size = ty.sz * count.toNat := by
  obtain ⟨pl', t⟩ := r
  obtain ⟨rfl, hw, h1, h2, h3⟩ := hp
  simp only at hw h1 h2 h3 ht
  obtain ⟨l, size, align, l1, _, _, l2, l3, l4⟩ := computedTy hr.toBase hw h2
  refine ⟨l, size, ?_⟩
  simp only [l1, l2, true_and]
  rcases ht with ⟨n, rfl⟩ | rfl
  · obtain ⟨k1, k2, k3⟩ := array_parts hw
    refine ⟨n, rfl, k2, k3, ?_⟩
    obtain ⟨a, ha⟩ := k3.layout
    simp only [Ty.layout, ha, Res.bind_ok, LayoutStrategy.expectSize, LayoutStrategy.expectAlign, sizeMul_ok k1, Except.ok.injEq] at l1
    subst l1
    rw [show pl'.ptr.metadata = none from h2] at l4
    simp only [LayoutStrategy.computeSizeAndAlign, Except.ok.injEq, Prod.mk.injEq] at l4
    exact l4.1.symm
  · obtain ⟨k2, k3⟩ := slice_parts hw
    obtain ⟨c, hc, _⟩ := h2
    refine ⟨c, by simp only [indexInfo, hc], k2, k3, ?_⟩
    obtain ⟨a, ha⟩ := k3.layout
    simp only [Ty.layout, ha, Res.bind_ok, LayoutStrategy.expectSize, LayoutStrategy.expectAlign, Except.ok.injEq] at l1
    subst l1
    rw [hc] at l4
    simp only [LayoutStrategy.computeSizeAndAlign, Res.bind_eq_ok, Except.ok.injEq, Prod.mk.injEq] at l4
    obtain ⟨n, hn, rfl, _⟩ := l4
    rw [sizeMul_ok (by omega)] at hn
    exact (Except.ok.inj hn).symm

theorem NpR.indexPlace (hr : Ready prog fn s) {rty ty : Ty} {it : IntType} {r i} (hp : PlaceOk prog s rty r)
    (hi : ValueOk prog s (.int it) i) (ht : (∃ n, rty = .array ty n) ∨ rty = .slice ty) (pl : Prop) :
    NpR pl (s.indexPlace r i.1) (TypedPlace prog s ty) := by
  obtain ⟨j, rfl, hj⟩ := hi.int
  obtain ⟨l, size, count, l1, l2, k1, k2, k3, k4⟩ := indexInfo_ok hr hp ht
  obtain ⟨pl', t⟩ := r
  obtain ⟨rfl, hw, h1, h2, h3⟩ := hp
  simp only at h1 h2 h3 l1 l2 k1
  simp only [Machine.indexPlace, k1, Res.bind_ok]
  refine .ite (fun _ => .ub) fun hc => ?_
  have hle : ty.sz * j.toNat ≤ size := by
    rw [k4]; exact Nat.mul_le_mul_left _ (by omega)
  simp only [k3.size, Res.bind_ok, sizeMul_ok (show 0 ≤ j by omega), l1, l2, hle, decide_true, rassert_true]
  exact .bind (NpR.ptrOffset hr.toBase (VK.thin h3) h1 _ _) fun q _ hq => .ok
    ⟨rfl, k2, hq.1, by rw [Ty.Good.metaKind k2 k3]; rfl⟩

theorem NpR.downcastPlace {vs dt disc size al} {d : Int} {r ty g} (hp : PlaceOk prog s (.enum vs dt disc size al) r)
    (hd : Map.get? vs d = some (ty, g)) (pl : Prop) : NpR pl (downcastPlace r d) (TypedPlace prog s ty) := by
  obtain ⟨pl', t⟩ := r
  obtain ⟨rfl, hw, h1, h2, h3⟩ := hp
  simp only [MiniRust.downcastPlace, Map.get, hd, unwrap_some, Res.bind_ok]
  obtain ⟨k1, k2⟩ := enum_parts hw hd
  exact .ok ⟨rfl, k1, h1, by rw [k2]; exact h2⟩

/-! ### Expressions -/

theorem Ready.value (hr : Ready prog fn s) {e r} (h : evalValue e s = .ok (r, s')) :
    Ready prog fn s' ∧ Ev s s' ∧ VK made (cnt s') r.1 :=
  Ready.ofExpr (tri_evalValue e) (tri_evalValue e) (Kt.evalValue made_caps e s) hr h
theorem Ready.values (hr : Ready prog fn s) {e r} (h : evalValues e s = .ok (r, s')) :
    Ready prog fn s' ∧ Ev s s' ∧ ∀ v ∈ r, VK made (cnt s') v.1 :=
  Ready.ofExpr (tri_evalValues e) (tri_evalValues e) (Kt.evalValues made_caps e s) hr h
theorem Ready.place (hr : Ready prog fn s) {e r} (h : evalPlace e s = .ok (r, s')) :
    Ready prog fn s' ∧ Ev s s' ∧ PlK made (cnt s') r.1 :=
  Ready.ofExpr (tri_evalPlace e) (tri_evalPlace e) (Kt.evalPlace made_caps e s) hr h

theorem Np.fullV (hr : Ready prog fn s) {pl : Prop} {e ty} (h : Np pl s (evalValue e) (fun r s' => Typed prog s' ty r)) :
    Np pl s (evalValue e) (fun r s' => ValueOk prog s' ty r) :=
  h.mono fun _ _ h1 ⟨k1, k2, k3⟩ => ⟨k1, k2, k3, (hr.value h1).2.2⟩
theorem Np.fullP (hr : Ready prog fn s) {pl : Prop} {e ty} (h : Np pl s (evalPlace e) (fun r s' => TypedPlace prog s' ty r)) :
    Np pl s (evalPlace e) (fun r s' => PlaceOk prog s' ty r) :=
  h.mono fun _ _ h1 ⟨k1, k2, k3, k4⟩ => ⟨k1, k2, k3, k4, (hr.place h1).2.2⟩

omit B in
theorem checkFields_forall {env : ValEnv (AllocId × PE)} {fs : List (Nat × Ty)} {vs : List (Value (AllocId × PE) × Ty)}
    (h : List.Forall₂ (fun ty v => checkValue env ty v.1 = .ok ()) (fs.map (·.2)) vs) :
    checkFields env fs (vs.map (·.1)) = .ok () := by
  induction fs generalizing vs with
  | nil => cases h; rfl
  | cons f fs ih =>
    obtain ⟨o, t⟩ := f
    cases h with
    | cons h1 h2 =>
      simp only [List.map_cons, checkFields]
      simp only at h1
      rw [h1, Res.bind_ok]
      exact ih h2

omit B in
theorem checkElems_forall {env : ValEnv (AllocId × PE)} {ty : Ty} {n : Nat} {vs : List (Value (AllocId × PE) × Ty)}
    (h : List.Forall₂ (fun ty v => checkValue env ty v.1 = .ok ()) (List.replicate n ty) vs) :
    checkElems (fun v => checkValue env ty v) (vs.map (·.1)) = .ok () := by
  induction n generalizing vs with
  | zero => cases h; rfl
  | succ n ih =>
    cases h with
    | cons h1 h2 =>
      simp only [List.map_cons, checkElems]
      rw [h1, Res.bind_ok]
      exact ih h2

/-- What the program and function satisfy. -/
structure WfTame (prog : Program) (fn : Function) : Prop where
  isWf : prog.checkWf = .ok ()
  methods : ∀ x v m f, prog.vtables.get? x = some v → v.methods.get? m = some f → prog.functions.contains f = true
  locals : ∀ l ty, fn.locals.get? l = some ty → ty.checkWf prog = .ok () ∧ ∃ n a, ty.layout = .ok (.sized n a)

mutual
theorem Np.value (hf : WfTame prog fn) : ∀ (e : ValueExpr) (s : Machine M (AllocId × PE) F) (ty : Ty), Ready prog fn s →
    e.checkWf prog fn.locals = .ok ty → e.Tame prog fn.locals →
    Np (PlainMem M) s (evalValue e) (fun r s' => ValueOk prog s' ty r)
  | .constant c ty', s, ty, hr, hc, ht => by
    refine .fullV hr ?_
    simp only [ValueExpr.checkWf, Res.bind_eq_ok, Except.ok.injEq] at hc
    obtain ⟨_, hw, _, hc, rfl⟩ := hc
    unfold evalValue
    exact .bind (.read (NpR.constant hr hw hc ht _)) fun v s1 h1 hv => .pure ⟨rfl, hw, hv⟩
  | .tuple es ty', s, ty, hr, hc, ht => by
    refine .fullV hr ?_
    simp only [ValueExpr.checkWf, Res.bind_eq_ok] at hc
    obtain ⟨_, hw, hc⟩ := hc
    unfold evalValue
    cases ty' with
    | tuple fs head u =>
      simp only [Res.bind_eq_ok, ensureWf_eq_ok, Except.ok.injEq, beq_iff_eq] at hc
      obtain ⟨_, hu, _, hlen, _, hc, rfl⟩ := hc
      refine .bind (Np.values hf es s _ hr hc (by simpa using hlen) ht) fun vs s1 h1 hvs => .pure ⟨rfl, hw, ?_⟩
      obtain rfl : u = none := by cases u <;> simp at hu ⊢
      have hl := hvs.length_eq
      simp only [List.length_map] at hl
      simp only [checkValue, Option.isNone_none, rassert_true, Res.bind_ok, List.length_map, ← hl, beq_self_eq_true, ensureUb_true]
      exact checkFields_forall (hvs.imp fun _ _ h => h.valid)
    | array e n =>
      simp only [Res.bind_eq_ok, ensureWf_eq_ok, Except.ok.injEq, decide_eq_true_eq] at hc
      obtain ⟨_, hlen, _, hc, rfl⟩ := hc
      refine .bind (Np.values hf es s _ hr hc (by simp) ht) fun vs s1 h1 hvs => .pure ⟨rfl, hw, ?_⟩
      have hl := hvs.length_eq
      simp only [List.length_replicate] at hl
      simp only [checkValue, List.length_map, ← hl, hlen, beq_self_eq_true, ensureUb_true, Res.bind_ok]
      exact checkElems_forall (hvs.imp fun _ _ h => h.valid)
    | _ => cases hc
  | .union field e uty, s, ty, hr, hc, ht => by
    refine .fullV hr ?_
    simp only [ValueExpr.checkWf, Res.bind_eq_ok] at hc
    obtain ⟨_, hw, hc⟩ := hc
    cases uty with
    | union fs chunks size al =>
      simp only [Res.bind_eq_ok, ensureWf_eq_ok, Except.ok.injEq, decide_eq_true_eq, Prod.exists] at hc
      obtain ⟨_, _, off, fty, hi, ety, he, _, rfl, rfl⟩ := hc
      unfold evalValue
      refine .bindLift (fun _ h => by rw [hi] at h; cases h) fun x hx => ?_
      rw [hi] at hx; cases hx
      refine .bind (Np.value hf e s _ hr he ht) fun v s1 h1 hv => ?_
      have hn := NpR.unionValue (PlainMem M) hw hi hv.valid
      exact .bindLift hn.1 fun u hu => .pure ⟨rfl, hw, hn.2 u hu⟩
    | _ => cases hc
  | .variant d e ety, s, ty, hr, hc, ht => by
    refine .fullV hr ?_
    unfold evalValue
    cases ety with
    | enum vs dt disc size al =>
      simp only [ValueExpr.checkWf, Res.bind_eq_ok] at hc
      obtain ⟨_, hw, hc⟩ := hc
      cases hg : Map.get? vs d with
      | none => rw [hg] at hc; cases hc
      | some x =>
        obtain ⟨vty, g⟩ := x
        rw [hg] at hc
        simp only [Res.bind_eq_ok, ensureWf_eq_ok, Except.ok.injEq, decide_eq_true_eq] at hc
        obtain ⟨ety, he, _, rfl, rfl⟩ := hc
        refine .bind (Np.value hf e s _ hr he ht) fun v s1 h1 hv => .pure ⟨rfl, hw, ?_⟩
        simp only [checkValue]
        rw [checkVariant_iff_get hg]
        exact hv.valid
    | _ => cases hc
  | .getDiscriminant p, s, ty, hr, hc, ht => by
    have hw := ht.2 ty hc
    simp only [ValueExpr.checkWf, Res.bind_eq_ok] at hc
    obtain ⟨pty, hp, hc⟩ := hc
    unfold evalValue
    cases pty with
    | enum vs dt disc size al =>
      simp only [Except.ok.injEq] at hc
      subst hc
      exact .bind (Np.place hf p s _ hr hp ht.1) fun r s1 h1 hr1 => Np.getDiscriminant (hr.place h1).1 hr1 hw
    | _ => cases hc
  | .load p, s, ty, hr, hc, ht => by
    refine .fullV hr ?_
    simp only [ValueExpr.checkWf, Res.bind_eq_ok, ensureWf_eq_ok, Except.ok.injEq] at hc
    obtain ⟨pty, hp, l, hl, _, hs, rfl⟩ := hc
    unfold evalValue
    refine .bind (Np.place hf p s _ hr hp ht) fun r s1 h1 hr1 => ?_
    refine .bind (Np.placeLoad (hr.place h1).1 hr1 (Ty.good_of_isSized hr1.wf hl hs)) fun v s2 h2 hv => ?_
    exact .pure ⟨hr1.isTy, hr1.wf, hv⟩
  | .addrOf p pty, s, ty, hr, hc, ht => by
    simp only [ValueExpr.checkWf, Res.bind_eq_ok, ensureWf_eq_ok, Except.ok.injEq] at hc
    obtain ⟨_, hw, tty, hp, _, hk, rfl⟩ := hc
    unfold evalValue
    exact .bind (Np.place hf p s _ hr hp ht) fun r s1 h1 hr1 => Np.addrOf (hr.place h1).1 hf.isWf hr1 hw (ptr_wf hw)
  | .unOp op e, s, ty, hr, hc, ht => by
    refine .fullV hr ?_
    have hw := ht.2.2 ty hc
    simp only [ValueExpr.checkWf, Res.bind_eq_ok] at hc
    obtain ⟨ety, he, hc⟩ := hc
    unfold evalValue
    exact .bind (Np.value hf e s _ hr he ht.1) fun v s1 h1 hv =>
      .read (NpR.unOp (hr.value h1).1 hf.isWf hf.methods hv hc (ht.2.1 _ he) hw _)
  | .binOp op l r, s, ty, hr, hc, ht => by
    refine .fullV hr ?_
    have hw := ht.2.2.2 ty hc
    simp only [ValueExpr.checkWf, Res.bind_eq_ok] at hc
    obtain ⟨lty, hl, rty, hrt, hc⟩ := hc
    unfold evalValue
    refine .bind (Np.value hf l s _ hr hl ht.1) fun v s1 h1 hv => ?_
    refine .bind (Np.value hf r s1 _ (hr.value h1).1 hrt ht.2.1) fun w s2 h2 hw' => ?_
    obtain ⟨hr2, he, _⟩ := (hr.value h1).1.value h2
    exact .read (NpR.binOp hr2 (hv.ev he) hw' hc (ht.2.2.1 _ hl) hw _)
theorem Np.values (hf : WfTame prog fn) : ∀ (es : List ValueExpr) (s : Machine M (AllocId × PE) F) (tys : List Ty), Ready prog fn s →
    ValueExpr.checkFields prog fn.locals es tys = .ok () → es.length = tys.length → ValueExpr.AllTame prog fn.locals es →
    Np (PlainMem M) s (evalValues es) (fun rs s' => List.Forall₂ (fun ty r => ValueOk prog s' ty r) tys rs)
  | [], s, tys, hr, hc, hl, ht => by
    unfold evalValues
    cases tys with
    | nil => exact .pure .nil
    | cons => cases hl
  | e :: es, s, [], hr, hc, hl, ht => by cases hl
  | e :: es, s, ty :: tys, hr, hc, hl, ht => by
    simp only [ValueExpr.checkFields, Res.bind_eq_ok, ensureWf_eq_ok, decide_eq_true_eq] at hc
    obtain ⟨ty', he, _, rfl, hc⟩ := hc
    unfold evalValues
    refine .bind (Np.value hf e s _ hr he ht.1) fun v s1 h1 hv => ?_
    refine .bind (Np.values hf es s1 _ (hr.value h1).1 hc (by simpa using hl) ht.2) fun vs s2 h2 hvs => ?_
    obtain ⟨_, hev, _⟩ := (hr.value h1).1.values h2
    exact .pure (.cons (hv.ev hev) hvs)
theorem Np.place (hf : WfTame prog fn) : ∀ (e : PlaceExpr) (s : Machine M (AllocId × PE) F) (ty : Ty), Ready prog fn s →
    e.checkWf prog fn.locals = .ok ty → e.Tame prog fn.locals →
    Np (PlainMem M) s (evalPlace e) (fun r s' => PlaceOk prog s' ty r)
  | .local x, s, ty, hr, hc, ht => by
    refine .fullP hr ?_
    unfold evalPlace
    simp only [PlaceExpr.checkWf] at hc
    cases hx : fn.locals.get? x with
    | none => rw [hx] at hc; cases hc
    | some t =>
      rw [hx] at hc
      cases hc
      obtain ⟨hw, n, a, hl⟩ := hf.locals _ _ hx
      exact .read (NpR.localPlace hr hx hw (metaKind_of_sized hw hl) _)
  | .deref e ty', s, ty, hr, hc, ht => by
    refine .fullP hr ?_
    unfold evalPlace
    simp only [PlaceExpr.checkWf, Res.bind_eq_ok] at hc
    obtain ⟨_, hw, ety, he, hc⟩ := hc
    cases ety with
    | ptr p =>
      simp only [Res.bind_eq_ok, ensureWf_eq_ok, Except.ok.injEq, decide_eq_true_eq] at hc
      obtain ⟨_, hk, rfl⟩ := hc
      exact .bind (Np.value hf e s _ hr he ht) fun v s1 h1 hv => .read (NpR.derefPlace (hr.value h1).1 hv hw hk _)
    | _ => cases hc
  | .field p i, s, ty, hr, hc, ht => by
    refine .fullP hr ?_
    unfold evalPlace
    simp only [PlaceExpr.checkWf, Res.bind_eq_ok] at hc
    obtain ⟨pty, hp, hc⟩ := hc
    exact .bind (Np.place hf p s _ hr hp ht) fun r s1 h1 hr1 => .read (NpR.fieldPlace (hr.place h1).1 hr1 hc _)
  | .index p e, s, ty, hr, hc, ht => by
    refine .fullP hr ?_
    unfold evalPlace
    simp only [PlaceExpr.checkWf, Res.bind_eq_ok, ensureWf_eq_ok] at hc
    obtain ⟨pty, hp, ety, he, _, hi, hc⟩ := hc
    cases ety <;> simp only [reduceCtorEq] at hi
    refine .bind (Np.place hf p s _ hr hp ht.1) fun r s1 h1 hr1 => ?_
    refine .bind (Np.value hf e s1 _ (hr.place h1).1 he ht.2) fun v s2 h2 hv => ?_
    obtain ⟨hr2, hev, _⟩ := (hr.place h1).1.value h2
    refine .read (NpR.indexPlace hr2 (hr1.ev hev) hv ?_ _)
    cases pty <;> simp only [reduceCtorEq, Except.ok.injEq] at hc
    · subst hc; exact .inl ⟨_, rfl⟩
    · subst hc; exact .inr rfl
  | .downcast p d, s, ty, hr, hc, ht => by
    refine .fullP hr ?_
    unfold evalPlace
    simp only [PlaceExpr.checkWf, Res.bind_eq_ok] at hc
    obtain ⟨pty, hp, hc⟩ := hc
    cases pty with
    | enum vs dt disc size al =>
      cases hg : Map.get? vs d with
      | none => simp only [hg] at hc; cases hc
      | some x =>
        obtain ⟨t, g⟩ := x
        simp only [hg, Except.ok.injEq] at hc
        subst hc
        exact .bind (Np.place hf p s _ hr hp ht) fun r s1 h1 hr1 => .lift (NpR.downcastPlace hr1 hg _)
    | _ => cases hc
end

end MiniRust
