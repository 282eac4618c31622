import Verif.Lemmas.Enums
import Verif.Lemmas.LeSpec
/-
More representation lemmas: lengths accepted by `decode`, validity of decoded values, reordering of
discriminators, and the fidelity lemmas for the unfolded recursive calls at wide pointers.
-/
set_option linter.unusedSectionVars false
namespace MiniRust
variable {P : Type} [DecidableEq P]

/-! ### Reordering discriminators -/

/-- All branches have disjoint ranges. -/
inductive Discriminator.DisjAll : Discriminator → Prop
  | known (d) : DisjAll (.known d)
  | invalid : DisjAll .invalid
  | branch {o vt f cs} : DisjAll f → (∀ c ∈ cs, DisjAll c.2) →
      cs.Pairwise (fun c c' => RangeDisj c.1 c'.1) → DisjAll (.branch o vt f cs)

theorem Discriminator.disjAll_of_checkWf {size : Nat} {has : Int → Bool} (d : Discriminator)
    (h : d.checkWf size has = .ok ()) : d.DisjAll := by
  induction d using Discriminator.induct with
  | known d => exact .known d
  | invalid => exact .invalid
  | branch o vt f cs ihf ihc =>
    have hd := checkWf_branch_disj h
    simp only [Discriminator.checkWf, Res.bind_eq_ok] at h
    obtain ⟨_, -, _, -, _, hf, h⟩ := h
    exact .branch (ihf hf) (fun c hc => ihc c hc (checkChildren_ok h c hc)) hd

theorem RangeDisj.symm {a b : Int × Int} (h : RangeDisj a b) : RangeDisj b a := Or.symm h

theorem pickChild_congr {cs cs' : List ((Int × Int) × Discriminator)} {v : Int}
    (hd : cs.Pairwise fun c c' => RangeDisj c.1 c'.1) (hd' : cs'.Pairwise fun c c' => RangeDisj c.1 c'.1)
    (h : ∀ c, c ∈ cs ↔ c ∈ cs') : pickChild cs v = pickChild cs' v := by
  cases hp : pickChild cs v with
  | none =>
    rw [pickChild_eq_none] at hp
    symm; rw [pickChild_eq_none]
    exact fun c hc => hp c ((h c).2 hc)
  | some d =>
    rw [pickChild_eq_some hd] at hp
    symm; rw [pickChild_eq_some hd']
    obtain ⟨c, hc, h1⟩ := hp
    exact ⟨c, (h c).1 hc, h1⟩

theorem pickChild_append {cs cs' : List ((Int × Int) × Discriminator)} {v : Int} :
    pickChild (cs ++ cs') v = (pickChild cs v).or (pickChild cs' v) := by
  induction cs with
  | nil => simp [pickChild]
  | cons c cs ih =>
    obtain ⟨⟨a, b⟩, d⟩ := c
    simp only [List.cons_append, pickChild]
    split
    · rfl
    · exact ih

theorem DiscReorder.sound [Target] {a b : Discriminator} (h : DiscReorder a b) (ha : a.DisjAll) :
    b.DisjAll ∧ ∀ bytes : List (AByte P), discriminantOf a bytes = discriminantOf b bytes := by
  induction h with
  | refl d => exact ⟨ha, fun _ => rfl⟩
  | trans _ _ ih1 ih2 =>
    obtain ⟨h1, h2⟩ := ih1 ha
    obtain ⟨h3, h4⟩ := ih2 h1
    exact ⟨h3, fun bs => (h2 bs).trans (h4 bs)⟩
  | perm hp =>
    cases ha with
    | branch hf hc hd =>
      have hd' := (hp.pairwise_iff (R := fun c c' => RangeDisj c.1 c'.1) (fun h => h.symm)).1 hd
      refine ⟨.branch hf (fun c h => hc c (hp.mem_iff.2 h)) hd', ?_⟩
      intro bs
      rw [discriminantOf_branch, discriminantOf_branch]
      split
      · rfl
      · split
        · rfl
        · rfl
        · rw [pickChild_congr hd hd' fun c => hp.mem_iff]
  | @fallback o vt f f' cs _ ih =>
    cases ha with
    | branch hf hc hd =>
      obtain ⟨h1, h2⟩ := ih hf
      refine ⟨.branch h1 hc hd, ?_⟩
      intro bs
      rw [discriminantOf_branch, discriminantOf_branch]
      split
      · rfl
      · split
        · rfl
        · rfl
        · rename_i val _
          cases pickChild cs val with
          | none => exact h2 bs
          | some d => rfl
  | @child o vt f pre post k d d' _ ih =>
    cases ha with
    | branch hf hc hd =>
      obtain ⟨h1, h2⟩ := ih (hc (k, d) (by simp))
      refine ⟨.branch hf ?_ ?_, ?_⟩
      · intro c hcm
        rw [List.mem_append, List.mem_cons] at hcm
        rcases hcm with h | rfl | h
        · exact hc c (by simp [h])
        · exact h1
        · exact hc c (by simp [h])
      · rw [List.pairwise_append] at hd ⊢
        obtain ⟨hd1, hd2, hd3⟩ := hd
        rw [List.pairwise_cons] at hd2 ⊢
        refine ⟨hd1, ⟨hd2.1, hd2.2⟩, ?_⟩
        intro a ha b hb
        rcases List.mem_cons.1 hb with rfl | hb
        · exact hd3 a ha (k, d) (by simp)
        · exact hd3 a ha b (by simp [hb])
      · intro bs
        rw [discriminantOf_branch, discriminantOf_branch]
        split
        · rfl
        · split
          · rfl
          · rfl
          · rename_i val _
            rw [pickChild_append, pickChild_append]
            cases pickChild pre val with
            | some x => rfl
            | none =>
              obtain ⟨k1, k2⟩ := k
              simp only [Option.none_or, pickChild]
              split
              · exact h2 bs
              · rfl

section
variable [T : Target] [LT : LawfulTarget T]

/-! ### Which lengths decode -/

theorem decodePtrTy_length {p : PtrType} {bs : List (AByte P)} {v : Value P}
    (h : decodePtrTy p bs = .ok v) : bs.length = (Ty.ptr p).sz := by
  by_cases hk : p.metaKind = .none
  · rw [decodePtrTy_thin hk, Res.bind_eq_ok] at h
    obtain ⟨q, h, -⟩ := h
    simp [Ty.sz, hk, decodePtr_length h]
  · simp only [decodePtrTy, asWidePair_wide hk, Res.bind_ok, Res.bind_eq_ok, rassert_eq_ok,
      beq_iff_eq, alignTo_wide] at h
    obtain ⟨-, h, -⟩ := h
    simp [Ty.sz, hk, h]

theorem decode_length_good {ty : Ty} (hg : ty.Good) {bs : List (AByte P)} {v : Value P}
    (h : decode ty bs = .ok v) : bs.length = ty.sz := by
  cases hg with
  | int hp =>
    simp only [decode, Res.bind_eq_ok] at h
    obtain ⟨n, h, -⟩ := h
    exact (decodeInt_eq_ok.1 h).1
  | bool =>
    simp only [decode, Res.bind_eq_ok] at h
    obtain ⟨n, h, -⟩ := h
    exact decodeBool_length h
  | ptr => exact decodePtrTy_length h
  | tuple =>
    simp only [decode, Res.bind_eq_ok, rassert_eq_ok, beq_iff_eq] at h
    obtain ⟨-, h, -⟩ := h
    exact h
  | array hn he =>
    simp only [decode, he.size, sizeMul_ok hn, Res.bind_ok, Res.bind_eq_ok, rassert_eq_ok, beq_iff_eq] at h
    obtain ⟨-, h, -⟩ := h
    exact h
  | union =>
    simp only [decode, Res.bind_eq_ok, rassert_eq_ok, beq_iff_eq] at h
    obtain ⟨-, h, -⟩ := h
    exact h
  | enum =>
    simp only [decode, Res.bind_eq_ok, rassert_eq_ok, beq_iff_eq] at h
    obtain ⟨-, h, -⟩ := h
    exact h

/-! ### Decoded values are valid, when no pointer validity is involved -/

theorem Ty.NoSafePtr.sub {t ty : Ty} (h : ty.NoSafePtr)
    (hc : ∀ x, Component x t → Component x ty) : t.NoSafePtr := fun p hp => h p (hc _ hp)

theorem checkElems_of {chk : Value P → Res Unit} {vs : List (Value P)}
    (h : ∀ v ∈ vs, chk v = .ok ()) : checkElems chk vs = .ok () := by
  induction vs with
  | nil => rfl
  | cons v vs ih =>
    simp only [checkElems, h v (by simp), Res.bind_ok]
    exact ih fun w hw => h w (by simp [hw])

theorem decodeElems_spec {dec : List (AByte P) → Res (Value P)} {n k : Nat} {bs : List (AByte P)}
    {vs : List (Value P)} (h : decodeElems dec n k bs = .ok vs) :
    vs.length = k ∧ ∀ v ∈ vs, ∃ b, dec b = .ok v := by
  induction k generalizing bs vs with
  | zero => simp [decodeElems] at h; subst h; simp
  | succ k ih =>
    simp only [decodeElems, Res.bind_eq_ok, Except.ok.injEq] at h
    obtain ⟨b, -, v, hv, vs', hvs, rfl⟩ := h
    obtain ⟨h1, h2⟩ := ih hvs
    refine ⟨by simp [h1], ?_⟩
    intro w hw
    rcases List.mem_cons.1 hw with rfl | hw
    · exact ⟨b, hv⟩
    · exact h2 w hw

theorem decodeChunks_spec {bs : List (AByte P)} {cs : List (Nat × Nat)} {ds : List (List (AByte P))}
    (h : decodeChunks bs cs = .ok ds) : ds.length = cs.length ∧ checkChunks ds cs = .ok () := by
  induction cs generalizing ds with
  | nil => simp [decodeChunks] at h; subst h; simp [checkChunks]
  | cons c cs ih =>
    obtain ⟨o, n⟩ := c
    simp only [decodeChunks, Res.bind_eq_ok, Except.ok.injEq] at h
    obtain ⟨d, hd, ds', hds, rfl⟩ := h
    obtain ⟨h1, h2⟩ := ih hds
    simp [checkChunks, h1, h2, subslice_length hd]

theorem decode_valid_good (env : ValEnv P) {ty : Ty} (hg : ty.Good) (hp : ty.NoSafePtr)
    {bs : List (AByte P)} {v : Value P} (h : decode ty bs = .ok v) : checkValue env ty v = .ok () := by
  have hlen := decode_length_good hg h
  induction hg generalizing bs v with
  | int hpow =>
    simp only [decode, Res.bind_eq_ok, Except.ok.injEq] at h
    obtain ⟨n, h, rfl⟩ := h
    simp [checkValue, decodeInt_canRepresent h]
  | bool =>
    simp only [decode, Res.bind_eq_ok, Except.ok.injEq] at h
    obtain ⟨n, h, rfl⟩ := h
    rfl
  | @ptr p =>
    simp only [decode] at h
    rcases hp p .refl with rfl | rfl | rfl
    · rw [decodePtrTy_thin rfl, Res.bind_eq_ok] at h
      obtain ⟨q, h, hv⟩ := h
      cases hv
      simp [checkValue, checkPtr, ThinPtr.widen, decodePtr_inBounds h, checkPtrMetadata, PtrType.metaKind,
        PtrType.safePointee]
    · rw [decodePtrTy_thin rfl, Res.bind_eq_ok] at h
      obtain ⟨q, h, hv⟩ := h
      cases hv
      simp [checkValue, checkPtr, ThinPtr.widen, decodePtr_inBounds h, checkPtrMetadata, PtrType.metaKind,
        PtrType.safePointee]
    · have hk : (PtrType.raw .elementCount).metaKind ≠ .none := by simp [PtrType.metaKind]
      rw [decodePtrTy_wide hk _ (by rw [hlen]; simp [Ty.sz, hk])] at h
      simp only [Res.bind_eq_ok, Except.ok.injEq] at h
      obtain ⟨q, h1, m, h2, rfl⟩ := h
      simp only [decodeMetaBytes, PtrType.metaKind, Res.bind_eq_ok, Except.ok.injEq] at h2
      obtain ⟨n, h2, rfl⟩ := h2
      simp [checkValue, checkPtr, ThinPtr.widen, decodePtr_inBounds h1, checkPtrMetadata, PtrType.metaKind,
        PtrType.safePointee, decodeInt_canRepresent h2]
  | @tuple fs hd hgf _ _ ih =>
    simp only [decode, Res.bind_eq_ok, Except.ok.injEq] at h
    obtain ⟨-, -, vs, h, rfl⟩ := h
    have key : ∀ fs' vs', (∀ f ∈ fs', f ∈ fs) → decodeFields fs' bs = .ok vs' →
        vs'.length = fs'.length ∧ checkFields env fs' vs' = .ok () := by
      intro fs'
      induction fs' with
      | nil => intro vs' _ h; simp [decodeFields] at h; subst h; simp [checkFields]
      | cons f fs' ihf =>
        intro vs' hsub h
        obtain ⟨o, t⟩ := f
        have hm := hsub _ List.mem_cons_self
        simp only [decodeFields, (hgf _ hm).size, Res.bind_ok, Res.bind_eq_ok, Except.ok.injEq] at h
        obtain ⟨b, hb, v, hv, vs'', hvs, rfl⟩ := h
        obtain ⟨h1, h2⟩ := ihf vs'' (fun f hf => hsub f (List.mem_cons_of_mem _ hf)) hvs
        have := ih _ hm (hp.sub fun x hx => .field hm hx) hv (subslice_length hb)
        simp [h1, checkFields, this, h2]
    obtain ⟨h1, h2⟩ := key fs vs (fun _ h => h) h
    simp [checkValue, h1, h2]
  | @array e n hn he ih =>
    simp only [decode, he.size, sizeMul_ok hn, Res.bind_ok, Res.bind_eq_ok, Except.ok.injEq] at h
    obtain ⟨-, -, vs, h, rfl⟩ := h
    obtain ⟨h1, h2⟩ := decodeElems_spec h
    simp only [checkValue]
    have : ((vs.length : Int) == n) = true := by rw [beq_iff_eq, h1]; omega
    rw [this]
    simp only [ensureUb_true, Res.bind_ok]
    apply checkElems_of
    intro v hv
    obtain ⟨b, hb⟩ := h2 v hv
    exact ih (hp.sub fun x hx => .elem hx) hb (decode_length_good he hb)
  | union =>
    simp only [decode, Res.bind_eq_ok, Except.ok.injEq] at h
    obtain ⟨-, -, ds, h, rfl⟩ := h
    obtain ⟨h1, h2⟩ := decodeChunks_spec h
    simp [checkValue, h1, h2]
  | @enum vs dt disc s a hgv hsz _ _ _ ih =>
    simp only [Ty.sz] at hlen
    simp only [decode_enum_eq hlen, Res.bind_eq_ok] at h
    obtain ⟨o, -, h⟩ := h
    cases o with
    | none => cases h
    | some d =>
      simp only [Res.bind_eq_ok, Except.ok.injEq] at h
      obtain ⟨w, hw, rfl⟩ := h
      rw [decodeVariant_eq] at hw
      simp only [checkValue, checkVariant_eq]
      cases hgt : Map.get? vs d with
      | none => rw [hgt] at hw; cases hw
      | some x =>
        rw [hgt] at hw
        have hm := Map.get?_mem hgt
        exact ih _ hm (hp.sub fun y hy => .variant hm hy) hw (by rw [hlen, hsz _ hm])

/-! ### Fidelity of the unfolded recursive calls -/

theorem decodePtr_thinTy (bs : List (AByte P)) :
    decode (.ptr (.raw .none)) bs = (decodePtr bs >>= fun t => .ok (.ptr (t.widen none))) :=
  decodePtrTy_thin rfl bs

theorem decodeMeta_eq {k : MetaKind} (hk : k ≠ .none) (bs : List (AByte P)) :
    decode k.ty bs = decodeMeta k bs := by
  cases k with
  | none => exact absurd rfl hk
  | elementCount => rfl
  | vtablePointer t =>
    show decodePtrTy _ _ = _
    rw [decodePtrTy_thin rfl]; rfl

theorem bind_congr_ok {α β : Type} {x : Res α} {f g : α → Res β} (h : ∀ a, x = .ok a → f a = g a) :
    x >>= f = x >>= g := by
  cases x with
  | error e => rfl
  | ok a => exact h a rfl

/-- `decode` at a wide pointer type is `decode` at its pair type followed by reading off the
components, as written at `/repo/spec/lang/representation.md:204-222`. -/
theorem decode_ptr_eq (p : PtrType) (bs : List (AByte P)) :
    decode (.ptr p) bs = (do
      match ← p.asWidePair with
      | some pair =>
        match ← decode pair bs with
        | .tuple [.ptr thin, m] =>
          rassert thin.metadata.isNone
          let m ← p.metaKind.decodeValue m
          rassert m.isSome
          .ok (.ptr (thin.thin.widen m))
        | _ => panic
      | none => do .ok (.ptr ((← decodePtr bs).widen none))) := by
  by_cases hk : p.metaKind = .none
  · simp [decode, decodePtrTy, asWidePair_thin hk]
  · simp only [decode, decodePtrTy, asWidePair_wide hk, Res.bind_ok, widePair,
      TupleHeadLayout.headSizeAndAlign]
    have hs : (Ty.ptr (.raw .none)).size = .ok T.ptrSize := by
      simp [Ty.size, Ty.layout, PtrType.metaKind, LayoutStrategy.expectSize]
    have hm : p.metaKind.ty.size = .ok T.ptrSize := by
      simp [Ty.size, metaKind_ty_layout hk, LayoutStrategy.expectSize]
    simp only [decodeFields, hs, hm, Res.bind_ok, decodePtr_thinTy, decodeMeta_eq hk, bind_assoc]
    refine bind_congr_ok fun _ _ => bind_congr_ok fun b1 _ => bind_congr_ok fun t _ => ?_
    refine bind_congr_ok fun b2 _ => bind_congr_ok fun m _ => ?_
    simp [ThinPtr.widen]

theorem encodeMeta_eq {k : MetaKind} (hk : k ≠ .none) (v : Value P) (m : Option (PtrMeta P))
    (hv : k.encodeAsValue m = .ok v) : encode k.ty v = encodeMeta k v := by
  cases k with
  | none => exact absurd rfl hk
  | elementCount =>
    rcases m with _ | m
    · cases hv
    · cases m <;> cases hv; rfl
  | vtablePointer t =>
    rcases m with _ | m
    · cases hv
    · cases m <;> cases hv
      show encodePtrTy _ _ = _
      rw [encodePtrTy_thin rfl]; rfl

/-- `encode` at a wide pointer type is `encode` at its pair type, as written at
`/repo/spec/lang/representation.md:223-238`. -/
theorem encode_ptr_eq (p : PtrType) (q : Pointer P) :
    encode (.ptr p) (.ptr q) = (do
      match ← p.asWidePair with
      | some pair =>
        let m ← p.metaKind.encodeAsValue q.metadata
        encode pair (.tuple [.ptr (q.thin.widen none), m])
      | none =>
        rassert q.metadata.isNone
        encodePtr q.thin) := by
  by_cases hk : p.metaKind = .none
  · simp [encode, encodePtrTy, asWidePair_thin hk]
  · simp only [encode, encodePtrTy, asWidePair_wide hk, Res.bind_ok, widePair,
      TupleHeadLayout.headSizeAndAlign]
    refine bind_congr_ok fun v hv => ?_
    have h1 : encode (.ptr (.raw .none)) (.ptr (q.thin.widen none)) = encodePtr q.thin := by
      show encodePtrTy _ _ = _
      rw [encodePtrTy_thin rfl]; simp [ThinPtr.widen]
    have h2 := encodeMeta_eq hk v _ hv
    have h3 : ∀ {α : Type} (x : Res α), (x >>= fun a => .ok a) = x := fun x => by cases x <;> rfl
    simp [encodeFields, h1, h2, h3]

/-- The unfolded recursive call of `check_ptr_metadata` at vtable pointers,
`/repo/spec/lang/representation.md:496`. -/
theorem checkPtr_vtablePtr (env : ValEnv P) (ptr : ThinPtr P) (t : TraitName) :
    checkPtr env (ptr.widen none) (.vtablePtr t) = checkVTablePtr env ptr t := by
  simp [checkPtr, checkVTablePtr, ThinPtr.widen, checkPtrMetadata, PtrType.metaKind, PtrType.safePointee]

end
end MiniRust
