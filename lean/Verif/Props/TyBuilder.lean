import Verif.TyBuilder
import Verif.Props.Enums
import Verif.Props.TypeConv
/-
C93: unions and enums built with miniutil.
-/
namespace MiniRust

theorem collectMap_nodup {κ V : Type} [DecidableEq κ] {l : List (κ × V)} (h : (l.map (·.1)).Nodup) : collectMap l = l := by
  have key : ∀ (l m : List (κ × V)), ((m ++ l).map (·.1)).Nodup → l.foldl (fun m x => Map.insert m x.1 x.2) m = m ++ l := by
    intro l
    induction l with
    | nil => intro m _; simp
    | cons x l ih =>
      intro m hm
      have hx : x.1 ∉ m.map (·.1) := by
        intro hc
        rw [List.map_append, List.nodup_append] at hm
        exact hm.2.2 _ hc _ (by simp) rfl
      rw [List.foldl_cons, Map.insert_new hx, ih _ (by simpa using hm)]
      simp
  exact key l [] (by simpa using h)

section
variable {P : Type} [DecidableEq P] [T : Target]

/-- The tag has an integer type whose size is a power of two. -/
theorem ConvTy.int_power [L : LawfulTarget T] {t : ConvTy} {i : IntType} (h : t.getType = .ok (.int i)) : isPowerOfTwo i.size = true := by
  cases t <;> simp only [ConvTy.getType, Except.ok.injEq, Ty.int.injEq, reduceCtorEq, Res.bind_eq_ok, and_false, exists_false, refTyOf,
    refMutTyOf] at h <;> subst h <;> first | exact L.ptr_pow | rfl

/-! ### Unions -/

/-- C93: values of a union built with `union_ty` are its bytes: all of them can be loaded, whatever they are, and storing the value gives the same
bytes back, with provenance and without initializing anything. -/
theorem C93_union_bytes (fields : List (Nat × Ty)) {size : Nat} (align : Align) {bytes : List (AByte P)} (h : bytes.length = size) :
    ∃ v, decode (mkUnionTy fields size align) bytes = .ok v ∧ encode (mkUnionTy fields size align) v = .ok bytes ∧
      ∀ env, checkValue env (mkUnionTy fields size align) v = .ok () := by
  subst h
  refine ⟨.union [bytes], ?_, ?_, fun env => ?_⟩
  · simp [mkUnionTy, decode, decodeChunks, subslice, rassert]
  · simp [mkUnionTy, encode, encodeChunks, writeSubslice, rassert]
  · simp [mkUnionTy, checkValue, checkChunks]

theorem checkUnionFields_iff {prog : Program} {size : Nat} : ∀ {fields : List (Nat × Ty)}, Ty.checkUnionFields prog size fields = .ok () ↔
    ∀ f ∈ fields, f.2.checkWf prog = .ok () ∧ ∃ n a, f.2.layout = .ok (.sized n a) ∧ f.1 + n ≤ size
  | [] => by simp [Ty.checkUnionFields]
  | (off, ty) :: rest => by
    simp only [Ty.checkUnionFields, List.forall_mem_cons, ← checkUnionFields_iff (fields := rest), Res.bind_eq_ok, ensureWf_eq_ok,
      decide_eq_true_eq]
    constructor
    · rintro ⟨⟨⟩, h1, l, h2, ⟨⟩, h3, n, h4, ⟨⟩, h5, h6⟩
      cases l with
      | sized m a => cases h4; exact ⟨⟨h1, _, _, h2, h5⟩, h6⟩
      | _ => cases h3
    · rintro ⟨⟨h1, n, a, h2, h3⟩, h4⟩
      exact ⟨(), h1, _, h2, (), rfl, n, rfl, (), h3, h4⟩

/-- C93: it is well-formed exactly if the fields are well-formed types of known size that lie inside the union, and the size is valid and a
multiple of the alignment. -/
theorem C93_union_wf {prog : Program} (fields : List (Nat × Ty)) (size : Nat) (align : Align) :
    (mkUnionTy fields size align).checkWf prog = .ok () ↔
      (∀ f ∈ fields, f.2.checkWf prog = .ok () ∧ ∃ n a, f.2.layout = .ok (.sized n a) ∧ f.1 + n ≤ size) ∧
      T.validSize size = true ∧ align.bytes ∣ size := by
  rw [← checkUnionFields_iff, mkUnionTy, Ty.checkWf, Nat.dvd_iff_mod_eq_zero]
  have hc : checkLayout prog (.union fields [(0, size)] size align) = .ok () ↔ T.validSize size = true ∧ size % align.bytes = 0 := by
    simp only [checkLayout, Ty.layout, Res.bind_ok, LayoutStrategy.checkWf, LayoutStrategy.checkAligned, LayoutStrategy.metaKind, Ty.metaKind]
    cases T.validSize size <;> by_cases h : size % align.bytes = 0 <;> simp [h, ensureWf, illFormed]
  have hr : checkRanges [(0, size)] 0 = .ok size := by simp [checkRanges]
  rw [← hc, hr]
  simp only [Res.bind_ok, Res.bind_eq_ok, ensureWf_eq_ok, decide_eq_true_eq]
  constructor
  · rintro ⟨⟨⟩, h1, ⟨⟩, -, h2⟩; exact ⟨h1, h2⟩
  · rintro ⟨h1, h2⟩; exact ⟨(), h1, (), Nat.le_refl _, h2⟩

/-! ### Enums -/

/-- C93: an enum with a tag, built with `enum_ty`, `enum_variant` and `discriminator_branch` as one writes it: each variant has its
discriminant as the tag, and the discriminator has one branch for each. If the discriminants are distinct and fit, and the data of no variant
uses the bytes of the tag, then the type is well-formed, its values survive being stored and loaded, and what the discriminator finds in the bytes
of a variant is that variant. -/
theorem C93_tagged_enum [L : LawfulTarget T] {prog : Program} {dT tT : ConvTy} {dt tt : IntType} (hd : dT.getType = .ok (.int dt))
    (ht : tT.getType = .ok (.int tt)) {vs : List (Int × Ty)} {off size : Nat} {align : Align}
    (hs : T.validSize size = true) (ha : align.bytes ∣ size) (hin : off + tt.size ≤ size) (hnd : (vs.map (·.1)).Nodup)
    (hvs : ∀ v ∈ vs, dt.canRepresent v.1 = true ∧ tt.canRepresent v.1 = true ∧ v.2.checkWf prog = .ok () ∧
      v.2.layout = .ok (.sized size align) ∧ ∀ i, off ≤ i → i < off + tt.size → ¬ UsesByte v.2 i) :
    ∃ disc ty, mkDiscriminatorBranch tT off .invalid (vs.map fun v => ((v.1, v.1 + 1), .known v.1)) = .ok disc ∧
      mkEnumTy dT (vs.map fun v => (v.1, mkEnumVariant v.2 [(off, (tt, v.1))])) disc size align = .ok ty ∧
      ty.checkWf prog = .ok () ∧ ty.layout = .ok (.sized size align) ∧
      ∀ env : ValEnv P, (∀ v ∈ vs, v.2.Coherent env) → ty.Coherent env ∧ RoundTrips env ty ∧
        ∀ v ∈ vs, ∀ data bytes, checkValue env v.2 data = .ok () → encode ty (.variant v.1 data) = .ok bytes →
          discriminantOf disc bytes = .ok (some v.1) := by
  have hbr : (vs.map fun v => ((v.1, v.1 + 1), Discriminator.known v.1)).Pairwise fun c c' => RangeDisj c.1 c'.1 := by
    rw [List.pairwise_map]
    rw [List.Nodup, List.pairwise_map] at hnd
    refine hnd.imp fun {a b} hab => ?_
    rcases Int.lt_or_gt_of_ne hab with h | h
    · left; simp only; omega
    · right; simp only; omega
  have hbk := keys_nodup_of_disj (fun c hc => by
    obtain ⟨v, _, rfl⟩ := List.mem_map.1 hc
    simp) hbr
  have hk : (vs.map fun v => (v.1, mkEnumVariant v.2 [(off, (tt, v.1))])) = directVariants off tt vs := rfl
  have hkn : ((directVariants off tt vs).map (·.1)).Nodup := by simpa [directVariants, Function.comp_def] using hnd
  have hp := ConvTy.int_power ht
  have hwf : (directEnum off tt dt vs size align).checkWf prog = .ok () := by
    refine enum_checkWf hs ha (fun v hv => ?_) ?_
    · obtain ⟨w, hw, rfl⟩ := List.mem_map.1 hv
      obtain ⟨h1, h2, h3, h4, -⟩ := hvs w hw
      refine ⟨h1, h3, h4, ?_⟩
      simp only [checkTagger, IntType.checkWf, hp, h2, hin, ensureWf, decide_true, if_true, Res.bind_ok]
    · refine branch_checkWf hp hin rfl (fun c hc => ?_) hbr
      obtain ⟨w, hw, rfl⟩ := List.mem_map.1 hc
      obtain ⟨h1, h2, h3, h4, -⟩ := hvs w hw
      refine ⟨h2, by simpa using h2, by simp, ?_⟩
      have : (Map.get? (directVariants off tt vs) w.1).isSome = true := by
        obtain ⟨x, hx⟩ := Map.get?_isSome_of_key (m := directVariants off tt vs) (k := w.1) (by
          simp only [directVariants, List.map_map]
          exact List.mem_map.2 ⟨w, hw, rfl⟩)
        rw [hx]
        rfl
      simp only [Discriminator.checkWf, this, ensureWf, if_true]
  have hl : (directEnum off tt dt vs size align).layout = .ok (.sized size align) := by simp only [directEnum, Ty.layout]
  refine ⟨directDiscriminator off tt vs, directEnum off tt dt vs size align, ?_, ?_, hwf, hl, fun env hc => ?_⟩
  · simp only [mkDiscriminatorBranch, ht, Res.bind_ok, collectMap_nodup hbk]
    rfl
  · rw [hk]
    simp only [mkEnumTy, hd, Res.bind_ok, collectMap_nodup hkn]
    rfl
  · have he := directEnum_coherent env (size := size) hnd fun v hv => (hvs v hv).2.2.2.2
    have hco : (directEnum off tt dt vs size align).Coherent env := coherent_of_enum he fun v hv => by
      obtain ⟨w, hw, rfl⟩ := List.mem_map.1 hv
      exact hc w hw
    refine ⟨hco, roundTrips_of_coherent (n := size) hwf (by rw [Ty.size, hl]; rfl) hco, fun v hv data bytes h1 h2 => ?_⟩
    have hm : (v.1, (v.2, [(off, (tt, v.1))])) ∈ directVariants off tt vs := List.mem_map.2 ⟨v, hv, rfl⟩
    exact he.disc_complete _ hm data h1 bytes h2

/-- C93: a type that is no integer type cannot be the type of discriminants or tags. -/
theorem C93_no_int_panics {t : ConvTy} {ty : Ty} (h : t.getType = .ok ty) (hn : ∀ i, ty ≠ .int i) (vs disc size align off cs) :
    mkEnumTy t vs disc size align = .error .panic ∧ mkDiscriminatorBranch t off disc cs = .error .panic := by
  cases ty with
  | int i => exact absurd rfl (hn i)
  | _ => exact ⟨by rw [mkEnumTy, h]; rfl, by rw [mkDiscriminatorBranch, h]; rfl⟩

end

/-! ### The hypotheses can be met -/

section
variable {P : Type} [DecidableEq P]
attribute [local instance] x86_64 x86_64_lawful

/-- A union of a boolean and an integer behind it is well-formed; it keeps a byte that is not initialized and one with provenance. -/
example (p : P) : (mkUnionTy [(0, .bool), (1, .int ⟨.unsigned, 1⟩)] 2 Align.one).checkWf Ex.prog = .ok () ∧
    ∃ v, decode (mkUnionTy [(0, .bool), (1, .int ⟨.unsigned, 1⟩)] 2 Align.one) [.uninit, .init 7 (some ⟨p, 3⟩)] = .ok v ∧
      encode (mkUnionTy [(0, .bool), (1, .int ⟨.unsigned, 1⟩)] 2 Align.one) v = .ok [.uninit, .init 7 (some ⟨p, 3⟩)] := by
  refine ⟨by decide, ?_⟩
  obtain ⟨v, h1, h2, -⟩ := C93_union_bytes [(0, .bool), (1, .int ⟨.unsigned, 1⟩)] Align.one (size := 2)
    (bytes := [.uninit, .init 7 (some (⟨p, 3⟩ : Frag P))]) rfl
  exact ⟨v, h1, h2⟩

/-- The variants of an enum with an `i8` as tag: 3 with a boolean behind the tag, -1 without data. -/
def Ex.taggedVariants : List (Int × Ty) := [(3, tupleTy [(1, .bool)] 2 Align.one), (-1, tupleTy [] 2 Align.one)]

example (env : ValEnv P) : ∃ disc ty,
    mkDiscriminatorBranch .i8 0 .invalid [((3, 4), .known 3), ((-1, 0), .known (-1))] = .ok disc ∧
    mkEnumTy .i16 [(3, mkEnumVariant (tupleTy [(1, .bool)] 2 Align.one) [(0, (⟨.signed, 1⟩, 3))]),
      (-1, mkEnumVariant (tupleTy [] 2 Align.one) [(0, (⟨.signed, 1⟩, -1))])] disc 2 Align.one = .ok ty ∧
    ty.checkWf Ex.prog = .ok () ∧ RoundTrips env ty := by
  obtain ⟨disc, ty, h1, h2, h3, -, h4⟩ := C93_tagged_enum (P := P) (prog := Ex.prog) (dT := .i16) (tT := .i8) (vs := Ex.taggedVariants) (off := 0)
    (size := 2) (align := Align.one) rfl rfl (by decide) (by decide) (by decide) (by decide) (by
      intro v hv
      simp only [Ex.taggedVariants, List.mem_cons, List.not_mem_nil, or_false] at hv
      rcases hv with rfl | rfl
      · refine ⟨by decide, by decide, by decide, by decide, fun i _ hi hu => ?_⟩
        cases hu with
        | field hf _ =>
          simp only [List.mem_cons, List.not_mem_nil, or_false, Prod.mk.injEq] at hf
          simp only at hi
          omega
      · refine ⟨by decide, by decide, by decide, by decide, fun i _ hi hu => ?_⟩
        cases hu with
        | field hf _ => simp at hf)
  refine ⟨disc, ty, h1, h2, h3, (h4 env ?_).2.1⟩
  intro v hv vs dt disc s a hc
  simp only [Ex.taggedVariants, List.mem_cons, List.not_mem_nil, or_false] at hv
  rcases hv with rfl | rfl
  · cases hc with
    | field hf hc => cases List.mem_singleton.1 hf; cases hc
  · cases hc with
    | field hf hc => simp at hf

end
end MiniRust
