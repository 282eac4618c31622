import Verif.Lemmas.Bytes
/-
Auxiliary lemmas: representation of thin and wide pointers.
-/
set_option linter.unusedSectionVars false
namespace MiniRust
variable {P : Type} [DecidableEq P]
section
variable [T : Target] [LT : LawfulTarget T]

theorem ptrSize_pos : 0 < T.ptrSize := isPowerOfTwo_pos LT.ptr_pow

theorem ptrAlign_dvd : T.ptrAlign.bytes ∣ T.ptrSize := by
  have h1 := LT.ptr_pow
  have h2 := LT.ptr_align
  simp only [isPowerOfTwo, decide_eq_true_eq] at h1
  rw [h1, ← h2]
  apply Nat.pow_dvd_pow
  unfold Align.min; split
  · exact Nat.le_refl _
  · rename_i h; simp at h; omega

theorem alignTo_wide : alignTo (2 * T.ptrSize) T.ptrAlign = 2 * T.ptrSize :=
  alignTo_of_dvd (Dvd.dvd.mul_left ptrAlign_dvd 2)

theorem asWidePair_thin {p : PtrType} (h : p.metaKind = .none) : p.asWidePair = .ok none := by
  simp [PtrType.asWidePair, h]

/-- The pair type of a wide pointer. -/
def widePair (p : PtrType) : Ty :=
  .tuple [(0, .ptr (.raw .none)), (T.ptrSize, p.metaKind.ty)] ⟨2 * T.ptrSize, T.ptrAlign, none⟩ none

theorem metaKind_ty_layout {k : MetaKind} (h : k ≠ .none) :
    k.ty.layout = .ok (.sized T.ptrSize T.ptrAlign) := by
  cases k with
  | none => exact absurd rfl h
  | elementCount =>
    simp only [MetaKind.ty, Ty.layout, IntType.usize]
    rw [IntType.align_ok LT.ptr_pow]
    simp [LT.ptr_align]
  | vtablePointer t => simp [MetaKind.ty, Ty.layout, PtrType.metaKind]

theorem asWidePair_wide {p : PtrType} (h : p.metaKind ≠ .none) :
    p.asWidePair = .ok (some (widePair p)) := by
  simp [PtrType.asWidePair, h, metaKind_ty_layout h, LayoutStrategy.expectSize,
    LayoutStrategy.expectAlign, widePair]

theorem decodePtrTy_thin {p : PtrType} (h : p.metaKind = .none) (bs : List (AByte P)) :
    decodePtrTy p bs = (decodePtr bs >>= fun t => .ok (.ptr (t.widen none))) := by
  simp [decodePtrTy, asWidePair_thin h]

/-- Metadata as raw bytes. -/
def decodeMetaBytes : MetaKind → List (AByte P) → Res (PtrMeta P)
  | .none, _ => panic
  | .elementCount, bs => decodeInt IntType.usize bs >>= fun n => .ok (.elementCount n)
  | .vtablePointer _, bs => decodePtr bs >>= fun p => .ok (.vtablePointer p)

/-- Metadata to raw bytes. -/
def encodeMetaBytes : MetaKind → PtrMeta P → Res (List (AByte P))
  | .elementCount, .elementCount n => encodeInt IntType.usize n
  | .vtablePointer _, .vtablePointer p => encodePtr p
  | _, _ => panic

theorem decodePtrTy_wide {p : PtrType} (h : p.metaKind ≠ .none) (bs : List (AByte P))
    (hl : bs.length = 2 * T.ptrSize) :
    decodePtrTy p bs = (decodePtr (bs.take T.ptrSize) >>= fun t =>
      decodeMetaBytes p.metaKind (bs.drop T.ptrSize) >>= fun m => .ok (.ptr (t.widen (some m)))) := by
  have e1 : subslice bs 0 T.ptrSize = .ok (bs.take T.ptrSize) := by
    rw [subslice_isOk (by omega)]; rfl
  have e2 : subslice bs T.ptrSize T.ptrSize = .ok (bs.drop T.ptrSize) := by
    rw [subslice_isOk (by omega)]
    congr 1
    rw [List.take_of_length_le]; simp; omega
  simp only [decodePtrTy, asWidePair_wide h, Res.bind_ok, alignTo_wide, hl, beq_self_eq_true,
    rassert_true, e1, e2]
  cases decodePtr (bs.take T.ptrSize) with
  | error e => rfl
  | ok t =>
    cases hk : p.metaKind with
    | none => exact absurd hk h
    | elementCount =>
      simp only [decodeMeta, decodeMetaBytes, Res.bind_ok]
      cases decodeInt IntType.usize (bs.drop T.ptrSize) <;>
        simp [MetaKind.decodeValue]
    | vtablePointer t =>
      simp only [decodeMeta, decodeMetaBytes, Res.bind_ok]
      cases decodePtr (bs.drop T.ptrSize) <;>
        simp [MetaKind.decodeValue, ThinPtr.widen]

theorem encodePtrTy_thin {p : PtrType} (h : p.metaKind = .none) (q : Pointer P) :
    encodePtrTy p (.ptr q) = (rassert q.metadata.isNone >>= fun _ => encodePtr q.thin) := by
  simp [encodePtrTy, asWidePair_thin h]

theorem encodeMetaBytes_length {k : MetaKind} {m : PtrMeta P} {bs : List (AByte P)}
    (h : encodeMetaBytes k m = .ok bs) : bs.length = T.ptrSize := by
  cases k <;> cases m <;> simp only [encodeMetaBytes, reduceCtorEq] at h
  · exact encodeInt_length h
  · exact encodePtr_length h

theorem encodePtrTy_wide_eq_ok {p : PtrType} (h : p.metaKind ≠ .none) {q : Pointer P}
    {bs : List (AByte P)} :
    encodePtrTy p (.ptr q) = .ok bs ↔ ∃ m a b, q.metadata = some m ∧ encodePtr q.thin = .ok a ∧
      encodeMetaBytes p.metaKind m = .ok b ∧ bs = a ++ b := by
  have key : ∀ a b : List (AByte P), a.length = T.ptrSize → b.length = T.ptrSize →
      (do let x ← writeSubslice (List.replicate (2 * T.ptrSize) AByte.uninit) 0 a
          writeSubslice x T.ptrSize b) = .ok (a ++ b) := by
    intro a b ha hb
    rw [writeSubslice_isOk (by simp; omega)]
    simp only [List.take_zero, List.nil_append, Nat.zero_add, Res.bind_ok]
    rw [writeSubslice_isOk (by simp; omega)]
    congr 1
    rw [List.take_left' ha, List.drop_eq_nil_of_le (by simp; omega), List.append_nil]
  simp only [encodePtrTy, asWidePair_wide h, Res.bind_ok, alignTo_wide]
  obtain ⟨thin, md⟩ := q
  simp only
  cases hp : (encodePtr thin : Res (List (AByte P))) with
  | error e =>
    simp only [Res.bind_error, reduceCtorEq, false_and, and_false, exists_false, iff_false]
    cases md with
    | none => cases p.metaKind <;> simp_all [MetaKind.encodeAsValue]
    | some m => cases p.metaKind <;> cases m <;> simp_all [MetaKind.encodeAsValue]
  | ok a =>
    have ha := encodePtr_length hp
    simp only [Res.bind_ok, Except.ok.injEq]
    cases md with
    | none =>
      cases hk : p.metaKind with
      | none => exact absurd hk h
      | _ => simp [MetaKind.encodeAsValue]
    | some m =>
      simp only [Option.some.injEq]
      have hE : (do let metaVal ← p.metaKind.encodeAsValue (some m)
                    encodeMeta p.metaKind metaVal) = encodeMetaBytes p.metaKind m := by
        cases p.metaKind <;> cases m <;>
          simp [MetaKind.encodeAsValue, encodeMetaBytes, encodeMeta, ThinPtr.widen]
      cases hv : p.metaKind.encodeAsValue (some m) with
      | error e =>
        rw [hv] at hE
        simp only [Res.bind_error] at hE ⊢
        simp only [reduceCtorEq, false_iff]
        rintro ⟨m', a', b, rfl, _, hb, _⟩
        rw [hb] at hE; cases hE
      | ok mv =>
        rw [hv] at hE
        simp only [Res.bind_ok] at hE ⊢
        have hw : writeSubslice (List.replicate (2 * T.ptrSize) AByte.uninit) 0 a =
            .ok (a ++ (List.replicate (2 * T.ptrSize) AByte.uninit).drop a.length) := by
          rw [writeSubslice_isOk (by simp; omega)]; simp
        rw [hw]
        simp only [Res.bind_ok]
        rw [hE]
        cases hb : (encodeMetaBytes p.metaKind m : Res (List (AByte P))) with
        | error e =>
          simp only [Res.bind_error, reduceCtorEq, false_iff]
          rintro ⟨m', a', b, rfl, _, hb', _⟩
          rw [hb] at hb'; cases hb'
        | ok b =>
          have hbl := encodeMetaBytes_length hb
          have := key a b ha hbl
          rw [hw] at this
          simp only [Res.bind_ok] at this ⊢
          rw [this]
          constructor
          · intro h; cases h; exact ⟨m, a, b, rfl, rfl, hb, rfl⟩
          · rintro ⟨m', a', b', rfl, rfl, hb', rfl⟩
            rw [hb] at hb'; cases hb'; rfl

theorem decodeMetaBytes_encode {k : MetaKind} {m : PtrMeta P} {bs : List (AByte P)}
    (h : encodeMetaBytes k m = .ok bs) : decodeMetaBytes k bs = .ok m := by
  cases k <;> cases m <;> simp only [encodeMetaBytes, reduceCtorEq] at h
  · simp [decodeMetaBytes, decodeInt_encodeInt h]
  · simp [decodeMetaBytes, decodePtr_encodePtr ptrSize_pos h]

theorem encodeMetaBytes_decode {k : MetaKind} {m : PtrMeta P} {bs : List (AByte P)}
    (h : decodeMetaBytes k bs = .ok m) : ∃ b, encodeMetaBytes k m = .ok b ∧ BLe b bs := by
  cases k with
  | none => cases h
  | elementCount =>
    simp only [decodeMetaBytes, Res.bind_eq_ok, Except.ok.injEq] at h
    obtain ⟨n, h1, rfl⟩ := h
    exact encodeInt_decodeInt h1
  | vtablePointer t =>
    simp only [decodeMetaBytes, Res.bind_eq_ok, Except.ok.injEq] at h
    obtain ⟨n, h1, rfl⟩ := h
    exact encodePtr_decodePtr h1

theorem decodeMetaBytes_total {k : MetaKind} (hk : k ≠ .none) {bs : List (AByte P)}
    (hl : bs.length = T.ptrSize) :
    (∃ m, decodeMetaBytes k bs = .ok m) ∨ decodeMetaBytes k bs = .error .none := by
  cases k with
  | none => exact absurd rfl hk
  | elementCount =>
    simp only [decodeMetaBytes]
    rcases decodeInt_total (i := IntType.usize) hl with ⟨n, h⟩ | h <;> simp [h]
  | vtablePointer t =>
    simp only [decodeMetaBytes]
    rcases decodePtr_total ptrSize_pos hl with ⟨n, h⟩ | h <;> simp [h]

theorem decodeMetaBytes_mono {k : MetaKind} {m : PtrMeta P} {a b : List (AByte P)} (hab : BLe a b)
    (h : decodeMetaBytes k a = .ok m) : ∃ m', decodeMetaBytes k b = .ok m' ∧ m.le m' = true := by
  cases k with
  | none => cases h
  | elementCount =>
    simp only [decodeMetaBytes, Res.bind_eq_ok, Except.ok.injEq] at h
    obtain ⟨n, h1, rfl⟩ := h
    exact ⟨_, by simp [decodeMetaBytes, decodeInt_mono hab h1]; rfl, by simp [PtrMeta.le]⟩
  | vtablePointer t =>
    simp only [decodeMetaBytes, Res.bind_eq_ok, Except.ok.injEq] at h
    obtain ⟨n, h1, rfl⟩ := h
    obtain ⟨q, h2, h3⟩ := decodePtr_mono hab h1
    exact ⟨_, by simp [decodeMetaBytes, h2]; rfl, by simpa [PtrMeta.le] using h3⟩

theorem encodeMetaBytes_mono {k : MetaKind} {m m' : PtrMeta P} {a b : List (AByte P)}
    (hm : m.le m' = true) (ha : encodeMetaBytes k m = .ok a) (hb : encodeMetaBytes k m' = .ok b) :
    BLe a b := by
  cases k <;> cases m <;> cases m' <;> simp only [encodeMetaBytes, reduceCtorEq] at ha hb
  · simp only [PtrMeta.le, beq_iff_eq, PtrMeta.elementCount.injEq] at hm
    subst hm; rw [ha] at hb; cases hb; exact BLe.refl _
  · exact encodePtr_mono (by simpa [PtrMeta.le] using hm) ha hb

end
end MiniRust
