import Verif.Props.Init
import Verif.Lemmas.Layout
import Verif.Lemmas.Prov
import Verif.Spec.Layout
/-
Lemmas for C43: value validity in reachable machines.
-/
set_option linter.unusedSectionVars false
namespace MiniRust

theorem isOk_eq_ok_false {α : Type} {r : Res α} : isOk r = .ok false ↔ ∃ e, r = .error e ∧ e ≠ .panic ∧ e ≠ .noBehavior := by
  unfold isOk
  cases r with
  | ok a => simp
  | error e => cases e <;> simp

theorem computeSizeAndAlign_iff {P : Type} {look : ThinPtr P → Res VTable} {at' : ThinPtr P → VTable → Prop}
    (hl : ∀ p v, look p = .ok v ↔ at' p v) : ∀ {l : LayoutStrategy} {m : Option (PtrMeta P)} {n a},
    (∀ c, m = some (.elementCount c) → 0 ≤ c) →
    (l.computeSizeAndAlign look m = .ok (n, a) ↔ PointeeLayout at' l m n a) := by
  intro l
  induction l with
  | sized size align =>
    intro m n a _
    cases m with
    | none =>
      simp only [LayoutStrategy.computeSizeAndAlign, Except.ok.injEq, Prod.mk.injEq]
      constructor
      · rintro ⟨rfl, rfl⟩; exact .sized
      · intro h; cases h; exact ⟨rfl, rfl⟩
    | some m =>
      simp only [LayoutStrategy.computeSizeAndAlign]
      constructor
      · intro h; cases h
      · intro h; cases h
  | slice size align =>
    intro m n a hc
    cases m with
    | none =>
      simp only [LayoutStrategy.computeSizeAndAlign]
      constructor
      · intro h; cases h
      · intro h; cases h
    | some m =>
      cases m with
      | elementCount c =>
        obtain ⟨c, rfl⟩ := Int.eq_ofNat_of_zero_le (hc c rfl)
        have hs : sizeMul size c = .ok (size * c) := by
          unfold sizeMul sizeFromBytes
          rw [if_pos (by positivity)]
          simp only [unwrap_some, Except.ok.injEq]
          norm_cast
        simp only [LayoutStrategy.computeSizeAndAlign]
        rw [hs]
        constructor
        · intro h; cases h; exact .slice
        · intro h
          generalize hm : (some (PtrMeta.elementCount (c : Int)) : Option (PtrMeta P)) = m at h
          cases h with
          | slice =>
            cases hm; rfl
      | vtablePointer p =>
        simp only [LayoutStrategy.computeSizeAndAlign]
        constructor
        · intro h; cases h
        · intro h; cases h
  | traitObject t =>
    intro m n a _
    rcases m with _ | (c | p)
    · simp only [LayoutStrategy.computeSizeAndAlign]
      constructor <;> (intro h; cases h)
    · simp only [LayoutStrategy.computeSizeAndAlign]
      constructor <;> (intro h; cases h)
    · simp only [LayoutStrategy.computeSizeAndAlign, Res.bind_eq_ok, Except.ok.injEq, Prod.mk.injEq]
      constructor
      · rintro ⟨v, h1, rfl, rfl⟩; exact .traitObject ((hl _ _).1 h1)
      · intro h
        cases h with
        | traitObject h1 => exact ⟨_, (hl _ _).2 h1, rfl, rfl⟩
  | tuple head tail ih =>
    intro m n a hc
    cases m with
    | none =>
      simp only [LayoutStrategy.computeSizeAndAlign]
      constructor
      · intro h; cases h
      · intro h; cases h
    | some m =>
      simp only [LayoutStrategy.computeSizeAndAlign, Res.bind_eq_ok, Except.ok.injEq, Prod.exists]
      constructor
      · rintro ⟨ts, ta, h1, h2⟩
        have := PointeeLayout.tuple (head := head) ((ih hc).1 h1)
        rwa [h2] at this
      · intro h
        cases h with
        | tuple h1 => exact ⟨_, _, (ih hc).2 h1, rfl⟩

theorem inBounds_unsigned_iff {n : Nat} {i : Int} : inBounds .unsigned n i = true ↔ 0 ≤ i ∧ i < 2 ^ (8 * n) := by
  simp [inBounds]

section
variable {M PE AE F : Type} [T : Target] [DecidableEq PE] [Memory M (AllocId × PE) F]
  [SoftMem M (AllocId × PE) F] [B : BasicBacked M PE AE F]
variable {s s' : Machine M (AllocId × PE) F} {prog : Program}
include B

theorem dereferenceable_ok_iff {h : MemHistory PE} {m : M} (hr : MemReach (F := F) h m) {p : ThinPtr (AllocId × PE)} {n} :
    Memory.dereferenceable (F := F) m p n = .ok () ↔ n = 0 ∨ Accessible h p n := by
  have he := B.dereferenceable m p n
  constructor
  · intro hd
    rw [hd] at he
    cases hc : (B.mem m).checkPtr p n with
    | error e => rw [hc] at he; cases he
    | ok r =>
      cases r with
      | none => exact .inl (BasicMem.checkPtr_eq_none.1 hc)
      | some r =>
        obtain ⟨_, id, pe, a, off, _, h1⟩ := BasicMem.checkPtr_eq_some.1 hc
        exact .inr ((fits_iff hr).1 ⟨id, pe, a, off, h1⟩)
  · intro hc
    rw [← fits_iff hr] at hc
    obtain ⟨r, hr'⟩ := BasicMem.checkPtr_ok hc
    rw [hr'] at he
    rw [he]; rfl

/-- Looking up vtables in this state finds those of the program, and pointers to them are in range. -/
structure Machine.VTablesOk (s : Machine M (AllocId × PE) F) : Prop where
  found : ∀ p v, s.vtableFromPtr p = .ok v ↔ s.VTableAt p v
  missing : ∀ p, (∀ v, ¬ s.VTableAt p v) → s.vtableFromPtr p = .error .ub
  addr : ∀ p v, s.VTableAt p v → 0 ≤ p.addr ∧ p.addr < 2 ^ (8 * T.ptrSize)

theorem vtablesOk_of_reachable (hu : prog.KeysUnique) (hr : Reachable prog s) : s.VTablesOk := by
  refine ⟨fun p v => (C55_vtable_lookup hu hr p).1 v, fun p h => (C55_vtable_lookup hu hr p).2.1.1 h, fun p v hv => ?_⟩
  obtain ⟨h, hm⟩ := hr.memReach
  have sp := C55_statics_placed hu hr hm
  obtain ⟨name, hg, _⟩ := hv
  obtain ⟨_, n, a, hi⟩ := sp.vtables.only _ _ (Map.get?_mem hg)
  obtain ⟨q, hq, id, _, hl⟩ := sp.vtables.has _ _ _ hi
  rw [hg] at hq; cases hq
  obtain ⟨h1, _, h2, _⟩ := C16_placement hm hl
  simp only at h1 h2
  omega

omit [SoftMem M (AllocId × PE) F] B in
theorem Machine.VTablesOk.congr (h : s.VTablesOk) (h1 : s'.prog = s.prog) (h2 : s'.vtablePtrs = s.vtablePtrs) : s'.VTablesOk := by
  have e1 : s'.vtableFromPtr = s.vtableFromPtr := by unfold Machine.vtableFromPtr; rw [h1, h2]
  have e2 : s'.VTableAt = s.VTableAt := by unfold Machine.VTableAt; rw [h1, h2]
  constructor <;> rw [e2]
  · rw [e1]; exact h.found
  · rw [e1]; exact h.missing
  · exact h.addr

theorem vtableLookup_iff (hvt : s.VTablesOk) (p : ThinPtr (AllocId × PE)) (v : VTable) :
    s.vtableLookup p = .ok v ↔ s.VTableAt p v := by
  rw [← hvt.found]
  unfold Machine.vtableLookup Machine.vtableFromPtr
  cases findPtr s.vtablePtrs p with
  | none => constructor <;> (intro h; cases h)
  | some name => rfl

theorem checkVTablePtr_iff (hvt : s.VTablesOk) {p : ThinPtr (AllocId × PE)} {t} :
    (checkVTablePtr s.valEnv p t = .ok () ↔ ∃ v, s.VTableAt p v ∧ v.traitName = t) ∧
    (checkVTablePtr s.valEnv p t = .ok () ∨ checkVTablePtr s.valEnv p t = .error .ub) := by
  have l1 := hvt.found p
  have l2 := hvt.missing p
  unfold checkVTablePtr
  constructor
  · simp only [Res.bind_eq_ok, ensureUb_eq_ok, inBounds_unsigned_iff, beq_iff_eq]
    constructor
    · rintro ⟨_, _, v, h1, h2⟩; exact ⟨v, (l1 v).1 h1, h2⟩
    · rintro ⟨v, h1, h2⟩; exact ⟨(), hvt.addr _ _ h1, v, (l1 v).2 h1, h2⟩
  · cases hb : inBounds Signedness.unsigned T.ptrSize p.addr with
    | false => exact .inr rfl
    | true =>
      by_cases hv : ∃ v, s.VTableAt p v
      · obtain ⟨v, hv⟩ := hv
        have := (l1 v).2 hv
        simp only [Machine.valEnv, this, ensureUb_true]
        show ensureUb _ = _ ∨ ensureUb _ = _
        cases (v.traitName == t) <;> simp
      · have := l2 (fun v hv' => hv ⟨v, hv'⟩)
        simp only [Machine.valEnv, this, ensureUb_true]
        exact .inr rfl

theorem checkPtrMetadata_iff (hvt : s.VTablesOk) {m : Option (PtrMeta (AllocId × PE))} {k} :
    (checkPtrMetadata s.valEnv m k = .ok () ↔ s.MetaOk k m) ∧
    (checkPtrMetadata s.valEnv m k = .ok () ∨ checkPtrMetadata s.valEnv m k = .error .ub) := by
  have hub : ∀ {r : Res Unit} {Q : Prop}, r = .error .ub → ¬ Q → (r = .ok () ↔ Q) ∧ (r = .ok () ∨ r = .error .ub) := by
    rintro r Q rfl hq
    exact ⟨⟨(fun h => by cases h), fun h => absurd h hq⟩, .inr rfl⟩
  cases k with
  | none =>
    cases m with
    | none => exact ⟨⟨fun _ => rfl, fun _ => rfl⟩, .inl rfl⟩
    | some m => refine hub (by cases m <;> rfl) ?_; intro h; cases h
  | elementCount =>
    rcases m with _ | (c | p)
    · refine hub rfl ?_; rintro ⟨n, h, _⟩; cases h
    · unfold checkPtrMetadata
      refine ⟨?_, ?_⟩
      · rw [ensureUb_eq_ok]
        simp only [IntType.canRepresent, IntType.usize, inBounds_unsigned_iff, Machine.MetaOk]
        constructor
        · rintro ⟨h1, h2⟩
          obtain ⟨n, rfl⟩ := Int.eq_ofNat_of_zero_le h1
          exact ⟨n, rfl, by exact_mod_cast h2⟩
        · rintro ⟨n, h1, h2⟩
          cases h1
          exact ⟨by omega, by exact_mod_cast h2⟩
      · by_cases hc : IntType.usize.canRepresent c = true
        · exact .inl (ensureUb_eq_ok.2 hc)
        · rw [Bool.not_eq_true] at hc
          exact .inr (by show ensureUb _ = _; rw [hc]; rfl)
    · refine hub rfl ?_; rintro ⟨n, h, _⟩; cases h
  | vtablePointer t =>
    rcases m with _ | (c | p)
    · refine hub rfl ?_; rintro ⟨n, _, h, _⟩; cases h
    · refine hub rfl ?_; rintro ⟨n, _, h, _⟩; cases h
    · unfold checkPtrMetadata
      obtain ⟨h1, h2⟩ := checkVTablePtr_iff hvt (p := p) (t := t)
      refine ⟨h1.trans ?_, h2⟩
      constructor
      · rintro ⟨v, h3⟩; exact ⟨p, v, rfl, h3⟩
      · rintro ⟨q, v, h3, h4⟩; cases h3; exact ⟨v, h4⟩


theorem metaOk_count {k} {m : Option (PtrMeta (AllocId × PE))} (h : s.MetaOk k m) (c : Int)
    (hc : m = some (.elementCount c)) : 0 ≤ c := by
  subst hc
  cases k with
  | none => cases h
  | elementCount => obtain ⟨n, h, _⟩ := h; cases h; omega
  | vtablePointer t => obtain ⟨p, v, h, _⟩ := h; cases h

/-- The layout part of checking a reference. -/
theorem computeSizeAlign_iff (hvt : s.VTablesOk) {l : LayoutStrategy}
    {m : Option (PtrMeta (AllocId × PE))} {k} (hm : s.MetaOk k m) {n a} :
    (s.valEnv.computeSize l m = .ok n ∧ s.valEnv.computeAlign l m = .ok a) ↔ PointeeLayout s.VTableAt l m n a := by
  rw [← computeSizeAndAlign_iff (vtableLookup_iff hvt) (metaOk_count (B := B) hm)]
  unfold ValEnv.computeSize ValEnv.computeAlign
  show ((l.computeSizeAndAlign s.vtableLookup m >>= _) = _ ∧ (l.computeSizeAndAlign s.vtableLookup m >>= _) = _) ↔ _
  cases l.computeSizeAndAlign s.vtableLookup m with
  | error e =>
    constructor
    · rintro ⟨h, _⟩; cases h
    · intro h; cases h
  | ok r =>
    obtain ⟨n', a'⟩ := r
    constructor
    · rintro ⟨h1, h2⟩; cases h1; cases h2; rfl
    · intro h; cases h; exact ⟨rfl, rfl⟩


/-- The checks on references and boxes, `/repo/spec/lang/representation.md:512-526`. -/
def checkSafe (env : ValEnv (AllocId × PE)) (pointee : PointeeInfo) (ptr : Pointer (AllocId × PE)) : Res Unit := do
  let size ← env.computeSize pointee.layout ptr.metadata
  let align ← env.computeAlign pointee.layout ptr.metadata
  ensureUb (inBounds .signed T.ptrSize size)
  ensureUb (ptr.thin.addr != 0)
  ensureUb (align.isAligned ptr.thin.addr)
  ensureUb pointee.inhabited
  ensureUb (← isOk (env.dereferenceable ptr.thin size))

theorem checkSafe_iff (hvt : s.VTablesOk) {h : MemHistory PE}
    (hm : MemReach (F := F) h s.mem.memory) {ptr : Pointer (AllocId × PE)} {pointee : PointeeInfo} {k}
    (hmo : s.MetaOk k ptr.metadata) : checkSafe s.valEnv pointee ptr = .ok () ↔ s.SafePtr h pointee ptr := by
  unfold checkSafe Machine.SafePtr
  simp only [Res.bind_eq_ok, ensureUb_eq_ok]
  constructor
  · rintro ⟨size, h1, align, h2, _, h3, _, h4, _, h5, _, h6, b, h7, rfl⟩
    refine ⟨size, align, (computeSizeAlign_iff hvt hmo).1 ⟨h1, h2⟩, ?_, by simpa using h4,
      (Align.isAligned_iff _ _).1 h5, h6, ?_⟩
    · simp only [inBounds, decide_eq_true_eq] at h3
      have := h3.2
      exact_mod_cast this
    · obtain ⟨_, h8⟩ := isOk_eq_ok_true.1 h7
      exact (dereferenceable_ok_iff hm).1 h8
  · rintro ⟨size, align, h1, h2, h3, h4, h5, h6⟩
    obtain ⟨g1, g2⟩ := (computeSizeAlign_iff hvt hmo).2 h1
    refine ⟨size, g1, align, g2, (), ?_, (), by simpa using h3, (), (Align.isAligned_iff _ _).2 h4, (), h5, true,
      isOk_eq_ok_true.2 ⟨(), (dereferenceable_ok_iff hm).2 h6⟩, rfl⟩
    simp only [inBounds, decide_eq_true_eq]
    refine ⟨?_, by exact_mod_cast h2⟩
    have : (0:Int) ≤ 2 ^ (8 * T.ptrSize) := by positivity
    omega

theorem metaFor_of_metaOk (hvt : s.VTablesOk) {k} {m : Option (PtrMeta (AllocId × PE))}
    (h : s.MetaOk k m) : MetaFor s.vtableLookup k m := by
  cases k with
  | none => exact h
  | elementCount => obtain ⟨n, h, _⟩ := h; exact ⟨n, by omega, h⟩
  | vtablePointer t =>
    obtain ⟨p, v, h1, h2, _⟩ := h
    exact ⟨p, v, h1, (vtableLookup_iff hvt p v).2 h2⟩

theorem checkSafe_ub (hvt : s.VTablesOk) {h : MemHistory PE}
    (hm : MemReach (F := F) h s.mem.memory) {ptr : Pointer (AllocId × PE)} {pointee : PointeeInfo}
    (hmo : s.MetaOk pointee.layout.metaKind ptr.metadata) (hg : Genuine h ptr.thin)
    (hw : pointee.layout.checkWf prog = .ok ()) :
    checkSafe s.valEnv pointee ptr = .ok () ∨ checkSafe s.valEnv pointee ptr = .error .ub := by
  obtain ⟨n, a, hc⟩ := LayoutStrategy.computed_total hw (metaFor_of_metaOk hvt hmo)
  have h1 : s.valEnv.computeSize pointee.layout ptr.metadata = .ok n := by
    unfold ValEnv.computeSize; show (pointee.layout.computeSizeAndAlign s.vtableLookup _ >>= _) = _; rw [hc]; rfl
  have h2 : s.valEnv.computeAlign pointee.layout ptr.metadata = .ok a := by
    unfold ValEnv.computeAlign; show (pointee.layout.computeSizeAndAlign s.vtableLookup _ >>= _) = _; rw [hc]; rfl
  have hd : ∃ b, isOk (s.valEnv.dereferenceable ptr.thin n) = .ok b := by
    obtain ⟨d1, d2⟩ := C18_dereferenceable_exact hm hg (n := n)
    by_cases hx : n = 0 ∨ Accessible h ptr.thin n
    · exact ⟨true, isOk_eq_ok_true.2 ⟨_, d1.2 hx⟩⟩
    · exact ⟨false, isOk_eq_ok_false.2 ⟨_, d2.2 hx, by simp, by simp⟩⟩
  obtain ⟨b, hb⟩ := hd
  have step : ∀ {b : Bool} {r : Res Unit}, (r = .ok () ∨ r = .error .ub) →
      ((ensureUb b >>= fun _ => r) = .ok () ∨ (ensureUb b >>= fun _ => r) = .error .ub) := by
    intro b r hr
    cases b with
    | true => exact hr
    | false => exact .inr rfl
  unfold checkSafe
  rw [h1, h2]
  refine step (step (step (step ?_)))
  show (isOk (s.valEnv.dereferenceable ptr.thin n) >>= _) = _ ∨ (isOk (s.valEnv.dereferenceable ptr.thin n) >>= _) = _
  rw [hb]
  cases b with
  | true => exact .inl rfl
  | false => exact .inr rfl

theorem checkPtr_ref {env : ValEnv (AllocId × PE)} {ptr : Pointer (AllocId × PE)} {ty : PtrType} :
    checkPtr env ptr ty = (do
      ensureUb (inBounds .unsigned T.ptrSize ptr.thin.addr)
      checkPtrMetadata env ptr.metadata ty.metaKind
      match ty with
      | .ref _ p => checkSafe env p ptr
      | .box p => checkSafe env p ptr
      | .vtablePtr t => do
        let vt ← env.vtableFromPtr ptr.thin
        ensureUb (vt.traitName == t)
      | _ => .ok ()) := by
  unfold checkPtr
  cases ty <;> rfl

theorem checkPtr_iff (hvt : s.VTablesOk) {h : MemHistory PE}
    (hm : MemReach (F := F) h s.mem.memory) {ptr : Pointer (AllocId × PE)} {ty : PtrType} :
    checkPtr s.valEnv ptr ty = .ok () ↔ s.ValidPtr h ptr ty := by
  rw [checkPtr_ref (B := B)]
  unfold Machine.ValidPtr
  simp only [Res.bind_eq_ok, ensureUb_eq_ok, inBounds_unsigned_iff, exists_const]
  rw [and_assoc]
  refine and_congr Iff.rfl (and_congr Iff.rfl ?_)
  have vt : ∀ t, ((do
        let vt ← s.valEnv.vtableFromPtr ptr.thin
        ensureUb (vt.traitName == t)) = (.ok () : Res Unit)) ↔ ∃ v, s.VTableAt ptr.thin v ∧ v.traitName = t := by
    intro t
    simp only [Res.bind_eq_ok, ensureUb_eq_ok, beq_iff_eq]
    exact exists_congr fun v => and_congr (hvt.found ptr.thin v) Iff.rfl
  constructor
  · rintro ⟨_, h1, h2⟩
    have hmo := (checkPtrMetadata_iff hvt).1.1 h1
    refine ⟨hmo, ?_⟩
    cases ty with
    | ref mu p => exact (checkSafe_iff hvt hm hmo).1 h2
    | box p => exact (checkSafe_iff hvt hm hmo).1 h2
    | raw k => trivial
    | fnPtr => trivial
    | vtablePtr t => exact (vt t).1 h2
  · rintro ⟨hmo, h2⟩
    refine ⟨(), (checkPtrMetadata_iff hvt).1.2 hmo, ?_⟩
    cases ty with
    | ref mu p => exact (checkSafe_iff hvt hm hmo).2 h2
    | box p => exact (checkSafe_iff hvt hm hmo).2 h2
    | raw k => rfl
    | fnPtr => rfl
    | vtablePtr t => exact (vt t).2 h2

theorem checkPtr_ub (hvt : s.VTablesOk) {h : MemHistory PE}
    (hm : MemReach (F := F) h s.mem.memory) {ptr : Pointer (AllocId × PE)} {ty : PtrType}
    (hg : Genuine h ptr.thin) (hw : ty.checkWf prog = .ok ()) :
    checkPtr s.valEnv ptr ty = .ok () ∨ checkPtr s.valEnv ptr ty = .error .ub := by
  rw [checkPtr_ref (B := B)]
  cases hb : inBounds Signedness.unsigned T.ptrSize ptr.thin.addr with
  | false => exact .inr rfl
  | true =>
    rw [ensureUb_true]
    obtain ⟨m1, m2⟩ := checkPtrMetadata_iff hvt (m := ptr.metadata) (k := ty.metaKind)
    rcases m2 with m2 | m2
    · rw [m2]
      have hmo := m1.1 m2
      have wf : ∀ p : PointeeInfo, p.checkWf prog = .ok () → p.layout.checkWf prog = .ok () := by
        intro p hp; unfold PointeeInfo.checkWf at hp; obtain ⟨_, h1, _⟩ := Res.bind_eq_ok.1 hp; exact h1
      cases ty with
      | ref mu p => exact checkSafe_ub hvt hm hmo hg (wf p hw)
      | box p => exact checkSafe_ub hvt hm hmo hg (wf p hw)
      | raw k => exact .inl rfl
      | fnPtr => exact .inl rfl
      | vtablePtr t =>
        have l1 := hvt.found ptr.thin
        have l2 := hvt.missing ptr.thin
        by_cases hv : ∃ v, s.VTableAt ptr.thin v
        · obtain ⟨v, hv⟩ := hv
          have : s.valEnv.vtableFromPtr ptr.thin = .ok v := (l1 v).2 hv
          show (s.valEnv.vtableFromPtr ptr.thin >>= _) = _ ∨ (s.valEnv.vtableFromPtr ptr.thin >>= _) = _
          rw [this]
          show ensureUb _ = _ ∨ ensureUb _ = _
          cases (v.traitName == t) <;> simp
        · have : s.valEnv.vtableFromPtr ptr.thin = .error .ub := l2 (fun v hv' => hv ⟨v, hv'⟩)
          show (s.valEnv.vtableFromPtr ptr.thin >>= _) = _ ∨ (s.valEnv.vtableFromPtr ptr.thin >>= _) = _
          rw [this]
          exact .inr rfl
    · rw [m2]; exact .inr rfl

/-! ### Values of any type -/

theorem intFits_iff {t : IntType} {i : Int} : t.canRepresent i = true ↔ t.Fits i := by
  obtain ⟨sg, n⟩ := t
  cases sg <;> simp [IntType.canRepresent, IntType.Fits, inBounds]

theorem checkChunks_iff {data : List (List (AByte (AllocId × PE)))} {chunks : List (Nat × Nat)}
    (hl : data.length = chunks.length) : checkChunks data chunks = .ok () ↔ data.map (·.length) = chunks.map (·.2) := by
  induction data generalizing chunks with
  | nil => cases chunks with
    | nil => simp [checkChunks]
    | cons => simp at hl
  | cons d data ih => cases chunks with
    | nil => simp at hl
    | cons c chunks =>
      obtain ⟨o, n⟩ := c
      simp only [List.length_cons, Nat.add_right_cancel_iff] at hl
      simp [checkChunks, Res.bind_eq_ok, ih hl]

theorem checkElems_iff {chk : Value (AllocId × PE) → Res Unit} {vs : List (Value (AllocId × PE))} :
    checkElems chk vs = .ok () ↔ ∀ v ∈ vs, chk v = .ok () := by
  induction vs with
  | nil => simp [checkElems]
  | cons v vs ih =>
    simp only [checkElems, Res.bind_eq_ok, ih, List.mem_cons, forall_eq_or_imp]
    constructor
    · rintro ⟨_, h1, h2⟩; exact ⟨h1, h2⟩
    · rintro ⟨h1, h2⟩; exact ⟨(), h1, h2⟩

variable (hvt : s.VTablesOk) {h : MemHistory PE} (hm : MemReach (F := F) h s.mem.memory)
include hvt hm
mutual
theorem checkValue_iff : ∀ (ty : Ty) (v : Value (AllocId × PE)), checkValue s.valEnv ty v = .ok () ↔ s.ValidValue h ty v
  | .int ity, v => by
    cases v <;> unfold checkValue
    case int i =>
      rw [ensureUb_eq_ok, intFits_iff (B := B)]
      exact ⟨.int, fun h => by cases h; assumption⟩
    all_goals exact ⟨(fun h => by cases h), (fun h => by cases h)⟩
  | .bool, v => by
    cases v <;> unfold checkValue
    case bool b => exact ⟨fun _ => .bool, fun _ => rfl⟩
    all_goals exact ⟨(fun h => by cases h), (fun h => by cases h)⟩
  | .ptr p, v => by
    cases v <;> unfold checkValue
    case ptr ptr =>
      rw [checkPtr_iff hvt hm]
      exact ⟨.ptr, fun h => by cases h; assumption⟩
    all_goals exact ⟨(fun h => by cases h), (fun h => by cases h)⟩
  | .tuple fields head u, v => by
    cases v <;> unfold checkValue
    case tuple vs =>
      cases u with
      | some t =>
        refine ⟨(fun h => ?_), (fun h => by cases h)⟩
        simp [Res.bind_eq_ok] at h
      | none =>
        simp only [Res.bind_eq_ok, ensureUb_eq_ok, beq_iff_eq, rassert_eq_ok, Option.isNone_none, exists_const, true_and]
        constructor
        · rintro ⟨h1, h2⟩
          exact .tuple h1 ((checkFields_iff fields vs h1).1 h2)
        · intro h
          cases h with
          | tuple h1 h2 => exact ⟨h1, (checkFields_iff fields vs h1).2 h2⟩
    all_goals exact ⟨(fun h => by cases h), (fun h => by cases h)⟩
  | .array elem count, v => by
    cases v <;> unfold checkValue
    case tuple vs =>
      simp only [Res.bind_eq_ok, ensureUb_eq_ok, beq_iff_eq, exists_const, checkElems_iff (B := B)]
      constructor
      · rintro ⟨h1, h2⟩
        exact .array h1 fun v hv => (checkValue_iff elem v).1 (h2 v hv)
      · intro h
        cases h with
        | array h1 h2 => exact ⟨h1, fun v hv => (checkValue_iff elem v).2 (h2 v hv)⟩
    all_goals exact ⟨(fun h => by cases h), (fun h => by cases h)⟩
  | .union fields chunks size align, v => by
    cases v <;> unfold checkValue
    case union data =>
      simp only [Res.bind_eq_ok, ensureUb_eq_ok, beq_iff_eq, exists_const]
      constructor
      · rintro ⟨h1, h2⟩
        exact .union ((checkChunks_iff (B := B) h1).1 h2)
      · intro h
        cases h with
        | union h1 =>
          have hl : data.length = chunks.length := by simpa using congrArg List.length h1
          exact ⟨hl, (checkChunks_iff (B := B) hl).2 h1⟩
    all_goals exact ⟨(fun h => by cases h), (fun h => by cases h)⟩
  | .enum variants dty disc size align, v => by
    cases v <;> unfold checkValue
    case variant d data =>
      rw [checkVariant_iff variants d data]
      constructor
      · rintro ⟨ty, tg, h1, h2⟩; exact .variant h1 h2
      · intro h
        cases h with
        | variant h1 h2 => exact ⟨_, _, h1, h2⟩
    all_goals exact ⟨(fun h => by cases h), (fun h => by cases h)⟩
  | .slice _, v => by
    cases v <;> unfold checkValue <;> exact ⟨(fun h => by cases h), (fun h => by cases h)⟩
  | .traitObject _, v => by
    cases v <;> unfold checkValue <;> exact ⟨(fun h => by cases h), (fun h => by cases h)⟩
theorem checkFields_iff : ∀ (fields : List (Nat × Ty)) (vs : List (Value (AllocId × PE))), vs.length = fields.length →
    (checkFields s.valEnv fields vs = .ok () ↔
      ∀ (i : Nat) off ty v, fields[i]? = some (off, ty) → vs[i]? = some v → s.ValidValue h ty v)
  | [], [], _ => by simp [checkFields]
  | [], _ :: _, hl => by simp at hl
  | _ :: _, [], hl => by simp at hl
  | (off, ty) :: fields, v :: vs, hl => by
    simp only [List.length_cons, Nat.add_right_cancel_iff] at hl
    simp only [checkFields, Res.bind_eq_ok, checkValue_iff ty v, checkFields_iff fields vs hl, exists_const]
    constructor
    · rintro ⟨h1, h2⟩ i off' ty' v' h3 h4
      cases i with
      | zero => simp at h3 h4; obtain ⟨rfl, rfl⟩ := h3; subst h4; exact h1
      | succ i => exact h2 i off' ty' v' (by simpa using h3) (by simpa using h4)
    · intro h0
      exact ⟨h0 0 off ty v (by simp) (by simp), fun i off' ty' v' h3 h4 => h0 (i+1) off' ty' v' (by simpa using h3) (by simpa using h4)⟩
theorem checkVariant_iff : ∀ (variants : List (Int × (Ty × Tagger))) (d : Int) (v : Value (AllocId × PE)),
    checkVariant s.valEnv variants d v = .ok () ↔
      ∃ ty tagger, Map.get? variants d = some (ty, tagger) ∧ s.ValidValue h ty v
  | [], d, v => by simp [checkVariant, Map.get?]
  | (d', (ty, tg)) :: rest, d, v => by
    simp only [checkVariant, Map.get?]
    split
    · rw [checkValue_iff ty v]
      constructor
      · intro h; exact ⟨ty, tg, rfl, h⟩
      · rintro ⟨_, _, h1, h2⟩; cases h1; exact h2
    · exact checkVariant_iff rest d v
end
end

theorem Ty.ptr_checkWf [T : Target] {prog : Program} {ty : Ty} : ∀ {p}, ty.checkWf prog = .ok () →
    Component (.ptr p) ty → p.checkWf prog = .ok () := by
  intro p hwf hc
  induction hc with
  | refl =>
    simp only [Ty.checkWf, Res.bind_eq_ok] at hwf
    obtain ⟨_, h, _⟩ := hwf; exact h
  | @field fs hd tl f hf _ ih =>
    refine ih ?_
    cases tl with
    | none =>
      simp only [Ty.checkWf, Res.bind_eq_ok] at hwf
      obtain ⟨b, h1, _⟩ := hwf
      exact ((tupleFields_ok h1).1 f hf).1
    | some tl =>
      simp only [Ty.checkWf, Res.bind_eq_ok] at hwf
      obtain ⟨b, h1, _⟩ := hwf
      exact ((tupleFields_ok h1).1 f hf).1
  | elem _ ih =>
    refine ih ?_
    simp only [Ty.checkWf, Res.bind_eq_ok] at hwf
    obtain ⟨_, _, _, _, _, _, _, h, _⟩ := hwf; exact h
  | @variant vs dt disc s a v hv _ ih =>
    refine ih ?_
    simp only [Ty.checkWf, Res.bind_eq_ok] at hwf
    obtain ⟨_, h1, _⟩ := hwf
    exact (checkVariants_ok h1 v hv).2.1

section
variable {M PE AE F : Type} [T : Target] [DecidableEq PE] [Memory M (AllocId × PE) F]
  [LawfulTarget T] [SoftMem M (AllocId × PE) F] [B : BasicBacked M PE AE F]
variable {s s' : Machine M (AllocId × PE) F} {prog : Program}
include B

theorem checkElems_okOrUb {chk : Value (AllocId × PE) → Res Unit} {vs : List (Value (AllocId × PE))}
    (h : ∀ v ∈ vs, chk v = .ok () ∨ chk v = .error .ub) : checkElems chk vs = .ok () ∨ checkElems chk vs = .error .ub := by
  induction vs with
  | nil => exact .inl rfl
  | cons v vs ih =>
    simp only [checkElems]
    rcases h v (by simp) with h1 | h1
    · rw [h1]; exact ih fun w hw => h w (by simp [hw])
    · rw [h1]; exact .inr rfl

/-- Checking a decoded value whose provenance is all real gives success or UB, never a panic. -/
theorem checkValue_okOrUb (hvt : s.VTablesOk) {h : MemHistory PE}
    (hm : MemReach (F := F) h s.mem.memory) {ty : Ty} (hg : ty.Good)
    (hp : ∀ p, Component (.ptr p) ty → p.checkWf prog = .ok ()) {bs : List (AByte (AllocId × PE))}
    {v : Value (AllocId × PE)} (hd : decode ty bs = .ok v)
    (hv : ∀ p, ProvIn p v → ∃ i, WasAllocated h p.1 i) :
    checkValue s.valEnv ty v = .ok () ∨ checkValue s.valEnv ty v = .error .ub := by
  have hlen := decode_length_good hg hd
  induction hg generalizing bs v with
  | int hpow =>
    simp only [decode, Res.bind_eq_ok, Except.ok.injEq] at hd
    obtain ⟨n, h, rfl⟩ := hd
    simp [checkValue, decodeInt_canRepresent h]
  | bool =>
    simp only [decode, Res.bind_eq_ok, Except.ok.injEq] at hd
    obtain ⟨n, h, rfl⟩ := hd
    exact .inl rfl
  | @ptr p =>
    have key : ∃ q, v = .ptr q := by
      simp only [decode] at hd
      by_cases hk : p.metaKind = .none
      · rw [decodePtrTy_thin hk, Res.bind_eq_ok] at hd
        obtain ⟨q, _, hv⟩ := hd
        cases hv; exact ⟨_, rfl⟩
      · rw [decodePtrTy_wide hk _ (by rw [hlen]; simp [Ty.sz, hk])] at hd
        simp only [Res.bind_eq_ok, Except.ok.injEq] at hd
        obtain ⟨q, h1, m, h2, rfl⟩ := hd
        exact ⟨_, rfl⟩
    obtain ⟨q, rfl⟩ := key
    unfold checkValue
    refine checkPtr_ub hvt hm ?_ (hp p .refl)
    intro id hid
    obtain ⟨pe, hpe⟩ := hid
    exact hv _ (.thin hpe)
  | @tuple fs hd' hgf _ _ ih =>
    simp only [decode, Res.bind_eq_ok, Except.ok.injEq] at hd
    obtain ⟨-, -, vs, h, rfl⟩ := hd
    have key : ∀ fs' vs', (∀ f ∈ fs', f ∈ fs) → (∀ v ∈ vs', v ∈ vs) → decodeFields fs' bs = .ok vs' →
        vs'.length = fs'.length ∧ (checkFields s.valEnv fs' vs' = .ok () ∨ checkFields s.valEnv fs' vs' = .error .ub) := by
      intro fs'
      induction fs' with
      | nil => intro vs' _ _ h; simp [decodeFields] at h; subst h; simp [checkFields]
      | cons f fs' ihf =>
        intro vs' hsub hsubv h
        obtain ⟨o, t⟩ := f
        have hm := hsub _ List.mem_cons_self
        simp only [decodeFields, (hgf _ hm).size, Res.bind_ok, Res.bind_eq_ok, Except.ok.injEq] at h
        obtain ⟨b, hb, v, hv', vs'', hvs, rfl⟩ := h
        obtain ⟨h1, h2⟩ := ihf vs'' (fun f hf => hsub f (List.mem_cons_of_mem _ hf))
          (fun f hf => hsubv f (List.mem_cons_of_mem _ hf)) hvs
        refine ⟨by simp [h1], ?_⟩
        simp only [checkFields]
        rcases ih _ hm (fun p hpc => hp p (.field hm hpc)) hv' (fun p hpi => hv p (.elem (hsubv _ List.mem_cons_self) hpi))
          (subslice_length hb) with h3 | h3
        · simp only at h3; rw [h3]; exact h2
        · simp only at h3; rw [h3]; exact .inr rfl
    obtain ⟨h1, h2⟩ := key fs vs (fun _ h => h) (fun _ h => h) h
    simpa [checkValue, h1] using h2
  | @array e n hn he ih =>
    simp only [decode, he.size, sizeMul_ok hn, Res.bind_ok, Res.bind_eq_ok, Except.ok.injEq] at hd
    obtain ⟨-, -, vs, h, rfl⟩ := hd
    obtain ⟨h1, h2⟩ := decodeElems_spec h
    simp only [checkValue]
    have : ((vs.length : Int) == n) = true := by rw [beq_iff_eq, h1]; omega
    rw [this]
    simp only [ensureUb_true, Res.bind_ok]
    apply checkElems_okOrUb (B := B)
    intro v hv'
    obtain ⟨b, hb⟩ := h2 v hv'
    exact ih (fun p hpc => hp p (.elem hpc)) hb (fun p hpi => hv p (.elem hv' hpi)) (decode_length_good he hb)
  | union =>
    simp only [decode, Res.bind_eq_ok, Except.ok.injEq] at hd
    obtain ⟨-, -, ds, h, rfl⟩ := hd
    obtain ⟨h1, h2⟩ := decodeChunks_spec h
    simp [checkValue, h1, h2]
  | @enum vs dt disc s a hgv hsz _ _ _ ih =>
    simp only [Ty.sz] at hlen
    simp only [decode_enum_eq hlen, Res.bind_eq_ok] at hd
    obtain ⟨o, -, hd⟩ := hd
    cases o with
    | none => cases hd
    | some d =>
      simp only [Res.bind_eq_ok, Except.ok.injEq] at hd
      obtain ⟨w, hw, rfl⟩ := hd
      rw [decodeVariant_eq] at hw
      simp only [checkValue, checkVariant_eq]
      cases hgt : Map.get? vs d with
      | none => rw [hgt] at hw; cases hw
      | some x =>
        rw [hgt] at hw
        have hm' := Map.get?_mem hgt
        exact ih _ hm' (fun p hpc => hp p (.variant hm' hpc)) hw (fun p hpi => hv p (.variant hpi)) (by rw [hlen, hsz _ hm'])

end
end MiniRust
