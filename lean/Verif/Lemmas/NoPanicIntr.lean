import Verif.Lemmas.NoPanicCall
/-
Intrinsics of well-formed tame programs do not panic and return valid values.
-/
set_option linter.unusedSectionVars false
namespace MiniRust
variable {M PE AE F : Type} [T : Target] [DecidableEq PE] [Memory M (AllocId × PE) F] [LawfulTarget T]
  [SoftMem M (AllocId × PE) F] [RawRetag M (AllocId × PE) F] [B : BasicBacked M PE AE F]
variable {s s' : Machine M (AllocId × PE) F} {prog : Program} {fn : Function}

include B

/-- The value is valid at the type of the return place. -/
abbrev RetOk (ty : Ty) (v : Value (AllocId × PE)) (s : Machine M (AllocId × PE) F) : Prop := checkValue s.valEnv ty v = .ok ()

omit B [RawRetag M (AllocId × PE) F] in
theorem Np.requireUb {pl : Prop} {b : Bool} : Np pl s (requireUb b : EM M (AllocId × PE) F _) (fun _ s' => b = true ∧ s' = s) := by
  cases b
  · exact ⟨(fun _ h => by cases h), (fun _ _ h => by cases h)⟩
  · exact ⟨(fun _ h => by cases h), (fun _ _ h => by cases h; exact ⟨rfl, rfl⟩)⟩

omit B [RawRetag M (AllocId × PE) F] in
theorem Np.require {pl : Prop} {α : Type} {b : Bool} {x : EM M (AllocId × PE) F α} {Q} (h : b = true → Np pl s x Q) :
    Np pl s (MiniRust.requireUb b >>= fun _ => x) Q :=
  .bind .requireUb fun _ _ _ ⟨hb, e⟩ => by rw [e]; exact h hb

omit B [RawRetag M (AllocId × PE) F] in
theorem Np.bindRes {pl : Prop} {α β : Type} {r : Res α} {Q' : α → Prop} {f : α → EM M (AllocId × PE) F β} {Q} (h : NpR pl r Q')
    (hf : ∀ a, Q' a → Np pl s (f a) Q) : Np pl s (EM.lift r >>= f) Q :=
  .bindLift h.1 fun a ha => hf a (h.2 a ha)

section
omit B [RawRetag M (AllocId × PE) F] [LawfulTarget T] [SoftMem M (AllocId × PE) F] [Memory M (AllocId × PE) F] [DecidableEq PE] [T : Target]
theorem NpR.intArg {pl : Prop} {a : Value (AllocId × PE) × Ty} : NpR pl (intArg a) (fun i => a.1 = .int i) := by
  obtain ⟨v, ty⟩ := a
  cases v <;> first | exact .ub | exact .ok rfl
theorem NpR.boolArg {pl : Prop} {a : Value (AllocId × PE) × Ty} : NpR pl (boolArg a) (fun i => a.1 = .bool i) := by
  obtain ⟨v, ty⟩ := a
  cases v <;> first | exact .ub | exact .ok rfl
theorem NpR.thinPtrArg {pl : Prop} {a : Value (AllocId × PE) × Ty} : NpR pl (thinPtrArg a) (fun i => a.1 = .ptr ⟨i, none⟩) := by
  obtain ⟨v, ty⟩ := a
  cases v with
  | ptr p => obtain ⟨t, m⟩ := p; cases m <;> first | exact .ub | exact .ok rfl
  | _ => exact .ub
theorem NpR.sizeArg {pl : Prop} {i : Int} : NpR pl (sizeArg i) (fun _ => True) := by
  unfold MiniRust.sizeArg
  split
  · exact .ok trivial
  · exact .ub
theorem NpR.alignArg {pl : Prop} {i : Int} : NpR pl (alignArg i) (fun _ => True) := by
  unfold MiniRust.alignArg
  split
  · exact .ub
  · split
    · exact .ok trivial
    · exact .ub
theorem NpR.evalPrint {pl : Prop} : ∀ (as : List (Value (AllocId × PE) × Ty)), NpR pl (evalPrint as) (fun _ => True)
  | [] => .ok trivial
  | (v, ty) :: as => by
    cases v with
    | int i => exact .bind (NpR.evalPrint as) fun _ _ _ => .ok trivial
    | bool i => exact .bind (NpR.evalPrint as) fun _ _ _ => .ok trivial
    | _ => exact .ub
theorem NpR.bytesDataUb {pl : Prop} {bs : List (AByte (AllocId × PE))} : NpR pl (bytesDataUb bs) (fun _ => True) := by
  unfold MiniRust.bytesDataUb
  have : bytesData bs ≠ .error .panic := by
    induction bs with
    | nil => simp [bytesData]
    | cons b bs ih =>
      cases b with
      | uninit => simp [bytesData, AByte.data]
      | init v p =>
        simp only [bytesData]
        intro h
        simp only [AByte.data, Res.bind_eq_error, Res.bind_eq_ok] at h
        cases hb : bytesData bs with
        | ok => rw [hb] at h; cases h
        | error e => rw [hb] at h ih; simp only [Except.error.injEq] at h; subst h; exact ih rfl
  split
  · exact .ub
  · exact ⟨fun _ => this, fun _ _ => trivial⟩
end

omit B [RawRetag M (AllocId × PE) F] in
theorem RetOk.unit {s' : Machine M (AllocId × PE) F} {rt : Ty} (h : decide (rt = unitTy) = true) : RetOk (PE := PE) rt unitValue s' := by
  have := of_decide_eq_true h
  subst this
  exact checkValue_unit.2 rfl

theorem ArgOk.thin (hr : Ready prog fn s) {a : Value (AllocId × PE) × Ty} {p} (h : ArgOk prog s a) (e : a.1 = .ptr ⟨p, none⟩) :
    InSpace p ∧ PK made (cnt s) p := by
  obtain ⟨v, ty⟩ := a
  dsimp only at e; subst e
  have hk : VK made (cnt s) (.ptr ⟨p, none⟩) := h.1.known
  refine ⟨?_, VK.thin hk⟩
  have hv := h.1.valid
  dsimp only at hv
  cases ty with
  | ptr pt => exact (validPtr_meta hr.toBase hv).1
  | _ => simp [checkValue] at hv

omit B [RawRetag M (AllocId × PE) F] [LawfulTarget T] [SoftMem M (AllocId × PE) F] [Memory M (AllocId × PE) F] [DecidableEq PE] [T : Target] in
theorem IntType.canRepresent_unsigned {n : Nat} {i : Int} : (⟨.unsigned, n⟩ : IntType).canRepresent i = true ↔ 0 ≤ i ∧ i < 2 ^ (8 * n) := by
  unfold IntType.canRepresent
  exact inBounds_unsigned_iff

/-! ### One theorem per intrinsic -/
variable {as : List (Value (AllocId × PE) × Ty)} {rt : Ty}

theorem Np.intrinsicExpose (hr : Ready prog fn s) (ha : ∀ a ∈ as, ArgOk prog s a) :
    Np (PlainMem M) s (intrinsicExpose as rt) (RetOk rt) := by
  unfold MiniRust.intrinsicExpose
  split
  · refine .bindRes .thinPtrArg fun p hp => .require fun h => .bind (.modify (Q := fun _ _ => True) trivial) fun _ s1 h1 _ => .pure ?_
    have := of_decide_eq_true h
    subst this
    obtain ⟨⟨h1, h2⟩, _⟩ := (ha _ (by simp)).thin hr hp
    refine checkValue_int.2 ⟨_, rfl, IntType.canRepresent_unsigned.2 ⟨h1, h2⟩⟩
  · exact .throw (fun _ h => by cases h)

theorem Np.intrinsicWithExposed (hr : Ready prog fn s) (ha : ∀ a ∈ as, ArgOk prog s a)
    (ht : IntrinsicOp.Tame (as.map (·.2)) rt .pointerWithExposedProvenance) :
    Np (PlainMem M) s (intrinsicWithExposed as rt) (RetOk rt) := by
  unfold MiniRust.intrinsicWithExposed
  split
  · rename_i arg
    refine .bindRes .intArg fun i hi => .require fun h => ?_
    refine .bind (Q := fun _ s1 => Base prog s1) ?_ fun p s1 _ hb => ?_
    · refine ⟨fun _ h => ?_, fun p s1 h => ?_⟩
      · unfold EM.popProv at h
        split at h <;> cases h
      · exact (Base.ofQuiet tri_popProv (Kt.popProv (R := fun _ _ => True) (fun _ _ => trivial)) hr.toBase h).1
    refine .bindRead (fun _ h => ?_) fun q hq => .pure ?_
    · unfold IntPtrCast.int2ptr at h
      simp only at h
      split at h
      · cases h
      · split at h <;> cases h
    · have hq' : q.addr = i := by
        unfold IntPtrCast.int2ptr at hq
        simp only at hq
        split at hq
        · cases hq; rfl
        · split at hq <;> cases hq
          rfl
      obtain ⟨h1, h2⟩ := ht
      cases rt with
      | ptr p =>
        refine validPtr_plain hb (h1 p rfl) ?_ ?_
        · obtain ⟨v, ty⟩ := arg
          have hv := (ha (v, ty) (by simp)).1.valid
          dsimp only at hv hi
          subst hi
          cases ty with
          | int t =>
            obtain ⟨_, e, hc⟩ := checkValue_int.1 hv
            cases e
            obtain ⟨e1, e2⟩ := h2 (.int t) (by simp) t rfl
            obtain ⟨sg, sz⟩ := t
            dsimp only at e1 e2
            subst e1
            obtain ⟨h3, h4⟩ := IntType.canRepresent_unsigned.1 hc
            refine ⟨?_, ?_⟩
            · show 0 ≤ q.addr
              rw [hq']; exact h3
            · show q.addr < _
              rw [hq']
              refine lt_of_lt_of_le h4 ?_
              exact_mod_cast Nat.pow_le_pow_right (by omega) (by omega)
          | _ => simp [checkValue] at hv
        · have := of_decide_eq_true (show decide (p.metaKind = .none) = true from h)
          rw [this]; rfl
      | _ => cases h
  · exact .throw (fun _ h => by cases h)

theorem Np.intrinsicAssume : Np (PlainMem M) s (intrinsicAssume as rt) (RetOk rt) := by
  unfold MiniRust.intrinsicAssume
  split
  · exact .bindRes .boolArg fun b _ => .require fun h => .require fun _ => .pure (.unit h)
  · exact .throw (fun _ h => by cases h)

theorem Np.intrinsicPrintStdout : Np (PlainMem M) s (intrinsicPrintStdout as rt) (RetOk rt) := by
  unfold MiniRust.intrinsicPrintStdout
  exact .require fun h => .bindRes (.evalPrint _) fun _ _ => .bind (.modify (Q := fun _ _ => True) trivial) fun _ _ _ _ => .pure (.unit h)

theorem Np.intrinsicPrintStderr : Np (PlainMem M) s (intrinsicPrintStderr as rt) (RetOk rt) := by
  unfold MiniRust.intrinsicPrintStderr
  exact .require fun h => .bindRes (.evalPrint _) fun _ _ => .bind (.modify (Q := fun _ _ => True) trivial) fun _ _ _ _ => .pure (.unit h)

theorem allocated_inSpace {k n a} {p : ThinPtr (AllocId × PE)} (hb : Base prog s') (h : memAllocate k n a s = .ok (p, s')) : InSpace p := by
  obtain ⟨m, o, ae, rfl, _, h2⟩ := memAllocate_allocs (B := B) h
  obtain ⟨hi, hm⟩ := hb.mem
  have hx : (allocs (B := B) m)[(allocs (B := B) s.mem).length]? = some ⟨List.replicate n .uninit, p.addr, a, k, true, ae⟩ := by
    rw [h2]; simp
  obtain ⟨h1, _, h2, _⟩ := C16_placement hm ((live_iff hm).2 ⟨_, hx, rfl, rfl⟩)
  simp only [Alloc.info] at h1 h2
  refine ⟨h1.le, lt_of_le_of_lt ?_ h2⟩
  simp

theorem Np.intrinsicAllocate (hr : Ready prog fn s) (ht : IntrinsicOp.Tame (as.map (·.2)) rt .allocate) :
    Np (PlainMem M) s (intrinsicAllocate as rt) (RetOk rt) := by
  unfold MiniRust.intrinsicAllocate
  split
  · refine .bindRes .intArg fun i _ => .bindRes .sizeArg fun n _ => .bindRes .intArg fun j _ => .bindRes .alignArg fun a _ =>
      .require fun h => .bind .memAllocate fun p s1 h1 _ => .pure ?_
    obtain ⟨hb, _⟩ := Base.ofQuiet tri_memHeap (Kt.memAllocate made_caps) hr.toBase h1
    cases rt with
    | ptr q =>
      refine validPtr_plain hb (ht q rfl) (allocated_inSpace hb h1) ?_
      have := of_decide_eq_true (show decide (q.metaKind = .none) = true from h)
      rw [this]; rfl
    | _ => cases h
  · exact .throw (fun _ h => by cases h)

theorem Np.intrinsicDeallocate (hr : Ready prog fn s) (ha : ∀ a ∈ as, ArgOk prog s a) :
    Np (PlainMem M) s (intrinsicDeallocate as rt) (RetOk rt) := by
  unfold MiniRust.intrinsicDeallocate
  split
  · refine .bindRes .thinPtrArg fun p hp => .bindRes .intArg fun i _ => .bindRes .sizeArg fun n _ => .bindRes .intArg fun j _ => .bindRes .alignArg fun a _ =>
      .require fun h => .bind (.memDeallocate ((ha _ (by simp)).thin hr hp).2) fun _ _ _ _ => .pure (.unit h)
  · exact .throw (fun _ h => by cases h)

omit B [RawRetag M (AllocId × PE) F] in
theorem Np.setThreadState {pl : Prop} {i st t} (h : s.threads[i]? = some t) : Np pl s (setThreadState i st : EM M (AllocId × PE) F _) (fun _ _ => True) := by
  refine ⟨fun _ h' => ?_, fun _ _ _ => trivial⟩
  unfold MiniRust.setThreadState at h'
  rw [index_eq_ok.2 h] at h'
  cases h'

theorem Np.join (hr : Ready prog fn s) {i} : Np (PlainMem M) s (join i) (fun _ _ => True) := by
  obtain ⟨t, _, _, k1, _⟩ := HasFrame.active (B := B) hr.frame
  refine ⟨fun hpl h => ?_, fun _ _ _ => trivial⟩
  unfold MiniRust.join at h
  split at h
  · cases h
  · split at h
    · cases h
    · exact (Np.setThreadState k1).1 hpl h

theorem Np.intrinsicJoin (hr : Ready prog fn s) : Np (PlainMem M) s (intrinsicJoin as rt) (RetOk rt) := by
  unfold MiniRust.intrinsicJoin
  split
  · exact .bindRes .intArg fun i _ => .require fun h => .bind (.join hr) fun _ _ _ _ => .pure (.unit h)
  · exact .throw (fun _ h => by cases h)

theorem Np.loadRawData {p : Pointer (AllocId × PE)} {pt} (hp : VK made (cnt s) (.ptr p)) : Np (PlainMem M) s (loadRawData p pt) (fun _ _ => True) := by
  unfold MiniRust.loadRawData
  split
  · split
    · exact .bind (.memLoad (VK.thin hp)) fun _ _ _ _ => .lift .bytesDataUb
    · exact .throw (fun _ h => by cases h)
  · exact .throw (fun _ h => by cases h)

theorem Np.intrinsicRawEq (hr : Ready prog fn s) (ha : ∀ a ∈ as, ArgOk prog s a) :
    Np (PlainMem M) s (intrinsicRawEq as rt) (RetOk rt) := by
  unfold MiniRust.intrinsicRawEq
  split
  · refine .require fun h => .require fun _ => ?_
    split
    · rename_i l r pt
      have hl := (ha _ (List.mem_cons_self)).1.known
      have hrk := (ha _ (List.mem_cons_of_mem _ List.mem_cons_self)).1.known
      dsimp only at hl hrk
      refine .bind (.loadRawData hl) fun _ s1 h1 _ => ?_
      obtain ⟨g, _⟩ := Kt.loadRawData made_caps hl hr.known _ _ h1
      refine .bind (.loadRawData (hrk.mono made_caps g.le)) fun _ s2 h2 _ => .pure ?_
      have := of_decide_eq_true h
      subst this
      exact checkValue_bool.2 ⟨_, rfl⟩
    · exact .throw (fun _ h => by cases h)
  · exact .throw (fun _ h => by cases h)

theorem Np.intrinsicAtomicStore (hr : Ready prog fn s) (ha : ∀ a ∈ as, ArgOk prog s a) :
    Np (PlainMem M) s (intrinsicAtomicStore as rt) (RetOk rt) := by
  unfold MiniRust.intrinsicAtomicStore
  split
  · rename_i p v ty
    obtain ⟨hv, hg⟩ := ha (v, ty) (by simp)
    dsimp only at hg hv
    obtain ⟨al, h1, h2, _⟩ := hg.alignOf
    refine .bindRes .thinPtrArg fun q hq => .bindLift (fun _ h => by rw [h1] at h; cases h) fun l hl => ?_
    rw [h1] at hl; cases hl
    dsimp only
    refine .bindRes .alignArg fun a _ => .require fun _ => .require fun h => ?_
    exact .bind (.typedStore ((ha p (by simp)).thin hr hq).2 hg hv.valid) fun _ _ _ _ => .pure (.unit h)
  · exact .throw (fun _ h => by cases h)

theorem Np.intrinsicAtomicLoad (hr : Ready prog fn s) (ha : ∀ a ∈ as, ArgOk prog s a) (hw : rt.checkWf prog = .ok ()) (hg : rt.Good) :
    Np (PlainMem M) s (intrinsicAtomicLoad as rt) (RetOk rt) := by
  unfold MiniRust.intrinsicAtomicLoad
  split
  · refine .bindRes .thinPtrArg fun q hq => .bindLift (fun _ h => by rw [hg.size] at h; cases h) fun l hl => ?_
    refine .bindRes .alignArg fun a _ => .require fun _ => ?_
    exact .typedLoad hr.toBase ((ha _ (by simp)).thin hr hq).2 hw hg
  · exact .throw (fun _ h => by cases h)

theorem Np.storeIf {b} {p : ThinPtr (AllocId × PE)} {v ty al} (hp : PK made (cnt s) p) (hg : ty.Good) (hv : checkValue s.valEnv ty v = .ok ()) :
    Np (PlainMem M) s (storeIf b p v ty al) (fun _ _ => True) := by
  unfold MiniRust.storeIf
  exact .ite (fun _ => .typedStore hp hg hv) fun _ => .pure trivial

theorem Np.intrinsicCompareExchange (hr : Ready prog fn s) (ha : ∀ a ∈ as, ArgOk prog s a) (hw : rt.checkWf prog = .ok ()) (hg : rt.Good) :
    Np (PlainMem M) s (intrinsicCompareExchange as rt) (RetOk rt) := by
  unfold MiniRust.intrinsicCompareExchange
  split
  · rename_i p cur cty nxt nty
    refine .bindRes .thinPtrArg fun q hq => .require fun _ => .require fun h2 => .require fun h3 => ?_
    have h2 := of_decide_eq_true h2
    subst h2
    obtain ⟨hn, _⟩ := ha (nxt, nty) (by simp)
    have hqk := ((ha p (by simp)).thin hr hq).2
    cases nty with
    | int t =>
      have hpow : isPowerOfTwo t.size = true := by
        simp only [Ty.checkWf, IntType.checkWf] at hw
        simp only [Res.bind_eq_ok, ensureWf_eq_ok] at hw
        obtain ⟨_, h, _⟩ := hw
        exact h
      have hsz : (Ty.int t).size = .ok t.size := by rw [hg.size]; rfl
      refine .bindLift (fun _ h => by rw [hsz] at h; cases h) fun n hn' => ?_
      rw [hsz] at hn'; cases hn'
      refine .bindLift (fun _ h => ?_) fun a _ => .require fun _ => ?_
      · simp [Align.fromBytes, hpow, unwrap] at h
      · refine .bind (.typedLoad hr.toBase hqk hw hg) fun v s1 k1 hv => ?_
        obtain ⟨hr1, he, _⟩ := Base.ofExpr tri_typedLoad tri_typedLoad (Kt.typedLoad made_caps hqk) hr.toBase k1
        refine .bind (.storeIf (by rw [he.cnt]; exact hqk) hg (by rw [he.env]; exact hn.valid)) fun _ s2 _ _ => .pure ?_
        obtain ⟨i, rfl, hi⟩ := checkValue_int.1 hv
        exact checkValue_int.2 ⟨i, rfl, hi⟩
    | _ => cases h3
  · exact .throw (fun _ h => by cases h)

/-- The payloads of the threads are addresses. -/
def PaysOk (s : Machine M (AllocId × PE) F) : Prop := ∀ t ∈ s.threads, ∀ p ∈ t.unwindPayloads, InSpace p

theorem Np.intrinsicGetUnwindPayload (hr : Ready prog fn s) (ht : IntrinsicOp.Tame (as.map (·.2)) rt .getUnwindPayload) (hp : PaysOk s) :
    Np (PlainMem M) s (intrinsicGetUnwindPayload as rt) (RetOk rt) := by
  unfold MiniRust.intrinsicGetUnwindPayload
  obtain ⟨t, _, _, k1, _⟩ := HasFrame.active (B := B) hr.frame
  have e : s.getActive = .ok t := getActive_eq_ok.2 k1
  refine .require fun _ => .require fun h => .bindRead (fun _ h => by rw [e] at h; cases h) fun t' ht' => ?_
  rw [e] at ht'; cases ht'
  split
  · exact .throw (fun _ h => by cases h)
  · rename_i p rest hpl
    refine .pure ?_
    cases rt with
    | ptr q =>
      refine validPtr_plain hr.toBase (ht q rfl) (hp t (List.mem_of_getElem? k1) p (by rw [hpl]; simp)) ?_
      have := of_decide_eq_true (show decide (q.metaKind = .none) = true from h)
      rw [this]; rfl
    | _ => cases h

theorem Np.lockRelease {i} : Np (PlainMem M) s (lockRelease i) (fun _ _ => True) := by
  unfold MiniRust.lockRelease
  refine .bind (Q := fun a s1 => a = s ∧ s1 = s) ⟨(fun _ h => by cases h), (fun _ _ h => by cases h; exact ⟨rfl, rfl⟩)⟩ ?_
  rintro _ _ _ ⟨rfl, rfl⟩
  split
  · refine .ite (fun _ => .throw (fun _ h => by cases h)) fun _ => .ite (fun _ => ?_) fun _ => .modify trivial
    refine .bind .popInt fun j s1 h1 _ => ?_
    split
    · exact .throw (fun _ h => by cases h)
    · rename_i t ht
      refine .ite (fun _ => .throw (fun _ h => by cases h)) fun _ => ?_
      obtain ⟨rest, _, rfl⟩ := EM.popInt_eq_ok.1 h1
      obtain ⟨hj, ht⟩ := getInt?_eq_some.1 ht
      exact .bind (.setThreadState (t := t) ht) fun _ _ _ _ => .modify trivial
  · exact .throw (fun _ h => by cases h)

theorem Np.intrinsicLock (hr : Ready prog fn s) {op} (ht : IntrinsicOp.Tame (as.map (·.2)) rt (.lock op)) (hl : op = .create → s.locks.length < 2 ^ (8 * T.ptrSize)) :
    Np (PlainMem M) s (intrinsicLock op as rt) (RetOk rt) := by
  unfold MiniRust.intrinsicLock
  cases op with
  | create =>
    refine .require fun _ => .require fun h => .bind (Q := fun i _ => i = s.locks.length) ⟨(fun _ h => by cases h), (fun _ _ h => by cases h; rfl)⟩ ?_
    rintro _ s1 _ rfl
    refine .pure ?_
    cases rt with
    | int t =>
      have := ht t rfl
      subst this
      exact checkValue_int.2 ⟨_, rfl, IntType.canRepresent_unsigned.2 ⟨by simp, by exact_mod_cast hl rfl⟩⟩
    | _ => cases h
  | acquire =>
    dsimp only
    split
    · refine .bindRes .intArg fun i _ => .require fun h => .bind (Q := fun _ _ => True) ?_ fun _ _ _ _ => .pure (.unit h)
      obtain ⟨t, _, _, k1, _⟩ := HasFrame.active (B := B) hr.frame
      refine ⟨fun hpl h => ?_, fun _ _ _ => trivial⟩
      unfold lockAcquire at h
      split at h
      · cases h
      · cases h
      · exact (Np.setThreadState k1).1 hpl h
    · exact .throw (fun _ h => by cases h)
  | release =>
    dsimp only
    split
    · exact .bindRes .intArg fun i _ => .require fun h => .bind .lockRelease fun _ _ _ _ => .pure (.unit h)
    · exact .throw (fun _ h => by cases h)

theorem Np.intrinsicSpawn (hr : Ready prog fn s) (hprog : prog.checkWf = .ok ()) (ha : ∀ a ∈ as, ArgOk prog s a)
    (ht : IntrinsicOp.Tame (as.map (·.2)) rt .spawn) (hl : s.threads.length < 2 ^ (8 * T.ptrSize)) :
    Np (PlainMem M) s (intrinsicSpawn as rt) (RetOk rt) := by
  unfold MiniRust.intrinsicSpawn
  split
  · rename_i f d
    have hfp := NpR.fnFromPtr hr.toBase (v := f.1) (PlainMem M)
    refine .bindRead hfp.1 fun func hfn => .require fun _ => .require fun h => ?_
    obtain ⟨name, hn⟩ := hfp.2 _ hfn
    have hfw := Function.wf (Program.checkWf_function hprog hn)
    refine .bind (Q := fun i _ => i = s.threads.length) ?_ fun i s1 _ hi => .pure ?_
    · unfold spawn newThread
      refine .bind (Q := fun i _ => i = s.threads.length) (.bind (.createFrame hfw hr.toBase trivial (fun x hx => ?_) ?_) fun fr s1 h1 _ => ?_)
        fun i _ _ hi => .bind (.modify (Q := fun _ _ => True) trivial) fun _ _ _ _ => .pure hi
      · cases List.mem_singleton.1 hx; exact ha _ (by simp)
      · exact .tuple (by simp) .nil (by simp)
      · obtain ⟨m, o, rfl, _⟩ := createFrame_trans (B := B) h1
        exact ⟨(fun _ h => by cases h), (fun _ _ h => by cases h; rfl)⟩
    · subst hi
      cases rt with
      | int t =>
        have := ht t rfl
        subst this
        exact checkValue_int.2 ⟨_, rfl, IntType.canRepresent_unsigned.2 ⟨by simp, by exact_mod_cast hl⟩⟩
      | _ => cases h
  · exact .throw (fun _ h => by cases h)

theorem ConcMem.leakCheck_np : s.mem.leakCheck ≠ .error .panic := by
  unfold ConcMem.leakCheck
  intro h
  cases (SoftMem.leak (F := F) s.mem.memory).err _ h

/-- Intrinsics of tame programs do not panic and return valid values. -/
theorem Np.evalIntrinsic (hr : Ready prog fn s) (hprog : prog.checkWf = .ok ()) (ha : ∀ a ∈ as, ArgOk prog s a) (hw : rt.checkWf prog = .ok ()) (hg : rt.Good)
    {op} (ht : IntrinsicOp.Tame (as.map (·.2)) rt op) (hth : op = .spawn → s.threads.length < 2 ^ (8 * T.ptrSize)) (hl : op = .lock .create → s.locks.length < 2 ^ (8 * T.ptrSize))
    (hrm : ∀ o, op ≠ .atomicFetchAndOp o) (hp : PaysOk s) :
    Np (PlainMem M) s (evalIntrinsic op as rt) (RetOk rt) := by
  unfold MiniRust.evalIntrinsic
  cases op with
  | abort => exact .throw (fun _ h => by cases h)
  | assume => exact .intrinsicAssume
  | exit => exact .bindRead (fun _ => ConcMem.leakCheck_np) fun _ _ => .throw (fun _ h => by cases h)
  | printStdout => exact .intrinsicPrintStdout
  | printStderr => exact .intrinsicPrintStderr
  | allocate => exact .intrinsicAllocate hr ht
  | deallocate => exact .intrinsicDeallocate hr ha
  | spawn => exact .intrinsicSpawn hr hprog ha ht (hth rfl)
  | join => exact .intrinsicJoin hr
  | rawEq => exact .intrinsicRawEq hr ha
  | atomicStore => exact .intrinsicAtomicStore hr ha
  | atomicLoad => exact .intrinsicAtomicLoad hr ha hw hg
  | atomicCompareExchange => exact .intrinsicCompareExchange hr ha hw hg
  | atomicFetchAndOp => exact (hrm _ rfl).elim
  | lock => exact .intrinsicLock hr ht (fun e => hl (by rw [e]))
  | pointerExposeProvenance => exact .intrinsicExpose hr ha
  | pointerWithExposedProvenance => exact .intrinsicWithExposed hr ha ht
  | getUnwindPayload => exact .intrinsicGetUnwindPayload hr ht hp

end MiniRust
