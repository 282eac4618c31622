import Verif.Lemmas.NoPanicMask
import Verif.Spec.Tame
/-
Loads, retags, pointer arithmetic and the operators on valid values: they do not panic and give valid values.
-/
set_option linter.unusedSectionVars false
namespace MiniRust
variable {M PE AE F : Type} [T : Target] [DecidableEq PE] [Memory M (AllocId × PE) F] [LawfulTarget T]
  [SoftMem M (AllocId × PE) F] [RawRetag M (AllocId × PE) F] [B : BasicBacked M PE AE F]
variable {s s' : Machine M (AllocId × PE) F} {prog : Program} {fn : Function}
include B

theorem PK.knownId {p : ThinPtr (AllocId × PE)} (h : PK made (cnt s) p) : (B.mem s.mem.memory).KnownId p :=
  fun id pe hp => h (id, pe) hp


theorem PK.genuine {p : ThinPtr (AllocId × PE)} (h : PK made (cnt s) p) {hi : MemHistory PE}
    (hm : MemReach (F := F) hi s.mem.memory) : Genuine hi p := by
  rintro id ⟨pe, hp⟩
  exact (made_iff hm).1 (h _ hp)

theorem bytes_length {m m' : M} {p : ThinPtr (AllocId × PE)} {n al bs}
    (h : Memory.load (F := F) m p n al = .ok (bs, m')) : bs.length = n := by
  obtain ⟨hx, e⟩ := B.load m p n al
  rw [h] at e
  have e' : (B.mem m).load p n al hx = .ok (bs, B.mem m') := e.symm
  rw [BasicMem.load_eq_ok] at e'
  obtain ⟨_, ⟨rfl, rfl, _⟩ | ⟨_, id, pe, a, off, extra, hp, ha, hl, h3, h4, hx', rfl, _⟩⟩ := e'
  · rfl
  · simp only [List.length_take, List.length_drop]; simp only [Alloc.size] at h4; omega

theorem Np.memLoad {p : ThinPtr (AllocId × PE)} {n al at'} (hp : PK made (cnt s) p) :
    Np (PlainMem M) s (memLoad p n al at') (fun bs _ => bs.length = n) := by
  constructor
  · intro hpl h
    have : Memory.load (F := F) s.mem.memory p n al ≠ .error .panic := hpl.load _ _ _ _ (PK.knownId hp)
    simp only [MiniRust.memLoad, ConcMem.load, Res.bind_eq_error, Res.bind_eq_ok] at h
    rcases h with h | ⟨_, _, h⟩
    · rcases h with h | ⟨_, _, h⟩
      · exact this h
      · cases h
    · cases h
  · intro bs s' h
    obtain ⟨m, hm, rfl⟩ := memLoad_eq_ok.1 h
    obtain ⟨mm, hl, rfl⟩ := ConcMem.load_eq_ok.1 hm
    exact bytes_length hl

theorem NpR.decodeChecked (hr : Base prog s) {ty : Ty} (hw : ty.checkWf prog = .ok ()) (hg : ty.Good)
    {bs : List (AByte (AllocId × PE))} (hb : BK made (cnt s) bs) (hl : bs.length = ty.sz) (pl : Prop) :
    NpR pl (s.decodeChecked ty bs) (fun v => checkValue s.valEnv ty v = .ok ()) := by
  obtain ⟨h, hm⟩ := hr.mem
  unfold Machine.decodeChecked
  rcases decode_total_good hg hl with ⟨v, hd⟩ | hd
  · rw [hd]
    rcases checkValue_okOrUb hr.vt hm hg (fun p hc => Ty.ptr_checkWf hw hc) hd
        (fun p hp => (made_iff hm).1 (hb p (decode_prov ty hd hp))) with hc | hc
    · simp only [hc]; exact .ok hc
    · simp only [hc]; exact .ub
  · rw [hd]; exact .ub

theorem Base.memLoad (hr : Base prog s) {p : ThinPtr (AllocId × PE)} {n al at' bs} (hp : PK made (cnt s) p)
    (h : memLoad p n al at' s = .ok (bs, s')) : Base prog s' ∧ Ev s s' ∧ BK made (cnt s') bs :=
  Base.ofExpr tri_memLoad tri_memLoad (Kt.memLoad made_caps hp) hr h

theorem Ready.memLoad (hr : Ready prog fn s) {p : ThinPtr (AllocId × PE)} {n al at' bs} (hp : PK made (cnt s) p)
    (h : memLoad p n al at' s = .ok (bs, s')) : Ready prog fn s' ∧ Ev s s' ∧ BK made (cnt s') bs :=
  Ready.ofExpr tri_memLoad tri_memLoad (Kt.memLoad made_caps hp) hr h

theorem Np.typedLoad (hr : Base prog s) {p : ThinPtr (AllocId × PE)} {ty : Ty} {al at'} (hp : PK made (cnt s) p)
    (hw : ty.checkWf prog = .ok ()) (hg : ty.Good) :
    Np (PlainMem M) s (typedLoad p ty al at') (fun v s' => checkValue s'.valEnv ty v = .ok ()) := by
  unfold MiniRust.typedLoad
  refine .bindLift (fun _ h => by rw [hg.size] at h; cases h) fun n hn => ?_
  rw [hg.size] at hn; cases hn
  refine .bind (.memLoad hp) fun bs s1 h1 hl => ?_
  obtain ⟨hr1, _, hb⟩ := hr.memLoad hp h1
  exact .read (.decodeChecked hr1 hw hg hb hl _)

/-- The type of the place, where it is, and its metadata. -/
structure PlaceOk (prog : Program) (s : Machine M (AllocId × PE) F) (ty : Ty) (r : Place (AllocId × PE) × Ty) : Prop where
  isTy : r.2 = ty
  wf : ty.checkWf prog = .ok ()
  space : InSpace r.1.ptr.thin
  metadata : s.MetaOk ty.metaKind r.1.ptr.metadata
  known : PlK made (cnt s) r.1

/-- The type of the value, and its validity. -/
structure ValueOk (prog : Program) (s : Machine M (AllocId × PE) F) (ty : Ty) (r : Value (AllocId × PE) × Ty) : Prop where
  isTy : r.2 = ty
  wf : ty.checkWf prog = .ok ()
  valid : checkValue s.valEnv ty r.1 = .ok ()
  known : VK made (cnt s) r.1

theorem MetaOk.ev {k m} (h : s.MetaOk k m) (he : Ev s s') : s'.MetaOk k m := by
  cases k with
  | none => exact h
  | elementCount => exact h
  | vtablePointer t =>
    obtain ⟨p, v, h1, ⟨n, h2, h3⟩, h4⟩ := h
    exact ⟨p, v, h1, ⟨n, by rw [he.tab.2]; exact h2, by rw [he.tab.1]; exact h3⟩, h4⟩

theorem PlaceOk.ev {ty r} (h : PlaceOk prog s ty r) (he : Ev s s') : PlaceOk prog s' ty r :=
  ⟨h.isTy, h.wf, h.space, MetaOk.ev h.metadata he, by rw [he.cnt]; exact h.known⟩
theorem ValueOk.ev {ty r} (h : ValueOk prog s ty r) (he : Ev s s') : ValueOk prog s' ty r :=
  ⟨h.isTy, h.wf, by rw [he.env]; exact h.valid, by rw [he.cnt]; exact h.known⟩

/-! ### Layouts -/

theorem computed (hr : Base prog s) {l : LayoutStrategy} {m : Option (PtrMeta (AllocId × PE))}
    (hw : l.checkWf prog = .ok ()) (hm : s.MetaOk l.metaKind m) :
    ∃ size align, s.valEnv.computeSize l m = .ok size ∧ s.valEnv.computeAlign l m = .ok align ∧
      l.computeSizeAndAlign s.vtableLookup m = .ok (size, align) := by
  obtain ⟨n, a, hc⟩ := LayoutStrategy.computed_total hw (metaFor_of_metaOk hr.vt hm)
  refine ⟨n, a, ?_, ?_, hc⟩
  · unfold ValEnv.computeSize
    show (l.computeSizeAndAlign s.vtableLookup m >>= _) = _
    rw [hc]; rfl
  · unfold ValEnv.computeAlign
    show (l.computeSizeAndAlign s.vtableLookup m >>= _) = _
    rw [hc]; rfl

theorem computedTy (hr : Base prog s) {ty : Ty} {m : Option (PtrMeta (AllocId × PE))}
    (hw : ty.checkWf prog = .ok ()) (hm : s.MetaOk ty.metaKind m) :
    ∃ l size align, ty.layout = .ok l ∧ l.checkWf prog = .ok () ∧ l.metaKind = ty.metaKind ∧
      s.valEnv.computeSize l m = .ok size ∧ s.valEnv.computeAlign l m = .ok align ∧
      l.computeSizeAndAlign s.vtableLookup m = .ok (size, align) := by
  obtain ⟨l, h1, h2, _, h4⟩ := Ty.layout_of_checkWf hw
  obtain ⟨n, a, h5⟩ := computed hr h2 (by rw [h4]; exact hm)
  exact ⟨l, n, a, h1, h2, h4, h5⟩

omit B in
theorem Ty.good_of_sized {ty : Ty} (hw : ty.checkWf prog = .ok ()) (h : ty.metaKind = .none) : ty.Good := by
  obtain ⟨l, h1, h2, _, h4⟩ := Ty.layout_of_checkWf hw
  have := LayoutStrategy.sized_of_metaKind h2 (h4.trans h)
  obtain ⟨n, a, rfl⟩ := LayoutStrategy.isSized_iff.1 this
  exact Ty.good_of_checkWf prog ty hw ⟨n, a, h1⟩

omit B in
theorem Ty.good_of_isSized {ty : Ty} {l} (hw : ty.checkWf prog = .ok ()) (h1 : ty.layout = .ok l) (h : l.isSized = true) :
    ty.Good := by
  obtain ⟨n, a, rfl⟩ := LayoutStrategy.isSized_iff.1 h
  exact Ty.good_of_checkWf prog ty hw ⟨n, a, h1⟩

omit B in
theorem Ty.Good.metaKind {ty : Ty} (hw : ty.checkWf prog = .ok ()) (h : ty.Good) : ty.metaKind = .none := by
  obtain ⟨l, h1, h2, _, h4⟩ := Ty.layout_of_checkWf hw
  obtain ⟨a, h5⟩ := h.layout
  rw [h1] at h5; cases h5
  rw [← h4]; rfl

/-! ### Pointers -/

theorem ptrOffset_exact (hr : Base prog s) {p : ThinPtr (AllocId × PE)} (hp : PK made (cnt s) p) (hs : InSpace p) (d : Int) :
    (∃ q, s.ptrOffsetInbounds p d = .ok q ∧ InSpace q) ∨ s.ptrOffsetInbounds p d = .error .ub := by
  obtain ⟨h, hm⟩ := hr.mem
  obtain ⟨h1, h2⟩ := C44_offset_inbounds (s := s) hm (PK.genuine hp hm) (l := p) (d := d) (lTy := .bool) (rTy := .bool) hs
  have e : s.evalBinOp (.ptrOffset true) (.ptr ⟨p, none⟩, .bool) (.int d, .bool) =
    (s.ptrOffsetInbounds p d >>= fun q => .ok (.ptr (q.widen none), .bool)) := rfl
  rw [e] at h1 h2
  by_cases hc : d = 0 ∨ Spans h p d
  · have := h1 hc
    obtain ⟨q, hq, _⟩ := Res.bind_eq_ok.1 this
    refine .inl ⟨q, hq, ?_⟩
    simp only [Machine.ptrOffsetInbounds, Res.bind_eq_ok, rassert_eq_ok, Except.ok.injEq, exists_const] at hq
    obtain ⟨_, _, _, hb, rfl⟩ := hq
    exact inBounds_unsigned_iff.1 hb
  · have := h2 hc
    rcases Res.bind_eq_error.1 this with h | ⟨_, _, h⟩
    · exact .inr h
    · cases h

theorem NpR.ptrOffset (hr : Base prog s) {p : ThinPtr (AllocId × PE)} (hp : PK made (cnt s) p) (hs : InSpace p) (d : Int)
    (pl : Prop) : NpR pl (s.ptrOffsetInbounds p d) (fun q => InSpace q ∧ PK made (cnt s) q) := by
  rcases ptrOffset_exact hr hp hs d with ⟨q, h, hq⟩ | h
  · exact .ofOk h ⟨hq, fun x hx => hp x (by rw [← ptrOffsetInbounds_prov h]; exact hx)⟩
  · rw [h]; exact .ub

theorem checkPtr_np (hr : Base prog s) {ptr : Pointer (AllocId × PE)} {ty : PtrType} (hw : ty.checkWf prog = .ok ())
    (hk : PK made (cnt s) ptr.thin) :
    checkValue s.valEnv (.ptr ty) (.ptr ptr) = .ok () ∨ checkValue s.valEnv (.ptr ty) (.ptr ptr) = .error .ub := by
  obtain ⟨h, hm⟩ := hr.mem
  simp only [checkValue]
  exact checkPtr_ub hr.vt hm (PK.genuine hk hm) hw

theorem validPtr_meta (hr : Base prog s) {ptr : Pointer (AllocId × PE)} {ty : PtrType}
    (h : checkValue s.valEnv (.ptr ty) (.ptr ptr) = .ok ()) : InSpace ptr.thin ∧ s.MetaOk ty.metaKind ptr.metadata := by
  obtain ⟨hi, hm⟩ := hr.mem
  simp only [checkValue] at h
  obtain ⟨h1, h2, h3, _⟩ := (checkPtr_iff hr.vt hm).1 h
  exact ⟨⟨h1, h2⟩, h3⟩

theorem validPtr_plain (hr : Base prog s) {ptr : Pointer (AllocId × PE)} {ty : PtrType} (hp : ty.Plain)
    (hs : InSpace ptr.thin) (hk : s.MetaOk ty.metaKind ptr.metadata) :
    checkValue s.valEnv (.ptr ty) (.ptr ptr) = .ok () := by
  obtain ⟨hi, hm⟩ := hr.mem
  simp only [checkValue]
  refine (checkPtr_iff hr.vt hm).2 ⟨hs.1, hs.2, hk, ?_⟩
  cases ty with
  | raw => trivial
  | fnPtr => trivial
  | _ => cases hp

theorem ValidPtr.same {h : MemHistory PE} {p q : Pointer (AllocId × PE)} {ty : PtrType} (ha : q.thin.addr = p.thin.addr)
    (hme : q.metadata = p.metadata) (hid : ∀ id, q.thin.HasId id ↔ p.thin.HasId id) (hv : ∀ t, ty ≠ .vtablePtr t)
    (hp : s.ValidPtr h p ty) : s.ValidPtr h q ty := by
  have hs : ∀ {x}, s.SafePtr h x p → s.SafePtr h x q := by
    rintro x ⟨n, a, h1, h2, h3, h4, h5, h6⟩
    refine ⟨n, a, by rw [hme]; exact h1, h2, by rw [ha]; exact h3, by rw [ha]; exact h4, h5, h6.imp_right ?_⟩
    rintro ⟨id, i, k1, k2⟩
    exact ⟨id, i, (hid id).2 k1, by rw [ha]; exact k2⟩
  obtain ⟨h1, h2, h3, h4⟩ := hp
  refine ⟨by rw [ha]; exact h1, by rw [ha]; exact h2, by rw [hme]; exact h3, ?_⟩
  cases ty with
  | ref _ x => exact hs h4
  | box x => exact hs h4
  | raw => trivial
  | fnPtr => trivial
  | vtablePtr t => exact absurd rfl (hv t)

theorem Ready.retag (hr : Ready prog fn s) {p q : Pointer (AllocId × PE)} {ty e} (hp : VK made (cnt s) (.ptr p))
    (h : retagPtrM p ty e s = .ok (q, s')) :
    Ready prog fn s' ∧ Ev s s' ∧ VK made (cnt s') (.ptr q) :=
  Ready.ofExpr tri_retagPtrM tri_retagPtrM (Kt.retagPtrM made_caps hp) hr h

theorem retagPtrM_eq_ok {p q : Pointer (AllocId × PE)} {ty e} (h : retagPtrM p ty e s = .ok (q, s')) :
    ∃ f f' m, Memory.retagPtr s.mem.memory f p ty e s.vtableLookup = .ok (q, f', m) := by
  unfold retagPtrM at h
  have h := (mutateCurFrame_ok (by
    intro fr s r s1 h
    simp only [Res.bind_eq_ok, Prod.exists, Except.ok.injEq, Prod.mk.injEq] at h
    obtain ⟨_, _, _, _, _, rfl⟩ := h
    exact ⟨rfl, rfl⟩)).1 h
  obtain ⟨t, fr, rest, fr', s1, h1, h2, h3, rfl⟩ := h
  simp only [Res.bind_eq_ok, Prod.exists, Except.ok.injEq, Prod.mk.injEq] at h3
  obtain ⟨p1, ex, mm, hm, ⟨rfl, rfl⟩, rfl⟩ := h3
  simp only [ConcMem.retagPtr, Res.bind_eq_ok, Prod.exists, Except.ok.injEq, Prod.mk.injEq] at hm
  obtain ⟨p2, ex2, m2, hl, rfl, rfl, rfl⟩ := hm
  exact ⟨_, _, _, hl⟩

theorem Np.retag (hr : Ready prog fn s) (hprog : prog.checkWf = .ok ()) {p : Pointer (AllocId × PE)} {ty e} (hp : VK made (cnt s) (.ptr p))
    (hw : ty.checkWf prog = .ok ()) (hv : checkValue s.valEnv (.ptr ty) (.ptr p) = .ok ()) :
    Np (PlainMem M) s (retagPtrM p ty e) (fun q s' => checkValue s'.valEnv (.ptr ty) (.ptr q) = .ok ()) := by
  refine ⟨fun hpl h => ?_, fun q s' h => ?_⟩
  · obtain ⟨fr, h1, _⟩ := hr.frame
    obtain ⟨t, rest, k1, k2⟩ := curFrame_eq_ok.1 h1
    revert h
    refine (?_ : Np (PlainMem M) s (retagPtrM p ty e) (fun _ _ => True)).1 hpl
    unfold retagPtrM mutateCurFrame
    refine .bindRead (fun _ h => by rw [h1] at h; cases h) fun fr' h => ?_
    rw [h1] at h; cases h
    refine .bind (Q := fun _ s1 => s1.threads = s.threads ∧ s1.activeThread = s.activeThread) ⟨?_, ?_⟩ ?_
    · intro _ h
      simp only [Res.bind_eq_error, ConcMem.retagPtr, Res.bind_eq_ok, Prod.exists] at h
      rcases h with (h | ⟨_, _, _, _, h⟩) | ⟨_, _, _, _, h⟩
      · exact hpl.retag _ _ _ _ _ _ (checkPtr_mask hr.isProg hprog hw (by simpa only [checkValue] using hv)) h
      · cases h
      · cases h
    · intro a s1 h
      simp only [Res.bind_eq_ok, Prod.exists, Except.ok.injEq, Prod.mk.injEq] at h
      obtain ⟨_, _, _, _, _, rfl⟩ := h
      exact ⟨rfl, rfl⟩
    · rintro ⟨a, fr'⟩ s1 _ ⟨e1, e2⟩
      have e1 : s1.getActive = .ok t := getActive_eq_ok.2 (by rw [e1, e2]; exact k1)
      refine .bindRead (fun _ h => by rw [e1] at h; cases h) fun t' h => ?_
      rw [e1] at h; cases h
      have e2 : t.setCurFrame fr' = .ok { t with stack := fr' :: rest } := setCurFrame_eq_ok.2 ⟨_, _, k2, rfl⟩
      refine .bindLift (fun _ h => by rw [e2] at h; cases h) fun _ _ => ?_
      exact .bind (Q := fun _ _ => True) (.modify trivial) fun _ _ _ _ => .pure trivial
  · obtain ⟨hi, hm⟩ := hr.mem
    obtain ⟨_, he, _⟩ := hr.retag hp h
    rw [he.env]
    obtain ⟨f, f', m, hret⟩ := retagPtrM_eq_ok h
    obtain ⟨k1, k2, k3⟩ := B.retagSame _ _ _ _ _ _ _ _ _ hret
    simp only [checkValue] at hv ⊢
    by_cases hvp : ∃ t, ty = .vtablePtr t
    · obtain ⟨t, rfl⟩ := hvp
      rw [RawRetag.raw _ _ _ _ _ _ _ _ _ rfl hret]; exact hv
    · rw [checkPtr_iff hr.vt hm] at hv ⊢
      exact ValidPtr.same k2 k1 k3 (fun t ht => hvp ⟨t, ht⟩) hv

theorem Np.addrOf (hr : Ready prog fn s) (hprog : prog.checkWf = .ok ()) {r : Place (AllocId × PE) × Ty} {ty} (hp : PlaceOk prog s ty r) {pty : PtrType}
    (hw : pty.checkWf prog = .ok ()) (hwt : (Ty.ptr pty).checkWf prog = .ok ()) :
    Np (PlainMem M) s (addrOf r.1 pty) (fun v s' => ValueOk prog s' (.ptr pty) v) := by
  unfold MiniRust.addrOf
  have hc := checkPtr_np hr.toBase hw (VK.thin hp.known)
  refine .bindRead (fun _ h => by rcases hc with hc | hc <;> (rw [hc] at h; cases h)) fun _ h => ?_
  refine .bind (.retag hr hprog hp.known hw h) fun q s1 h1 hq => .pure ?_
  exact ⟨rfl, hwt, hq, (hr.retag hp.known h1).2.2⟩

theorem Np.placeLoad (hr : Ready prog fn s) {r : Place (AllocId × PE) × Ty} {ty} (hp : PlaceOk prog s ty r) (hg : ty.Good) :
    Np (PlainMem M) s (placeLoad r.1 r.2) (fun v s' => checkValue s'.valEnv ty v = .ok ()) := by
  unfold MiniRust.placeLoad
  rw [hp.isTy]
  exact .ite (fun _ => .throw (fun _ h => by cases h)) fun _ => .typedLoad hr.toBase (VK.thin hp.known) hp.wf hg

/-! ### Discriminants -/

mutual
theorem Np.disc {p : ThinPtr (AllocId × PE)} (hs : InSpace p) {size : Nat} {has : Int → Bool} :
    ∀ (d : Discriminator) (s : Machine M (AllocId × PE) F), Ready prog fn s → PK made (cnt s) p →
    d.checkWf size has = .ok () →
    Np (PlainMem M) s (fun s => decodeDiscriminant (fun (s : Machine M (AllocId × PE) F) idx size => do
        let ptr ← s.ptrOffsetInbounds p idx
        MiniRust.memLoad ptr size Align.one .none s) d s) (fun r _ => ∀ x, r = some x → has x = true)
  | .known d, s, _, _, hw => by
    simp only [Discriminator.checkWf, ensureWf_eq_ok] at hw
    simp only [decodeDiscriminant]
    exact .pure (fun x hx => by cases hx; exact hw)
  | .invalid, s, _, _, _ => by
    simp only [decodeDiscriminant]
    exact .pure (fun x hx => by cases hx)
  | .branch offset vt fallback children, s, hr, hp, hw => by
    simp only [Discriminator.checkWf, Res.bind_eq_ok] at hw
    obtain ⟨_, hw1, _, hw2, _, hw3, hw4⟩ := hw
    have hl := NpR.ptrOffset hr.toBase hp hs offset (PlainMem M)
    cases ho : s.ptrOffsetInbounds p offset with
    | error e =>
      constructor
      · intro hpl h
        simp only [decodeDiscriminant, ho] at h
        cases h
        exact hl.1 hpl ho
      · intro a s' h
        simp only [decodeDiscriminant, ho] at h
        cases h
    | ok q =>
      obtain ⟨hq, hk⟩ := hl.2 q ho
      have hm := Np.memLoad (n := vt.size) (al := Align.one) (at' := .none) hk
      have e0 : (s.ptrOffsetInbounds p offset >>= fun ptr => MiniRust.memLoad ptr vt.size Align.one .none s) =
        MiniRust.memLoad q vt.size Align.one .none s := by rw [ho]; rfl
      cases hml : MiniRust.memLoad q vt.size Align.one .none s with
      | error e =>
        constructor
        · intro hpl h
          simp only [decodeDiscriminant, e0, hml] at h
          cases h
          exact hm.1 hpl hml
        · intro a s' h
          simp only [decodeDiscriminant, e0, hml] at h
          cases h
      | ok r =>
        obtain ⟨bs, s1⟩ := r
        obtain ⟨hr1, he, hb⟩ := hr.memLoad hk hml
        have hlen := hm.2 _ _ hml
        have hp1 : PK made (cnt s1) p := by rw [he.cnt]; exact hp
        have hrec := Np.disc hs fallback s1 hr1 hp1 hw3
        rcases decodeInt_total hlen with ⟨n, hn⟩ | hn
        · have hch := Np.discChildren hs children s1 n hr1 hp1 _ _ hw4
          cases hd : decodeDiscriminantChildren (fun (s : Machine M (AllocId × PE) F) idx size => do
              let ptr ← s.ptrOffsetInbounds p idx
              MiniRust.memLoad ptr size Align.one .none s) children n s1 with
          | none =>
            constructor
            · intro hpl h
              simp only [decodeDiscriminant, e0, hml, hn, hd] at h
              exact hrec.1 hpl h
            · intro a s' h
              simp only [decodeDiscriminant, e0, hml, hn, hd] at h
              exact hrec.2 a s' h
          | some r =>
            obtain ⟨c1, c2⟩ := hch r hd
            constructor
            · intro hpl h
              simp only [decodeDiscriminant, e0, hml, hn, hd] at h
              exact c1 hpl h
            · intro a s' h
              simp only [decodeDiscriminant, e0, hml, hn, hd] at h
              exact c2 a s' h
        · constructor
          · intro hpl h
            simp only [decodeDiscriminant, e0, hml, hn] at h
            cases h
          · intro a s' h
            simp only [decodeDiscriminant, e0, hml, hn] at h
            cases h
            intro x hx; cases hx
theorem Np.discChildren {p : ThinPtr (AllocId × PE)} (hs : InSpace p) {size : Nat} {has : Int → Bool} {vt : IntType} :
    ∀ (cs : List ((Int × Int) × Discriminator)) (s : Machine M (AllocId × PE) F) (n : Int), Ready prog fn s → PK made (cnt s) p →
    ∀ keys idx, Discriminator.checkChildren size has vt keys cs idx = .ok () →
    ∀ r, decodeDiscriminantChildren (fun (s : Machine M (AllocId × PE) F) idx size => do
        let ptr ← s.ptrOffsetInbounds p idx
        MiniRust.memLoad ptr size Align.one .none s) cs n s = some r →
      (PlainMem M → r ≠ .error .panic) ∧ ∀ a s', r = .ok (a, s') → ∀ x, a = some x → has x = true
  | [], s, n, _, _, _, _, _, r, h => by cases h
  | ((start, stop), d) :: rest, s, n, hr, hp, keys, idx, hw, r, h => by
    simp only [Discriminator.checkChildren, Res.bind_eq_ok] at hw
    obtain ⟨_, _, _, _, _, _, _, _, _, hw1, hw2⟩ := hw
    simp only [decodeDiscriminantChildren] at h
    split at h
    · cases h
      exact Np.disc hs d s hr hp hw1
    · exact Np.discChildren hs rest s n hr hp keys (idx + 1) hw2 r h
end

theorem Np.getDiscriminant (hr : Ready prog fn s) {r : Place (AllocId × PE) × Ty} {vs dt disc size al}
    (hp : PlaceOk prog s (.enum vs dt disc size al) r) (hw : (Ty.int dt).checkWf prog = .ok ()) :
    Np (PlainMem M) s (getDiscriminant r.1 r.2) (fun v s' => ValueOk prog s' (.int dt) v) := by
  rw [hp.isTy]
  unfold MiniRust.getDiscriminant
  have hwf := hp.wf
  simp only [Ty.checkWf, Res.bind_eq_ok] at hwf
  obtain ⟨_, hv, _, hd, _⟩ := hwf
  refine .ite (fun _ => .throw (fun _ h => by cases h)) fun _ => ?_
  refine .bind (Np.disc hp.space disc s hr (VK.thin hp.known) hd) fun d s1 _ h1 => ?_
  cases d with
  | none => exact .throw (fun _ h => by cases h)
  | some d =>
    refine .pure ⟨rfl, hw, ?_, VK.int⟩
    have := h1 d rfl
    obtain ⟨x, hx⟩ := Option.isSome_iff_exists.1 this
    have hc := (checkVariants_ok hv _ (Map.get?_mem hx)).1
    simp only [checkValue, ensureUb_eq_ok]
    exact hc

end MiniRust
