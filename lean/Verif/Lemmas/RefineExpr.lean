import Verif.Lemmas.RefineMem
import Verif.Lemmas.ExprRel
/-
Evaluating expressions is monotone in definedness, across memory models.
-/
set_option linter.unusedSectionVars false
set_option linter.unusedSimpArgs false
namespace MiniRust

section
variable {M PE AE F : Type} [T : Target] [DecidableEq PE] [Memory M (AllocId × PE) F]
  [S : SoftMem M (AllocId × PE) F] [B : BasicBacked M PE AE F] [RP : RootProv M PE F]
  {N QE QA G : Type} [DecidableEq QE] [Memory N (AllocId × QE) G] [Plain QE] [PlainAlloc QA] [PlainFrame G]
  [C : QuietMem N QE QA G]
  {α β γ δ : Type}

/-- From related states, the right computation does what the left one does, and the states stay
related. -/
def MSim (M N : Type) {PE AE F QE QA G : Type} [Target] [DecidableEq PE] [Memory M (AllocId × PE) F]
    [BasicBacked M PE AE F] [RootProv M PE F] [DecidableEq QE] [Memory N (AllocId × QE) G] [Plain QE]
    [PlainAlloc QA] [PlainFrame G] [QuietMem N QE QA G] {α β : Type} (R : α → β → Prop)
    (x : EM M (AllocId × PE) F α) (y : EM N (AllocId × QE) G β) : Prop :=
  ∀ s t, StateBelow s t → Refines (fun a b => R a.1 b.1 ∧ StateBelow a.2 b.2) (x s) (y t)

namespace MSim
variable {R : α → β → Prop} {R' : γ → δ → Prop}

theorem pure {a : α} {b : β} (h : R a b) : MSim M N R (Pure.pure a) (Pure.pure b) := fun _ _ hs => .ok ⟨h, hs⟩

theorem bind {x : EM M (AllocId × PE) F α} {y : EM N (AllocId × QE) G β}
    {f : α → EM M (AllocId × PE) F γ} {g : β → EM N (AllocId × QE) G δ} (h : MSim M N R x y)
    (hf : ∀ a b, R a b → MSim M N R' (f a) (g b)) : MSim M N R' (x >>= f) (y >>= g) := by
  intro s t hs
  have h1 := h s t hs
  simp only [Bind.bind]
  cases hx : x s with
  | ok a =>
    rw [hx] at h1
    obtain ⟨b, hy, hr, hs'⟩ := h1
    rw [hy]
    exact hf _ _ hr _ _ hs'
  | error e =>
    rw [hx] at h1
    rcases h1 with h1 | h1
    · exact .inl h1
    · rw [h1]; exact .err

theorem lift {x : Res α} {y : Res β} (h : Refines R x y) : MSim M N R (EM.lift x) (EM.lift y) := by
  intro s t hs
  cases x with
  | ok a => obtain ⟨b, rfl, hr⟩ := h; exact .ok ⟨hr, hs⟩
  | error e =>
    rcases h with h | rfl
    · exact .inl h
    · exact .err

theorem read {f : Machine M (AllocId × PE) F → Res α} {g : Machine N (AllocId × QE) G → Res β}
    (h : ∀ s t, StateBelow s t → Refines R (f s) (g t)) : MSim M N R (EM.read f) (EM.read g) := by
  intro s t hs
  have h1 := h s t hs
  simp only [EM.read]
  cases hx : f s with
  | ok a => rw [hx] at h1; obtain ⟨b, h2, hr⟩ := h1; rw [h2]; exact .ok ⟨hr, hs⟩
  | error e =>
    rw [hx] at h1
    rcases h1 with h1 | h1
    · exact .inl h1
    · rw [h1]; exact .err

theorem modify {f : Machine M (AllocId × PE) F → Machine M (AllocId × PE) F}
    {g : Machine N (AllocId × QE) G → Machine N (AllocId × QE) G}
    (h : ∀ s t, StateBelow s t → StateBelow (f s) (g t)) : MSim M N (fun _ _ => True) (EM.modify f) (EM.modify g) :=
  fun s t hs => .ok ⟨trivial, h s t hs⟩

theorem throw {e : Err} : MSim M N R (EM.throw e) (EM.throw e) := fun _ _ _ => .err
theorem ub {y} : MSim M N R (EM.throw .ub) y := fun _ _ _ => .ub
theorem panic {y} : MSim M N R (EM.throw .panic) y := fun _ _ _ => .panic
theorem noBehavior {y} : MSim M N R (EM.throw .noBehavior) y := fun _ _ _ => .noBehavior

theorem mono {R' : α → β → Prop} {x : EM M (AllocId × PE) F α} {y} (h : MSim M N R x y) (hr : ∀ a b, R a b → R' a b) :
    MSim M N R' x y := fun s t hs => (h s t hs).mono fun _ _ h => ⟨hr _ _ h.1, h.2⟩

theorem unwrapRes {x : EM M (AllocId × PE) F α} {y} (h : MSim M N R x y) : MSim M N R (EM.unwrapRes x) (EM.unwrapRes y) := by
  intro s t hs
  have h1 := h s t hs
  simp only [EM.unwrapRes]
  cases hx : x s with
  | ok a => rw [hx] at h1; obtain ⟨b, h2, hr⟩ := h1; rw [h2]; exact .ok hr
  | error e => cases e <;> first | exact .panic | exact .noBehavior

theorem popInt : MSim M N Eq (EM.popInt (M := M) (P := AllocId × PE) (F := F)) EM.popInt := by
  intro s t hs
  simp only [EM.popInt]
  have ho := hs.oracle
  cases hx : s.oracle with
  | nil => exact .noBehavior
  | cons c rest =>
    rw [hx] at ho
    cases c with
    | prov => exact .noBehavior
    | int i =>
      rw [← ho]
      exact .ok ⟨rfl, { hs with oracle := rfl }⟩

theorem popProv : MSim M N (fun p q => q = p.map dropExtra) (EM.popProv (M := M) (P := AllocId × PE) (F := F)) EM.popProv := by
  intro s t hs
  simp only [EM.popProv]
  have ho := hs.oracle
  cases hx : s.oracle with
  | nil => exact .noBehavior
  | cons c rest =>
    rw [hx] at ho
    cases c with
    | int => exact .noBehavior
    | prov i =>
      rw [← ho]
      exact .ok ⟨rfl, { hs with oracle := rfl }⟩
end MSim

/-! ### Values with types, threads, frames -/

/-- Related values of the same type. -/
def VTBelow (x : Value (AllocId × PE) × Ty) (y : Value (AllocId × QE) × Ty) : Prop := ValueBelow x.1 y.1 ∧ x.2 = y.2

/-- Related places of the same type. -/
def PTBelow (x : Place (AllocId × PE) × Ty) (y : Place (AllocId × QE) × Ty) : Prop := PlaceBelow x.1 y.1 ∧ x.2 = y.2

section
variable {s : Machine M (AllocId × PE) F} {t : Machine N (AllocId × QE) G} (hs : StateBelow s t)
include hs

omit [DecidableEq PE] S in
theorem getActive_below : Refines ThreadBelow s.getActive t.getActive := by
  unfold Machine.getActive
  rw [hs.active]
  exact .index hs.threads _

omit [DecidableEq PE] S in
theorem curFrame_below : Refines FrameBelow s.curFrame t.curFrame := by
  unfold Machine.curFrame
  refine .bind (getActive_below hs) fun a b h => ?_
  unfold Thread.curFrame
  refine .unwrap fun f hf => ?_
  have h1 := h.stack
  cases ha : a.stack with
  | nil => rw [ha] at hf; cases hf
  | cons x xs =>
    rw [ha] at hf h1
    cases hb : b.stack with
    | nil => rw [hb] at h1; cases h1
    | cons y ys =>
      rw [hb] at h1
      cases h1 with
      | cons h1 _ => simp at hf; subst hf; exact ⟨y, rfl, h1⟩

omit [DecidableEq PE] S in
theorem setActive_below {a b} (h : ThreadBelow a b) : StateBelow (s.setActive a) (t.setActive b) := by
  refine { hs with threads := ?_ }
  show List.Forall₂ _ (s.threads.set s.activeThread a) (t.threads.set t.activeThread b)
  rw [hs.active]
  exact forall₂_set hs.threads h _

end

theorem setCurFrame_below {a : Thread (AllocId × PE) F} {b : Thread (AllocId × QE) G} (h : ThreadBelow a b) {f g} (hf : FrameBelow f g) :
    Refines ThreadBelow (a.setCurFrame f) (b.setCurFrame g) := by
  unfold Thread.setCurFrame
  have h1 := h.stack
  cases ha : a.stack with
  | nil => exact .panic
  | cons x xs =>
    rw [ha] at h1
    cases hb : b.stack with
    | nil => rw [hb] at h1; cases h1
    | cons y ys =>
      rw [hb] at h1
      cases h1 with
      | cons _ h2 => exact .ok ⟨.cons hf h2, h.state, h.payloads⟩

theorem mutateCurFrame_sim {R : α → β → Prop} {f : StackFrame (AllocId × PE) F → EM M (AllocId × PE) F (α × _)} {g}
    (h : ∀ a b, FrameBelow a b → MSim M N (fun x y => R x.1 y.1 ∧ FrameBelow x.2 y.2) (f a) (g b)) :
    MSim M N R (mutateCurFrame f) (mutateCurFrame g) := by
  unfold mutateCurFrame
  exact .bind (.read fun _ _ hs => curFrame_below hs) fun a b hab => .bind (h a b hab) fun x y hxy =>
    .bind (.read fun _ _ hs => getActive_below hs) fun a' b' hab' => .bind (.lift (setCurFrame_below hab' hxy.2)) fun _ _ h2 =>
      .bind (.modify fun _ _ hs => setActive_below hs h2) fun _ _ _ => .pure hxy.1

/-! ### Lookup -/

omit [DecidableEq PE] in
theorem ThinBelow.of_some {p : ThinPtr (AllocId × PE)} {q : ThinPtr (AllocId × QE)} (h : ThinBelow p q) {pv} (hp : p.prov = some pv) :
    q = ⟨p.addr, some (dropExtra pv)⟩ := by
  obtain ⟨qa, qp⟩ := q
  have h1 := h.2
  rw [hp] at h1
  have h2 := h1.some
  have h3 := h.1
  simp only at h2 h3
  rw [h2, h3]

theorem findPtr_mem' {K : Type} {m : Map K (ThinPtr (AllocId × PE))} {p k} (hk : findPtr m p = some k) : (k, p) ∈ m := by
  induction m with
  | nil => cases hk
  | cons x xs ih =>
    obtain ⟨k1, a⟩ := x
    unfold findPtr at hk
    by_cases hap : a = p
    · rw [if_pos hap] at hk
      simp only [Option.some.injEq] at hk
      subst hk; subst hap
      simp
    · rw [if_neg hap] at hk
      simp [ih hk]

theorem findPtr_below {K : Type} {m : Map K (ThinPtr (AllocId × PE))} {n : Map K (ThinPtr (AllocId × QE))} (h : PtrsBelow m n) (hr : Rooted M m)
    {p q} (hp : ThinBelow p q) {k : K} (hk : findPtr m p = some k) : findPtr n q = some k := by
  obtain ⟨idp, hidp⟩ := hr _ (findPtr_mem' hk)
  simp only at hidp
  have hq := hp.of_some hidp
  unfold PtrsBelow at h
  induction h with
  | nil => cases hk
  | @cons x y xs ys hxy _ ih =>
    obtain ⟨k1, a⟩ := x
    obtain ⟨k2, b⟩ := y
    obtain ⟨h1, h2⟩ := hxy
    simp only at h1 h2
    subst h1
    obtain ⟨ida, hida⟩ := hr (k1, a) (by simp)
    simp only at hida
    have hb := h2.of_some hida
    unfold findPtr at hk ⊢
    by_cases hap : a = p
    · rw [if_pos hap] at hk
      subst hap
      rw [if_pos]
      · exact hk
      · rw [hb, hq]
        rw [hida] at hidp
        rw [Option.some.inj hidp]
    · rw [if_neg hap] at hk
      rw [if_neg]
      · exact ih (fun z hz => hr z (by simp [hz])) hk
      · intro hbq
        apply hap
        rw [hb, hq] at hbq
        obtain ⟨aa, ap⟩ := a
        obtain ⟨pa, pp⟩ := p
        simp only [dropExtra, ThinPtr.mk.injEq, Option.some.injEq, Prod.mk.injEq, and_true] at hbq hida hidp ⊢
        rw [hida, hidp, hbq.2]
        exact ⟨hbq.1, rfl⟩

section
variable {s : Machine M (AllocId × PE) F} {t : Machine N (AllocId × QE) G} (hs : StateBelow s t)
include hs

theorem fnFromPtr_below {v w} (h : ValueBelow v w) : Refines Eq (s.fnFromPtr v) (t.fnFromPtr w) := by
  unfold Machine.fnFromPtr
  cases v <;> first | exact .ub | skip
  cases w <;> simp only [ValueBelow] at h
  simp only [← h.2.isSome]
  split
  · exact .ub
  · cases hf : findPtr s.fnPtrs _ with
    | none => exact .ub
    | some k => rw [findPtr_below hs.fns hs.fnsRooted h.1 hf, hs.prog.functions]; exact .eq

theorem vtableFromPtr_below {p q} (h : ThinBelow p q) : Refines Eq (s.vtableFromPtr p) (t.vtableFromPtr q) := by
  unfold Machine.vtableFromPtr
  cases hf : findPtr s.vtablePtrs _ with
  | none => exact .ub
  | some k => rw [findPtr_below hs.vtables hs.vtablesRooted h hf, hs.prog.vtables]; exact .eq

theorem vtableLookup_below {p q} (h : ThinBelow p q) : Refines Eq (s.vtableLookup p) (t.vtableLookup q) := by
  unfold Machine.vtableLookup
  cases hf : findPtr s.vtablePtrs _ with
  | none => exact .panic
  | some k => rw [findPtr_below hs.vtables hs.vtablesRooted h hf, hs.prog.vtables]; exact .eq

theorem valEnv_below : EnvBelow s.valEnv t.valEnv where
  from_ _ _ h := vtableFromPtr_below hs h
  lookup _ _ h := vtableLookup_below hs h
  deref _ _ n h := mem_deref_below hs.mem h n

/-! ### Operators -/

theorem evalUnOpInt_below (op : IntUnOp) {x y} (h : VTBelow x y) :
    Refines VTBelow (s.evalUnOpInt op x) (t.evalUnOpInt op y) := by
  obtain ⟨v, ty⟩ := x
  obtain ⟨w, ty'⟩ := y
  obtain ⟨h1, h2⟩ := h
  simp only at h1 h2
  subst h2
  cases v <;> first | exact .panic | skip
  cases w <;> simp only [ValueBelow] at h1
  subst h1
  cases ty <;> first | exact .panic | skip
  simp only [Machine.evalUnOpInt]
  refine .bind (R := Eq) ?_ fun b c h => ?_
  · exact .eq
  · subst h
    exact .bind .eq fun _ _ _ => .ok ⟨by simp [ValueBelow], rfl⟩

theorem evalCastOp_below (op : CastOp) {x y} (h : VTBelow x y) :
    Refines VTBelow (s.evalCastOp op x) (t.evalCastOp op y) := by
  obtain ⟨v, ty⟩ := x
  obtain ⟨w, ty'⟩ := y
  obtain ⟨h1, h2⟩ := h
  simp only at h1 h2
  subst h2
  cases op with
  | intToInt ity =>
    cases v <;> first | exact .panic | skip
    cases w <;> simp only [ValueBelow] at h1
    subst h1
    exact .ok ⟨by simp [ValueBelow], rfl⟩
  | transmute newTy =>
    simp only [Machine.evalCastOp]
    refine .bind .eq fun x _ hx => ?_
    subst hx
    refine .bind .eq fun y _ hy => ?_
    subst hy
    split
    · exact .ub
    · exact .bind (transmute_below (valEnv_below hs) _ _ h1) fun _ _ h => .ok ⟨h, rfl⟩

theorem evalGetMetadata_below {x y} (h : VTBelow x y) :
    Refines VTBelow (s.evalGetMetadata x) (t.evalGetMetadata y) := by
  obtain ⟨v, ty⟩ := x
  obtain ⟨w, ty'⟩ := y
  obtain ⟨h1, h2⟩ := h
  simp only at h1 h2
  subst h2
  cases v <;> first | exact .panic | skip
  cases w <;> simp only [ValueBelow] at h1
  cases ty <;> first | exact .panic | skip
  simp only [Machine.evalGetMetadata]
  refine .bind (encodeAsValue_below _ h1.2) fun a b h2 => ?_
  rename_i pt
  have h3 := Refines.rassertIsOk (checkValue_below (valEnv_below hs) pt.metaKind.ty h2)
  have := Refines.bind (S := VTBelow) h3 (f := fun _ => .ok (a, pt.metaKind.ty)) (g := fun _ => .ok (b, pt.metaKind.ty))
    fun _ _ _ => .ok ⟨h2, rfl⟩
  simpa only [bind_assoc] using this

theorem evalVTableMethodLookup_below (m : TraitMethodName) {x y} (h : VTBelow x y) :
    Refines VTBelow (s.evalVTableMethodLookup m x) (t.evalVTableMethodLookup m y) := by
  obtain ⟨v, ty⟩ := x
  obtain ⟨w, ty'⟩ := y
  obtain ⟨h1, h2⟩ := h
  simp only at h1 h2
  subst h2
  cases v <;> first | exact .panic | skip
  cases w <;> simp only [ValueBelow] at h1
  cases ty <;> first | exact .panic | skip
  simp only [Machine.evalVTableMethodLookup]
  refine .bind (vtableLookup_below hs h1.1) fun a b h2 => ?_
  subst h2
  refine .bind .eq fun a b h2 => ?_
  subst h2
  exact .bind (.mapGet hs.fns a) fun _ _ h => .ok ⟨by simpa [ValueBelow, PtrBelow, ThinPtr.widen, MetaBelow] using h, rfl⟩

theorem evalUnOp_below (op : UnOp) {x y} (h : VTBelow x y) : Refines VTBelow (s.evalUnOp op x) (t.evalUnOp op y) := by
  cases op with
  | int op => exact evalUnOpInt_below hs op h
  | cast op => exact evalCastOp_below hs op h
  | getThinPointer =>
    obtain ⟨v, ty⟩ := x
    obtain ⟨w, ty'⟩ := y
    obtain ⟨h1, h2⟩ := h
    simp only at h1 h2
    cases v <;> first | exact .panic | skip
    cases w <;> simp only [ValueBelow] at h1
    exact .ok ⟨by simpa [ValueBelow, PtrBelow, MetaBelow] using h1.1, rfl⟩
  | getMetadata => exact evalGetMetadata_below hs h
  | computeSize ty =>
    simp only [Machine.evalUnOp]
    refine .bind (decodeMetaValue_below _ h.1) fun _ _ h1 => .bind .eq fun l _ hl => ?_
    subst hl
    refine .bind (computeSize_below (valEnv_below hs) l h1) fun _ _ h2 => ?_
    subst h2
    exact .ok ⟨by simp [ValueBelow], rfl⟩
  | computeAlign ty =>
    simp only [Machine.evalUnOp]
    refine .bind (decodeMetaValue_below _ h.1) fun _ _ h1 => .bind .eq fun l _ hl => ?_
    subst hl
    refine .bind (computeAlign_below (valEnv_below hs) l h1) fun _ _ h2 => ?_
    subst h2
    exact .ok ⟨by simp [ValueBelow], rfl⟩
  | vtableMethodLookup m => exact evalVTableMethodLookup_below hs m h

theorem signedDeref_below {p q} (h : ThinBelow p q) (n : Int) :
    Refines Eq (s.mem.signedDereferenceable p n) (t.mem.signedDereferenceable q n) := by
  unfold ConcMem.signedDereferenceable Memory.signedDereferenceable
  split
  · refine .bind .eq fun x _ hx => ?_
    subst hx
    exact mem_deref_below hs.mem h _
  · simp only [← h.1]
    refine .bind .eq fun x _ hx => ?_
    subst hx
    exact mem_deref_below hs.mem (p := ⟨p.addr + n, p.prov⟩) (q := ⟨p.addr + n, q.prov⟩) ⟨rfl, h.2⟩ _

theorem ptrOffsetInbounds_below {p q} (h : ThinBelow p q) (n : Int) :
    Refines ThinBelow (s.ptrOffsetInbounds p n) (t.ptrOffsetInbounds q n) := by
  unfold Machine.ptrOffsetInbounds
  rw [h.1]
  exact .bind (signedDeref_below hs h n) fun _ _ _ => .bind .eq fun _ _ _ => .bind .eq fun _ _ _ => .ok ⟨rfl, h.2⟩

theorem evalPtrOffset_below (inb : Bool) {x y x' y'} (h : VTBelow x y) (h' : VTBelow x' y') :
    Refines VTBelow (s.evalPtrOffset inb x x') (t.evalPtrOffset inb y y') := by
  obtain ⟨v, ty⟩ := x
  obtain ⟨w, ty'⟩ := y
  obtain ⟨h1, h2⟩ := h
  obtain ⟨v', _⟩ := x'
  obtain ⟨w', _⟩ := y'
  obtain ⟨h1', _⟩ := h'
  simp only at h1 h2 h1'
  subst h2
  unfold Machine.evalPtrOffset
  cases v <;> first | exact .panic | skip
  cases w <;> simp only [ValueBelow] at h1
  rename_i p q
  obtain ⟨p, pm⟩ := p
  obtain ⟨q, qm⟩ := q
  cases pm with
  | some => exact .panic
  | none =>
    have hm := h1.2
    rcases qm with _ | (_ | _) <;> first | exact hm.elim | skip
    cases v' <;> first | exact .panic | skip
    cases w' <;> simp only [ValueBelow] at h1'
    subst h1'
    simp only
    split
    · exact .bind (ptrOffsetInbounds_below hs h1.1 _) fun _ _ h =>
        .ok ⟨by simpa [ValueBelow, PtrBelow, ThinPtr.widen, MetaBelow] using h, rfl⟩
    · refine .ok ⟨?_, rfl⟩
      simp only [ValueBelow, PtrBelow, ThinPtr.widen, MetaBelow, and_true]
      exact ⟨by unfold ThinPtr.wrappingOffset; simp only; rw [h1.1.1], h1.1.2⟩

theorem ptrDistance_below (inb : Bool) {p q p' q'} (h : ThinBelow p q) (h' : ThinBelow p' q') :
    Refines Eq (s.ptrDistance inb p p') (t.ptrDistance inb q q') := by
  unfold Machine.ptrDistance
  rw [h.1, h'.1]
  simp only
  split
  · exact .bind (signedDeref_below hs h _) fun _ _ _ => .bind (signedDeref_below hs h' _) fun _ _ _ => .ok rfl
  · exact .ok rfl

theorem evalPtrOffsetFrom_below (inb nn : Bool) {x y x' y'} (h : VTBelow x y) (h' : VTBelow x' y') :
    Refines VTBelow (s.evalPtrOffsetFrom inb nn x x') (t.evalPtrOffsetFrom inb nn y y') := by
  obtain ⟨v, ty⟩ := x
  obtain ⟨w, ty'⟩ := y
  obtain ⟨h1, h2⟩ := h
  obtain ⟨v', _⟩ := x'
  obtain ⟨w', _⟩ := y'
  obtain ⟨h1', _⟩ := h'
  simp only at h1 h2 h1'
  subst h2
  unfold Machine.evalPtrOffsetFrom
  cases v <;> first | exact .panic | skip
  cases w <;> simp only [ValueBelow] at h1
  rename_i p q
  obtain ⟨p, pm⟩ := p
  obtain ⟨q, qm⟩ := q
  cases pm with
  | some => exact .panic
  | none =>
    have hm := h1.2
    rcases qm with _ | (_ | _) <;> first | exact hm.elim | skip
    cases v' <;> first | exact .panic | skip
    cases w' <;> simp only [ValueBelow] at h1'
    rename_i p' q' _
    obtain ⟨p', pm'⟩ := p'
    obtain ⟨q', qm'⟩ := q'
    cases pm' with
    | some => exact .panic
    | none =>
      have hm := h1'.2
      rcases qm' with _ | (_ | _) <;> first | exact hm.elim | skip
      refine .bind (ptrDistance_below hs inb h1.1 h1'.1) fun d _ hd => ?_
      subst hd
      split
      · exact .ub
      · exact .ok ⟨by simp [ValueBelow], rfl⟩

theorem evalConstructWide_below (pt : PtrType) {x y x' y'} (h : VTBelow x y) (h' : VTBelow x' y') :
    Refines VTBelow (s.evalConstructWidePointer pt x x') (t.evalConstructWidePointer pt y y') := by
  obtain ⟨v, ty⟩ := x
  obtain ⟨w, ty'⟩ := y
  obtain ⟨h1, h2⟩ := h
  simp only at h1 h2
  subst h2
  unfold Machine.evalConstructWidePointer
  cases v <;> first | exact .panic | skip
  cases w <;> simp only [ValueBelow] at h1
  rename_i p q
  obtain ⟨p, pm⟩ := p
  obtain ⟨q, qm⟩ := q
  cases pm with
  | some => exact .panic
  | none =>
    have hm := h1.2
    rcases qm with _ | (_ | _) <;> first | exact hm.elim | skip
    refine .bind (decodeMetaValue_below _ h'.1) fun m n hmn => ?_
    have hv : ValueBelow (.ptr ⟨p, m⟩) (.ptr ⟨q, n⟩) := by simp only [ValueBelow]; exact ⟨h1.1, hmn⟩
    exact .bind (checkValue_below (valEnv_below hs) (.ptr pt) hv) fun _ _ _ => .ok ⟨hv, rfl⟩

omit hs S B RP [DecidableEq PE] in
theorem compareValues_below (ty : Ty) {v v' : Value (AllocId × PE)} {w w' : Value (AllocId × QE)} (h : ValueBelow v w) (h' : ValueBelow v' w') :
    Refines Eq (compareValues ty v v') (compareValues ty w w') := by
  unfold compareValues
  cases ty <;> first | exact .panic | skip
  · cases v <;> first | exact .panic | skip
    cases w <;> simp only [ValueBelow] at h
    cases v' <;> first | exact .panic | skip
    cases w' <;> simp only [ValueBelow] at h'
    subst h; subst h'; exact .eq
  · cases v <;> first | exact .panic | skip
    cases w <;> simp only [ValueBelow] at h
    cases v' <;> first | exact .panic | skip
    cases w' <;> simp only [ValueBelow] at h'
    subst h; subst h'; exact .eq
  · cases v <;> first | exact .panic | skip
    cases w <;> simp only [ValueBelow] at h
    cases v' <;> first | exact .panic | skip
    cases w' <;> simp only [ValueBelow] at h'
    simp only [comparePtr]
    rw [h.1.1, h'.1.1]
    refine .bind (R := Eq) ?_ fun a _ ha => ?_
    · unfold compareMeta
      rename_i a b c d
      have hm := h.2
      have hm' := h'.2
      generalize a.metadata = m1 at *
      generalize b.metadata = m2 at *
      generalize c.metadata = m3 at *
      generalize d.metadata = m4 at *
      rcases m1 with _ | (_ | _) <;> rcases m2 with _ | (_ | _) <;> first | exact hm.elim | skip
      all_goals rcases m3 with _ | (_ | _) <;> rcases m4 with _ | (_ | _) <;> first | exact hm'.elim | skip
      all_goals first | exact .panic | exact .ok rfl | skip
      · simp only [MetaBelow] at hm hm'; subst hm; subst hm'; exact .ok rfl
      · simp only [MetaBelow] at hm hm'; exact .ok (by rw [hm.1, hm'.1])
    · subst ha; exact .ok rfl

theorem evalBinOp_below (op : BinOp) {x y x' y'} (h : VTBelow x y) (h' : VTBelow x' y') :
    Refines VTBelow (s.evalBinOp op x x') (t.evalBinOp op y y') := by
  cases op with
  | int op =>
    obtain ⟨v, ty⟩ := x
    obtain ⟨w, ty'⟩ := y
    obtain ⟨h1, h2⟩ := h
    obtain ⟨v', _⟩ := x'
    obtain ⟨w', _⟩ := y'
    obtain ⟨h1', _⟩ := h'
    simp only at h1 h2 h1'
    subst h2
    simp only [Machine.evalBinOp]
    cases v <;> first | exact .panic | skip
    cases w <;> simp only [ValueBelow] at h1
    cases ty <;> first | exact .panic | skip
    cases v' <;> first | exact .panic | skip
    cases w' <;> simp only [ValueBelow] at h1'
    subst h1; subst h1'
    refine .bind .eq fun a _ ha => ?_
    subst ha
    exact .ok ⟨by simp [ValueBelow], rfl⟩
  | intWithOverflow op =>
    obtain ⟨v, ty⟩ := x
    obtain ⟨w, ty'⟩ := y
    obtain ⟨h1, h2⟩ := h
    obtain ⟨v', _⟩ := x'
    obtain ⟨w', _⟩ := y'
    obtain ⟨h1', _⟩ := h'
    simp only at h1 h2 h1'
    subst h2
    simp only [Machine.evalBinOp]
    cases v <;> first | exact .panic | skip
    cases w <;> simp only [ValueBelow] at h1
    cases ty <;> first | exact .panic | skip
    cases v' <;> first | exact .panic | skip
    cases w' <;> simp only [ValueBelow] at h1'
    subst h1; subst h1'
    refine .bind .eq fun a _ ha => ?_
    subst ha
    exact .ok ⟨by simp [ValueBelow, ValuesBelow], rfl⟩
  | rel op =>
    simp only [Machine.evalBinOp]
    rw [h.2]
    refine .bind (compareValues_below _ h.1 h'.1) fun a _ ha => ?_
    subst ha
    refine .ok ?_
    cases op <;> exact ⟨by simp [evalRelOp, ValueBelow], rfl⟩
  | ptrOffset inb => exact evalPtrOffset_below hs inb h h'
  | ptrOffsetFrom inb nn => exact evalPtrOffsetFrom_below hs inb nn h h'
  | constructWidePointer pt => exact evalConstructWide_below hs pt h h'
end

/-! ### Memory accesses -/

theorem memLoad_sim {p q} (hp : ThinBelow p q) (len : Nat) (align : Align) (a : Atomicity) :
    MSim M N BytesBelow (memLoad p len align a) (memLoad q len align a) := by
  intro s t hs
  simp only [memLoad, ConcMem.load]
  rw [hp.1, hs.accesses]
  simp only [bind_assoc]
  exact .bind (mem_load_below hs.mem hp len align) fun _ _ h => .ok ⟨h.1, { hs with mem := h.2, accesses := rfl }⟩

theorem memStore_sim {p q} (hp : ThinBelow p q) {b c} (hb : BytesBelow b c) (align : Align) (a : Atomicity) :
    MSim M N (fun _ _ => True) (memStore p b align a) (memStore q c align a) := by
  intro s t hs
  simp only [memStore, ConcMem.store]
  rw [hp.1, hs.accesses, List.Forall₂.length_eq hb]
  simp only [bind_assoc]
  exact .bind (mem_store_below hs.mem hp hb align) fun _ _ h => .ok ⟨trivial, { hs with mem := h, accesses := rfl }⟩

theorem memAllocate_sim (kind : AllocKind) (size : Nat) (align : Align) :
    MSim M N (fun p q => ThinBelow p q ∧ ∃ id, p.prov = some (id, RP.root)) (memAllocate kind size align)
      (memAllocate kind size align) := by
  refine .bind .popInt fun i _ hi => ?_
  subst hi
  intro s t hs
  simp only [ConcMem.allocate, bind_assoc]
  have h1 := mem_allocate_below hs.mem kind size align i
  cases hx : Memory.allocate s.mem.memory kind size align i with
  | error e =>
    rw [hx] at h1
    rcases h1 with h1 | h1
    · exact .inl h1
    · rw [h1]; exact .err
  | ok a =>
    rw [hx] at h1
    obtain ⟨b, h2, h3, h4⟩ := h1
    rw [h2]
    exact .ok ⟨⟨h3, RP.allocate _ _ _ _ _ _ _ hx⟩, { hs with mem := h4 }⟩

theorem memDeallocate_sim {p q} (hp : ThinBelow p q) (kind : AllocKind) (size : Nat) (align : Align) :
    MSim M N (fun _ _ => True) (memDeallocate p kind size align) (memDeallocate q kind size align) := by
  intro s t hs
  simp only [memDeallocate, ConcMem.deallocate, bind_assoc]
  exact .bind (mem_deallocate_below hs.mem hp kind size align) fun _ _ h => .ok ⟨trivial, { hs with mem := h }⟩

theorem memEndCall_sim (f : F) : MSim M N (fun _ _ => True) (memEndCall f) (memEndCall PlainFrame.fresh) := by
  intro s t hs
  simp only [memEndCall, ConcMem.endCall, bind_assoc]
  exact .bind (mem_endCall_below hs.mem f) fun _ _ h => .ok ⟨trivial, { hs with mem := h }⟩

theorem memDeinit_sim {p q} (hp : ThinBelow p q) (len : Nat) (align : Align) :
    MSim M N (fun _ _ => True) (memDeinit p len align) (memDeinit q len align) :=
  memStore_sim hp (forall₂_replicate trivial _) _ _

theorem retagPtrM_sim {x y} (h : PtrBelow x y) (pt : PtrType) (hq : Plain.quiet QE pt) (entry : Bool) :
    MSim M N PtrBelow (retagPtrM x pt entry) (retagPtrM y pt entry) := by
  unfold retagPtrM
  refine mutateCurFrame_sim fun f g hfg s t hs => ?_
  simp only [ConcMem.retagPtr, bind_assoc]
  rw [hfg.extra]
  refine .bind (mem_retag_below hs.mem h f.extra pt hq entry (fun _ => soft_vtableLookup) t.vtableLookup) fun x y h => ?_
  exact .ok ⟨⟨h.1, { hfg with extra := h.2.1 }⟩, { hs with mem := h.2.2 }⟩

theorem decodeChecked_below {s : Machine M (AllocId × PE) F} {t : Machine N (AllocId × QE) G} (hs : StateBelow s t) (ty : Ty) {a b} (h : BytesBelow a b) :
    Refines ValueBelow (s.decodeChecked ty a) (t.decodeChecked ty b) := by
  unfold Machine.decodeChecked
  refine decodeThen_below (valEnv_below hs) ty h rfl rfl (f := fun v => do checkValue s.valEnv ty v; .ok v)
    (g := fun v => do checkValue t.valEnv ty v; .ok v)
    (fun v w _ _ hv => .bind (checkValue_below (valEnv_below hs) ty hv) fun _ _ _ => .ok hv) ?_ ?_ ?_ ?_
  · intro v hv; rw [hv]
  · intro x hx; rw [hx]; cases x <;> rfl
  · intro v hv; rw [hv]
  · intro x hx; rw [hx]; cases x <;> rfl

theorem typedLoad_sim {p q} (hp : ThinBelow p q) (ty : Ty) (align : Align) (a : Atomicity) :
    MSim M N ValueBelow (typedLoad p ty align a) (typedLoad q ty align a) := by
  unfold typedLoad
  refine .bind (.lift .eq) fun n _ hn => ?_
  subst hn
  exact .bind (memLoad_sim hp n align a) fun _ _ hb => .read fun _ _ hs => decodeChecked_below hs ty hb

theorem encodeChecked_below {s : Machine M (AllocId × PE) F} {t : Machine N (AllocId × QE) G} (hs : StateBelow s t) (ty : Ty) {v w} (h : ValueBelow v w) :
    Refines BytesBelow (s.encodeChecked ty v) (t.encodeChecked ty w) := by
  unfold Machine.encodeChecked
  have := Refines.bind (S := BytesBelow) (Refines.rassertIsOk (checkValue_below (valEnv_below hs) ty h))
    (f := fun _ => encode ty v) (g := fun _ => encode ty w) fun _ _ _ => encode_below ty h
  simpa only [bind_assoc] using this

theorem typedStore_sim {p q} (hp : ThinBelow p q) {v w} (h : ValueBelow v w) (ty : Ty) (align : Align) (a : Atomicity) :
    MSim M N (fun _ _ => True) (typedStore p v ty align a) (typedStore q w ty align a) :=
  .bind (.read fun _ _ hs => encodeChecked_below hs ty h) fun _ _ hb => memStore_sim hp hb align a

/-! ### Expressions -/

omit [DecidableEq PE] in
theorem ThinBelow.widenNone {p : ThinPtr (AllocId × PE)} {q : ThinPtr (AllocId × QE)} (h : ThinBelow p q) :
    ValueBelow (.ptr (p.widen none)) (.ptr (q.widen none)) := by
  simpa [ValueBelow, PtrBelow, ThinPtr.widen, MetaBelow] using h

omit [DecidableEq PE] in
theorem ThinBelow.offset {p : ThinPtr (AllocId × PE)} {q : ThinPtr (AllocId × QE)} (h : ThinBelow p q) (n : Int) :
    ThinBelow (p.wrappingOffset n) (q.wrappingOffset n) :=
  ⟨by unfold ThinPtr.wrappingOffset; simp only; rw [h.1], h.2⟩

theorem evalConstant_below {s : Machine M (AllocId × PE) F} {t : Machine N (AllocId × QE) G} (hs : StateBelow s t) (c : Constant) :
    Refines ValueBelow (s.evalConstant c) (t.evalConstant c) := by
  cases c with
  | int i => exact .ok (by simp [ValueBelow])
  | bool b => exact .ok (by simp [ValueBelow])
  | globalPointer r => exact .bind (.mapGet hs.globals _) fun _ _ h => .ok (h.offset _).widenNone
  | fnPointer f => exact .bind (.mapGet hs.fns _) fun _ _ h => .ok h.widenNone
  | vtablePointer f => exact .bind (.mapGet hs.vtables _) fun _ _ h => .ok h.widenNone
  | pointerWithoutProvenance a =>
    have h : ThinBelow (⟨a, none⟩ : ThinPtr (AllocId × PE)) (⟨a, none⟩ : ThinPtr (AllocId × QE)) := ⟨rfl, .inl rfl⟩
    exact .ok h.widenNone

theorem unionValue_below (ty : Ty) (size offset : Nat) (ety : Ty) {v : Value (AllocId × PE)} {w : Value (AllocId × QE)} (h : ValueBelow v w) :
    Refines ValueBelow (unionValue ty size offset ety v) (unionValue ty size offset ety w) := by
  unfold unionValue
  refine .bind (encode_below ety h) fun _ _ h1 => .bind (.writeSubslice (forall₂_replicate trivial _) h1 _) fun a b h2 => ?_
  have h3 := decode_below ty h2
  generalize decode ty a = r at h3
  generalize decode ty b = r' at h3
  cases r with
  | ok v => obtain ⟨w, rfl, h⟩ := h3; exact .ok h
  | error e =>
    rcases h3 with h3 | rfl
    · rcases h3 with rfl | rfl | rfl | rfl <;> first | exact .ub | exact .panic | exact .noBehavior
    · cases e <;> first | exact .panic | exact .err

theorem discThen_sim {x : EM M (AllocId × PE) F (Option Int)} {y : EM N (AllocId × QE) G (Option Int)}
    (h : ∀ s t, StateBelow s t → DiscRefines StateBelow (x s) (y t)) (ity : IntType) :
    MSim M N (VTBelow (PE := PE) (QE := QE)) (do match ← x with
        | none => EM.throw .ub
        | some d => pure (.int d, .int ity))
      (do match ← y with
        | none => EM.throw .ub
        | some d => pure (.int d, .int ity)) := by
  intro s t hs
  have h1 := h s t hs
  simp only [Bind.bind]
  generalize x s = r at h1 ⊢
  generalize y t = r' at h1 ⊢
  match r, h1 with
  | .error e, h1 =>
    rcases h1 with h1 | rfl
    · exact .inl h1
    · exact .err
  | .ok (none, _), _ => exact .ub
  | .ok (some d, _), h1 =>
    obtain ⟨_, rfl, h2⟩ := h1
    exact .ok ⟨⟨by simp [ValueBelow], rfl⟩, h2⟩

theorem getDiscriminant_sim {p q} (hp : PlaceBelow p q) (ty : Ty) :
    MSim M N VTBelow (getDiscriminant p ty) (getDiscriminant q ty) := by
  unfold getDiscriminant
  cases ty <;> first | exact .panic | skip
  rename_i discriminator _ _
  simp only [hp.2]
  split
  · exact .ub
  · exact discThen_sim (fun s t hs => decodeDiscriminant_below (RS := StateBelow)
      (fun s t o n hs => .bind (ptrOffsetInbounds_below hs hp.1.1 o) fun _ _ h => memLoad_sim h n _ _ s t hs)
      discriminator s t hs) _

theorem placeLoad_sim {p q} (hp : PlaceBelow p q) (ty : Ty) : MSim M N ValueBelow (placeLoad p ty) (placeLoad q ty) := by
  unfold placeLoad
  rw [hp.2]
  split
  · exact .ub
  · exact typedLoad_sim hp.1.1 ty _ _

theorem addrOf_sim {p q} (hp : PlaceBelow p q) (pt : PtrType) (hq : Plain.quiet QE pt) : MSim M N VTBelow (addrOf p pt) (addrOf q pt) := by
  unfold addrOf
  refine .bind (.read fun _ _ hs => checkValue_below (valEnv_below hs) (.ptr pt) ?_) fun _ _ _ =>
    .bind (retagPtrM_sim hp.1 pt hq false) fun _ _ h => .pure ⟨?_, rfl⟩
  · simpa only [ValueBelow] using hp.1
  · simpa only [ValueBelow] using h

section
variable {s : Machine M (AllocId × PE) F} {t : Machine N (AllocId × QE) G} (hs : StateBelow s t)
include hs

theorem localPlace_below (l : LocalName) : Refines PTBelow (s.localPlace l) (t.localPlace l) := by
  unfold Machine.localPlace
  refine .bind (curFrame_below hs) fun f g hfg => ?_
  rw [hfg.func]
  refine .bind .eq fun ty _ hty => ?_
  subst hty
  rcases mapGet_rel hfg.locals l with ⟨h1, _⟩ | ⟨a, b, h1, h2, h⟩
  · rw [h1]; exact .ub
  · rw [h1, h2]; exact .ok ⟨⟨⟨h, trivial⟩, rfl⟩, rfl⟩

theorem checkSafeDeref_below {p q} (h : PtrBelow p q) (pt : PtrType) :
    Refines (fun _ _ => True) (s.checkSafeDeref p pt) (t.checkSafeDeref q pt) := by
  unfold Machine.checkSafeDeref
  cases pt.safePointee with
  | none => exact .ok trivial
  | some pointee =>
    simp only
    rw [h.1.1]
    refine .bind (computeAlign_below (valEnv_below hs) _ h.2) fun a _ ha => ?_
    subst ha
    refine .bind .eq fun _ _ _ => .bind (computeSize_below (valEnv_below hs) _ h.2) fun n _ hn => ?_
    subst hn
    exact (mem_deref_below hs.mem h.1 n).mono fun _ _ _ => trivial

theorem derefPlace_below (ty : Ty) {x y} (h : VTBelow x y) : Refines PTBelow (s.derefPlace ty x) (t.derefPlace ty y) := by
  obtain ⟨v, ty⟩ := x
  obtain ⟨w, ty'⟩ := y
  obtain ⟨h1, h2⟩ := h
  simp only at h1 h2
  subst h2
  cases v <;> first | exact .panic | skip
  cases w <;> simp only [ValueBelow] at h1
  cases ty <;> first | exact .panic | skip
  simp only [Machine.derefPlace]
  refine .bind (checkSafeDeref_below hs h1 _) fun _ _ _ => .bind .eq fun l _ hl => ?_
  subst hl
  refine .bind (computeAlign_below (valEnv_below hs) _ h1.2) fun a _ ha => ?_
  subst ha
  exact .ok ⟨⟨h1, by simp only; rw [h1.1.1]⟩, rfl⟩

theorem fieldOffset_below {p q} (h : PlaceBelow p q) (ty : Ty) (i : Int) :
    Refines Eq (s.fieldOffset p ty i) (t.fieldOffset q ty i) := by
  unfold Machine.fieldOffset
  cases ty <;> first | exact .panic | exact .eq | skip
  simp only
  split
  · exact .eq
  · split
    · refine .bind .eq fun a _ ha => ?_
      subst ha
      refine .bind .eq fun l _ hl => ?_
      subst hl
      refine .bind (computeAlign_below (valEnv_below hs) _ h.1.2) fun a _ ha => ?_
      subst ha
      exact .ok rfl
    · exact .panic

theorem fieldPlace_below (i : Int) {x y} (h : PTBelow x y) : Refines PTBelow (s.fieldPlace i x) (t.fieldPlace i y) := by
  unfold Machine.fieldPlace
  rw [h.2]
  refine .bind (fieldOffset_below hs h.1 _ i) fun o _ ho => ?_
  subst ho
  refine .bind .eq fun l _ hl => ?_
  subst hl
  refine .bind (computeSize_below (valEnv_below hs) _ h.1.1.2) fun n _ hn => ?_
  subst hn
  refine .bind .eq fun _ _ _ => .bind (ptrOffsetInbounds_below hs h.1.1.1 _) fun _ _ hp => .bind .eq fun l _ hl => ?_
  subst hl
  refine .ok ⟨⟨⟨hp, ?_⟩, h.1.2⟩, rfl⟩
  simp only [ThinPtr.widen]
  split
  · exact h.1.1.2
  · trivial

omit hs S B RP [DecidableEq PE] in
theorem indexInfo_below {p : Place (AllocId × PE)} {q : Place (AllocId × QE)} (h : PlaceBelow p q) (ty : Ty) :
    Refines Eq (indexInfo p ty) (indexInfo q ty) := by
  unfold indexInfo
  cases ty <;> first | exact .panic | exact .eq | skip
  simp only
  have hm := h.1.2
  generalize p.ptr.metadata = m at *
  generalize q.ptr.metadata = n at *
  rcases m with _ | (_ | _) <;> first | exact .panic | skip
  rcases n with _ | (_ | _) <;> first | exact hm.elim | skip
  simp only [MetaBelow] at hm
  subst hm
  exact .eq

theorem indexPlace_below {x y} (h : PTBelow x y) {v w} (hv : ValueBelow v w) :
    Refines PTBelow (s.indexPlace x v) (t.indexPlace y w) := by
  unfold Machine.indexPlace
  cases v <;> first | exact .panic | skip
  cases w <;> simp only [ValueBelow] at hv
  subst hv
  simp only
  rw [h.2]
  refine .bind (indexInfo_below h.1 _) fun o _ ho => ?_
  subst ho
  split
  · exact .ub
  · refine .bind .eq fun l _ hl => ?_
    subst hl
    refine .bind .eq fun l _ hl => ?_
    subst hl
    refine .bind .eq fun l _ hl => ?_
    subst hl
    refine .bind (computeSize_below (valEnv_below hs) _ h.1.1.2) fun n _ hn => ?_
    subst hn
    exact .bind .eq fun _ _ _ => .bind (ptrOffsetInbounds_below hs h.1.1.1 _) fun _ _ hp =>
      .ok ⟨⟨⟨hp, trivial⟩, h.1.2⟩, rfl⟩
end

omit [DecidableEq PE] in
theorem downcastPlace_below {x : Place (AllocId × PE) × Ty} {y : Place (AllocId × QE) × Ty} (h : PTBelow x y) (d : Int) :
    Refines PTBelow (downcastPlace x d) (downcastPlace y d) := by
  unfold downcastPlace
  rw [h.2]
  cases y.2 <;> first | exact .panic | skip
  refine .bind .eq fun l _ hl => ?_
  subst hl
  exact .ok ⟨h.1, rfl⟩

/-- Lists of related values with types. -/
abbrev VTsBelow (xs : List (Value (AllocId × PE) × Ty)) (ys : List (Value (AllocId × QE) × Ty)) : Prop :=
  List.Forall₂ VTBelow xs ys

omit [DecidableEq PE] in
theorem VTsBelow.values {xs : List (Value (AllocId × PE) × Ty)} {ys : List (Value (AllocId × QE) × Ty)} (h : VTsBelow xs ys) :
    ValuesBelow (xs.map (·.1)) (ys.map (·.1)) := by
  induction h with
  | nil => simp [ValuesBelow]
  | cons h _ ih => simp only [List.map_cons, ValuesBelow]; exact ⟨h.1, ih⟩

/-! ### The types of places -/

theorem Refines.and_right {α β : Type} {R : α → β → Prop} {P : β → Prop} {x : Res α} {y : Res β} (h : Refines R x y)
    (hp : ∀ b, y = .ok b → P b) : Refines (fun a b => R a b ∧ P b) x y := by
  cases x with
  | ok a => obtain ⟨b, h1, h2⟩ := h; exact ⟨b, h1, h2, hp b h1⟩
  | error e => exact h

theorem Ty.AllPtrFields.mem {q : PtrType → Prop} : ∀ {fs : List (Nat × Ty)}, Ty.AllPtrFields q fs → ∀ {x}, x ∈ fs → x.2.AllPtr q
  | [], _, _, h => by cases h
  | (_, _) :: fs, h, x, hx => by
    simp only [Ty.AllPtrFields] at h
    rcases List.mem_cons.1 hx with rfl | hx
    · exact h.1
    · exact Ty.AllPtrFields.mem h.2 hx

theorem Ty.AllPtrVariants.mem {q : PtrType → Prop} : ∀ {vs : Variants}, Ty.AllPtrVariants q vs → ∀ {x}, x ∈ vs → x.2.1.AllPtr q
  | [], _, _, h => by cases h
  | (_, (_, _)) :: fs, h, x, hx => by
    simp only [Ty.AllPtrVariants] at h
    rcases List.mem_cons.1 hx with rfl | hx
    · exact h.1
    · exact Ty.AllPtrVariants.mem h.2 hx

theorem mapGet_mem {K α : Type} [DecidableEq K] : ∀ {m : Map K α} {k : K} {a : α}, m.get k = .ok a → (k, a) ∈ m := by
  intro m k a h
  refine Map.get?_mem ?_
  unfold Map.get unwrap at h
  cases hg : m.get? k with
  | none => rw [hg] at h; cases h
  | some x => rw [hg] at h; cases h; rfl

theorem indexInt_mem {α : Type} {l : List α} {i : Int} {a : α} (h : indexInt l i = .ok a) : a ∈ l := by
  unfold indexInt at h
  split at h
  · cases h
  · exact List.mem_of_getElem? (index_eq_ok.1 h)

section
variable {q : PtrType → Prop} {P : Type}

theorem fieldOffset_allPtr [DecidableEq P] {t : Machine N P G} [Memory N P G] {root : Place P} {ty : Ty} {i : Int} {r : Nat × Ty}
    (h : t.fieldOffset root ty i = .ok r) (hq : ty.AllPtr q) : r.2.AllPtr q := by
  unfold Machine.fieldOffset at h
  cases ty with
  | tuple fields head tail =>
    have hf : Ty.AllPtrFields q fields ∧ ∀ x, tail = some x → x.AllPtr q := by
      cases tail with
      | none => simp only [Ty.AllPtr] at hq; exact ⟨hq, fun _ h => by cases h⟩
      | some x => simp only [Ty.AllPtr] at hq; exact ⟨hq.1, fun _ h => by cases h; exact hq.2⟩
    simp only at h
    split at h
    · exact hf.1.mem (indexInt_mem h)
    · split at h
      · obtain ⟨tl, h1, h⟩ := Res.bind_eq_ok.1 h
        obtain ⟨_, _, h⟩ := Res.bind_eq_ok.1 h
        obtain ⟨_, _, h⟩ := Res.bind_eq_ok.1 h
        cases h
        cases tail with
        | none => cases h1
        | some x => cases h1; exact hf.2 _ rfl
      · cases h
  | union fields => simp only [Ty.AllPtr] at hq; exact hq.mem (indexInt_mem h)
  | _ => cases h

theorem fieldPlace_allPtr [DecidableEq P] {t : Machine N P G} [Memory N P G] {x : Place P × Ty} {i : Int} {r : Place P × Ty}
    (h : t.fieldPlace i x = .ok r) (hq : x.2.AllPtr q) : r.2.AllPtr q := by
  unfold Machine.fieldPlace at h
  obtain ⟨⟨o, ty⟩, h1, h⟩ := Res.bind_eq_ok.1 h
  obtain ⟨_, _, h⟩ := Res.bind_eq_ok.1 h
  obtain ⟨_, _, h⟩ := Res.bind_eq_ok.1 h
  obtain ⟨_, _, h⟩ := Res.bind_eq_ok.1 h
  obtain ⟨_, _, h⟩ := Res.bind_eq_ok.1 h
  obtain ⟨_, _, h⟩ := Res.bind_eq_ok.1 h
  cases h
  exact fieldOffset_allPtr h1 hq

theorem indexPlace_allPtr [DecidableEq P] {t : Machine N P G} [Memory N P G] {x : Place P × Ty} {i : Value P} {r : Place P × Ty}
    (h : t.indexPlace x i = .ok r) (hq : x.2.AllPtr q) : r.2.AllPtr q := by
  unfold Machine.indexPlace at h
  cases i with
  | int i =>
    obtain ⟨⟨ty, n⟩, h1, h⟩ := Res.bind_eq_ok.1 h
    have hty : ty.AllPtr q := by
      unfold indexInfo at h1
      obtain ⟨p, xt⟩ := x
      cases xt with
      | array => cases h1; simpa only [Ty.AllPtr] using hq
      | slice =>
        simp only at h1
        split at h1
        · cases h1; simpa only [Ty.AllPtr] using hq
        · cases h1
      | _ => cases h1
    simp only at h
    split at h
    · cases h
    · obtain ⟨_, _, h⟩ := Res.bind_eq_ok.1 h
      obtain ⟨_, _, h⟩ := Res.bind_eq_ok.1 h
      obtain ⟨_, _, h⟩ := Res.bind_eq_ok.1 h
      obtain ⟨_, _, h⟩ := Res.bind_eq_ok.1 h
      obtain ⟨_, _, h⟩ := Res.bind_eq_ok.1 h
      obtain ⟨_, _, h⟩ := Res.bind_eq_ok.1 h
      cases h
      exact hty
  | _ => cases h

theorem downcastPlace_allPtr {x : Place P × Ty} {d : Int} {r : Place P × Ty}
    (h : downcastPlace x d = .ok r) (hq : x.2.AllPtr q) : r.2.AllPtr q := by
  unfold downcastPlace at h
  obtain ⟨p, xt⟩ := x
  cases xt with
  | enum vs =>
    obtain ⟨⟨ty, _⟩, h1, h⟩ := Res.bind_eq_ok.1 h
    cases h
    simp only [Ty.AllPtr] at hq
    exact hq.mem (mapGet_mem h1)
  | _ => cases h

theorem derefPlace_allPtr [DecidableEq P] {t : Machine N P G} [Memory N P G] {ty : Ty} {v : Value P × Ty} {r : Place P × Ty}
    (h : t.derefPlace ty v = .ok r) : r.2 = ty := by
  unfold Machine.derefPlace at h
  split at h
  · obtain ⟨_, _, h⟩ := Res.bind_eq_ok.1 h
    obtain ⟨_, _, h⟩ := Res.bind_eq_ok.1 h
    obtain ⟨_, _, h⟩ := Res.bind_eq_ok.1 h
    cases h
    rfl
  · cases h
end

/-- The functions being executed on the right have only quiet pointer types. -/
theorem curFrame_quiet {s : Machine M (AllocId × PE) F} {t : Machine N (AllocId × QE) G} (hs : StateBelow s t)
    {g : StackFrame (AllocId × QE) G} (h : t.curFrame = .ok g) : g.func.AllPtr (Plain.quiet QE) := by
  unfold Machine.curFrame at h
  obtain ⟨b, h1, h2⟩ := Res.bind_eq_ok.1 h
  have h1 := index_eq_ok.1 h1
  obtain ⟨a, _, hab⟩ := forall₂_get hs.threads.flip h1
  replace hab : ThreadBelow a b := hab
  have h3 := hab.stack
  generalize a.stack = as at h3
  unfold Thread.curFrame at h2
  cases hb : b.stack with
  | nil => rw [hb] at h2; cases h2
  | cons x xs =>
    rw [hb] at h2 h3
    cases h2
    cases h3 with
    | cons h4 _ => exact h4.quiet

theorem localPlace_allPtr {s : Machine M (AllocId × PE) F} {t : Machine N (AllocId × QE) G} (hs : StateBelow s t)
    {l : LocalName} {r} (h : t.localPlace l = .ok r) : r.2.AllPtr (Plain.quiet QE) := by
  unfold Machine.localPlace at h
  obtain ⟨g, h1, h⟩ := Res.bind_eq_ok.1 h
  obtain ⟨ty, h2, h⟩ := Res.bind_eq_ok.1 h
  split at h
  · cases h
  · cases h
    exact (curFrame_quiet hs h1).locals _ (mapGet_mem h2)

/-- Related places, at a type with only quiet pointer types. -/
def PTQ (x : Place (AllocId × PE) × Ty) (y : Place (AllocId × QE) × Ty) : Prop :=
  PTBelow x y ∧ y.2.AllPtr (Plain.quiet QE)

mutual
theorem evalValue_sim : ∀ (e : ValueExpr), e.AllPtr (Plain.quiet QE) → MSim M N VTBelow (evalValue e) (evalValue e)
  | .constant c ty, hq => by
    simp only [ValueExpr.AllPtr, ValueExpr.AllPtrList, PlaceExpr.AllPtr] at hq
    simp only [evalValue]
    exact .bind (.read fun _ _ hs => evalConstant_below hs c) fun _ _ h => .pure ⟨h, rfl⟩
  | .tuple exprs ty, hq => by
    simp only [ValueExpr.AllPtr, ValueExpr.AllPtrList, PlaceExpr.AllPtr] at hq
    simp only [evalValue]
    exact .bind (evalValues_sim exprs hq) fun _ _ h => .pure ⟨by simp only [ValueBelow]; exact VTsBelow.values h, rfl⟩
  | .union field expr unionTy, hq => by
    simp only [ValueExpr.AllPtr, ValueExpr.AllPtrList, PlaceExpr.AllPtr] at hq
    simp only [evalValue]
    cases unionTy <;> first | exact .panic | skip
    simp only
    refine .bind (.lift .eq) fun o _ ho => ?_
    subst ho
    exact .bind (evalValue_sim expr hq) fun _ _ h => .bind (.lift (unionValue_below _ _ _ _ h.1)) fun _ _ h => .pure ⟨h, rfl⟩
  | .variant d data ty, hq => by
    simp only [ValueExpr.AllPtr, ValueExpr.AllPtrList, PlaceExpr.AllPtr] at hq
    simp only [evalValue]
    exact .bind (evalValue_sim data hq) fun _ _ h => .pure ⟨by simpa [ValueBelow] using h.1, rfl⟩
  | .getDiscriminant place, hq => by
    simp only [ValueExpr.AllPtr, ValueExpr.AllPtrList, PlaceExpr.AllPtr] at hq
    simp only [evalValue]
    refine .bind (evalPlace_simQ place hq) fun _ _ h => ?_
    obtain ⟨⟨h1, h2⟩, _⟩ := h
    rw [h2]
    exact getDiscriminant_sim h1 _
  | .load source, hq => by
    simp only [ValueExpr.AllPtr, ValueExpr.AllPtrList, PlaceExpr.AllPtr] at hq
    simp only [evalValue]
    refine .bind (evalPlace_simQ source hq) fun _ _ h => ?_
    obtain ⟨⟨h1, h2⟩, _⟩ := h
    rw [h2]
    exact .bind (placeLoad_sim h1 _) fun _ _ h => .pure ⟨h, rfl⟩
  | .addrOf target pt, hq => by
    simp only [ValueExpr.AllPtr, ValueExpr.AllPtrList, PlaceExpr.AllPtr] at hq
    simp only [evalValue]
    exact .bind (evalPlace_simQ target hq.1) fun _ _ h => addrOf_sim h.1.1 pt hq.2
  | .unOp op e, hq => by
    simp only [ValueExpr.AllPtr, ValueExpr.AllPtrList, PlaceExpr.AllPtr] at hq
    simp only [evalValue]
    exact .bind (evalValue_sim e hq) fun _ _ h => .read fun _ _ hs => evalUnOp_below hs op h
  | .binOp op l r, hq => by
    simp only [ValueExpr.AllPtr, ValueExpr.AllPtrList, PlaceExpr.AllPtr] at hq
    simp only [evalValue]
    exact .bind (evalValue_sim l hq.1) fun _ _ h => .bind (evalValue_sim r hq.2) fun _ _ h' =>
      .read fun _ _ hs => evalBinOp_below hs op h h'
theorem evalValues_sim : ∀ (es : List ValueExpr), ValueExpr.AllPtrList (Plain.quiet QE) es → MSim M N VTsBelow (evalValues es) (evalValues es)
  | [], _ => by simp only [evalValues]; exact .pure .nil
  | e :: es, hq => by
    simp only [ValueExpr.AllPtr, ValueExpr.AllPtrList, PlaceExpr.AllPtr] at hq
    simp only [evalValues]
    exact .bind (evalValue_sim e hq.1) fun _ _ h => .bind (evalValues_sim es hq.2) fun _ _ h' => .pure (.cons h h')
theorem evalPlace_simQ : ∀ (e : PlaceExpr), e.AllPtr (Plain.quiet QE) → MSim M N PTQ (evalPlace e) (evalPlace e)
  | .local name, _ => by
    simp only [evalPlace]
    exact .read fun _ _ hs => (localPlace_below hs name).and_right fun _ h => localPlace_allPtr hs h
  | .deref e ty, hq => by
    simp only [ValueExpr.AllPtr, ValueExpr.AllPtrList, PlaceExpr.AllPtr] at hq
    simp only [evalPlace]
    exact .bind (evalValue_sim e hq.1) fun _ _ h => .read fun _ _ hs =>
      (derefPlace_below hs ty h).and_right fun _ hr => by rw [derefPlace_allPtr hr]; exact hq.2
  | .field root i, hq => by
    simp only [ValueExpr.AllPtr, ValueExpr.AllPtrList, PlaceExpr.AllPtr] at hq
    simp only [evalPlace]
    exact .bind (evalPlace_simQ root hq) fun _ _ h => .read fun _ _ hs =>
      (fieldPlace_below hs i h.1).and_right fun _ hr => fieldPlace_allPtr hr h.2
  | .index root i, hq => by
    simp only [ValueExpr.AllPtr, ValueExpr.AllPtrList, PlaceExpr.AllPtr] at hq
    simp only [evalPlace]
    exact .bind (evalPlace_simQ root hq.1) fun _ _ h => .bind (evalValue_sim i hq.2) fun _ _ h' =>
      .read fun _ _ hs => (indexPlace_below hs h.1 h'.1).and_right fun _ hr => indexPlace_allPtr hr h.2
  | .downcast root d, hq => by
    simp only [ValueExpr.AllPtr, ValueExpr.AllPtrList, PlaceExpr.AllPtr] at hq
    simp only [evalPlace]
    exact .bind (evalPlace_simQ root hq) fun _ _ h => .lift
      ((downcastPlace_below h.1 d).and_right fun _ hr => downcastPlace_allPtr hr h.2)
end

theorem evalPlace_sim (e : PlaceExpr) (h : e.AllPtr (Plain.quiet QE)) : MSim M N PTBelow (evalPlace e) (evalPlace e) :=
  (evalPlace_simQ e h).mono fun _ _ h => h.1

end
end MiniRust
