import Verif.Lemmas.Crate
import Verif.Lemmas.WfProg
import Verif.Lemmas.NoPanicExpr
/-
Lemmas for C69 and C70: the translation of a crate ends, and then everything that is needed is there.
-/
set_option linter.unusedSectionVars false
namespace MiniRust
variable {I A Y D : Type} [DecidableEq I] [DecidableEq A] [DecidableEq Y] [DecidableEq D] [T : Target]

namespace Crate
variable {K : Crate I A Y D} {P : List A} {c c' : Cx I A Y D}

theorem forall₂_left {α β : Type} {R : α → β → Prop} : ∀ {l : List α} {l' : List β}, List.Forall₂ R l l' → ∀ a ∈ l, ∃ b ∈ l', R a b
  | _, _, .nil, _, h => by cases h
  | _, _, .cons h hs, a, ha => by
    rcases List.mem_cons.1 ha with rfl | ha
    · exact ⟨_, List.mem_cons_self, h⟩
    · obtain ⟨b, hb, hr⟩ := forall₂_left hs a ha
      exact ⟨b, List.mem_cons_of_mem _ hb, hr⟩

theorem FnInv.complete {k : Nat} (hF : FnInv K k c) (hd : Done c) {r : RsReq I A Y D} (hr : K.Needed r) : ∃ n, c.nameOf r = some n := by
  induction hr with
  | entry => exact ⟨0, hF.entry⟩
  | @request i r _ hm ih =>
    obtain ⟨n, hn⟩ := ih
    have hn' : c.fnNames.get? i = some n := hn
    cases hf : c.functions.get? n with
    | none => exact absurd hf (hd n (Map.mem_values hn'))
    | some f =>
      obtain ⟨j, ns, h1, h2, h3⟩ := hF.fn n f hf
      have := hF.inv.fns.inj h1 hn'
      subst this
      obtain ⟨b, _, hb⟩ := forall₂_left h2 r hm
      exact ⟨b, hb⟩
  | @method y d es f _ he hm ih =>
    obtain ⟨n, hn⟩ := ih
    obtain ⟨vt, _, _, h3⟩ := hF.inv.vtable y d n hn
    obtain ⟨m, hm, e⟩ := List.getElem_of_mem hm
    exact h3 m f ⟨es, he, .inl (by rw [List.getElem?_eq_getElem hm, e])⟩
  | @drop y d es _ he hm ih =>
    obtain ⟨n, hn⟩ := ih
    obtain ⟨vt, _, _, h3⟩ := hF.inv.vtable y d n hn
    obtain ⟨m, hm, e⟩ := List.getElem_of_mem hm
    exact h3 m _ ⟨es, he, .inr ⟨by rw [List.getElem?_eq_getElem hm, e], rfl⟩⟩
  | @traitOf y d _ ih =>
    obtain ⟨n, hn⟩ := ih
    obtain ⟨vt, _, h2, _⟩ := hF.inv.vtable y d n hn
    exact ⟨_, h2.trait⟩
  | @pointer a al off a' _ hal hp ih =>
    obtain ⟨n, hn⟩ := ih
    obtain ⟨al', g, h1, _, h3⟩ := hF.inv.global a n hn (by simp)
    rw [hal] at h1; cases h1
    obtain ⟨b, _, _, hb, _⟩ := forall₂_left h3.pointers _ hp
    exact ⟨_, hb⟩

/-! ### The translation does not get stuck -/

/-- The allocation and the pointers in it are supported: there is an offset in the bytes of each. -/
def AllocOk (K : Crate I A Y D) (a : A) : Prop :=
  ∃ al, K.alloc a = some al ∧ ∀ p ∈ al.ptrs, ∃ off, al.OffsetAt p.1 off

/-- How many of the allocations have no name yet. -/
def unnamed (c : Cx I A Y D) (L : List A) : Nat := (L.filter fun a => (c.allocNames.get? a).isNone).length

theorem unnamed_le {L : List A} (h : c.Ext c') : unnamed c' L ≤ unnamed c L := by
  unfold unnamed
  apply List.Sublist.length_le
  apply List.monotone_filter_right
  intro a ha
  cases hc : c.allocNames.get? a with
  | none => rfl
  | some n =>
    have := h.names (.alloc a) n hc
    simp only [Cx.nameOf] at this
    rw [this] at ha; cases ha

theorem unnamed_lt {L : List A} {a : A} (ha : a ∈ L) (h : c.Ext c') (hn : c.allocNames.get? a = none)
    (hn' : ∃ n, c'.allocNames.get? a = some n) : unnamed c' L < unnamed c L := by
  induction L with
  | nil => cases ha
  | cons b L ih =>
    have hle : unnamed c' L ≤ unnamed c L := unnamed_le h
    unfold unnamed at hle ih ⊢
    simp only [List.filter_cons]
    by_cases hab : b = a
    · subst hab
      obtain ⟨n, hn'⟩ := hn'
      rw [hn, hn']
      simp only [Option.isNone_none, Option.isNone_some, if_true, List.length_cons]
      simp only [Bool.false_eq_true, if_false]
      omega
    · have := ih (by rcases List.mem_cons.1 ha with h | h; exacts [absurd h.symm hab, h])
      cases hc : c.allocNames.get? b with
      | none =>
        cases hc' : c'.allocNames.get? b <;> simp <;> omega
      | some n =>
        have hx := h.names (.alloc b) n hc
        simp only [Cx.nameOf] at hx
        rw [hx]
        simpa using this

theorem translatePtrs_total {fuel : Nat} {al : RsAlloc A} {L : List A} (IH : ∀ (P : List A) (c : Cx I A Y D) (a : A), K.Inv P c → K.Needed (.alloc a) →
    unnamed c L < fuel → ∃ r, K.translateAllocId fuel c a = .ok r) :
    ∀ (ps : List (Nat × A)) (P : List A) (c : Cx I A Y D), K.Inv P c → (∀ p ∈ ps, K.Needed (.alloc p.2)) →
    (∀ p ∈ ps, ∃ off, al.OffsetAt p.1 off) → unnamed c L < fuel → ∃ r, translatePtrs (K.translateAllocId fuel) c (globalBytes al) ps = .ok r
  | [], _, c, _, _, _, _ => ⟨([], c), by simp only [translatePtrs]⟩
  | (off, a) :: ps, P, c, hI, hN, hO, hu => by
    obtain ⟨x, hx⟩ := hO _ List.mem_cons_self
    obtain ⟨⟨n, c1⟩, h1⟩ := IH P c a hI (hN (off, a) List.mem_cons_self) hu
    obtain ⟨hI1, hE1, _⟩ := translateAllocId_spec fuel c P a hI (hN (off, a) List.mem_cons_self) n c1 h1
    obtain ⟨r, hr⟩ := translatePtrs_total IH ps P c1 hI1 (fun p hp => hN p (List.mem_cons_of_mem _ hp))
      (fun p hp => hO p (List.mem_cons_of_mem _ hp)) (Nat.lt_of_le_of_lt (unnamed_le hE1) hu)
    exact ⟨_, by simp only [translatePtrs, innerOffset_iff.2 hx, h1, hr, Res.bind_ok]; rfl⟩

theorem translateAllocId_total {L : List A} (hL : ∀ a, K.Needed (.alloc a) → a ∈ L) (hok : ∀ a, K.Needed (.alloc a) → AllocOk K a) :
    ∀ (fuel : Nat) (P : List A) (c : Cx I A Y D) (a : A), K.Inv P c → K.Needed (.alloc a) → unnamed c L < fuel →
    ∃ r, K.translateAllocId fuel c a = .ok r
  | 0, _, _, _, _, _, h => by omega
  | fuel + 1, P, c, a, hI, hN, hu => by
    simp only [translateAllocId]
    split
    · exact ⟨_, rfl⟩
    · next hn =>
      obtain ⟨al, hal, hps⟩ := hok a hN
      simp only [Cx.freshGlobal, hal]
      have hlen : c.globals.length = c.allocNames.length := by
        rw [← Map.length_keys, hI.globalKeys, List.length_range]
      rw [hlen]
      obtain ⟨hI1, hE1, hn1⟩ := Inv.begin hI hN hn
      obtain ⟨⟨rs, c2⟩, hr⟩ := translatePtrs_total (al := al) (translateAllocId_total hL hok fuel) al.ptrs (a :: P) _ hI1
        (fun p hp => .pointer hN hal (off := p.1) (by exact hp)) hps
        (Nat.lt_of_lt_of_le (unnamed_lt (hL a hN) hE1 hn ⟨_, hn1⟩) (Nat.lt_succ_iff.1 hu))
      exact ⟨_, by rw [hr]; rfl⟩

theorem getTraitName_total (hI : K.Inv P c) (d : D) : ∃ r, K.getTraitName c d = .ok r := by
  unfold getTraitName
  split
  · next n hn =>
    refine ⟨_, by rw [Map.contains_eq.2 ⟨_, hI.trait d n hn⟩]; rfl⟩
  · exact ⟨_, rfl⟩

theorem getVTable_total (hK : K.DropFirst) (hI : K.Inv P c) (y : Y) (d : D) (hN : K.Needed (.vtable y d)) : ∃ r, K.getVTable c y d = .ok r := by
  unfold getVTable
  split
  · next n hn =>
    obtain ⟨vt, h, _⟩ := hI.vtable y d n hn
    exact ⟨_, by rw [Map.contains_eq.2 ⟨_, h⟩]; rfl⟩
  · have hI2 := (vtMethods_spec hK hI y d hN (vtMethods K c y d).1 (vtMethods K c y d).2 rfl).1
    obtain ⟨⟨t, c'⟩, ht⟩ := getTraitName_total hI2 d
    exact ⟨_, by rw [generateVTable_eq, ht]; rfl⟩

theorem answers_total (hK : K.DropFirst) {L : List A} (hL : ∀ a, K.Needed (.alloc a) → a ∈ L) (hok : ∀ a, K.Needed (.alloc a) → AllocOk K a)
    {fuel : Nat} (hf : L.length < fuel) : ∀ (rs : List (RsReq I A Y D)) (c : Cx I A Y D), K.Inv P c → (∀ r ∈ rs, K.Needed r) →
    ∃ r, K.answers fuel c rs = .ok r
  | [], _, _, _ => ⟨_, rfl⟩
  | r :: rs, c, hI, hN => by
    have h1 : ∃ x, K.answer fuel c r = .ok x := by
      have hr := hN r List.mem_cons_self
      cases r with
      | fn i => exact ⟨_, rfl⟩
      | vtable y d => exact getVTable_total hK hI y d hr
      | trait d => exact getTraitName_total hI d
      | alloc a => exact translateAllocId_total hL hok fuel P c a hI hr (Nat.lt_of_le_of_lt (List.length_filter_le _ _) hf)
    obtain ⟨⟨n, c1⟩, h1⟩ := h1
    obtain ⟨hI1, _, _⟩ := answer_spec hK hI (hN r List.mem_cons_self) h1
    obtain ⟨⟨ns, c2⟩, h2⟩ := answers_total hK hL hok hf rs c1 hI1 (fun r hr => hN r (List.mem_cons_of_mem _ hr))
    exact ⟨_, by simp only [answers, h1, h2, Res.bind_ok]; rfl⟩

/-- The loop goes through at most as many instances as are needed. -/
theorem FnInv.bound {k : Nat} (hF : FnInv K k c) {S : List I} (hS : ∀ i, K.Needed (.fn i) → i ∈ S) : k ≤ S.length := by
  have hsub : ∀ n ∈ c.functions.keys, n ∈ S.map fun i => (c.fnNames.get? i).getD 0 := by
    intro n hn
    obtain ⟨f, hf⟩ := Map.get?_isSome_iff.2 hn
    obtain ⟨i, ns, h1, _⟩ := hF.fn n f hf
    exact List.mem_map.2 ⟨i, hS i (hF.inv.needed (.fn i) n h1), by rw [h1]; rfl⟩
  have := (List.subperm_of_subset hF.nodup hsub).length_le
  rw [Map.length_keys, hF.count, List.length_map] at this
  exact this

/-! ### Well-formedness of the program -/

theorem checkVTables_iff {prog : Program} : ∀ {vs : List VTable}, checkVTables prog vs = .ok () ↔ ∀ v ∈ vs,
    v.size % v.align.bytes = 0 ∧ checkCells v.cells v.size = .ok () ∧
    ∃ ms, prog.traits.get? v.traitName = some ms ∧ ∀ m, m ∈ v.methods.keys ↔ m ∈ ms
  | [] => by simp [checkVTables]
  | v :: vs => by
    simp only [checkVTables, List.forall_mem_cons, ← checkVTables_iff (vs := vs), Res.bind_eq_ok, ensureWf_eq_ok, beq_iff_eq]
    constructor
    · rintro ⟨_, h1, ⟨⟩, h2, h3⟩
      split at h3
      · cases h3
      · next ms hms =>
        obtain ⟨_, h3, h4⟩ := Res.bind_eq_ok.1 h3
        simp only [ensureWf_eq_ok, Bool.and_eq_true, List.all_eq_true, decide_eq_true_eq] at h3
        exact ⟨⟨h1, h2, ms, hms, fun m => ⟨h3.1 m, h3.2 m⟩⟩, h4⟩
    · rintro ⟨⟨h1, h2, ms, hms, h3⟩, h4⟩
      refine ⟨(), h1, (), h2, ?_⟩
      rw [hms]
      refine Res.bind_eq_ok.2 ⟨(), ?_, h4⟩
      simp only [ensureWf_eq_ok, Bool.and_eq_true, List.all_eq_true, decide_eq_true_eq]
      exact ⟨fun m => (h3 m).1, fun m => (h3 m).2⟩

theorem checkFunctions_iff {prog : Program} : ∀ {fs : List Function}, checkFunctions prog fs = .ok () ↔ ∀ f ∈ fs, f.checkWf prog = .ok ()
  | [] => by simp [checkFunctions]
  | f :: fs => by
    simp only [checkFunctions, List.forall_mem_cons, ← checkFunctions_iff (fs := fs), Res.bind_eq_ok]
    constructor
    · rintro ⟨⟨⟩, h1, h2⟩; exact ⟨h1, h2⟩
    · rintro ⟨h1, h2⟩; exact ⟨(), h1, h2⟩

theorem checkRelocations_iff {prog : Program} {size : Nat} : ∀ {rs : List (Nat × Relocation)}, checkRelocations prog size rs = .ok () ↔
    ∀ r ∈ rs, r.1 + T.ptrSize ≤ size ∧ ∃ g, prog.globals.get? r.2.name = some g ∧ r.2.offset ≤ g.bytes.length
  | [] => by simp [checkRelocations]
  | (o, r) :: rs => by
    simp only [checkRelocations, List.forall_mem_cons, ← checkRelocations_iff (rs := rs), Res.bind_eq_ok, ensureWf_eq_ok, decide_eq_true_eq,
      Relocation.checkWf]
    constructor
    · rintro ⟨_, h1, ⟨⟩, h2, h3⟩
      split at h2
      · cases h2
      · next g hg => exact ⟨⟨h1, g, hg, by simpa using h2⟩, h3⟩
    · rintro ⟨⟨h1, g, hg, h2⟩, h3⟩
      exact ⟨(), h1, (), by rw [hg]; simpa using h2, h3⟩

theorem checkGlobals_iff {prog : Program} : ∀ {gs : List Global}, checkGlobals prog gs = .ok () ↔
    ∀ g ∈ gs, checkRelocations prog g.bytes.length g.relocations = .ok ()
  | [] => by simp [checkGlobals]
  | g :: gs => by
    simp only [checkGlobals, List.forall_mem_cons, ← checkGlobals_iff (gs := gs), Res.bind_eq_ok]
    constructor
    · rintro ⟨⟨⟩, h1, h2⟩; exact ⟨h1, h2⟩
    · rintro ⟨h1, h2⟩; exact ⟨(), h1, h2⟩

theorem mem_values_iff {κ V : Type} [DecidableEq κ] {m : Map κ V} (hn : m.keys.Nodup) {v : V} :
    v ∈ m.values ↔ ∃ k, m.get? k = some v := by
  constructor
  · intro h
    obtain ⟨⟨k, v'⟩, hm, rfl⟩ := List.mem_map.1 h
    exact ⟨k, Map.get?_of_mem hn hm⟩
  · rintro ⟨k, hk⟩; exact Map.mem_values hk

theorem unitTy_layout : unitTy.layout = .ok (.sized 0 Align.one) := by
  have ha : alignTo 0 Align.one = 0 := rfl
  simp [unitTy, Ty.layout, TupleHeadLayout.headSizeAndAlign, ha]

theorem unitTy_wf [L : LawfulTarget T] (prog : Program) : unitTy.checkWf prog = .ok () := by
  have hv : T.validSize 0 = true := L.valid_down 0 _ (Nat.zero_le _) L.valid_wide
  have ha : alignTo 0 Align.one = 0 := rfl
  simp [unitTy, Ty.checkWf, Ty.fieldChecks, sortByOffset, checkSortedFields, TupleHeadLayout.checkWf, checkLayout, Ty.layout,
    TupleHeadLayout.headSizeAndAlign, ha, hv, LayoutStrategy.checkWf, LayoutStrategy.checkAligned, LayoutStrategy.metaKind, Ty.metaKind]

theorem unitPlace_wf [L : LawfulTarget T] (prog : Program) (locals : Map LocalName Ty) : unitPlace.checkWf prog locals = .ok unitTy := by
  have h1 : inBounds .unsigned T.ptrSize 1 = true := by
    have hp := L.ptr_pow
    cases hs : T.ptrSize with
    | zero => rw [hs] at hp; simp [isPowerOfTwo] at hp
    | succ n =>
      have : (1 : Int) < 2 ^ (8 * (n + 1)) := by
        have : 1 < 2 ^ (8 * (n + 1)) := Nat.one_lt_two_pow (by omega)
        exact_mod_cast this
      simp [inBounds]
      omega
  have h2 : (Ty.ptr rawVoidPtr).checkWf prog = .ok () := ptr_wf rfl
  have h3 : rawVoidPtr.metaKind = unitTy.metaKind := rfl
  simp [unitPlace, PlaceExpr.checkWf, unitTy_wf, unitPtr, ValueExpr.checkWf, Constant.checkWf, h1, h2, h3]

theorem mkStartFn_wf [LawfulTarget T] {prog : Program} {n : FnName} (h : prog.functions.contains n = true) : (mkStartFn n).checkWf prog = .ok () := by
  have h2 : (Ty.ptr .fnPtr).checkWf prog = .ok () := ptr_wf rfl
  unfold Map.contains at h
  simp [Function.checkWf, mkStartFn, checkLocals, Map.values, unitTy_layout, LayoutStrategy.isSized, unitTy_wf, checkArgs, Map.contains, Map.get?,
    checkBlocks, checkStatements, Terminator.checkWf, unitPlace_wf, checkCallArgs, checkIntrinsicArgs, mkAbort, Function.checkNextOpt,
    Function.checkUnwindOpt, Function.checkNextBlock, Function.checkUnwindBlock, IntrinsicOp.checkWf, mkFnPtr, ValueExpr.checkWf,
    Constant.checkWf, h, h2]

theorem mem_generateTrait {d : D} {m : Nat} : m ∈ K.generateTrait d ↔ K.HasMethod d m := by
  unfold generateTrait HasMethod
  cases h : K.principal d with
  | none => simp
  | some bo =>
    obtain ⟨base, own⟩ := bo
    simp only [Option.some.injEq, Prod.mk.injEq]
    have hm : ∀ m : Nat, m ∈ (List.range own).map (base + ·) ↔ base ≤ m ∧ m < base + own := by
      intro m
      simp only [List.mem_map, List.mem_range]
      constructor
      · rintro ⟨j, hj, rfl⟩; omega
      · rintro ⟨h1, h2⟩; exact ⟨m - base, by omega, by omega⟩
    constructor
    · intro hx
      refine ⟨base, own, ⟨rfl, rfl⟩, ?_⟩
      split at hx
      · exact .inr ((hm m).1 hx)
      · rcases List.mem_append.1 hx with hx | hx
        · exact .inr ((hm m).1 hx)
        · exact .inl (by simpa using hx)
    · rintro ⟨_, _, ⟨rfl, rfl⟩, hx⟩
      split
      · next h0 =>
        rcases hx with rfl | hx
        · exact h0
        · exact (hm m).2 hx
      · rcases hx with rfl | hx
        · simp
        · exact List.mem_append_left _ ((hm m).2 hx)

/-- The program is well-formed iff its functions are, the vtables match their traits, and relocations are in bounds. -/
theorem finish_wf_iff [LawfulTarget T] {k : Nat} (hF : FnInv K k c) (hd : Done c) : c.finish.checkWf = .ok () ↔
    (∀ y d, K.Needed (.vtable y d) → (K.vtable y d).size % (K.vtable y d).align.bytes = 0 ∧
      checkCells (K.vtable y d).cells (K.vtable y d).size = .ok () ∧
      ∀ m, (∃ i, (K.vtable y d).Slot m i) ↔ K.HasMethod d m) ∧
    (∀ n f, c.functions.get? n = some f → f.checkWf c.finish = .ok ()) ∧
    (∀ a al p a' al' off, K.Needed (.alloc a) → K.alloc a = some al → (p, a') ∈ al.ptrs → K.alloc a' = some al' →
      al.OffsetAt p off → off ≤ al'.bytes.length) := by
  have hlen : ∀ n, c.fnNames.length ≤ n → c.functions.get? n = none := by
    intro n hn
    cases h : c.functions.get? n with
    | none => rfl
    | some f =>
      obtain ⟨i, _, h1, _⟩ := hF.fn n f h
      have := hF.inv.fns.lt h1
      omega
  have hfresh := hlen _ (le_refl _)
  have hfun : ∀ n, c.finish.functions.get? n = if c.fnNames.length = n then some (mkStartFn 0) else c.functions.get? n :=
    fun n => Map.get?_insert _ _ _ _
  have hfk : c.finish.functions.keys.Nodup := by
    show (c.functions.insert _ _).keys.Nodup
    rw [Map.keys_fresh hfresh]
    refine List.nodup_append.2 ⟨hF.nodup, by simp, ?_⟩
    intro a ha b hb
    simp only [List.mem_singleton] at hb
    subst hb
    rintro rfl
    exact Map.get?_eq_none_iff.1 hfresh ha
  have hvk : c.finish.vtables.keys.Nodup := by
    show c.vtables.keys.Nodup
    rw [hF.inv.vtableKeys]; exact List.nodup_range
  have hgk : c.finish.globals.keys.Nodup := by
    show c.globals.keys.Nodup
    rw [hF.inv.globalKeys]; exact List.nodup_range
  have h0 : c.finish.functions.contains 0 = true := by
    rw [Map.contains_eq, hfun]
    have h0 := hF.inv.fns.lt hF.entry
    rw [if_neg (by omega)]
    cases h : c.functions.get? 0 with
    | none => exact absurd h (hd 0 (Map.mem_values hF.entry))
    | some f => exact ⟨f, rfl⟩
  have hvt : checkVTables c.finish c.finish.vtables.values = .ok () ↔
      (∀ y d, K.Needed (.vtable y d) → (K.vtable y d).size % (K.vtable y d).align.bytes = 0 ∧
      checkCells (K.vtable y d).cells (K.vtable y d).size = .ok () ∧
      ∀ m, (∃ i, (K.vtable y d).Slot m i) ↔ K.HasMethod d m) := by
    rw [checkVTables_iff]
    have hkeys : ∀ y d vt, VTableFor c.fnNames.get? c.traitNames.get? (K.vtable y d) d vt →
        (∀ m i, (K.vtable y d).Slot m i → ∃ n, c.fnNames.get? i = some n) →
        ∀ m, m ∈ vt.methods.keys ↔ ∃ i, (K.vtable y d).Slot m i := by
      intro y d vt h2 h3 m
      rw [← Map.get?_isSome_iff]
      constructor
      · rintro ⟨n, hn⟩
        obtain ⟨i, hi, _⟩ := (h2.methods m n).1 hn
        exact ⟨i, hi⟩
      · rintro ⟨i, hi⟩
        obtain ⟨n, hn⟩ := h3 m i hi
        exact ⟨n, (h2.methods m n).2 ⟨i, hi, hn⟩⟩
    constructor
    · intro h y d hN
      obtain ⟨n, hn⟩ := hF.complete hd hN
      obtain ⟨vt, h1, h2, h3⟩ := hF.inv.vtable y d n hn
      obtain ⟨e1, e2, ms, e3, e4⟩ := h vt ((mem_values_iff hvk).2 ⟨n, h1⟩)
      have ht : c.traits.get? vt.traitName = some (K.generateTrait d) := hF.inv.trait d _ h2.trait
      rw [show c.finish.traits = c.traits from rfl, ht] at e3
      cases e3
      rw [h2.layout.1, h2.layout.2.1] at e1
      rw [h2.layout.1, h2.layout.2.2] at e2
      refine ⟨e1, e2, fun m => ?_⟩
      rw [← hkeys y d vt h2 h3 m, e4 m, mem_generateTrait]
    · intro h vt hvt
      obtain ⟨n, hn⟩ := (mem_values_iff hvk).1 hvt
      have hlt : n < c.vtableNames.length := by
        have : n ∈ c.vtables.keys := Map.get?_isSome_iff.1 ⟨vt, hn⟩
        rw [hF.inv.vtableKeys] at this
        exact List.mem_range.1 this
      obtain ⟨⟨y, d⟩, hyd⟩ := hF.inv.vtables.of_lt hlt
      obtain ⟨vt', h1, h2, h3⟩ := hF.inv.vtable y d n hyd
      have : vt' = vt := by
        have hn' : c.vtables.get? n = some vt := hn
        rw [h1] at hn'; cases hn'; rfl
      subst this
      obtain ⟨e1, e2, e3⟩ := h y d (hF.inv.needed (.vtable y d) n hyd)
      rw [h2.layout.1, h2.layout.2.1, h2.layout.2.2]
      refine ⟨e1, e2, _, hF.inv.trait d _ h2.trait, fun m => ?_⟩
      rw [hkeys y d vt' h2 h3 m, e3 m, mem_generateTrait]
  have hfn : checkFunctions c.finish c.finish.functions.values = .ok () ↔
      ∀ n f, c.functions.get? n = some f → f.checkWf c.finish = .ok () := by
    rw [checkFunctions_iff]
    constructor
    · intro h n f hf
      refine h f ((mem_values_iff hfk).2 ⟨n, ?_⟩)
      rw [hfun, if_neg, hf]
      rintro rfl
      rw [hfresh] at hf; cases hf
    · intro h f hf
      obtain ⟨n, hn⟩ := (mem_values_iff hfk).1 hf
      rw [hfun] at hn
      split at hn
      · cases hn; exact mkStartFn_wf h0
      · exact h n f hn
  have hgl : checkGlobals c.finish c.finish.globals.values = .ok () ↔
      (∀ a al p a' al' off, K.Needed (.alloc a) → K.alloc a = some al → (p, a') ∈ al.ptrs → K.alloc a' = some al' →
      al.OffsetAt p off → off ≤ al'.bytes.length) := by
    rw [checkGlobals_iff]
    constructor
    · intro h a al p a' al' off hN hal hp hal' ho
      obtain ⟨n, hn⟩ := hF.complete hd hN
      obtain ⟨al0, g, h1, h2, h3⟩ := hF.inv.global a n hn (by simp)
      rw [hal] at h1; cases h1
      have hc := h g ((mem_values_iff hgk).2 ⟨n, h2⟩)
      rw [checkRelocations_iff] at hc
      obtain ⟨r, hr, e1, e2, e3⟩ := forall₂_left h3.pointers _ hp
      obtain ⟨_, g', hg', hle⟩ := hc r hr
      obtain ⟨al1, g1, i1, i2, i3⟩ := hF.inv.global a' _ e2 (by simp)
      rw [hal'] at i1; cases i1
      have hg2 : c.globals.get? r.2.name = some g' := hg'
      rw [i2] at hg2; cases hg2
      rw [i3.size] at hle
      have := ho.value
      rw [e3.value] at this
      omega
    · intro h g hg
      obtain ⟨n, hn⟩ := (mem_values_iff hgk).1 hg
      have hlt : n < c.allocNames.length := by
        have : n ∈ c.globals.keys := Map.get?_isSome_iff.1 ⟨g, hn⟩
        rw [hF.inv.globalKeys] at this
        exact List.mem_range.1 this
      obtain ⟨a, ha⟩ := hF.inv.allocs.of_lt hlt
      obtain ⟨al, g', h1, h2, h3⟩ := hF.inv.global a n ha (by simp)
      have : g' = g := by
        have hn' : c.globals.get? n = some g := hn
        rw [h2] at hn'; cases hn'; rfl
      subst this
      rw [checkRelocations_iff]
      intro r hr
      obtain ⟨⟨p, a'⟩, hp, e1, e2, e3⟩ := forall₂_left h3.pointers.flip r hr
      obtain ⟨al1, g1, i1, i2, i3⟩ := hF.inv.global a' _ e2 (by simp)
      refine ⟨?_, g1, i2, ?_⟩
      · rw [e1, h3.size]; exact e3.inside
      · rw [i3.size]
        exact h a al p a' al1 _ (hF.inv.needed (.alloc a) n ha) h1 hp i1 e3
  have hstart : c.finish.functions.get? c.finish.start = some (mkStartFn 0) := by
    rw [hfun]; exact if_pos rfl
  have hloc : (mkStartFn 0).locals.get (mkStartFn 0).ret = .ok unitTy := rfl
  rw [← hvt, ← hfn, ← hgl]
  unfold Program.checkWf
  rw [hstart]
  simp only [Res.bind_eq_ok]
  constructor
  · rintro ⟨⟨⟩, h1, ⟨⟩, h2, _, _, _, _, _, _, _, _, _, _, h3⟩
    exact ⟨h1, h2, h3⟩
  · rintro ⟨h1, h2, h3⟩
    exact ⟨(), h1, (), h2, (), rfl, unitTy, hloc, .sized 0 Align.one, unitTy_layout, (), by simp, (), rfl, h3⟩

end Crate
end MiniRust
