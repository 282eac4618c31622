import Verif.Lemmas.Crate
import Verif.Lemmas.Rvalue
import Verif.Props.PtrOps
/-
Lemmas for C69: translated constants have the value of the constant.
-/
set_option linter.unusedSectionVars false
namespace MiniRust
variable {I A Y D : Type} [DecidableEq I] [DecidableEq A] [DecidableEq Y] [DecidableEq D] [T : Target]

namespace Crate
variable {K : Crate I A Y D}

/-- Names of allocations are kept. -/
def Keeps (c c' : Cx I A Y D) : Prop := ∀ a n, c.allocNames.get? a = some n → c'.allocNames.get? a = some n

theorem translatePtrs_keeps {fuel : Nat} (IH : ∀ (c : Cx I A Y D) (a : A) n c', K.translateAllocId fuel c a = .ok (n, c') →
    Keeps c c' ∧ c'.allocNames.get? a = some n) {bytes : List (Option UInt8)} : ∀ (ps : List (Nat × A)) (c : Cx I A Y D) (rs) (c'),
    translatePtrs (K.translateAllocId fuel) c bytes ps = .ok (rs, c') → Keeps c c'
  | [], c, rs, c', h => by
    simp only [translatePtrs] at h
    cases h; exact fun _ _ h => h
  | (off, a) :: ps, c, rs, c', h => by
    simp only [translatePtrs] at h
    obtain ⟨inner, hi, h⟩ := Res.bind_eq_ok.1 h
    obtain ⟨⟨n, c1⟩, h1, h⟩ := Res.bind_eq_ok.1 h
    obtain ⟨⟨rs', c2⟩, h2, h⟩ := Res.bind_eq_ok.1 h
    cases h
    exact fun b m hb => translatePtrs_keeps IH ps c1 rs' c2 h2 b m ((IH c a n c1 h1).1 b m hb)

theorem translateAllocId_keeps : ∀ (fuel : Nat) (c : Cx I A Y D) (a : A) n c', K.translateAllocId fuel c a = .ok (n, c') →
    Keeps c c' ∧ c'.allocNames.get? a = some n
  | 0, c, a, n, c', h => by simp [translateAllocId] at h
  | fuel + 1, c, a, n, c', h => by
    simp only [translateAllocId] at h
    split at h
    · next n' hn => cases h; exact ⟨fun _ _ h => h, hn⟩
    · next hn =>
      simp only [Cx.freshGlobal] at h
      split at h
      · cases h
      · next al hal =>
        obtain ⟨⟨rs, c2⟩, h2, h⟩ := Res.bind_eq_ok.1 h
        cases h
        have hk := translatePtrs_keeps (translateAllocId_keeps fuel) al.ptrs _ rs c2 h2
        refine ⟨fun b m hb => hk b m ?_, hk a _ ?_⟩
        · show (c.allocNames.insert a _).get? b = some m
          rw [Map.get?_insert]
          split
          · next e => subst e; rw [hn] at hb; cases hb
          · exact hb
        · show (c.allocNames.insert a _).get? a = _
          simp [Map.get?_insert]

theorem constPtr_keeps {fuel : Nat} {c c' : Cx I A Y D} {prov : Option A} {off : Nat} {k} (h : K.constPtr fuel c prov off = .ok (k, c')) :
    Keeps c c' := by
  cases prov with
  | none => cases h; exact fun _ _ h => h
  | some a =>
    obtain ⟨⟨n, c2⟩, h2, h1⟩ := Res.bind_eq_ok.1 h
    cases h1
    exact (translateAllocId_keeps fuel c a n _ h2).1

mutual
theorem translateConst_keeps {fuel : Nat} : ∀ (k : RsConst A) (c : Cx I A Y D) e c', K.translateConst fuel c k = .ok (e, c') → Keeps c c'
  | .scalar ty bits, c, e, c', h => by
    cases ty <;> simp only [translateConst] at h
    case bool =>
      split at h
      · cases h; exact fun _ _ h => h
      · split at h
        · cases h; exact fun _ _ h => h
        · cases h
    all_goals cases h
    exact fun _ _ h => h
  | .ptr ty prov off cnt, c, e, c', h => by
    simp only [translateConst] at h
    obtain ⟨count, _, h⟩ := Res.bind_eq_ok.1 h
    obtain ⟨⟨k, c1⟩, h1, h⟩ := Res.bind_eq_ok.1 h
    have hk := constPtr_keeps h1
    cases count with
    | none => cases h; exact hk
    | some n =>
      obtain ⟨e', _, h⟩ := Res.bind_eq_ok.1 h
      cases h; exact hk
  | .fields ty fs, c, e, c', h => by
    cases ty <;> simp only [translateConst] at h
    case tuple a b u =>
      obtain ⟨_, _, h⟩ := Res.bind_eq_ok.1 h
      obtain ⟨⟨es, c1⟩, h1, h⟩ := Res.bind_eq_ok.1 h
      cases h
      exact translateConsts_keeps fs c es c1 h1
    case array a b =>
      obtain ⟨⟨es, c1⟩, h1, h⟩ := Res.bind_eq_ok.1 h
      cases h
      exact translateConsts_keeps fs c es c1 h1
    all_goals cases h
  | .variant ty d fs, c, e, c', h => by
    cases ty <;> simp only [translateConst] at h
    case enum =>
      obtain ⟨⟨es, c1⟩, h1, h⟩ := Res.bind_eq_ok.1 h
      obtain ⟨⟨vty, _⟩, _, h⟩ := Res.bind_eq_ok.1 h
      cases h
      exact translateConsts_keeps fs c es c1 h1
    all_goals cases h
  | .unsupported, c, e, c', h => by simp only [translateConst] at h; cases h
theorem translateConsts_keeps {fuel : Nat} : ∀ (ks : List (RsConst A)) (c : Cx I A Y D) es c', K.translateConsts fuel c ks = .ok (es, c') → Keeps c c'
  | [], c, es, c', h => by
    simp only [translateConsts] at h
    cases h; exact fun _ _ h => h
  | k :: ks, c, es, c', h => by
    simp only [translateConsts] at h
    obtain ⟨⟨e, c1⟩, h1, h⟩ := Res.bind_eq_ok.1 h
    obtain ⟨⟨es', c2⟩, h2, h⟩ := Res.bind_eq_ok.1 h
    cases h
    exact fun a n ha => translateConsts_keeps ks c1 es' c2 h2 a n (translateConst_keeps k c e c1 h1 a n ha)
end

/-! ### Values -/

theorem scalarInt_isWrap {t : IntType} {bits : Nat} {i : Int} (h0 : 0 < t.size) (hb : bits < 2 ^ (8 * t.size)) (h : t.IsWrap bits i) :
    scalarInt t bits = i := by
  refine isWrap_unique h0 ?_ h
  have hb' : (bits : Int) < 2 ^ (8 * t.size) := by exact_mod_cast hb
  have hp : (2 : Int) ^ (8 * t.size) = 2 * 2 ^ (8 * t.size - 1) := by
    rw [← pow_succ']; congr 1; omega
  obtain ⟨sg, sz⟩ := t
  cases sg with
  | unsigned =>
    exact ⟨⟨by simp [IntType.minVal, scalarInt], by simp only [IntType.maxVal, scalarInt, IntType.bits]; simp only at hb'; omega⟩, 0, by simp [scalarInt]⟩
  | signed =>
    simp only at hb' hp h0
    simp only [IntType.IsWrap, IntType.InRange, IntType.minVal, IntType.maxVal, scalarInt, IntType.bits]
    split
    · next hlt =>
      have hlt' : (bits : Int) < 2 ^ (8 * sz - 1) := by exact_mod_cast hlt
      exact ⟨⟨by omega, by omega⟩, 0, by simp⟩
    · next hge =>
      have hge' : (2 : Int) ^ (8 * sz - 1) ≤ bits := by exact_mod_cast Nat.not_lt.1 hge
      exact ⟨⟨by omega, by omega⟩, -1, by ring⟩

section
variable {M PE AE F : Type} [DecidableEq PE] [Memory M (AllocId × PE) F] [SoftMem M (AllocId × PE) F] [B : BasicBacked M PE AE F]
variable {s : Machine M (AllocId × PE) F} {prog : Program} {names : A → Option GlobalName}

/-- Where the allocations are. -/
def placeOf (names : A → Option GlobalName) (s : Machine M (AllocId × PE) F) (a : A) : Option (ThinPtr (AllocId × PE)) :=
  (names a).bind s.globalPtrs.get?

include B
theorem construct_valid (hvt : s.VTablesOk) {h : MemHistory PE} (hm : MemReach (F := F) h s.mem.memory) {p : ThinPtr (AllocId × PE)}
    {t : PtrType} {m : Option (PtrMeta (AllocId × PE))} (hs : MetaShape t.metaKind m) (lTy rTy : Ty) (hv : s.ValidPtr h ⟨p, m⟩ t) :
    s.evalBinOp (.constructWidePointer t) (.ptr ⟨p, none⟩, lTy) (MetaValue m, rTy) = .ok (.ptr ⟨p, m⟩, .ptr t) := by
  have hi := checkPtr_iff hvt hm (ptr := ⟨p, m⟩) (ty := t)
  show (t.metaKind.decodeValue (MetaValue m) >>= _) = _
  rw [decodeValue_eq hs]
  show (checkValue s.valEnv (.ptr t) _ >>= _) = _
  simp only [checkValue]
  rw [hi.2 hv]; rfl

mutual
theorem translateConst_eval {fuel : Nat} {h : MemHistory PE} (hvt : s.VTablesOk) (hm : MemReach (F := F) h s.mem.memory) :
    ∀ (k : RsConst A) (c : Cx I A Y D) e c' v, K.translateConst fuel c k = .ok (e, c') →
    (∀ a n, c'.allocNames.get? a = some n → names a = some n) → ConstValue (placeOf names s) (fun p t => s.ValidPtr h p t) k v →
    ∃ ty, k.ty = some ty ∧ evalValue e s = .ok ((v, ty), s)
  | .scalar ty bits, c, e, c', v, ht, hn, hv => by
    cases hv with
    | int h0 hb hw =>
      simp only [translateConst] at ht
      cases ht
      rw [scalarInt_isWrap h0 hb hw]
      exact ⟨_, rfl, rfl⟩
    | @bool b =>
      cases b <;> simp only [translateConst] at ht <;> cases ht <;> exact ⟨_, rfl, rfl⟩
  | .ptr ty prov off cnt, c, e, c', v, ht, hn, hv => by
    simp only [translateConst] at ht
    obtain ⟨count, hc, ht⟩ := Res.bind_eq_ok.1 ht
    obtain ⟨⟨k, c1⟩, h1, ht⟩ := Res.bind_eq_ok.1 ht
    have hn1 : ∀ a n, c1.allocNames.get? a = some n → names a = some n := by
      cases count with
      | none => cases ht; exact hn
      | some n =>
        obtain ⟨e', _, ht⟩ := Res.bind_eq_ok.1 ht
        cases ht; exact hn
    have hthin : ∀ pty, pty.metaKind = .none → ty = .ptr pty → count = none := by
      intro pty hk hty
      subst hty
      unfold constMeta at hc
      split at hc
      · cases hc
      · next heq => cases heq; rw [hk] at hc; cases hc; rfl
      · cases hc
    have hwide : ∀ pty n, pty.metaKind = .elementCount → ty = .ptr pty → cnt = some n → count = some n := by
      intro pty n hk hty hcnt
      subst hty; subst hcnt
      unfold constMeta at hc
      split at hc
      · cases hc
      · next heq => cases heq; rw [hk] at hc; cases hc; rfl
      · cases hc
    have hglob : ∀ a p, prov = some a → placeOf names s a = some p → IntType.usize.InRange (p.addr + off) →
        s.evalConstant k = .ok (.ptr ⟨⟨p.addr + off, p.prov⟩, none⟩) := by
      intro a p hp hpl hr
      subst hp
      unfold constPtr at h1
      obtain ⟨⟨n, c2⟩, h2, h1⟩ := Res.bind_eq_ok.1 h1
      cases h1
      have hnm := hn1 a n (translateAllocId_keeps fuel c a n _ h2).2
      simp only [placeOf, hnm, Option.bind_some] at hpl
      simp only [Machine.evalConstant, Map.get, hpl, unwrap_some, Res.bind_ok, ThinPtr.wrappingOffset, ThinPtr.widen]
      rw [show bringInBounds .unsigned T.ptrSize (p.addr + off) = p.addr + off from bringInBounds_of_inBounds _ _ _ (by
        simp only [IntType.InRange, IntType.minVal, IntType.maxVal, IntType.usize, IntType.bits] at hr
        simp only [inBounds, decide_eq_true_eq]
        omega)]
    have hconst : prov = none → s.evalConstant k = .ok (.ptr ⟨⟨off, none⟩, none⟩) := by
      rintro rfl
      cases h1; rfl
    have done : ∀ pty (q : ThinPtr (AllocId × PE)), count = none → ty = .ptr pty → s.evalConstant k = .ok (.ptr ⟨q, none⟩) →
        evalValue e s = .ok ((.ptr ⟨q, none⟩, ty), s) := by
      rintro pty q rfl rfl hq
      cases ht
      simp only [evalValue, EM.bind_of_ok (EM.read_of_ok (f := (·.evalConstant k)) hq)]; rfl
    have doneW : ∀ pty n (q : ThinPtr (AllocId × PE)), pty.metaKind = .elementCount → count = some n → ty = .ptr pty →
        s.evalConstant k = .ok (.ptr ⟨q, none⟩) → s.ValidPtr h ⟨q, some (.elementCount n)⟩ pty →
        evalValue e s = .ok ((.ptr ⟨q, some (.elementCount n)⟩, ty), s) := by
      rintro pty n q hk rfl rfl hq hval
      obtain ⟨e', he', ht⟩ := Res.bind_eq_ok.1 ht
      cases ht
      simp only [mkWide] at he'
      cases he'
      have hl : evalValue (.constant k (.ptr rawVoidPtr)) s = .ok ((.ptr ⟨q, none⟩, .ptr rawVoidPtr), s) := by
        simp only [evalValue, EM.bind_of_ok (EM.read_of_ok (f := (·.evalConstant k)) hq)]; rfl
      have hr : evalValue (mkUsize n) s = .ok ((MetaValue (some (.elementCount n)), .int usizeTy), s) := rfl
      rw [evalBinary hl hr, construct_valid hvt hm (t := pty) (m := some (.elementCount n)) (by rw [hk]; trivial) _ _ hval]
      rfl
    cases hv with
    | address hk => exact ⟨_, rfl, done _ _ (hthin _ hk rfl) rfl (hconst rfl)⟩
    | thin hk hp hr => exact ⟨_, rfl, done _ _ (hthin _ hk rfl) rfl (hglob _ _ rfl hp hr)⟩
    | wideAddress hk hval => exact ⟨_, rfl, doneW _ _ _ hk (hwide _ _ hk rfl rfl) rfl (hconst rfl) hval⟩
    | wide hk hp hr hval => exact ⟨_, rfl, doneW _ _ _ hk (hwide _ _ hk rfl rfl) rfl (hglob _ _ rfl hp hr) hval⟩
  | .fields ty fs, c, e, c', v, ht, hn, hv => by
    cases hv with
    | fields hvs =>
      cases ty <;> simp only [translateConst] at ht
      case tuple a b u =>
        obtain ⟨_, _, ht⟩ := Res.bind_eq_ok.1 ht
        obtain ⟨⟨es, c1⟩, h1, ht⟩ := Res.bind_eq_ok.1 ht
        cases ht
        obtain ⟨ws, hw, e⟩ := translateConsts_eval hvt hm fs c es c1 _ h1 hn hvs
        exact ⟨_, rfl, by simp only [evalValue, EM.bind_of_ok hw]; rw [e]; rfl⟩
      case array a b =>
        obtain ⟨⟨es, c1⟩, h1, ht⟩ := Res.bind_eq_ok.1 ht
        cases ht
        obtain ⟨ws, hw, e⟩ := translateConsts_eval hvt hm fs c es c1 _ h1 hn hvs
        exact ⟨_, rfl, by simp only [evalValue, EM.bind_of_ok hw]; rw [e]; rfl⟩
      all_goals cases ht
  | .variant ty d fs, c, e, c', v, ht, hn, hv => by
    cases hv with
    | variant h0 hb hw hvs =>
      simp only [translateConst] at ht
      obtain ⟨⟨es, c1⟩, h1, ht⟩ := Res.bind_eq_ok.1 ht
      obtain ⟨⟨vty, _⟩, _, ht⟩ := Res.bind_eq_ok.1 ht
      cases ht
      obtain ⟨ws, hw', e⟩ := translateConsts_eval hvt hm fs c es c1 _ h1 hn hvs
      have he : evalValue (.tuple es vty) s = .ok ((.tuple (ws.map (·.1)), vty), s) := by
        simp only [evalValue, EM.bind_of_ok hw']; rfl
      refine ⟨_, rfl, ?_⟩
      rw [scalarInt_isWrap h0 hb hw]
      simp only [evalValue] at he ⊢
      rw [EM.bind_of_ok he, e]; rfl
  | .unsupported, c, e, c', v, ht, hn, hv => by cases hv
theorem translateConsts_eval {fuel : Nat} {h : MemHistory PE} (hvt : s.VTablesOk) (hm : MemReach (F := F) h s.mem.memory) :
    ∀ (ks : List (RsConst A)) (c : Cx I A Y D) es c' vs, K.translateConsts fuel c ks = .ok (es, c') →
    (∀ a n, c'.allocNames.get? a = some n → names a = some n) → List.Forall₂ (ConstValue (placeOf names s) (fun p t => s.ValidPtr h p t)) ks vs →
    ∃ ws, evalValues es s = .ok (ws, s) ∧ ws.map (·.1) = vs
  | [], c, es, c', vs, ht, hn, hv => by
    cases hv
    simp only [translateConsts] at ht
    cases ht
    exact ⟨[], rfl, rfl⟩
  | k :: ks, c, es, c', vs, ht, hn, hv => by
    cases hv with
    | cons hv hvs =>
      simp only [translateConsts] at ht
      obtain ⟨⟨e, c1⟩, h1, ht⟩ := Res.bind_eq_ok.1 ht
      obtain ⟨⟨es', c2⟩, h2, ht⟩ := Res.bind_eq_ok.1 ht
      cases ht
      have hk := translateConsts_keeps ks c1 es' _ h2
      obtain ⟨ty, _, he⟩ := translateConst_eval hvt hm k c e c1 _ h1 (fun a n ha => hn a n (hk a n ha)) hv
      obtain ⟨ws, hw, hws⟩ := translateConsts_eval hvt hm ks c1 es' _ _ h2 hn hvs
      exact ⟨_ :: ws, by simp only [evalValues, EM.bind_of_ok he, EM.bind_of_ok hw]; rfl, by rw [List.map_cons, hws]⟩
end
end

end Crate
end MiniRust
