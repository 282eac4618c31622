import Verif.Lemmas.IntrArgs
import Verif.Lemmas.Mute
import Verif.Props.Outcomes
import Verif.Props.Init
/-
C54: turning pointers into integers and back.
-/
set_option linter.unusedSectionVars false
namespace MiniRust

section
variable {M P F : Type} [T : Target] [DecidableEq P] [Memory M P F]
variable {s s' : Machine M P F} {args : List (Value P × Ty)} {retTy : Ty} {v : Value P}

theorem mem_expose {c : IntPtrCast P} {p : ThinPtr P} {q : P} :
    q ∈ (c.expose p).exposed ↔ q ∈ c.exposed ∨ p.prov = some q := by
  unfold IntPtrCast.expose
  cases hp : p.prov with
  | none => simp
  | some r =>
    simp only [setInsert, Option.some.injEq]
    split
    · rename_i h
      constructor
      · exact .inl
      · rintro (h' | rfl)
        · exact h'
        · exact h
    · simp [eq_comm]

/-- C54: `PointerExposeProvenance` gives the address of its operand, a thin pointer, as an integer of pointer size. Afterwards
the provenance of the pointer, if it has any, is exposed besides what was exposed before. Nothing else changes. -/
theorem C54_expose (h : evalIntrinsic .pointerExposeProvenance args retTy s = .ok (v, s')) :
    ∃ p ty, args = [(.ptr ⟨p, none⟩, ty)] ∧ retTy = .int ⟨.unsigned, T.ptrSize⟩ ∧ v = .int p.addr ∧
      s' = { s with intptrcast := s'.intptrcast } ∧
      ∀ q, q ∈ s'.intptrcast.exposed ↔ q ∈ s.intptrcast.exposed ∨ p.prov = some q := by
  unfold evalIntrinsic at h
  dsimp only at h
  unfold intrinsicExpose at h
  split at h
  · simp only [EM.bind_eq_ok, EM.lift_eq_ok, thinPtrArg_eq_ok, requireUb_eq_ok, EM.modify_eq_ok, EM.pure_eq_ok,
      decide_eq_true_eq] at h
    obtain ⟨p, _, ⟨⟨t, rfl⟩, rfl⟩, _, _, ⟨hr, rfl⟩, _, _, rfl, rfl, rfl⟩ := h
    exact ⟨p, t, rfl, hr, rfl, rfl, fun q => mem_expose⟩
  · cases h

/-- C54: `PointerExposeProvenance` succeeds for every thin pointer, and is undefined behavior for other operands. -/
theorem C54_expose_exact : (∀ (p : ThinPtr P) ty, ∃ s',
      evalIntrinsic .pointerExposeProvenance [(.ptr ⟨p, none⟩, ty)] (.int ⟨.unsigned, T.ptrSize⟩) s = .ok (.int p.addr, s')) ∧
    ∀ e, evalIntrinsic .pointerExposeProvenance args retTy s = .error e → e = .ub := by
  constructor
  · intro p ty
    exact ⟨{ s with intptrcast := s.intptrcast.expose p }, by simp [evalIntrinsic, intrinsicExpose, EM.bind_eq_ok, EM.lift_eq_ok,
      thinPtrArg_eq_ok, requireUb_eq_ok, EM.modify_eq_ok, EM.pure_eq_ok]⟩
  · intro e h
    unfold evalIntrinsic at h
    dsimp only at h
    unfold intrinsicExpose at h
    split at h
    · simp only [EM.bind_eq_error, EM.lift_eq_error, EM.modify_ne_error, EM.pure_apply, reduceCtorEq, and_false, exists_false,
        or_false] at h
      rcases h with h | ⟨_, _, _, h⟩
      · unfold thinPtrArg at h
        split at h <;> cases h
        rfl
      · unfold requireUb at h
        rw [EM.lift_eq_error] at h
        unfold ensureUb at h
        split at h <;> cases h
        rfl
    · cases h; rfl

/-- C54: `PointerWithExposedProvenance` takes an integer and gives a thin pointer with this address. Its provenance is the one
chosen: any that is exposed, or none. Nothing else changes. -/
theorem C54_with_exposed : evalIntrinsic .pointerWithExposedProvenance args retTy s = .ok (v, s') ↔
    ∃ a ty pr rest, args = [(.int a, ty)] ∧ retTy.IsThinPtr ∧ s.oracle = .prov pr :: rest ∧
      (∀ q, pr = some q → q ∈ s.intptrcast.exposed) ∧ v = .ptr ⟨⟨a, pr⟩, none⟩ ∧ s' = { s with oracle := rest } := by
  unfold evalIntrinsic
  dsimp only
  unfold intrinsicWithExposed
  have key : ∀ (c : IntPtrCast P) a pr q, c.int2ptr a pr = .ok q ↔ (∀ x, pr = some x → x ∈ c.exposed) ∧ q = ⟨a, pr⟩ := by
    intro c a pr q
    unfold IntPtrCast.int2ptr
    cases pr with
    | none => simp [eq_comm]
    | some x =>
      by_cases hx : x ∈ c.exposed <;> simp [hx, eq_comm]
  constructor
  · intro h
    split at h
    · simp only [EM.bind_eq_ok, EM.lift_eq_ok, intArg_eq_ok, requireUb_eq_ok, EM.pure_eq_ok, EM.popProv_eq_ok, EM.read_eq_ok,
        isThinPtrTy_iff, key] at h
      obtain ⟨a, _, ⟨⟨t, rfl⟩, rfl⟩, _, _, ⟨hr, rfl⟩, pr, _, ⟨rest, ho, rfl⟩, q, _, ⟨⟨hq, rfl⟩, rfl⟩, rfl, rfl⟩ := h
      exact ⟨a, t, pr, rest, rfl, hr, ho, hq, rfl, rfl⟩
    · cases h
  · rintro ⟨a, t, pr, rest, rfl, hr, ho, hq, rfl, rfl⟩
    simp only [EM.bind_eq_ok, EM.lift_eq_ok, intArg_eq_ok, requireUb_eq_ok, EM.pure_eq_ok, EM.popProv_eq_ok, EM.read_eq_ok,
        isThinPtrTy_iff, key]
    exact ⟨a, _, ⟨⟨t, rfl⟩, rfl⟩, (), _, ⟨hr, rfl⟩, pr, _, ⟨rest, ho, rfl⟩, _, _, ⟨⟨hq, rfl⟩, rfl⟩, rfl, rfl⟩

/-- C54: `PointerWithExposedProvenance` is undefined behavior exactly if the operand is not one integer or the wanted type is
not a thin pointer type. (A provenance that is not exposed is no possible choice.) -/
theorem C54_with_exposed_ub : evalIntrinsic .pointerWithExposedProvenance args retTy s = .error .ub ↔
    ¬ ((∃ a ty, args = [(.int a, ty)]) ∧ retTy.IsThinPtr) := by
  have pop : EM.popProv s ≠ .error .ub := by unfold EM.popProv; split <;> simp
  have cast : ∀ (c : IntPtrCast P) a pr, c.int2ptr a pr ≠ .error .ub := by
    intro c a pr; unfold IntPtrCast.int2ptr; dsimp only; split <;> split <;> simp
  unfold evalIntrinsic
  dsimp only
  unfold intrinsicWithExposed
  constructor
  · rintro h ⟨⟨a, t, rfl⟩, hr⟩
    simp only [EM.bind_eq_error, EM.lift_eq_error, EM.read_eq_error, EM.pure_apply, reduceCtorEq, and_false, exists_false,
      or_false, EM.lift_eq_ok, requireUb_eq_ok] at h
    rcases h with h | ⟨_, _, ⟨h0, rfl⟩, h | ⟨_, _, ⟨h1, rfl⟩, h | ⟨pr, s1, h2, h⟩⟩⟩
    · cases h
    · rw [isThinPtrTy_iff.2 hr] at h; cases h
    · exact pop h
    · exact cast _ _ _ h
  · intro h
    split
    · rename_i arg
      by_cases ha : ∃ a ty, arg = (.int a, ty)
      · obtain ⟨a, t, rfl⟩ := ha
        have hr : isThinPtrTy retTy = false := by
          cases hr : isThinPtrTy retTy with
          | false => rfl
          | true => exact (h ⟨⟨a, t, rfl⟩, isThinPtrTy_iff.1 hr⟩).elim
        rw [hr]; rfl
      · have : intArg arg = .error .ub := by
          unfold intArg
          split
          · exact (ha ⟨_, _, rfl⟩).elim
          · rfl
        rw [EM.bind_eq_error]
        exact .inl (EM.lift_eq_error.2 this)
    · rfl

variable [SoftMem M P F]

/-- C54: provenance gets exposed only by `PointerExposeProvenance`. -/
theorem C54_only_here (h : step s = .ok ((), s')) {q : P} (hq : q ∈ s'.intptrcast.exposed) (hn : q ∉ s.intptrcast.exposed) :
    s.AtIntrinsic s'.activeThread .pointerExposeProvenance := by
  by_contra hc
  by_cases hl : ∀ op, s.AtIntrinsic s'.activeThread op → op.loud = false
  · rw [(mu_step hl h).exposed] at hq
    exact hn hq
  · simp only [not_forall] at hl
    obtain ⟨op, hop, hl⟩ := hl
    obtain ⟨as, r, n, hat⟩ := hop
    obtain ⟨rest, _, hs⟩ := step_at h hat
    obtain ⟨pl, ty, vs, v, s1, s2, s3, _, _, h3, m1, m2⟩ := intrinsic_parts hs
    rw [m2.exposed] at hq
    have h12 : s2.intptrcast = s.intptrcast := m1.exposed
    rw [← h12] at hn
    refine hn ?_
    cases op with
    | pointerExposeProvenance => exact (hc ⟨as, r, n, hat⟩).elim
    | printStdout =>
      unfold evalIntrinsic at h3
      dsimp only at h3
      unfold intrinsicPrintStdout at h3
      simp only [EM.bind_eq_ok, EM.lift_eq_ok, requireUb_eq_ok, EM.modify_eq_ok, EM.pure_eq_ok] at h3
      obtain ⟨_, _, ⟨_, rfl⟩, _, _, ⟨_, rfl⟩, _, _, rfl, _, rfl⟩ := h3
      exact hq
    | printStderr =>
      unfold evalIntrinsic at h3
      dsimp only at h3
      unfold intrinsicPrintStderr at h3
      simp only [EM.bind_eq_ok, EM.lift_eq_ok, requireUb_eq_ok, EM.modify_eq_ok, EM.pure_eq_ok] at h3
      obtain ⟨_, _, ⟨_, rfl⟩, _, _, ⟨_, rfl⟩, _, _, rfl, _, rfl⟩ := h3
      exact hq
    | _ => exact (hl rfl).elim

/-- C54: when a thread executes `PointerExposeProvenance`, its operand evaluates to a thin pointer `p`, and exactly the
provenance of `p` gets exposed. From then on, in the rest of the run, turning the address into a pointer again can give back `p`. -/
theorem C54_round_trip {arg ret next} (h : step s = .ok ((), s'))
    (hat : s.AtTerminator s'.activeThread (.intrinsic .pointerExposeProvenance [arg] ret next)) :
    ∃ rest pl ty p ty' s1 s2, s.oracle = .int s'.activeThread :: rest ∧
      evalPlace ret (s.schedule s'.activeThread rest) = .ok ((pl, ty), s1) ∧
      evalValues [arg] s1 = .ok ([(.ptr ⟨p, none⟩, ty')], s2) ∧
      (∀ q, q ∈ s'.intptrcast.exposed ↔ q ∈ s.intptrcast.exposed ∨ p.prov = some q) ∧
      ∀ s'' later retTy ty, Steps s' s'' → retTy.IsThinPtr →
        evalIntrinsic .pointerWithExposedProvenance [(.int p.addr, ty)] retTy { s'' with oracle := .prov p.prov :: later } =
          .ok (.ptr ⟨p, none⟩, { s'' with oracle := later }) := by
  obtain ⟨rest, h1, hs⟩ := step_at h hat
  obtain ⟨pl, ty, vs, v, s1, s2, s3, k1, k2, h3, m1, m2⟩ := intrinsic_parts hs
  obtain ⟨p, ty', rfl, _, _, _, hq⟩ := C54_expose h3
  have hx : ∀ q, q ∈ s'.intptrcast.exposed ↔ q ∈ s.intptrcast.exposed ∨ p.prov = some q := by
    intro q
    have h12 : s2.intptrcast = s.intptrcast := m1.exposed
    rw [m2.exposed, hq, h12]
  refine ⟨rest, pl, ty, p, ty', s1, s2, h1, k1, k2, hx, fun s'' later retTy ty0 hst hr => ?_⟩
  refine C54_with_exposed.2 ⟨p.addr, ty0, p.prov, later, rfl, hr, rfl, fun q hp => ?_, rfl, rfl⟩
  exact (C42_run_only_extends hst).2.2.2.2.2.2 ((hx q).2 (.inr hp))

end

section
variable {M PE AE F : Type} [T : Target] [DecidableEq PE] [Memory M (AllocId × PE) F]
  [SoftMem M (AllocId × PE) F] [B : BasicBacked M PE AE F]
variable {s : Machine M (AllocId × PE) F} {prog : Program}
include B

/-- C54: whatever is exposed in a run was exposed by an earlier `PointerExposeProvenance`; so all provenance that
`PointerWithExposedProvenance` can give was exposed before. -/
theorem C54_exposed_earlier (hu : prog.KeysUnique) (h : Reachable prog s) {q} (hq : q ∈ s.intptrcast.exposed) :
    ∃ s0 s1 : Machine M (AllocId × PE) F, Reachable prog s0 ∧ step s0 = .ok ((), s1) ∧ Steps s1 s ∧
      s0.AtIntrinsic s1.activeThread .pointerExposeProvenance ∧ q ∉ s0.intptrcast.exposed ∧ q ∈ s1.intptrcast.exposed := by
  obtain ⟨o, si, hn, hs⟩ := h
  induction hs with
  | refl =>
    rw [(C55_start (B := B) hu hn).2.2.2.2.2.2.1] at hq
    cases hq
  | @tail s1 s2 hs1 hst ih =>
    by_cases hq1 : q ∈ s1.intptrcast.exposed
    · obtain ⟨t0, t1, a1, a2, a3, a4⟩ := ih hq1
      exact ⟨t0, t1, a1, a2, a3.tail hst, a4⟩
    · exact ⟨s1, s2, ⟨o, si, hn, hs1⟩, hst, .refl _, C54_only_here hst hq hq1, hq1, hq⟩
end

/-! ### Concrete cases -/

namespace Ex
attribute [local instance] x86_64

/-- Exposes a pointer to a local and makes a pointer of its address again. -/
def exposeProg : Program := mainProg [(1, usize), (2, rawTy)] [
  (0, ⟨[.storageLive 1, .storageLive 2],
    .intrinsic .pointerExposeProvenance [.addrOf (.local 1) (.raw .none)] (.local 1) (some 1), .regular⟩),
  (1, ⟨[], .intrinsic .pointerWithExposedProvenance [.load (.local 1)] (.local 2) (some 2), .regular⟩),
  (2, ⟨[], .intrinsic .exit [] (.local 0) none, .regular⟩)]
/-- A run of `exposeProg`; `pr` is the provenance chosen for the new pointer. -/
def exposeRun (pr : Option (Nat × Unit)) : List (Choice (Nat × Unit)) :=
  [.int 16, .int 32, .int 48, .int 0, .int 64, .int 0, .int 80, .int 0, .int 0, .prov pr, .int 0]

/-- The pointer in local 2. -/
def castResult (s : BMach) : Res (Value (Nat × Unit) × Ty) := (evalValue (.load (.local 2)) s).map (·.1)

-- A run exposes the provenance of a local; the local is the fourth allocation.
example : ∃ s s' : BMach, Reachable exposeProg s ∧ step s = .ok ((), s') ∧
    s.atOp s'.activeThread = some .pointerExposeProvenance ∧ s.intptrcast.exposed = [] ∧ s'.intptrcast.exposed = [(3, ())] :=
  exists_step (exposeRun none) 2 _ (by decide +kernel)
-- Afterwards the pointer can be had again, or one without provenance.
example : ∃ s : BMach, Reachable exposeProg s ∧ castResult s = .ok (.ptr ⟨⟨64, some (3, ())⟩, none⟩, rawTy) :=
  exists_reachable (exposeRun (some (3, ()))) 4 _ (by decide +kernel)
example : ∃ s : BMach, Reachable exposeProg s ∧ castResult s = .ok (.ptr ⟨⟨64, none⟩, none⟩, rawTy) :=
  exists_reachable (exposeRun none) 4 _ (by decide +kernel)
-- Provenance that is not exposed, here that of the other local, is no possible choice.
example : ∃ s : BMach, Reachable exposeProg s ∧ s.atOp 0 = some .pointerWithExposedProvenance ∧
    errOf (step s) = some .noBehavior :=
  exists_reachable (exposeRun (some (4, ()))) 3 _ (by decide +kernel)
-- Operands of other types are undefined behavior.
example : ∃ s : BMach, Reachable exposeProg s ∧
    errOf (evalIntrinsic .pointerExposeProvenance [(.int 5, usize)] usize s) = some .ub ∧
    errOf (evalIntrinsic .pointerWithExposedProvenance [(.int 5, usize)] usize s) = some .ub :=
  exists_reachable (exposeRun none) 1 _ (by decide +kernel)

end Ex
end MiniRust
