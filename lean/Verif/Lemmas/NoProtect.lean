import Verif.Lemmas.ExprRel
import Verif.Lemmas.PlainMem
import Verif.Lemmas.TBRetag
/-
Evaluating an expression changes nothing in the stack frames: in particular it does not protect references.
-/
set_option linter.unusedSectionVars false
namespace MiniRust

/-- Outside of function entry, retagging does not change the frame's extra state. -/
class LooseRetag (M P F : Type) [Memory M P F] : Prop where
  loose : ∀ (m m' : M) (f f' : F) (ptr ptr' : Pointer P) pty vt,
    Memory.retagPtr m f ptr pty false vt = .ok (ptr', f', m') → f' = f

instance [Target] : LooseRetag (BasicMem Unit Unit) (AllocId × Unit) Unit where
  loose _ _ _ _ _ _ _ _ _ := rfl

instance [Target] : LooseRetag TBMem TBProv TBFrame where
  loose m m' f f' ptr ptr' pty vt h := by
    rcases retag_ok h with ⟨_, _, hf, _⟩ | ⟨st, thin, hs, hr, _⟩
    · exact hf
    · rcases reborrow_ok hr with ⟨_, _, hf, _⟩ | ⟨_, _, _, _, _, _, _, _, _, _, _, _, _, _, _, _, _, _, hf⟩
      · exact hf
      · have hp : st.protected_ = .no := by
          cases hi : pty.safePointee with
          | none => unfold ReborrowSettings.new at hs; rw [hi] at hs; cases hs
          | some info => obtain ⟨_, _, _, _, hp⟩ := settings_spec hs hi; rw [hp]; rfl
        simp only [hp] at hf
        exact hf.2.1

section
variable {M P F : Type} [T : Target] [DecidableEq P] [Memory M P F] [hm : LooseRetag M P F]

/-- The stacks of all threads are the same. -/
def SameThreads (s s' : Machine M P F) : Prop := s'.threads = s.threads

instance : PreRel (SameThreads (M := M) (P := P) (F := F)) where
  refl s := rfl
  trans s s' s'' h h' := Eq.trans h' h

theorem resE_any {α : Type} {r : Res α} : ResE (fun _ => True) r := ⟨fun _ _ => trivial⟩

theorem loose_memLoad {p : ThinPtr P} {n al at'} :
    Tri (fun _ => True) SameThreads (memLoad p n al at' : EM M P F _) where
  ok s b s' h := by
    rw [memLoad_eq_ok] at h
    obtain ⟨m, h, rfl⟩ := h
    rfl
  err _ _ _ := trivial

theorem loose_addrOf {p : Place P} {pty} : Tri (fun _ => True) SameThreads (addrOf p pty : EM M P F _) where
  ok s v s' h := by
    unfold addrOf at h
    simp only [EM.bind_eq_ok, EM.read_eq_ok] at h
    obtain ⟨_, _, ⟨_, hs⟩, q, s1, h, h'⟩ := h
    rw [hs] at h
    rw [EM.pure_eq_ok] at h'
    obtain ⟨rfl, rfl⟩ := h'
    unfold retagPtrM at h
    have h := (mutateCurFrame_ok (by
      intro fr s r s1 h
      simp only [Res.bind_eq_ok, Prod.exists, Except.ok.injEq, Prod.mk.injEq] at h
      obtain ⟨_, _, _, _, _, rfl⟩ := h
      exact ⟨rfl, rfl⟩)).1 h
    obtain ⟨t, fr, rest, fr', s1, h1, h2, h3, rfl⟩ := h
    simp only [Res.bind_eq_ok, Prod.exists, Except.ok.injEq, Prod.mk.injEq] at h3
    obtain ⟨q, x, m, h3, ⟨rfl, rfl⟩, rfl⟩ := h3
    unfold ConcMem.retagPtr at h3
    simp only [Res.bind_eq_ok, Prod.exists, Except.ok.injEq, Prod.mk.injEq] at h3
    obtain ⟨_, x', _, h3, rfl, rfl, _⟩ := h3
    have := hm.loose _ _ _ _ _ _ _ _ h3
    subst this
    show s.threads.set _ _ = s.threads
    have : ({ t with stack := { fr with extra := fr.extra } :: rest } : Thread P F) = t := by rw [← h2]
    rw [this]
    obtain ⟨hlt, rfl⟩ := List.getElem?_eq_some_iff.1 h1
    exact List.set_getElem_self hlt
  err _ _ _ := trivial

theorem loose_typedLoad {p : ThinPtr P} {ty al at'} :
    Tri (fun _ => True) SameThreads (typedLoad p ty al at' : EM M P F _) := by
  unfold typedLoad
  exact .bind (.lift resE_any) fun _ => .bind loose_memLoad fun _ => .read fun _ => resE_any

theorem loose_placeLoad {p : Place P} {ty} : Tri (fun _ => True) SameThreads (placeLoad p ty : EM M P F _) := by
  unfold placeLoad
  exact .ite (.throw trivial) loose_typedLoad

theorem loose_getDiscriminant {p : Place P} {ty} :
    Tri (fun _ => True) SameThreads (getDiscriminant p ty : EM M P F _) := by
  unfold getDiscriminant
  split
  · refine .ite (.throw trivial) (.bind ?_ ?_)
    · refine ⟨fun s a s' h => ?_, fun _ _ _ => trivial⟩
      refine decodeDiscriminant_rel (R := SameThreads) PreRel.refl PreRel.trans (fun s i n b s' h => ?_) _ s s' a h
      simp only [Res.bind_eq_ok] at h
      obtain ⟨_, _, h⟩ := h
      exact loose_memLoad.ok _ _ _ h
    · intro d; cases d
      · exact .throw trivial
      · exact .pure
  · exact .throw trivial

mutual
theorem loose_evalValue : ∀ (e : ValueExpr), Tri (fun _ => True) SameThreads (evalValue e : EM M P F _)
  | .constant _ _ => by
    unfold evalValue
    exact .bind (.read fun _ => resE_any) fun _ => .pure
  | .tuple es _ => by
    unfold evalValue
    exact .bind (loose_evalValues es) fun _ => .pure
  | .union _ e ty => by
    unfold evalValue
    split
    · exact .bind (.lift resE_any) fun _ => .bind (loose_evalValue e) fun _ =>
        .bind (.lift resE_any) fun _ => .pure
    · exact .throw trivial
  | .variant _ e _ => by
    unfold evalValue
    exact .bind (loose_evalValue e) fun _ => .pure
  | .getDiscriminant p => by
    unfold evalValue
    exact .bind (loose_evalPlace p) fun _ => loose_getDiscriminant
  | .load p => by
    unfold evalValue
    exact .bind (loose_evalPlace p) fun _ => .bind loose_placeLoad fun _ => .pure
  | .addrOf p _ => by
    unfold evalValue
    exact .bind (loose_evalPlace p) fun _ => loose_addrOf
  | .unOp _ e => by
    unfold evalValue
    exact .bind (loose_evalValue e) fun _ => .read fun _ => resE_any
  | .binOp _ e e' => by
    unfold evalValue
    exact .bind (loose_evalValue e) fun _ => .bind (loose_evalValue e') fun _ => .read fun _ => resE_any
theorem loose_evalValues : ∀ (es : List ValueExpr), Tri (fun _ => True) SameThreads (evalValues es : EM M P F _)
  | [] => by unfold evalValues; exact .pure
  | e :: es => by
    unfold evalValues
    exact .bind (loose_evalValue e) fun _ => .bind (loose_evalValues es) fun _ => .pure
theorem loose_evalPlace : ∀ (e : PlaceExpr), Tri (fun _ => True) SameThreads (evalPlace e : EM M P F _)
  | .local _ => by unfold evalPlace; exact .read fun _ => resE_any
  | .deref e _ => by
    unfold evalPlace
    exact .bind (loose_evalValue e) fun _ => .read fun _ => resE_any
  | .field p _ => by
    unfold evalPlace
    exact .bind (loose_evalPlace p) fun _ => .read fun _ => resE_any
  | .index p e => by
    unfold evalPlace
    exact .bind (loose_evalPlace p) fun _ => .bind (loose_evalValue e) fun _ => .read fun _ => resE_any
  | .downcast p _ => by
    unfold evalPlace
    exact .bind (loose_evalPlace p) fun _ => .lift resE_any
end
end
end MiniRust
