import Verif.Lemmas.ExprRel
import Verif.Lemmas.SelfAssign
import Verif.Lemmas.Eval
/-
In the basic memory model, evaluating an expression does nothing to the machine but record the accesses, and does not
depend on those recorded before.
-/
set_option linter.unusedSectionVars false
namespace MiniRust

/-- The machine with other recorded accesses. -/
def Machine.withAcc {M P F : Type} (s : Machine M P F) (a : List Access) : Machine M P F := { s with mem := { s.mem with accesses := a } }

section
variable [T : Target] {α β : Type}

/-- The computation only adds accesses, and does not depend on them. -/
def Blind (x : EM (BasicMem Unit Unit) (AllocId × Unit) Unit α) : Prop :=
  ∀ s : Machine (BasicMem Unit Unit) (AllocId × Unit) Unit, ∃ r : Res (α × List Access), ∀ a, x (s.withAcc a) = r >>= fun q => .ok (q.1, s.withAcc (a ++ q.2))

namespace Blind
variable {x : EM (BasicMem Unit Unit) (AllocId × Unit) Unit α} {f : α → EM (BasicMem Unit Unit) (AllocId × Unit) Unit β}

theorem pure {a : α} : Blind (pure a : EM (BasicMem Unit Unit) (AllocId × Unit) Unit α) :=
  fun s => ⟨.ok (a, []), fun acc => by simp⟩

theorem throw {e : Err} : Blind (EM.throw e : EM (BasicMem Unit Unit) (AllocId × Unit) Unit α) :=
  fun s => ⟨.error e, fun acc => rfl⟩

theorem bind (hx : Blind x) (hf : ∀ a, Blind (f a)) : Blind (x >>= f) := by
  intro s
  obtain ⟨r, hr⟩ := hx s
  cases r with
  | error e => exact ⟨.error e, fun acc => EM.bind_of_error (hr acc)⟩
  | ok q =>
    obtain ⟨a, n⟩ := q
    obtain ⟨r', hr'⟩ := hf a s
    refine ⟨r' >>= fun q => .ok (q.1, n ++ q.2), fun acc => ?_⟩
    rw [EM.bind_of_ok (hr acc), hr']
    cases r' with
    | error e => rfl
    | ok q => simp

theorem lift {r : Res α} : Blind (EM.lift r : EM (BasicMem Unit Unit) (AllocId × Unit) Unit α) := by
  intro s
  cases r with
  | error e => exact ⟨.error e, fun acc => EM.lift_of_error rfl⟩
  | ok a => exact ⟨.ok (a, []), fun acc => by simpa using EM.lift_of_ok rfl⟩

theorem read {g : Machine (BasicMem Unit Unit) (AllocId × Unit) Unit → Res α} (hg : ∀ s a, g (s.withAcc a) = g s) :
    Blind (EM.read g) := by
  intro s
  cases h : g s with
  | error e => exact ⟨.error e, fun acc => EM.read_of_error (by rw [hg, h])⟩
  | ok a => exact ⟨.ok (a, []), fun acc => by
      rw [EM.read_of_ok (show g (s.withAcc acc) = .ok a by rw [hg, h])]; simp⟩

theorem readBind {g : Machine (BasicMem Unit Unit) (AllocId × Unit) Unit → Res α} (hg : ∀ s a, g (s.withAcc a) = g s)
    (hf : ∀ a, Blind (f a)) : Blind (fun s => g s >>= fun a => f a s) := by
  intro s
  cases h : g s with
  | error e => exact ⟨.error e, fun acc => by simp only [hg, h]; rfl⟩
  | ok a =>
    obtain ⟨r, hr⟩ := hf a s
    exact ⟨r, fun acc => by simp only [hg, h, Res.bind_ok]; exact hr acc⟩

theorem memLoad {p n al at'} : Blind (memLoad p n al at') := by
  intro s
  cases h : s.mem.memory.load p n al (fun _ _ _ => .ok ()) with
  | error e =>
    refine ⟨.error e, fun acc => ?_⟩
    have : (s.withAcc acc).mem.load p n al at' = .error e := by
      show (s.mem.memory.load p n al (fun _ _ _ => .ok ()) >>= _) = _
      rw [h]; rfl
    show ((s.withAcc acc).mem.load p n al at' >>= _) = _
    rw [this]; rfl
  | ok r =>
    obtain ⟨b, m⟩ := r
    obtain rfl := BasicMem.load_unit h
    refine ⟨.ok (b, [⟨.load, at', p.addr, n⟩]), fun acc => ?_⟩
    have : (s.withAcc acc).mem.load p n al at' = .ok (b, ⟨s.mem.memory, acc ++ [⟨.load, at', p.addr, n⟩]⟩) :=
      ConcMem.load_eq_ok.2 ⟨_, h, rfl⟩
    show ((s.withAcc acc).mem.load p n al at' >>= _) = _
    rw [this]; rfl

theorem retagPtrM {p t e} : Blind (retagPtrM p t e) := by
  intro s
  cases h : s.getActive with
  | error x => exact ⟨.error x, fun acc => by
      have h : (s.withAcc acc).getActive = .error x := h
      have : (s.withAcc acc).curFrame = .error x := by unfold Machine.curFrame; rw [h]; rfl
      exact EM.bind_of_error (EM.read_of_error this)⟩
  | ok t =>
    cases hs : t.stack with
    | nil => exact ⟨.error .panic, fun acc => by
        have h : (s.withAcc acc).getActive = .ok t := h
        have : (s.withAcc acc).curFrame = .error .panic := by
          unfold Machine.curFrame Thread.curFrame; rw [h, Res.bind_ok, hs]; rfl
        exact EM.bind_of_error (EM.read_of_error this)⟩
    | cons fr rest => exact ⟨.ok (p, []), fun acc => by
        have h : (s.withAcc acc).getActive = .ok t := h
        have h' : (s.withAcc acc).curFrame = .ok fr := by
          unfold Machine.curFrame Thread.curFrame; rw [h, Res.bind_ok, hs]; rfl
        unfold MiniRust.retagPtrM mutateCurFrame
        rw [EM.bind_of_ok (EM.read_of_ok h')]
        refine (EM.bind_of_ok (a := (p, fr)) (s' := s.withAcc acc) rfl).trans ?_
        refine (EM.bind_of_ok (EM.read_of_ok h)).trans ?_
        have ht : t.setCurFrame fr = .ok t := by unfold Thread.setCurFrame; rw [hs]; simp only [← hs]
        refine (EM.bind_of_ok (EM.lift_of_ok ht)).trans ?_
        have hst : (s.withAcc acc).setActive t = s.withAcc acc := by
          unfold Machine.setActive
          have : (s.withAcc acc).threads.set (s.withAcc acc).activeThread t = (s.withAcc acc).threads := by
            apply List.ext_getElem?
            intro i
            rw [List.getElem?_set]
            split
            · rename_i hi
              subst hi
              have := index_eq_ok.1 h
              rw [this]
              simp [(List.getElem?_eq_some_iff.1 this).1]
            · rfl
          rw [this]
        refine (EM.bind_of_ok (a := ()) (EM.modify_eq_ok.2 rfl)).trans ?_
        rw [hst]
        simp⟩

theorem ite {c : Prop} [Decidable c] {y : EM (BasicMem Unit Unit) (AllocId × Unit) Unit α} (h1 : Blind x) (h2 : Blind y) :
    Blind (if c then x else y) := by split <;> assumption

theorem typedLoad {p ty al at'} : Blind (typedLoad p ty al at') :=
  .bind .lift fun _ => .bind .memLoad fun _ => .read fun _ _ => rfl

theorem placeLoad {p ty} : Blind (placeLoad p ty) := .ite .throw .typedLoad

theorem addrOf {p ty} : Blind (addrOf p ty) := .bind (.read fun _ _ => rfl) fun _ => .bind .retagPtrM fun _ => .pure

mutual
theorem decodeDiscriminant {acc : Machine (BasicMem Unit Unit) (AllocId × Unit) Unit → Nat → Nat → Res (List (AByte (AllocId × Unit)) × _)} (hacc : ∀ i n, Blind (fun s => acc s i n)) :
    ∀ d, Blind (fun s => decodeDiscriminant acc d s)
  | .known d => by simp only [MiniRust.decodeDiscriminant]; exact Blind.pure
  | .invalid => by simp only [MiniRust.decodeDiscriminant]; exact Blind.pure
  | .branch offset vt fb ch => by
    intro s
    simp only [MiniRust.decodeDiscriminant]
    obtain ⟨r, hr⟩ := hacc offset vt.size s
    simp only [hr]
    cases r with
    | error e => exact ⟨.error e, fun _ => rfl⟩
    | ok q =>
      obtain ⟨bytes, n⟩ := q
      simp only [Res.bind_ok]
      cases hd : decodeInt vt bytes with
      | error e =>
        cases e
        case none => exact ⟨.ok (none, n), fun _ => rfl⟩
        all_goals exact ⟨.error _, fun _ => rfl⟩
      | ok val =>
        simp only
        rcases children hacc ch val with h | ⟨d, h1, h2⟩
        · obtain ⟨r, hr⟩ := decodeDiscriminant hacc fb s
          refine ⟨r >>= fun q => .ok (q.1, n ++ q.2), fun acc => ?_⟩
          rw [h]
          simp only [hr]
          cases r <;> simp
        · obtain ⟨r, hr⟩ := h2 s
          refine ⟨r >>= fun q => .ok (q.1, n ++ q.2), fun acc => ?_⟩
          rw [h1]
          simp only [hr]
          cases r <;> simp
theorem children {acc : Machine (BasicMem Unit Unit) (AllocId × Unit) Unit → Nat → Nat → Res (List (AByte (AllocId × Unit)) × _)} (hacc : ∀ i n, Blind (fun s => acc s i n)) :
    ∀ ch val, (∀ s, decodeDiscriminantChildren acc ch val s = none) ∨
      ∃ x : EM (BasicMem Unit Unit) (AllocId × Unit) Unit (Option Int),
        (∀ s, decodeDiscriminantChildren acc ch val s = some (x s)) ∧ Blind x
  | [], val => .inl fun s => by simp only [decodeDiscriminantChildren]
  | ((a, b), d) :: ch, val => by
    simp only [decodeDiscriminantChildren]
    by_cases h : a ≤ val ∧ val < b
    · simp only [h, and_self, if_true]
      exact .inr ⟨_, fun s => rfl, decodeDiscriminant hacc d⟩
    · simp only [h, if_false]
      exact children hacc ch val
end

theorem getDiscriminant {p ty} : Blind (getDiscriminant p ty) := by
  unfold MiniRust.getDiscriminant
  split
  · refine .ite .throw (.bind (.decodeDiscriminant (fun i n => .readBind (fun _ _ => rfl) fun _ => .memLoad) _) fun d => ?_)
    cases d
    · exact .throw
    · exact .pure
  · exact .throw

mutual
theorem evalValue : ∀ e, Blind (evalValue e)
  | .constant _ _ => by unfold MiniRust.evalValue; exact .bind (.read fun _ _ => rfl) fun _ => .pure
  | .tuple es _ => by
    unfold MiniRust.evalValue
    exact .bind (evalValues es) fun _ => .pure
  | .union _ e ty => by
    unfold MiniRust.evalValue
    split
    · exact .bind .lift fun _ => .bind (evalValue e) fun _ => .bind .lift fun _ => .pure
    · exact .throw
  | .variant _ e _ => by
    unfold MiniRust.evalValue
    exact .bind (evalValue e) fun _ => .pure
  | .getDiscriminant p => by
    unfold MiniRust.evalValue
    exact .bind (evalPlace p) fun _ => .getDiscriminant
  | .load p => by
    unfold MiniRust.evalValue
    exact .bind (evalPlace p) fun _ => .bind .placeLoad fun _ => .pure
  | .addrOf p _ => by
    unfold MiniRust.evalValue
    exact .bind (evalPlace p) fun _ => .addrOf
  | .unOp _ e => by
    unfold MiniRust.evalValue
    exact .bind (evalValue e) fun _ => .read fun _ _ => rfl
  | .binOp _ e e' => by
    unfold MiniRust.evalValue
    exact .bind (evalValue e) fun _ => .bind (evalValue e') fun _ => .read fun _ _ => rfl
theorem evalValues : ∀ es, Blind (evalValues es)
  | [] => by unfold MiniRust.evalValues; exact .pure
  | e :: es => by
    unfold MiniRust.evalValues
    exact .bind (evalValue e) fun _ => .bind (evalValues es) fun _ => .pure
theorem evalPlace : ∀ e, Blind (evalPlace e)
  | .local _ => by unfold MiniRust.evalPlace; exact .read fun _ _ => rfl
  | .deref e _ => by
    unfold MiniRust.evalPlace
    exact .bind (evalValue e) fun _ => .read fun _ _ => rfl
  | .field p _ => by
    unfold MiniRust.evalPlace
    exact .bind (evalPlace p) fun _ => .read fun _ _ => rfl
  | .index p e => by
    unfold MiniRust.evalPlace
    exact .bind (evalPlace p) fun _ => .bind (evalValue e) fun _ => .read fun _ _ => rfl
  | .downcast p _ => by
    unfold MiniRust.evalPlace
    exact .bind (evalPlace p) fun _ => .lift
end

end Blind
end
end MiniRust
