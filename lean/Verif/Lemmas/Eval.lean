import Verif.Lemmas.EM
/-
Evaluating machine computations forwards.
-/
namespace MiniRust
variable {M P F α β : Type} {s s1 : Machine M P F}
namespace EM

theorem lift_of_ok {r : Res α} {a : α} (h : r = .ok a) : (EM.lift r : EM M P F α) s = .ok (a, s) := by
  subst h; rfl

theorem lift_of_error {r : Res α} {e : Err} (h : r = .error e) : (EM.lift r : EM M P F α) s = .error e := by
  subst h; rfl

theorem read_of_ok {f : Machine M P F → Res α} {a : α} (h : f s = .ok a) : EM.read f s = .ok (a, s) :=
  EM.read_eq_ok.2 ⟨h, rfl⟩

theorem read_of_error {f : Machine M P F → Res α} {e : Err} (h : f s = .error e) : EM.read f s = .error e :=
  EM.read_eq_error.2 h

end EM
end MiniRust
