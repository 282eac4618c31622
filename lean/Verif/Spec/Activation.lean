import Verif.Spec.Builder
import Verif.Spec.Frames
/-
What a single activation of a function does while the machine runs: the machine interleaves it with other threads and with the
functions it calls.
-/
namespace MiniRust
variable {M P F : Type}

/-- Frame number `d` of thread `i` is `g`; the lowest frame of the stack is number 0. -/
def Machine.FrameAt (s : Machine M P F) (i d : Nat) (g : StackFrame P F) : Prop :=
  ∃ t : Thread P F, s.threads[i]? = some t ∧ t.stack.reverse[d]? = some g

/-- In the next step of the machine, frame number `d` of thread `i` performs the given actions: none if another thread or a
function it has called is running; the outcome of a call when the called function is left. The flag: the frame is left. -/
inductive Machine.Does [Target] [DecidableEq P] [Memory M P F] (s : Machine M P F) (i d : Nat) : List Act → Bool → Prop
  /-- another thread runs -/
  | other {a r t f rest} : s.Runs a r t f rest → a ≠ i → Does s i d [] false
  /-- a function called by a function it has called runs -/
  | above {r t f rest} : s.Runs i r t f rest → d + 1 < rest.length → Does s i d [] false
  /-- a function it has called runs, and is not left -/
  | callee {r t f rest} : s.Runs i r t f rest → rest.length = d + 1 → ¬ f.AtTerm .return → ¬ f.AtTerm .resumeUnwind →
      Does s i d [] false
  /-- a function it has called returns, or unwinds -/
  | returned {r t f g rest c conv as rp n u} : s.Runs i r t f (g :: rest) → rest.length = d → f.AtTerm .return →
      g.AtTerm (.call c conv as rp n u) → Does s i d [.call ⟨c, conv, as, rp⟩ .returned] false
  | unwound {r t f g rest c conv as rp n u} : s.Runs i r t f (g :: rest) → rest.length = d → f.AtTerm .resumeUnwind →
      g.AtTerm (.call c conv as rp n u) → Does s i d [.call ⟨c, conv, as, rp⟩ .unwound] false
  /-- it starts a call; the outcome is not known yet -/
  | call {r t f rest c conv as rp n u} : s.Runs i r t f rest → rest.length = d → f.AtTerm (.call c conv as rp n u) →
      Does s i d [] false
  | goto {r t f rest b} : s.Runs i r t f rest → rest.length = d → f.AtTerm (.goto b) → Does s i d [] false
  | stmt {r t f rest st} : s.Runs i r t f rest → rest.length = d → f.AtStmt st → Does s i d [.stmt st] false
  | switch {r t f rest v cases fb j ty s1} : s.Runs i r t f rest → rest.length = d → f.AtTerm (.switch v cases fb) →
      evalValue v (s.schedule i r) = .ok ((.int j, ty), s1) → Does s i d [.switch v j] false
  | op {r t f rest op as rp n} : s.Runs i r t f rest → rest.length = d → f.AtTerm (.intrinsic op as rp n) →
      Does s i d [.op op as rp] false
  | startUnwind {r t f rest v b} : s.Runs i r t f rest → rest.length = d → f.AtTerm (.startUnwind v b) →
      Does s i d [.startUnwind v] false
  | stopUnwind {r t f rest b} : s.Runs i r t f rest → rest.length = d → f.AtTerm (.stopUnwind b) → Does s i d [.stopUnwind] false
  | ret {r t f rest} : s.Runs i r t f rest → rest.length = d → f.AtTerm .return → Does s i d [.ret] true
  | resume {r t f rest} : s.Runs i r t f rest → rest.length = d → f.AtTerm .resumeUnwind → Does s i d [.resume] true

/-- From `s`, the machine runs to `s'`; meanwhile frame number `d` of thread `i` performs the given actions and is not left. -/
inductive Machine.Lives [Target] [DecidableEq P] [Memory M P F] (i d : Nat) (s : Machine M P F) : List Act → Machine M P F → Prop
  | nil : Lives i d s [] s
  | step {as s1 bs s2} : Lives i d s as s1 → s1.Does i d bs false → step s1 = .ok ((), s2) → Lives i d s (as ++ bs) s2

end MiniRust
