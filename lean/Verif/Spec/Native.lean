import Verif.Native
/-
What the native implementation of the intrinsics must do.
-/
namespace MiniRust
namespace Native

/-- The thread acquired the lock and did not release it since. -/
def Holds (h : List Event) (t l : Nat) : Prop :=
  ∃ h1 h2 r, h = h1 ++ .did t (.acquire l) r :: h2 ∧ ∀ r', .did t (.release l) r' ∉ h2

/-- Threads release only locks that they hold (in MiniRust anything else is undefined behavior). -/
def Client.Disciplined (C : Client) : Prop := ∀ (s : State) (t : Nat) (th : Thread) (l : Nat), Reachable C s → s.threads[t]? = some th → th.pc = .client →
  C.calls s.history t (.release l) → Holds s.history t l

/-- Number of threads that have been spawned. -/
def spawned (h : List Event) : Nat := h.countP fun e => match e with | .did _ .spawn _ => true | _ => false

/-- Number of locks that have been created. -/
def created (h : List Event) : Nat := h.countP fun e => match e with | .did _ .createLock _ => true | _ => false

/-- What MiniRust allows to happen next: an acquired lock exists and is free, a released lock is held by the thread, a joined thread is finished, and
new threads and locks get the next numbers. Spawned thread `id` is thread `id + 1`, because the main thread is not spawned. -/
inductive Allowed (h : List Event) : Event → Prop
  | spawn {t} : Allowed h (.did t .spawn (spawned h))
  | join {t id} : .finished (id + 1) ∈ h → Allowed h (.did t (.join id) 0)
  | createLock {t} : Allowed h (.did t .createLock (created h))
  | acquire {t l} : l < created h → (∀ u, ¬ Holds h u l) → Allowed h (.did t (.acquire l) 0)
  | release {t l} : Holds h t l → Allowed h (.did t (.release l) 0)
  | finished {t} : Allowed h (.finished t)

/-- Everything that happened was allowed. -/
def Legal (h : List Event) : Prop := ∀ h1 e h2, h = h1 ++ e :: h2 → Allowed h1 e

/-- The step is that of a thread which wakes up the others in `release`. -/
def Wakes (s s' : State) : Prop := ∃ t th, s.threads[t]? = some th ∧ th.pc = .wake ∧ advance s t th = .ok (some s')

/-- States that are reached without that threads are woken up when another one has found its lock closed but has not yet entered itself into the
list of waiting threads. -/
inductive Orderly (C : Client) : State → Prop
  | init : Orderly C .init
  | step {s s'} : Orderly C s → Step C s s' → (Wakes s s' → ∀ (t : Nat) (th : Thread) (l : Nat), s.threads[t]? = some th → th.pc ≠ .queue l) → Orderly C s'
  | spurious {s t th l} : Orderly C s → s.threads[t]? = some th → th.pc = .park l → Orderly C (s.setPc t th (.want (.acquire l)))

/-- No thread can go on with the call that it is in. -/
def Blocked (s : State) : Prop := ∀ t th, s.threads[t]? = some th → advance s t th = .ok none

/-- Number of calls of a thread so far. -/
def callsOf (h : List Event) (t : Nat) : Nat := h.countP fun e => match e with | .did u _ _ => u = t | _ => false

/-- A client where each thread makes a list of calls and then finishes. It does not release locks that it does not hold. -/
def listClient (progs : Nat → List Call) : Client where
  calls h t c := (progs t)[callsOf h t]? = some c ∧ ∀ l, c = .release l → Holds h t l
  ends h t := (progs t)[callsOf h t]? = none

end Native
end MiniRust
