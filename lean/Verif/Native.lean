import Verif.Prelude
/-
The native implementation of the intrinsics for threads and locks, `/repo/tooling/minimize/intrinsics/src/lib.rs`: what test programs do when they are
compiled by rustc instead of being translated to MiniRust.
-/
namespace MiniRust
namespace Native

/-- A call of one of the functions, `/repo/tooling/minimize/intrinsics/src/lib.rs:44,64,82,92,114`. What a new thread does is up to the
client, see `Client`. -/
inductive Call
  | spawn
  | join (id : Nat)
  | createLock
  | acquire (l : Nat)
  | release (l : Nat)
  deriving DecidableEq

/-- What has happened: a call by a thread took effect and gave a result (0 for the unit value), or a thread has finished. Ghost state. -/
inductive Event
  | did (t : Nat) (c : Call) (r : Nat)
  | finished (t : Nat)
  deriving DecidableEq

/-- Where a thread is. -/
inductive Pc
  /-- Outside of the functions. -/
  | client
  /-- At the beginning of the function, or of an iteration of the loop of `acquire`, before it takes a mutex. -/
  | want (c : Call)
  /-- In `join`, `/repo/tooling/minimize/intrinsics/src/lib.rs:67`: waits for thread `u` and holds the mutex of `JOIN_HANDLES`. -/
  | joining (id u : Nat)
  /-- In `acquire`, after `drop(locks)`, `/repo/tooling/minimize/intrinsics/src/lib.rs:103`. -/
  | queue (l : Nat)
  /-- In `acquire`, before or in `thread::park()`, `/repo/tooling/minimize/intrinsics/src/lib.rs:108`. -/
  | park (l : Nat)
  /-- In `release`, after the lock was opened, `/repo/tooling/minimize/intrinsics/src/lib.rs:117`. -/
  | wake
  | done
  deriving DecidableEq

/-- A thread; `token` is what `thread::unpark` sets and `thread::park` waits for. -/
structure Thread where
  pc : Pc
  token : Bool
  deriving DecidableEq

/-- The state. `handles` is `JOIN_HANDLES`, `/repo/tooling/minimize/intrinsics/src/lib.rs:39`, where join handles are thread numbers, and `holder`
is who holds its mutex while blocking. `locks` is `LOCKS`, line 78, where `true` is `Locked`; `waiting` is `WAITING`, line 81. Their mutexes, and that of
`JOIN_HANDLES` in `spawn`, are held only in critical sections without blocking operations; each of these sections is one step. -/
structure State where
  threads : List Thread
  handles : List (Option Nat)
  holder : Option Nat
  locks : List Bool
  waiting : List Nat
  history : List Event
  deriving DecidableEq

/-- The start: the main thread. -/
def State.init : State := ⟨[⟨.client, false⟩], [], none, [], [], []⟩

def State.setPc (s : State) (t : Nat) (th : Thread) (pc : Pc) : State := { s with threads := s.threads.set t { th with pc } }

def State.log (s : State) (e : Event) : State := { s with history := s.history ++ [e] }

/-- The next step of a thread inside of a function: `none` if it is blocked. Nothing is modelled after a panic. -/
def advance (s : State) (t : Nat) (th : Thread) : Res (Option State) :=
  match th.pc with
  | .client | .done => .ok none
  -- `spawn`, `/repo/tooling/minimize/intrinsics/src/lib.rs:45-58`
  | .want .spawn =>
    if s.holder.isSome then .ok none
    else
      let s' := s.setPc t th .client
      let handles := s.handles ++ [some s.threads.length]
      .ok (some (State.log { s' with threads := s'.threads ++ [⟨.client, false⟩], handles } (.did t .spawn (handles.length - 1))))
  -- `join`, `/repo/tooling/minimize/intrinsics/src/lib.rs:65-66`
  | .want (.join id) =>
    if s.holder.isSome then .ok none
    else match s.handles[id]? with
      | some (some u) => .ok (some { s.setPc t th (.joining id u) with handles := s.handles.set id none, holder := some t })
      | _ => .error .panic
  -- `handle.join()` and the end of the function, `/repo/tooling/minimize/intrinsics/src/lib.rs:67-68`
  | .joining id u =>
    if s.threads[u]?.map (·.pc) = some .done then .ok (some (State.log { s.setPc t th .client with holder := none } (.did t (.join id) 0)))
    else .ok none
  -- `create_lock`, `/repo/tooling/minimize/intrinsics/src/lib.rs:82-88`
  | .want .createLock => .ok (some (State.log { s.setPc t th .client with locks := s.locks ++ [false] } (.did t .createLock s.locks.length)))
  -- `acquire`, `/repo/tooling/minimize/intrinsics/src/lib.rs:94-103`
  | .want (.acquire l) =>
    match s.locks[l]? with
    | none => .error .panic
    | some false => .ok (some (State.log { s.setPc t th .client with locks := s.locks.set l true } (.did t (.acquire l) 0)))
    | some true => .ok (some (s.setPc t th (.queue l)))
  -- `WAITING.lock().unwrap().push(thread::current())`, `/repo/tooling/minimize/intrinsics/src/lib.rs:104`
  | .queue l => .ok (some { s.setPc t th (.park l) with waiting := s.waiting ++ [t] })
  -- `thread::park()`, `/repo/tooling/minimize/intrinsics/src/lib.rs:108`
  | .park l => if th.token then .ok (some { s with threads := s.threads.set t ⟨.want (.acquire l), false⟩ }) else .ok none
  -- `release`, `/repo/tooling/minimize/intrinsics/src/lib.rs:115`
  | .want (.release l) =>
    if l < s.locks.length then .ok (some (State.log { s.setPc t th .wake with locks := s.locks.set l false } (.did t (.release l) 0)))
    else .error .panic
  -- the rest of `release`, `/repo/tooling/minimize/intrinsics/src/lib.rs:117-123`
  | .wake =>
    let s' := s.setPc t th .client
    .ok (some { s' with
      threads := s'.threads.mapIdx fun i x => if i ∈ s.waiting then { x with token := true } else x
      waiting := [] })

/-- The program that uses the functions: which calls a thread may make, and whether it may finish, after what has happened so far. So clients
may compute and communicate in any way. -/
structure Client where
  calls : List Event → Nat → Call → Prop
  ends : List Event → Nat → Prop

/-- A step that is not a spurious wakeup. When the main thread has finished the process ends; the steps of other threads after that are
included although they may not happen. -/
inductive Step (C : Client) (s : State) : State → Prop
  | call {t th c} : s.threads[t]? = some th → th.pc = .client → C.calls s.history t c → Step C s (s.setPc t th (.want c))
  | finish {t th} : s.threads[t]? = some th → th.pc = .client → C.ends s.history t → Step C s ((s.setPc t th .done).log (.finished t))
  | advance {t th s'} : s.threads[t]? = some th → advance s t th = .ok (some s') → Step C s s'

/-- The states that can be reached. `thread::park` may return at any time; this is the second kind of step. -/
inductive Reachable (C : Client) : State → Prop
  | init : Reachable C .init
  | step {s s'} : Reachable C s → Step C s s' → Reachable C s'
  | spurious {s t th l} : Reachable C s → s.threads[t]? = some th → th.pc = .park l → Reachable C (s.setPc t th (.want (.acquire l)))

end Native
end MiniRust
