import Verif.Machine
import Verif.Lemmas.Memory
import Verif.Lemmas.MemHistory
/-
Lemmas about the execution monad and the typed memory accesses.
-/
set_option linter.unusedSectionVars false
namespace MiniRust

namespace EM
variable {M P F α β : Type} {s s' : Machine M P F}

theorem bind_apply {x : EM M P F α} {f : α → EM M P F β} :
    (x >>= f) s = match x s with | .ok (a, s') => f a s' | .error e => .error e := rfl

theorem bind_eq_ok {x : EM M P F α} {f : α → EM M P F β} {b : β} :
    (x >>= f) s = .ok (b, s') ↔ ∃ a s1, x s = .ok (a, s1) ∧ f a s1 = .ok (b, s') := by
  rw [bind_apply]
  cases h : x s with
  | error e => simp
  | ok r => obtain ⟨a, s1⟩ := r; simp

theorem bind_eq_ok' {x : EM M P F α} {f : α → EM M P F β} {r : β × Machine M P F} :
    (x >>= f) s = .ok r ↔ ∃ a s1, x s = .ok (a, s1) ∧ f a s1 = .ok r := by
  obtain ⟨b, s'⟩ := r; exact bind_eq_ok

theorem bind_eq_error {x : EM M P F α} {f : α → EM M P F β} {e : Err} :
    (x >>= f) s = .error e ↔ x s = .error e ∨ ∃ a s1, x s = .ok (a, s1) ∧ f a s1 = .error e := by
  rw [bind_apply]
  cases h : x s with
  | error e => simp
  | ok r => obtain ⟨a, s1⟩ := r; simp

theorem bind_of_ok {x : EM M P F α} {f : α → EM M P F β} {a : α} (h : x s = .ok (a, s')) :
    (x >>= f) s = f a s' := by rw [bind_apply, h]

theorem bind_of_error {x : EM M P F α} {f : α → EM M P F β} {e : Err} (h : x s = .error e) :
    (x >>= f) s = .error e := by rw [bind_apply, h]

@[simp] theorem pure_apply {a : α} : (pure a : EM M P F α) s = .ok (a, s) := rfl

theorem pure_eq_ok {a b : α} : (pure a : EM M P F α) s = .ok (b, s') ↔ a = b ∧ s = s' := by simp

theorem lift_eq_ok {r : Res α} {a : α} :
    (lift r : EM M P F α) s = .ok (a, s') ↔ r = .ok a ∧ s' = s := by
  unfold lift; cases r <;> simp [eq_comm]

theorem lift_eq_error {r : Res α} {e : Err} :
    (lift r : EM M P F α) s = .error e ↔ r = .error e := by
  unfold lift; cases r <;> simp

theorem read_eq_ok {f : Machine M P F → Res α} {a : α} :
    read f s = .ok (a, s') ↔ f s = .ok a ∧ s' = s := by
  unfold read; cases f s <;> simp [eq_comm]

theorem read_eq_error {f : Machine M P F → Res α} {e : Err} :
    read f s = .error e ↔ f s = .error e := by
  unfold read; cases f s <;> simp

theorem modify_eq_ok {f : Machine M P F → Machine M P F} {u : Unit} :
    modify f s = .ok (u, s') ↔ s' = f s := by simp [modify, eq_comm]

@[simp] theorem modify_ne_error {f : Machine M P F → Machine M P F} {e : Err} :
    modify f s ≠ .error e := by simp [modify]

@[simp] theorem throw_apply {e : Err} : (throw e : EM M P F α) s = .error e := rfl

theorem unwrapRes_eq_ok {x : EM M P F α} {r : α × Machine M P F} :
    unwrapRes x s = .ok r ↔ x s = .ok r := by
  unfold unwrapRes; split <;> simp_all

theorem unwrapRes_eq_error {x : EM M P F α} {e : Err} :
    unwrapRes x s = .error e ↔
      (e = .noBehavior ∧ x s = .error .noBehavior) ∨
      (e = .panic ∧ ∃ e', e' ≠ .noBehavior ∧ x s = .error e') := by
  unfold unwrapRes
  cases h : x s with
  | ok r => simp
  | error e' => cases e' <;> simp [eq_comm]

theorem popInt_eq_ok {i : Int} :
    popInt s = .ok (i, s') ↔ ∃ rest, s.oracle = .int i :: rest ∧ s' = { s with oracle := rest } := by
  unfold popInt
  cases s.oracle with
  | nil => simp
  | cons c rest => cases c <;> simp [eq_comm]

theorem popProv_eq_ok {p : Option P} :
    popProv s = .ok (p, s') ↔ ∃ rest, s.oracle = .prov p :: rest ∧ s' = { s with oracle := rest } := by
  unfold popProv
  cases s.oracle with
  | nil => simp
  | cons c rest => cases c <;> simp [eq_comm]

end EM

section
variable {M P F : Type} [Memory M P F] [DecidableEq P] [T : Target] {s s' : Machine M P F}

theorem ConcMem.load_eq_ok {m m' : ConcMem M} {ptr : ThinPtr P} {len align at' bytes} :
    m.load ptr len align at' = .ok (bytes, m') ↔
      ∃ mem, Memory.load m.memory ptr len align = .ok (bytes, mem) ∧
        m' = ⟨mem, m.accesses ++ [⟨.load, at', ptr.addr, len⟩]⟩ := by
  unfold ConcMem.load
  simp only [Res.bind_eq_ok, Prod.exists, Except.ok.injEq, Prod.mk.injEq]
  constructor
  · rintro ⟨b, mem, h, rfl, rfl⟩; exact ⟨mem, h, rfl⟩
  · rintro ⟨mem, h, rfl⟩; exact ⟨bytes, mem, h, rfl, rfl⟩

theorem ConcMem.store_eq_ok {m m' : ConcMem M} {ptr : ThinPtr P} {align at' bytes} :
    m.store ptr bytes align at' = .ok m' ↔
      ∃ mem, Memory.store m.memory ptr bytes align = .ok mem ∧
        m' = ⟨mem, m.accesses ++ [⟨.store, at', ptr.addr, bytes.length⟩]⟩ := by
  unfold ConcMem.store
  simp only [Res.bind_eq_ok, Except.ok.injEq]
  constructor
  · rintro ⟨mem, h, rfl⟩; exact ⟨mem, h, rfl⟩
  · rintro ⟨mem, h, rfl⟩; exact ⟨mem, h, rfl⟩

theorem memLoad_eq_ok {ptr : ThinPtr P} {len align at' bytes} :
    memLoad ptr len align at' s = .ok (bytes, s') ↔
      ∃ m, s.mem.load ptr len align at' = .ok (bytes, m) ∧ s' = { s with mem := m } := by
  unfold memLoad
  simp only [Res.bind_eq_ok, Prod.exists, Except.ok.injEq, Prod.mk.injEq]
  constructor
  · rintro ⟨b, mem, h, rfl, rfl⟩; exact ⟨mem, h, rfl⟩
  · rintro ⟨mem, h, rfl⟩; exact ⟨bytes, mem, h, rfl, rfl⟩

theorem memStore_eq_ok {ptr : ThinPtr P} {align at' bytes} {u : Unit} :
    memStore ptr bytes align at' s = .ok (u, s') ↔
      ∃ m, s.mem.store ptr bytes align at' = .ok m ∧ s' = { s with mem := m } := by
  unfold memStore
  simp only [Res.bind_eq_ok, Except.ok.injEq, Prod.mk.injEq, true_and]
  constructor
  · rintro ⟨mem, h, rfl⟩; exact ⟨mem, h, rfl⟩
  · rintro ⟨mem, h, rfl⟩; exact ⟨mem, h, rfl⟩

theorem decodeChecked_eq_ok {ty : Ty} {bytes : List (AByte P)} {v : Value P} :
    s.decodeChecked ty bytes = .ok v ↔ decode ty bytes = .ok v ∧ checkValue s.valEnv ty v = .ok () := by
  unfold Machine.decodeChecked
  split
  · rename_i w h
    simp only [Res.bind_eq_ok, Except.ok.injEq, h]
    constructor
    · rintro ⟨_, h1, rfl⟩; exact ⟨rfl, h1⟩
    · rintro ⟨rfl, h1⟩; exact ⟨_, h1, rfl⟩
  · rename_i h; simp [h, ub]
  · rename_i h; simp [h]

theorem typedLoad_eq_ok {ptr : ThinPtr P} {ty : Ty} {align at' v} :
    typedLoad ptr ty align at' s = .ok (v, s') ↔
      ∃ n bytes m, ty.size = .ok n ∧ s.mem.load ptr n align at' = .ok (bytes, m) ∧
        s' = { s with mem := m } ∧ decode ty bytes = .ok v ∧ checkValue s'.valEnv ty v = .ok () := by
  unfold typedLoad
  simp only [EM.bind_eq_ok, EM.lift_eq_ok, EM.read_eq_ok, memLoad_eq_ok, decodeChecked_eq_ok]
  constructor
  · rintro ⟨n, _, ⟨h1, rfl⟩, bytes, s1, ⟨m, h2, rfl⟩, ⟨h3, h4⟩, rfl⟩
    exact ⟨n, bytes, m, h1, h2, rfl, h3, h4⟩
  · rintro ⟨n, bytes, m, h1, h2, rfl, h3, h4⟩
    exact ⟨n, _, ⟨h1, rfl⟩, bytes, _, ⟨m, h2, rfl⟩, ⟨h3, h4⟩, rfl⟩

theorem isOk_eq_ok_true {α : Type} {r : Res α} : isOk r = .ok true ↔ ∃ a, r = .ok a := by
  unfold isOk
  cases r with
  | ok a => simp
  | error e => cases e <;> simp

theorem encodeChecked_eq_ok {ty : Ty} {v : Value P} {bytes : List (AByte P)} :
    s.encodeChecked ty v = .ok bytes ↔ checkValue s.valEnv ty v = .ok () ∧ encode ty v = .ok bytes := by
  unfold Machine.encodeChecked
  simp only [Res.bind_eq_ok, rassert_eq_ok]
  constructor
  · rintro ⟨b, h1, _, rfl, h2⟩
    obtain ⟨u, hu⟩ := isOk_eq_ok_true.1 h1
    exact ⟨hu, h2⟩
  · rintro ⟨h1, h2⟩
    exact ⟨true, isOk_eq_ok_true.2 ⟨_, h1⟩, (), rfl, h2⟩

theorem typedStore_eq_ok {ptr : ThinPtr P} {v : Value P} {ty : Ty} {align at'} {u : Unit} :
    typedStore ptr v ty align at' s = .ok (u, s') ↔
      ∃ bytes m, checkValue s.valEnv ty v = .ok () ∧ encode ty v = .ok bytes ∧
        s.mem.store ptr bytes align at' = .ok m ∧ s' = { s with mem := m } := by
  unfold typedStore
  simp only [EM.bind_eq_ok, EM.read_eq_ok, memStore_eq_ok, encodeChecked_eq_ok]
  constructor
  · rintro ⟨bytes, _, ⟨⟨h1, h2⟩, rfl⟩, m, h3, rfl⟩; exact ⟨bytes, m, h1, h2, h3, rfl⟩
  · rintro ⟨bytes, m, h1, h2, h3, rfl⟩; exact ⟨bytes, _, ⟨⟨h1, h2⟩, rfl⟩, m, h3, rfl⟩

end
end MiniRust
