import Verif.Spec.Native
import Mathlib.Data.List.Induction
/-
Invariants of the native implementation of the intrinsics.
-/
namespace MiniRust
namespace Native

theorem append_cons_eq_snoc {α : Type} {h1 h2 h : List α} {a e : α} (hh : h ++ [e] = h1 ++ a :: h2) :
    (h2 = [] ∧ h = h1 ∧ e = a) ∨ ∃ h3, h2 = h3 ++ [e] ∧ h = h1 ++ a :: h3 := by
  rcases List.eq_nil_or_concat h2 with rfl | ⟨h3, x, rfl⟩
  · have := List.append_inj' hh rfl
    simp only [List.cons.injEq, and_true] at this
    exact .inl ⟨rfl, this⟩
  · rw [List.concat_eq_append] at hh ⊢
    rw [← List.cons_append, ← List.append_assoc] at hh
    have := List.append_inj' hh rfl
    simp only [List.cons.injEq, and_true] at this
    exact .inr ⟨h3, by rw [this.2], this.1⟩

theorem holds_snoc {h : List Event} {e : Event} {t l : Nat} :
    Holds (h ++ [e]) t l ↔ (∃ r, e = .did t (.acquire l) r) ∨ (Holds h t l ∧ ∀ r, e ≠ .did t (.release l) r) := by
  constructor
  · rintro ⟨h1, h2, r, hh, hn⟩
    rcases append_cons_eq_snoc hh with ⟨_, _, rfl⟩ | ⟨h3, rfl, rfl⟩
    · exact .inl ⟨r, rfl⟩
    · refine .inr ⟨⟨h1, h3, r, rfl, fun r' hr => hn r' (List.mem_append_left _ hr)⟩, fun r' he => hn r' ?_⟩
      rw [he]; simp
  · rintro (⟨r, rfl⟩ | ⟨⟨h1, h2, r, rfl, hn⟩, he⟩)
    · exact ⟨h, [], r, rfl, by simp⟩
    · refine ⟨h1, h2 ++ [e], r, by simp, fun r' hr => ?_⟩
      rcases List.mem_append.1 hr with hr | hr
      · exact hn r' hr
      · exact he r' (List.mem_singleton.1 hr).symm

theorem legal_snoc {h : List Event} {e : Event} : Legal (h ++ [e]) ↔ Legal h ∧ Allowed h e := by
  constructor
  · intro hl
    refine ⟨fun h1 a h2 hh => hl h1 a (h2 ++ [e]) (by rw [hh]; simp), hl h e [] rfl⟩
  · rintro ⟨hl, ha⟩ h1 a h2 hh
    rcases append_cons_eq_snoc hh with ⟨_, rfl, rfl⟩ | ⟨h3, rfl, rfl⟩
    · exact ha
    · exact hl h1 a h3 rfl

theorem legal_nil : Legal [] := by
  intro h1 e h2 hh
  simp at hh

theorem not_holds_nil {t l} : ¬ Holds [] t l := by
  rintro ⟨h1, h2, r, hh, _⟩
  simp at hh

/-- Only one thread holds a lock. -/
theorem Legal.unique {h : List Event} : Legal h → ∀ {t u l}, Holds h t l → Holds h u l → t = u := by
  induction h using List.reverseRecOn with
  | nil => intro _ t u l ht; exact absurd ht not_holds_nil
  | append_singleton h e ih =>
    intro hl t u l ht hu
    obtain ⟨hl, ha⟩ := legal_snoc.1 hl
    rw [holds_snoc] at ht hu
    rcases ht with ⟨r, rfl⟩ | ⟨ht, he⟩
    · rcases hu with ⟨r', hr'⟩ | ⟨hu, _⟩
      · injection hr'
      · cases ha with
        | acquire _ hno => exact absurd hu (hno u)
    · rcases hu with ⟨r', rfl⟩ | ⟨hu, _⟩
      · cases ha with
        | acquire _ hno => exact absurd ht (hno t)
      · exact ih hl ht hu

@[simp] theorem spawned_snoc {h e} : spawned (h ++ [e]) = spawned h + (match e with | .did _ .spawn _ => 1 | _ => 0) := by
  unfold spawned
  rw [List.countP_append, List.countP_singleton]
  congr 1
  rcases e with ⟨t, c, r⟩ | t
  · cases c <;> rfl
  · rfl

@[simp] theorem created_snoc {h e} : created (h ++ [e]) = created h + (match e with | .did _ .createLock _ => 1 | _ => 0) := by
  unfold created
  rw [List.countP_append, List.countP_singleton]
  congr 1
  rcases e with ⟨t, c, r⟩ | t
  · cases c <;> rfl
  · rfl

/-- What is known about a thread. -/
def PcOk (h : List Event) (t : Nat) : Pc → Prop
  | .want (.release l) => Holds h t l
  | .joining id u => u = id + 1
  | _ => True

theorem PcOk.snoc {h t pc e} (hp : PcOk h t pc) (he : ∀ l r, e ≠ .did t (.release l) r) : PcOk (h ++ [e]) t pc := by
  unfold PcOk at *
  split
  · exact holds_snoc.2 (.inr ⟨hp, he _⟩)
  · exact hp
  · trivial

/-- The invariant of disciplined clients. -/
structure Inv (s : State) : Prop where
  legal : Legal s.history
  created : s.locks.length = created s.history
  locked : ∀ l, s.locks[l]? = some true ↔ ∃ u, Holds s.history u l
  spawned : s.handles.length = spawned s.history
  threads : s.threads.length = s.handles.length + 1
  handles : ∀ id u, s.handles[id]? = some (some u) → u = id + 1
  pcs : ∀ t th, s.threads[t]? = some th → PcOk s.history t th.pc
  done : ∀ t th, s.threads[t]? = some th → (th.pc = .done ↔ .finished t ∈ s.history)
  ended : ∀ t, .finished t ∈ s.history → t < s.threads.length
  holder : ∀ t, s.holder = some t → ∃ th id u, s.threads[t]? = some th ∧ th.pc = .joining id u

theorem init_inv : Inv .init where
  legal := legal_nil
  created := rfl
  locked l := by simp [State.init, not_holds_nil]
  spawned := rfl
  threads := rfl
  handles id u h := by simp [State.init] at h
  pcs t th h := by
    simp only [State.init, List.getElem?_singleton] at h
    split at h
    · cases h; trivial
    · cases h
  done t th h := by
    simp only [State.init, List.getElem?_singleton] at h
    split at h
    · cases h; simp [State.init]
    · cases h
  ended t h := by simp [State.init] at h
  holder t h := by simp [State.init] at h

/-- What threads are after one was changed. -/
theorem getElem?_set_cases {α : Type} {L : List α} {t i : Nat} {a b : α} (h : (L.set t a)[i]? = some b) : (i = t ∧ b = a) ∨ (i ≠ t ∧ L[i]? = some b) := by
  by_cases hi : t = i
  · subst hi
    rw [List.getElem?_set_self'] at h
    cases hL : L[t]? with
    | none => rw [hL] at h; cases h
    | some x => rw [hL] at h; cases h; exact .inl ⟨rfl, rfl⟩
  · rw [List.getElem?_set_ne hi] at h
    exact .inr ⟨fun e => hi e.symm, h⟩

theorem getElem?_set_of {α : Type} {L : List α} {t i : Nat} {a x : α} (ht : L[t]? = some x) {b : α} (h : (i = t ∧ b = a) ∨ (i ≠ t ∧ L[i]? = some b)) :
    (L.set t a)[i]? = some b := by
  rcases h with ⟨rfl, rfl⟩ | ⟨hne, h⟩
  · rw [List.getElem?_set_self', ht]; rfl
  · rw [List.getElem?_set_ne (Ne.symm hne)]; exact h

/-- The part of the invariant about threads, for a step of thread `t` to another place that adds nothing to the history. -/
theorem Inv.quiet {s : State} (hi : Inv s) {t th} (ht : s.threads[t]? = some th) {th' : Thread} {handles holder waiting}
    (hnd : th.pc ≠ .done) (hnd' : th'.pc ≠ .done) (hp : PcOk s.history t th'.pc)
    (hlen : handles.length = s.handles.length) (hh : ∀ id u, handles[id]? = some (some u) → u = id + 1)
    (hho : ∀ v, holder = some v → ∃ x id u, (s.threads.set t th')[v]? = some x ∧ x.pc = .joining id u) :
    Inv { s with threads := s.threads.set t th', handles, holder, waiting } where
  legal := hi.legal
  created := hi.created
  locked := hi.locked
  spawned := hlen.trans hi.spawned
  threads := by simpa [hlen] using hi.threads
  handles := hh
  pcs i x hx := by
    rcases getElem?_set_cases hx with ⟨rfl, rfl⟩ | ⟨_, hx⟩
    · exact hp
    · exact hi.pcs i x hx
  done i x hx := by
    rcases getElem?_set_cases hx with ⟨rfl, rfl⟩ | ⟨_, hx⟩
    · exact ⟨fun h => absurd h hnd', fun h => absurd ((hi.done _ _ ht).2 h) hnd⟩
    · exact hi.done i x hx
  ended i h := by simpa using hi.ended i h
  holder := hho

theorem Inv.holder_set {s : State} (hi : Inv s) {t th} (ht : s.threads[t]? = some th) {th' : Thread}
    (hnj : ∀ id u, th.pc ≠ .joining id u) : ∀ v, s.holder = some v → ∃ x id u, (s.threads.set t th')[v]? = some x ∧ x.pc = .joining id u := by
  intro v hv
  obtain ⟨x, id, u, hx, hp⟩ := hi.holder v hv
  refine ⟨x, id, u, getElem?_set_of ht (.inr ⟨?_, hx⟩), hp⟩
  rintro rfl
  rw [ht] at hx; cases hx
  exact hnj id u hp

/-- The same for a step that adds an event of thread `t`. -/
theorem Inv.logged {s : State} (hi : Inv s) {t th} (ht : s.threads[t]? = some th) {th' : Thread} {locks holder} {e : Event}
    (hnd : th.pc ≠ .done) (hnd' : th'.pc ≠ .done) (hp : PcOk (s.history ++ [e]) t th'.pc) (ha : Allowed s.history e)
    (he : ∃ c r, e = .did t c r ∧ c ≠ .spawn)
    (hlen : locks.length = Native.created (s.history ++ [e])) (hl : ∀ l, locks[l]? = some true ↔ ∃ u, Holds (s.history ++ [e]) u l)
    (hho : ∀ v, holder = some v → ∃ x id u, (s.threads.set t th')[v]? = some x ∧ x.pc = .joining id u) :
    Inv { s with threads := s.threads.set t th', locks, holder, history := s.history ++ [e] } := by
  obtain ⟨c, r, rfl, hc⟩ := he
  refine ⟨legal_snoc.2 ⟨hi.legal, ha⟩, hlen, hl, ?_, by simpa using hi.threads, hi.handles, ?_, ?_, ?_, hho⟩
  · show s.handles.length = _
    rw [spawned_snoc, hi.spawned]
    split
    · rename_i hh; cases hh; exact absurd rfl hc
    · rfl
  · intro i x hx
    rcases getElem?_set_cases hx with ⟨rfl, rfl⟩ | ⟨hne, hx⟩
    · exact hp
    · exact (hi.pcs i x hx).snoc (fun l r h => hne (by cases h; rfl))
  · intro i x hx
    simp only [List.mem_append, List.mem_singleton, reduceCtorEq, or_false]
    rcases getElem?_set_cases hx with ⟨rfl, rfl⟩ | ⟨_, hx⟩
    · exact ⟨fun h => absurd h hnd', fun h => absurd ((hi.done _ _ ht).2 h) hnd⟩
    · exact hi.done i x hx
  · intro i h
    simp only [List.mem_append, List.mem_singleton, reduceCtorEq, or_false] at h
    simpa using hi.ended i h

theorem holds_other {h : List Event} {t c r} (h1 : ∀ l, c ≠ .acquire l) (h2 : ∀ l, c ≠ .release l) {u l} :
    Holds (h ++ [.did t c r]) u l ↔ Holds h u l := by
  rw [holds_snoc]
  constructor
  · rintro (⟨r, hr⟩ | ⟨hh, _⟩)
    · cases hr; exact absurd rfl (h1 l)
    · exact hh
  · intro hh
    exact .inr ⟨hh, fun r' hr => by cases hr; exact h2 l rfl⟩

theorem Inv.advance {s s' : State} {t th} (hi : Inv s) (ht : s.threads[t]? = some th) (h : advance s t th = .ok (some s')) : Inv s' := by
  have htl : t < s.threads.length := (List.getElem?_eq_some_iff.1 ht).1
  unfold Native.advance at h
  split at h
  · cases h
  · cases h
  · -- spawn
    next hpc =>
    split at h
    · cases h
    · next hho =>
      have hho : s.holder = none := by simpa using hho
      simp only [Except.ok.injEq, Option.some.injEq] at h
      subst h
      have hno : ∀ l, Call.spawn ≠ .acquire l := by intro l h; cases h
      have hno' : ∀ l, Call.spawn ≠ .release l := by intro l h; cases h
      have hget : ∀ i x, (s.threads.set t { th with pc := .client } ++ [(⟨.client, false⟩ : Thread)])[i]? = some x →
          (i = t ∧ x.pc = .client) ∨ (i ≠ t ∧ s.threads[i]? = some x) ∨ (i = s.threads.length ∧ x.pc = .client) := by
        intro i x hx
        rw [List.getElem?_append] at hx
        split at hx
        · rcases getElem?_set_cases hx with ⟨rfl, rfl⟩ | ⟨hne, hx⟩
          · exact .inl ⟨rfl, rfl⟩
          · exact .inr (.inl ⟨hne, hx⟩)
        · next hlt =>
          rw [List.getElem?_singleton] at hx
          split at hx
          · next h0 =>
            cases hx
            simp only [List.length_set] at hlt h0
            exact .inr (.inr ⟨by omega, rfl⟩)
          · cases hx
      refine ⟨legal_snoc.2 ⟨hi.legal, ?_⟩, ?_, ?_, ?_, ?_, ?_, ?_, ?_, ?_, ?_⟩
      · have : (s.handles ++ [some s.threads.length]).length - 1 = Native.spawned s.history := by
          rw [List.length_append, hi.spawned]; simp
        rw [this]; exact .spawn
      · simpa [State.log, State.setPc] using hi.created
      · intro l
        simp only [State.log, State.setPc, holds_other hno hno']
        exact hi.locked l
      · simp [State.log, State.setPc, hi.spawned]
      · simp [State.log, State.setPc, hi.threads]
      · intro id u hu
        simp only [State.log] at hu
        rw [List.getElem?_append] at hu
        split at hu
        · exact hi.handles id u hu
        · rw [List.getElem?_singleton] at hu
          split at hu
          · simp only [Option.some.injEq] at hu
            have := hi.threads
            omega
          · cases hu
      · intro i x hx
        rcases hget i x hx with ⟨_, hx⟩ | ⟨_, hx⟩ | ⟨_, hx⟩
        · rw [hx]; trivial
        · exact (hi.pcs i x hx).snoc (by intro l r h; cases h)
        · rw [hx]; trivial
      · intro i x hx
        simp only [State.log, State.setPc, List.mem_append, List.mem_singleton, reduceCtorEq, or_false]
        rcases hget i x hx with ⟨rfl, hx'⟩ | ⟨_, hx⟩ | ⟨rfl, hx'⟩
        · rw [← hi.done _ _ ht, hpc]; simp [hx']
        · exact hi.done i x hx
        · refine ⟨fun h => (by rw [hx'] at h; cases h), fun h => absurd (hi.ended _ h) (by omega)⟩
      · intro i h
        simp only [State.log, State.setPc, List.mem_append, List.mem_singleton, reduceCtorEq, or_false] at h
        have := hi.ended i h
        simp only [State.log, State.setPc, List.length_append, List.length_set]
        omega
      · intro v hv
        simp only [State.log, State.setPc, hho] at hv
        cases hv
  · -- join
    next id hpc =>
    split at h
    · cases h
    · split at h
      · next u hu =>
        simp only [Except.ok.injEq, Option.some.injEq] at h
        subst h
        refine hi.quiet ht (by rw [hpc]; simp) (by simp) (hi.handles _ _ hu) (by simp) (fun i v hv => ?_) (fun v hv => ?_)
        · rcases getElem?_set_cases hv with ⟨_, hv⟩ | ⟨_, hv⟩
          · cases hv
          · exact hi.handles i v hv
        · cases hv
          exact ⟨_, id, u, getElem?_set_of ht (.inl ⟨rfl, rfl⟩), rfl⟩
      · cases h
  · -- joining
    next id u hpc =>
    split at h
    · next hd =>
      simp only [Except.ok.injEq, Option.some.injEq] at h
      subst h
      obtain ⟨x, hx, hxd⟩ := Option.map_eq_some_iff.1 hd
      have hu : u = id + 1 := by have := hi.pcs t th ht; rwa [hpc] at this
      refine hi.logged ht (by rw [hpc]; simp) (by simp) trivial (.join ?_) ⟨_, _, rfl, by simp⟩ ?_ (fun l => ?_) (by simp)
      · rw [← hu]; exact (hi.done u x hx).1 hxd
      · simpa [State.setPc] using hi.created
      · simp only [holds_other (c := .join id) (by simp) (by simp)]
        exact hi.locked l
    · cases h
  · -- createLock
    next hpc =>
    simp only [Except.ok.injEq, Option.some.injEq] at h
    subst h
    refine hi.logged ht (by rw [hpc]; simp) (by simp) trivial ?_ ⟨_, _, rfl, by simp⟩ ?_ (fun l => ?_) (hi.holder_set ht (by simp [hpc]))
    · rw [hi.created]; exact .createLock
    · simpa using hi.created
    · simp only [holds_other (c := .createLock) (by simp) (by simp)]
      rw [← hi.locked l, List.getElem?_append]
      split
      · rfl
      · rw [List.getElem?_singleton, List.getElem?_eq_none (by omega)]
        split <;> simp
  · -- acquire
    next l hpc =>
    split at h
    · cases h
    · next hl =>
      simp only [Except.ok.injEq, Option.some.injEq] at h
      subst h
      have hno : ∀ u, ¬ Holds s.history u l := fun u hu => by
        have := (hi.locked l).2 ⟨u, hu⟩
        rw [hl] at this; cases this
      have hlt : l < s.locks.length := (List.getElem?_eq_some_iff.1 hl).1
      refine hi.logged ht (by rw [hpc]; simp) (by simp) trivial (.acquire (hi.created ▸ hlt) hno) ⟨_, _, rfl, by simp⟩ ?_ (fun l' => ?_) (hi.holder_set ht (by simp [hpc]))
      · simpa using hi.created
      · by_cases hll : l' = l
        · subst hll
          rw [List.getElem?_set_self hlt]
          exact ⟨fun _ => ⟨t, holds_snoc.2 (.inl ⟨0, rfl⟩)⟩, fun _ => rfl⟩
        · rw [List.getElem?_set_ne (Ne.symm hll), hi.locked l']
          refine exists_congr fun u => ?_
          rw [holds_snoc]
          constructor
          · intro h; exact .inr ⟨h, by simp⟩
          · rintro (⟨r, h⟩ | ⟨h, _⟩)
            · cases h; exact absurd rfl hll
            · exact h
    · simp only [Except.ok.injEq, Option.some.injEq] at h
      subst h
      exact hi.quiet ht (by rw [hpc]; simp) (by simp) trivial rfl hi.handles (hi.holder_set ht (by simp [hpc]))
  · -- queue
    next l hpc =>
    simp only [Except.ok.injEq, Option.some.injEq] at h
    subst h
    exact hi.quiet ht (by rw [hpc]; simp) (by simp) trivial rfl hi.handles (hi.holder_set ht (by simp [hpc]))
  · -- park
    next l hpc =>
    split at h
    · simp only [Except.ok.injEq, Option.some.injEq] at h
      subst h
      exact hi.quiet ht (by rw [hpc]; simp) (by simp) trivial rfl hi.handles (hi.holder_set ht (by simp [hpc]))
    · cases h
  · -- release
    next l hpc =>
    split at h
    · next hlt =>
      simp only [Except.ok.injEq, Option.some.injEq] at h
      subst h
      have hhold : Holds s.history t l := by have := hi.pcs t th ht; rwa [hpc] at this
      refine hi.logged ht (by rw [hpc]; simp) (by simp) trivial (.release hhold) ⟨_, _, rfl, by simp⟩ ?_ (fun l' => ?_) (hi.holder_set ht (by simp [hpc]))
      · simpa using hi.created
      · by_cases hll : l' = l
        · subst hll
          rw [List.getElem?_set_self hlt]
          refine ⟨fun h => (by cases h), ?_⟩
          rintro ⟨u, hu⟩
          rw [holds_snoc] at hu
          rcases hu with ⟨r, h⟩ | ⟨hu, hne⟩
          · cases h
          · cases hi.legal.unique hu hhold
            exact absurd rfl (hne 0)
        · rw [List.getElem?_set_ne (Ne.symm hll), hi.locked l']
          refine exists_congr fun u => ?_
          rw [holds_snoc]
          constructor
          · intro h; exact .inr ⟨h, fun r hr => by cases hr; exact hll rfl⟩
          · rintro (⟨r, h⟩ | ⟨h, _⟩)
            · cases h
            · exact h
    · cases h
  · -- wake
    next hpc =>
    simp only [Except.ok.injEq, Option.some.injEq] at h
    subst h
    have hq : Inv { s with threads := s.threads.set t { th with pc := .client }, waiting := [] } :=
      hi.quiet ht (by rw [hpc]; simp) (by simp) trivial rfl hi.handles (hi.holder_set ht (by simp [hpc]))
    have hget : ∀ (i : Nat) (x : Thread), ((s.threads.set t { th with pc := .client }).mapIdx fun i (x : Thread) => if i ∈ s.waiting then { x with token := true } else x)[i]? = some x →
        ∃ y : Thread, (s.threads.set t { th with pc := .client })[i]? = some y ∧ y.pc = x.pc := by
      intro i x hx
      rw [List.getElem?_mapIdx] at hx
      obtain ⟨y, hy, rfl⟩ := Option.map_eq_some_iff.1 hx
      refine ⟨y, hy, ?_⟩
      split <;> rfl
    refine ⟨hi.legal, hi.created, hi.locked, hi.spawned, ?_, hi.handles, ?_, ?_, ?_, ?_⟩
    · simpa [State.setPc] using hi.threads
    · intro i x hx
      obtain ⟨y, hy, hyx⟩ := hget i x hx
      rw [← hyx]; exact hq.pcs i y hy
    · intro i x hx
      obtain ⟨y, hy, hyx⟩ := hget i x hx
      rw [← hyx]; exact hq.done i y hy
    · intro i h
      have := hi.ended i h
      simpa [State.setPc] using this
    · intro v hv
      obtain ⟨y, id, u, hy, hp⟩ := hq.holder v hv
      refine ⟨if v ∈ s.waiting then { y with token := true } else y, id, u, ?_, ?_⟩
      · simp only [State.setPc]
        rw [List.getElem?_mapIdx, hy]; rfl
      · split <;> exact hp

theorem Inv.step {C : Client} {s s' : State} (hC : C.Disciplined) (hr : Reachable C s) (hi : Inv s) (h : Step C s s') : Inv s' := by
  cases h with
  | advance ht h => exact hi.advance ht h
  | @call t th c ht hpc hc =>
    refine hi.quiet ht (by rw [hpc]; simp) (by simp) ?_ rfl hi.handles (hi.holder_set ht (by simp [hpc]))
    unfold PcOk
    split
    · next hh => cases hh; exact hC _ _ _ _ hr ht hpc hc
    · next hh => cases hh
    · trivial
  | @finish t th ht hpc he =>
    have htl : t < s.threads.length := (List.getElem?_eq_some_iff.1 ht).1
    have hh : ∀ u l, Holds (s.history ++ [.finished t]) u l ↔ Holds s.history u l := by
      intro u l; rw [holds_snoc]; simp
    refine ⟨legal_snoc.2 ⟨hi.legal, .finished⟩, ?_, ?_, ?_, ?_, hi.handles, ?_, ?_, ?_, ?_⟩
    · simpa [State.log, State.setPc] using hi.created
    · intro l; simp only [State.log, State.setPc, hh]; exact hi.locked l
    · simpa [State.log, State.setPc] using hi.spawned
    · simpa [State.log, State.setPc] using hi.threads
    · intro i x hx
      rcases getElem?_set_cases hx with ⟨rfl, rfl⟩ | ⟨_, hx⟩
      · trivial
      · exact (hi.pcs i x hx).snoc (by intro l r h; cases h)
    · intro i x hx
      simp only [State.log, State.setPc, List.mem_append, List.mem_singleton, Event.finished.injEq]
      rcases getElem?_set_cases hx with ⟨rfl, rfl⟩ | ⟨hne, hx⟩
      · simp
      · rw [hi.done i x hx]; simp [hne]
    · intro i h
      simp only [State.log, State.setPc, List.mem_append, List.mem_singleton, Event.finished.injEq] at h
      simp only [State.log, State.setPc, List.length_set]
      rcases h with h | rfl
      · exact hi.ended i h
      · exact htl
    · exact hi.holder_set ht (by simp [hpc])

theorem Inv.spurious {s : State} {t th l} (hi : Inv s) (ht : s.threads[t]? = some th) (hpc : th.pc = .park l) : Inv (s.setPc t th (.want (.acquire l))) :=
  hi.quiet ht (by rw [hpc]; simp) (by simp) trivial rfl hi.handles (hi.holder_set ht (by simp [hpc]))

theorem Reachable.inv {C : Client} {s : State} (hC : C.Disciplined) (h : Reachable C s) : Inv s := by
  induction h with
  | init => exact init_inv
  | step hr hs ih => exact ih.step hC hr hs
  | spurious _ ht hpc ih => exact ih.spurious ht hpc

theorem Orderly.reachable {C : Client} {s : State} (h : Orderly C s) : Reachable C s := by
  induction h with
  | init => exact .init
  | step _ hs _ ih => exact .step ih hs
  | spurious _ ht hpc ih => exact .spurious ih ht hpc

end Native
end MiniRust
