import Verif.Lemmas.Native
/-
C81, C82: threads and locks of test programs that are compiled natively behave like those of MiniRust.
-/
namespace MiniRust
namespace Native

variable {C : Client} {s : State}

/-! ### C81 -/

/-- C81: everything that the native implementation does is allowed by MiniRust: locks are acquired only when they are free, threads are joined only when
they have finished, and new threads and locks get the next numbers. -/
theorem C81_legal (hC : C.Disciplined) (h : Reachable C s) : Legal s.history := (h.inv hC).legal

/-- C81: when a thread acquires a lock, and later a thread acquires it again, the first one has released it in between. -/
theorem C81_exclusive (hC : C.Disciplined) (h : Reachable C s) {h1 h2 h3 t u l r r'}
    (hh : s.history = h1 ++ .did t (.acquire l) r :: (h2 ++ .did u (.acquire l) r' :: h3)) : .did t (.release l) 0 ∈ h2 := by
  have hl := C81_legal hC h
  have ha := hl (h1 ++ .did t (.acquire l) r :: h2) (.did u (.acquire l) r') h3 (by rw [hh]; simp)
  cases ha with
  | acquire _ hno =>
    by_contra hn
    refine hno t ⟨h1, h2, r, rfl, fun r' hr => ?_⟩
    obtain ⟨h4, h5, rfl⟩ := List.append_of_mem hr
    have := hl (h1 ++ .did t (.acquire l) r :: h4) (.did t (.release l) r') (h5 ++ .did u (.acquire l) 0 :: h3) (by rw [hh]; simp)
    cases this
    exact hn hr

/-- C81: a join of a thread returns after the thread has finished. -/
theorem C81_join (hC : C.Disciplined) (h : Reachable C s) {h1 h2 t id r} (hh : s.history = h1 ++ .did t (.join id) r :: h2) :
    .finished (id + 1) ∈ h1 := by
  cases C81_legal hC h _ _ _ hh
  assumption

/-! ### C82 -/

/-- Somebody is going to wake up the others. -/
def Waking (s : State) : Prop := ∃ (t : Nat) (th : Thread), s.threads[t]? = some th ∧ th.pc = .wake

/-- Nobody misses that a lock is opened. -/
structure OrdInv (s : State) : Prop where
  queue : ∀ (t : Nat) (th : Thread) (l : Nat), s.threads[t]? = some th → th.pc = .queue l → s.locks[l]? = some true ∨ Waking s
  park : ∀ (t : Nat) (th : Thread) (l : Nat), s.threads[t]? = some th → th.pc = .park l → th.token = false → t ∈ s.waiting ∧ (s.locks[l]? = some true ∨ Waking s)

/-- A step of a thread that does not wake up the others and opens no lock. -/
theorem OrdInv.keep {s s' : State} (hi : OrdInv s) {t : Nat} {th th' : Thread} (ht : s.threads[t]? = some th) (hth : s'.threads = s.threads.set t th')
    (hw : th.pc ≠ .wake) (hwait : ∀ i : Nat, i ∈ s.waiting → i ∈ s'.waiting) (hl : ∀ l : Nat, s.locks[l]? = some true → s'.locks[l]? = some true)
    (hq : ∀ l, th'.pc = .queue l → s.locks[l]? = some true ∨ Waking s)
    (hp : ∀ l, th'.pc = .park l → t ∈ s'.waiting ∧ (s.locks[l]? = some true ∨ Waking s)) : OrdInv s' := by
  have hwk : Waking s → Waking s' := by
    rintro ⟨u, x, hx, hxp⟩
    refine ⟨u, x, ?_, hxp⟩
    rw [hth]
    refine getElem?_set_of ht (.inr ⟨?_, hx⟩)
    rintro rfl
    rw [ht] at hx; cases hx
    exact hw hxp
  have hor : ∀ l : Nat, (s.locks[l]? = some true ∨ Waking s) → s'.locks[l]? = some true ∨ Waking s' := fun l h => h.imp (hl l) hwk
  constructor
  · intro i x l hx hxp
    rw [hth] at hx
    rcases getElem?_set_cases hx with ⟨rfl, rfl⟩ | ⟨_, hx⟩
    · exact hor l (hq l hxp)
    · exact hor l (hi.queue i x l hx hxp)
  · intro i x l hx hxp hxt
    rw [hth] at hx
    rcases getElem?_set_cases hx with ⟨rfl, rfl⟩ | ⟨_, hx⟩
    · exact ⟨(hp l hxp).1, hor l (hp l hxp).2⟩
    · obtain ⟨h1, h2⟩ := hi.park i x l hx hxp hxt
      exact ⟨hwait _ h1, hor l h2⟩

theorem OrdInv.advance {s s' : State} {t : Nat} {th : Thread} (hi : OrdInv s) (ht : s.threads[t]? = some th) (h : advance s t th = .ok (some s'))
    (ho : th.pc = .wake → ∀ (u : Nat) (x : Thread) (l : Nat), s.threads[u]? = some x → x.pc ≠ .queue l) : OrdInv s' := by
  have htl : t < s.threads.length := (List.getElem?_eq_some_iff.1 ht).1
  unfold Native.advance at h
  split at h
  · cases h
  · cases h
  · -- spawn
    next hpc =>
    split at h
    · cases h
    · simp only [Except.ok.injEq, Option.some.injEq] at h
      subst h
      have hk : OrdInv { s with threads := s.threads.set t { th with pc := .client } } :=
        hi.keep ht rfl (by rw [hpc]; simp) (fun _ h => h) (fun _ h => h) (by simp) (by simp)
      have hwk : Waking { s with threads := s.threads.set t { th with pc := .client } } →
          Waking (State.log { s.setPc t th .client with
            threads := (s.setPc t th .client).threads ++ [⟨.client, false⟩], handles := s.handles ++ [some s.threads.length] }
              (.did t .spawn ((s.handles ++ [some s.threads.length]).length - 1))) := by
        rintro ⟨u, x, hx, hxp⟩
        refine ⟨u, x, ?_, hxp⟩
        exact (List.getElem?_append_left (List.getElem?_eq_some_iff.1 hx).1).trans hx
      have hget : ∀ (i : Nat) (x : Thread), (s.threads.set t { th with pc := .client } ++ [(⟨.client, false⟩ : Thread)])[i]? = some x →
          (s.threads.set t { th with pc := .client })[i]? = some x ∨ x.pc = .client := by
        intro i x hx
        rw [List.getElem?_append] at hx
        split at hx
        · exact .inl hx
        · rw [List.getElem?_singleton] at hx
          split at hx
          · cases hx; exact .inr rfl
          · cases hx
      constructor
      · intro i x l hx hxp
        rcases hget i x hx with hx | hx
        · exact (hk.queue i x l hx hxp).imp id hwk
        · rw [hx] at hxp; cases hxp
      · intro i x l hx hxp hxt
        rcases hget i x hx with hx | hx
        · exact (hk.park i x l hx hxp hxt).imp id (Or.imp id hwk)
        · rw [hx] at hxp; cases hxp
  · -- join
    next id hpc =>
    split at h
    · cases h
    · split at h
      · simp only [Except.ok.injEq, Option.some.injEq] at h
        subst h
        exact hi.keep ht rfl (by rw [hpc]; simp) (fun _ h => h) (fun _ h => h) (by simp) (by simp)
      · cases h
  · -- joining
    next id u hpc =>
    split at h
    · simp only [Except.ok.injEq, Option.some.injEq] at h
      subst h
      exact hi.keep ht rfl (by rw [hpc]; simp) (fun _ h => h) (fun _ h => h) (by simp) (by simp)
    · cases h
  · -- createLock
    next hpc =>
    simp only [Except.ok.injEq, Option.some.injEq] at h
    subst h
    exact hi.keep ht rfl (by rw [hpc]; simp) (fun _ h => h)
      (fun l h => (List.getElem?_append_left (List.getElem?_eq_some_iff.1 h).1).trans h) (by simp) (by simp)
  · -- acquire
    next l hpc =>
    split at h
    · cases h
    · next hl =>
      simp only [Except.ok.injEq, Option.some.injEq] at h
      subst h
      refine hi.keep ht rfl (by rw [hpc]; simp) (fun _ h => h) (fun l' h => ?_) (by simp) (by simp)
      exact getElem?_set_of hl (.inr ⟨fun e => (by subst e; rw [hl] at h; cases h), h⟩)
    · next hl =>
      simp only [Except.ok.injEq, Option.some.injEq] at h
      subst h
      refine hi.keep ht rfl (by rw [hpc]; simp) (fun _ h => h) (fun _ h => h) (fun l' h => ?_) (by simp)
      cases h
      exact .inl hl
  · -- queue
    next l hpc =>
    simp only [Except.ok.injEq, Option.some.injEq] at h
    subst h
    refine hi.keep ht rfl (by rw [hpc]; simp) (fun _ h => List.mem_append_left _ h) (fun _ h => h) (by simp) (fun l' h => ?_)
    cases h
    exact ⟨by simp, hi.queue t th l ht hpc⟩
  · -- park
    next l hpc =>
    split at h
    · simp only [Except.ok.injEq, Option.some.injEq] at h
      subst h
      exact hi.keep ht rfl (by rw [hpc]; simp) (fun _ h => h) (fun _ h => h) (by simp) (by simp)
    · cases h
  · -- release
    next l hpc =>
    split at h
    · simp only [Except.ok.injEq, Option.some.injEq] at h
      subst h
      have hwk : Waking (State.log { s.setPc t th .wake with locks := s.locks.set l false } (.did t (.release l) 0)) :=
        ⟨t, _, getElem?_set_of ht (.inl ⟨rfl, rfl⟩), rfl⟩
      constructor
      · intro i x l' hx hxp
        exact .inr hwk
      · intro i x l' hx hxp hxt
        refine ⟨?_, .inr hwk⟩
        rcases getElem?_set_cases hx with ⟨rfl, rfl⟩ | ⟨_, hx⟩
        · cases hxp
        · exact (hi.park i x l' hx hxp hxt).1
    · cases h
  · -- wake
    next hpc =>
    simp only [Except.ok.injEq, Option.some.injEq] at h
    subst h
    have hget : ∀ (i : Nat) (x : Thread), ((s.threads.set t { th with pc := .client }).mapIdx fun i (x : Thread) => if i ∈ s.waiting then { x with token := true } else x)[i]? = some x →
        x.pc = .client ∨ ∃ y, s.threads[i]? = some y ∧ y.pc = x.pc ∧ (x.token = false → y.token = false ∧ i ∉ s.waiting) := by
      intro i x hx
      rw [List.getElem?_mapIdx] at hx
      obtain ⟨y, hy, rfl⟩ := Option.map_eq_some_iff.1 hx
      rcases getElem?_set_cases hy with ⟨rfl, rfl⟩ | ⟨_, hy⟩
      · left; split <;> rfl
      · right
        refine ⟨y, hy, ?_, ?_⟩
        · split <;> rfl
        · split
          · intro h; cases h
          · next hn => intro h; exact ⟨h, hn⟩
    constructor
    · intro i x l hx hxp
      rcases hget i x hx with hx | ⟨y, hy, hyp, _⟩
      · rw [hx] at hxp; cases hxp
      · exact absurd (hyp.trans hxp) (ho hpc i y l hy)
    · intro i x l hx hxp hxt
      rcases hget i x hx with hx | ⟨y, hy, hyp, hyt⟩
      · rw [hx] at hxp; cases hxp
      · obtain ⟨h1, h2⟩ := hyt hxt
        exact absurd (hi.park i y l hy (hyp.trans hxp) h1).1 h2

theorem Orderly.ordInv (h : Orderly C s) : OrdInv s := by
  induction h with
  | init =>
    have hget : ∀ (i : Nat) (x : Thread), State.init.threads[i]? = some x → x.pc = .client := by
      intro i x hx
      simp only [State.init, List.getElem?_singleton] at hx
      split at hx
      · cases hx; rfl
      · cases hx
    exact ⟨fun i x l hx hp => (by rw [hget i x hx] at hp; cases hp), fun i x l hx hp => (by rw [hget i x hx] at hp; cases hp)⟩
  | step _ hs ho ih =>
    cases hs with
    | call ht hpc _ => exact ih.keep ht rfl (by rw [hpc]; simp) (fun _ h => h) (fun _ h => h) (by simp) (by simp)
    | finish ht hpc _ => exact ih.keep ht rfl (by rw [hpc]; simp) (fun _ h => h) (fun _ h => h) (by simp) (by simp)
    | advance ht h => exact ih.advance ht h (fun hw => ho ⟨_, _, ht, hw, h⟩)
  | spurious _ ht hpc ih => exact ih.keep ht rfl (by rw [hpc]; simp) (fun _ h => h) (fun _ h => h) (by simp) (by simp)

/-- C82 (partial): the full claim has `Reachable` instead of `Orderly` and does not have the last case; it is false by `C82_lost_wakeup` and `C82_spawn_blocked`.
When no thread can go on with the call that it is in, each thread is outside of the functions, has finished, waits for a lock that is held by a thread,
waits for a thread that has not finished, or wants to spawn or join a thread while another thread waits in a join. -/
theorem C82_blocked_partial (hC : C.Disciplined) (h : Orderly C s) (hb : Blocked s) {t : Nat} {th : Thread} (ht : s.threads[t]? = some th) :
    th.pc = .client ∨ th.pc = .done ∨ (∃ l u, th.pc = .park l ∧ Holds s.history u l) ∨
    (∃ id, th.pc = .joining id (id + 1) ∧ .finished (id + 1) ∉ s.history) ∨
    ((th.pc = .want .spawn ∨ ∃ id, th.pc = .want (.join id)) ∧
      ∃ (u : Nat) (x : Thread) (id : Nat), s.threads[u]? = some x ∧ x.pc = .joining id (id + 1) ∧ .finished (id + 1) ∉ s.history) := by
  have hi := h.reachable.inv hC
  have ho := h.ordInv
  have hjoin : ∀ {t : Nat} {th : Thread} {id u}, s.threads[t]? = some th → th.pc = .joining id u → u = id + 1 ∧ .finished (id + 1) ∉ s.history := by
    intro t th id u ht hp
    have hu : u = id + 1 := by have := hi.pcs t th ht; rwa [hp] at this
    refine ⟨hu, fun hf => ?_⟩
    have hlt := hi.ended _ hf
    have hx := List.getElem?_eq_getElem hlt
    have hd := (hi.done _ _ hx).2 hf
    have := hb t th ht
    simp only [Native.advance, hp] at this
    rw [hu, hx, if_pos (by rw [Option.map_some, hd])] at this
    cases this
  have hholder : s.holder.isSome → ∃ (u : Nat) (x : Thread) (id : Nat), s.threads[u]? = some x ∧ x.pc = .joining id (id + 1) ∧ .finished (id + 1) ∉ s.history := by
    intro hh
    obtain ⟨v, hv⟩ := Option.isSome_iff_exists.1 hh
    obtain ⟨x, id, u, hx, hp⟩ := hi.holder v hv
    obtain ⟨rfl, hn⟩ := hjoin hx hp
    exact ⟨v, x, id, hx, hp, hn⟩
  have hbt := hb t th ht
  unfold Native.advance at hbt
  split at hbt
  · next hpc => exact .inl hpc
  · next hpc => exact .inr (.inl hpc)
  · next hpc =>
    split at hbt
    · next hh => exact .inr (.inr (.inr (.inr ⟨.inl hpc, hholder hh⟩)))
    · cases hbt
  · next id hpc =>
    split at hbt
    · next hh => exact .inr (.inr (.inr (.inr ⟨.inr ⟨id, hpc⟩, hholder hh⟩)))
    · split at hbt <;> cases hbt
  · next id u hpc =>
    obtain ⟨rfl, hn⟩ := hjoin ht hpc
    exact .inr (.inr (.inr (.inl ⟨id, hpc, hn⟩)))
  · cases hbt
  · split at hbt <;> cases hbt
  · cases hbt
  · next l hpc =>
    split at hbt
    · cases hbt
    · next htok =>
      have := (ho.park t th l ht hpc (by simpa using htok)).2
      rcases this with hl | ⟨v, x, hx, hxp⟩
      · obtain ⟨u, hu⟩ := (hi.locked l).1 hl
        exact .inr (.inr (.inl ⟨l, u, hpc, hu⟩))
      · have := hb v x hx
        simp only [Native.advance, hxp] at this
        cases this
  · split at hbt <;> cases hbt
  · cases hbt

/-- A call that needs the list of join handles. -/
def Pc.UsesHandles : Pc → Prop
  | .want .spawn | .want (.join _) | .joining _ _ => True
  | _ => False

theorem advance_usesHandles {s s' : State} {t : Nat} {th : Thread} (ht : s.threads[t]? = some th) (h : advance s t th = .ok (some s'))
    (hi : ∀ (i : Nat) (x : Thread), s.threads[i]? = some x → x.pc.UsesHandles → i = 0) :
    ∀ (i : Nat) (x : Thread), s'.threads[i]? = some x → x.pc.UsesHandles → i = 0 := by
  have key : ∀ {th' : Thread}, (th'.pc.UsesHandles → th.pc.UsesHandles) →
      ∀ (i : Nat) (x : Thread), (s.threads.set t th')[i]? = some x → x.pc.UsesHandles → i = 0 := by
    intro th' hu i x hx hxp
    rcases getElem?_set_cases hx with ⟨rfl, rfl⟩ | ⟨_, hx⟩
    · exact hi _ th ht (hu hxp)
    · exact hi i x hx hxp
  unfold Native.advance at h
  split at h
  · cases h
  · cases h
  · split at h
    · cases h
    · simp only [Except.ok.injEq, Option.some.injEq] at h
      subst h
      intro i x hx hxp
      simp only [State.log] at hx
      rw [List.getElem?_append] at hx
      split at hx
      · exact key (th' := { th with pc := .client }) (fun h => h.elim) i x hx hxp
      · rw [List.getElem?_singleton] at hx
        split at hx
        · cases hx; exact hxp.elim
        · cases hx
  · next hpc =>
    split at h
    · cases h
    · split at h
      · simp only [Except.ok.injEq, Option.some.injEq] at h
        subst h
        exact key (fun _ => by rw [hpc]; trivial)
      · cases h
  · split at h
    · simp only [Except.ok.injEq, Option.some.injEq] at h
      subst h
      exact key (fun h => h.elim)
    · cases h
  · simp only [Except.ok.injEq, Option.some.injEq] at h
    subst h
    exact key (fun h => h.elim)
  · split at h
    · cases h
    · simp only [Except.ok.injEq, Option.some.injEq] at h
      subst h
      exact key (fun h => h.elim)
    · simp only [Except.ok.injEq, Option.some.injEq] at h
      subst h
      exact key (fun h => h.elim)
  · simp only [Except.ok.injEq, Option.some.injEq] at h
    subst h
    exact key (fun h => h.elim)
  · split at h
    · simp only [Except.ok.injEq, Option.some.injEq] at h
      subst h
      exact key (fun h => h.elim)
    · cases h
  · split at h
    · simp only [Except.ok.injEq, Option.some.injEq] at h
      subst h
      exact key (fun h => h.elim)
    · cases h
  · simp only [Except.ok.injEq, Option.some.injEq] at h
    subst h
    intro i x hx hxp
    simp only [State.setPc] at hx
    rw [List.getElem?_mapIdx] at hx
    obtain ⟨y, hy, rfl⟩ := Option.map_eq_some_iff.1 hx
    refine key (th' := { th with pc := .client }) (fun h => h.elim) i y hy ?_
    split at hxp <;> exact hxp

theorem Reachable.usesHandles (hm : ∀ h t c, C.calls h t c → (c = .spawn ∨ ∃ id, c = .join id) → t = 0) (h : Reachable C s) :
    ∀ (i : Nat) (x : Thread), s.threads[i]? = some x → x.pc.UsesHandles → i = 0 := by
  induction h with
  | init =>
    intro i x hx _
    simp only [State.init, List.getElem?_singleton] at hx
    split at hx
    · assumption
    · cases hx
  | step _ hs ih =>
    cases hs with
    | advance ht h => exact advance_usesHandles ht h ih
    | @call t th c ht hpc hc =>
      intro i x hx hxp
      rcases getElem?_set_cases hx with ⟨rfl, rfl⟩ | ⟨_, hx⟩
      · refine hm _ _ _ hc ?_
        cases c with
        | spawn => exact .inl rfl
        | join id => exact .inr ⟨id, rfl⟩
        | _ => exact hxp.elim
      · exact ih i x hx hxp
    | @finish t th ht hpc _ =>
      intro i x hx hxp
      rcases getElem?_set_cases hx with ⟨rfl, rfl⟩ | ⟨_, hx⟩
      · exact hxp.elim
      · exact ih i x hx hxp
  | spurious _ ht hpc ih =>
    intro i x hx hxp
    rcases getElem?_set_cases hx with ⟨rfl, rfl⟩ | ⟨_, hx⟩
    · exact hxp.elim
    · exact ih i x hx hxp

/-- C82 (partial): if moreover only the main thread spawns and joins threads, then threads wait only for what they would also wait for in
MiniRust. -/
theorem C82_no_deadlock_partial (hC : C.Disciplined) (hm : ∀ h t c, C.calls h t c → (c = .spawn ∨ ∃ id, c = .join id) → t = 0)
    (h : Orderly C s) (hb : Blocked s) {t : Nat} {th : Thread} (ht : s.threads[t]? = some th) :
    th.pc = .client ∨ th.pc = .done ∨ (∃ l u, th.pc = .park l ∧ Holds s.history u l) ∨
    ∃ id, th.pc = .joining id (id + 1) ∧ .finished (id + 1) ∉ s.history := by
  rcases C82_blocked_partial hC h hb ht with h1 | h1 | h1 | h1 | ⟨h1, u, x, id, hx, hxp, _⟩
  · exact .inl h1
  · exact .inr (.inl h1)
  · exact .inr (.inr (.inl h1))
  · exact .inr (.inr (.inr h1))
  · have h0 : t = 0 := h.reachable.usesHandles hm t th ht (by
      rcases h1 with h1 | ⟨_, h1⟩ <;> rw [h1] <;> trivial)
    have h2 : u = 0 := h.reachable.usesHandles hm u x hx (by rw [hxp]; trivial)
    subst h0; subst h2
    rw [ht] at hx; cases hx
    rw [hxp] at h1
    rcases h1 with h1 | ⟨_, h1⟩ <;> cases h1

/-! ### Concrete programs -/

/-- What is done in a concrete execution. -/
inductive Move
  | call (t : Nat) (c : Call)
  | finish (t : Nat)
  | advance (t : Nat)

/-- Whether the thread holds the lock. -/
def holdsB (h : List Event) (t l : Nat) : Bool :=
  h.foldl (fun b e => match e with
    | .did u (.acquire l') _ => if u = t ∧ l' = l then true else b
    | .did u (.release l') _ => if u = t ∧ l' = l then false else b
    | _ => b) false

theorem holdsB_iff {h : List Event} {t l : Nat} : holdsB h t l = true ↔ Holds h t l := by
  induction h using List.reverseRecOn with
  | nil => simp [holdsB, not_holds_nil]
  | append_singleton h e ih =>
    rw [holds_snoc, ← ih]
    unfold holdsB
    rw [List.foldl_append]
    simp only [List.foldl_cons, List.foldl_nil]
    rcases e with ⟨u, c, r⟩ | u
    · cases c with
      | acquire l' =>
        by_cases hc : u = t ∧ l' = l
        · obtain ⟨rfl, rfl⟩ := hc
          simp
        · simp only [hc, if_false]
          have : ¬ ∃ r', Event.did u (.acquire l') r = .did t (.acquire l) r' := by
            rintro ⟨r', hr⟩; cases hr; exact hc ⟨rfl, rfl⟩
          exact ⟨fun h => .inr ⟨h, by simp⟩, fun h => (h.resolve_left this).1⟩
      | release l' =>
        by_cases hc : u = t ∧ l' = l
        · obtain ⟨rfl, rfl⟩ := hc
          simp
        · simp only [hc, if_false]
          have : ∀ r', Event.did u (.release l') r ≠ .did t (.release l) r' := by
            intro r' hr; cases hr; exact hc ⟨rfl, rfl⟩
          simp [this]
      | _ => simp
    · simp

/-- The lock that the call releases. -/
def releases : Call → List Nat
  | .release l => [l]
  | _ => []

def exec (progs : Nat → List Call) (s : State) : Move → Option State
  | .call t c => match s.threads[t]? with
    | some th => if th.pc = .client ∧ (progs t)[callsOf s.history t]? = some c ∧ (∀ l ∈ releases c, holdsB s.history t l = true) then some (s.setPc t th (.want c)) else none
    | none => none
  | .finish t => match s.threads[t]? with
    | some th => if th.pc = .client ∧ (progs t)[callsOf s.history t]? = none then some ((s.setPc t th .done).log (.finished t)) else none
    | none => none
  | .advance t => match s.threads[t]? with
    | some th => match Native.advance s t th with
      | .ok (some s') => some s'
      | _ => none
    | none => none

def execs (progs : Nat → List Call) : State → List Move → Option State
  | s, [] => some s
  | s, m :: ms => match exec progs s m with
    | some s' => execs progs s' ms
    | none => none

theorem exec_step {progs : Nat → List Call} {s s' : State} {m : Move} (h : exec progs s m = some s') : Step (listClient progs) s s' := by
  cases m with
  | call t c =>
    simp only [exec] at h
    split at h
    · next th ht =>
      split at h
      · next hh =>
        cases h
        exact .call ht hh.1 ⟨hh.2.1, fun l hl => holdsB_iff.1 (hh.2.2 l (by rw [hl]; simp [releases]))⟩
      · cases h
    · cases h
  | finish t =>
    simp only [exec] at h
    split at h
    · next th ht =>
      split at h
      · next hh => cases h; exact .finish ht hh.1 hh.2
      · cases h
    · cases h
  | advance t =>
    simp only [exec] at h
    split at h
    · next th ht =>
      split at h
      · next hh => cases h; exact .advance ht hh
      · cases h
    · cases h

theorem execs_reachable {progs : Nat → List Call} : ∀ {ms s s'}, Reachable (listClient progs) s → execs progs s ms = some s' → Reachable (listClient progs) s'
  | [], s, s', hr, h => by cases h; exact hr
  | m :: ms, s, s', hr, h => by
    simp only [execs] at h
    split at h
    · next s1 h1 => exact execs_reachable (.step hr (exec_step h1)) h
    · cases h

/-- Without steps that wake up others. -/
def noWake (s : State) : Bool := s.threads.all fun th => th.pc ≠ .wake

def execsQuiet (progs : Nat → List Call) : State → List Move → Bool
  | _, [] => true
  | s, m :: ms => (noWake s || s.threads.all fun th => match th.pc with | .queue _ => false | _ => true) && match exec progs s m with
    | some s' => execsQuiet progs s' ms
    | none => true

theorem execs_orderly {progs : Nat → List Call} : ∀ {ms s s'}, Orderly (listClient progs) s → execsQuiet progs s ms = true → execs progs s ms = some s' →
    Orderly (listClient progs) s'
  | [], s, s', hr, _, h => by cases h; exact hr
  | m :: ms, s, s', hr, hq, h => by
    simp only [execs] at h
    simp only [execsQuiet, Bool.and_eq_true, Bool.or_eq_true] at hq
    split at h
    · next s1 h1 =>
      rw [h1] at hq
      refine execs_orderly (.step hr (exec_step h1) ?_) hq.2 h
      rintro ⟨t, th, ht, hw, _⟩ u x l hx hxp
      rcases hq.1 with hq | hq
      · have := List.all_eq_true.1 hq th (List.mem_of_getElem? ht)
        simp [hw] at this
      · have := List.all_eq_true.1 hq x (List.mem_of_getElem? hx)
        simp [hxp] at this
    · cases h


/-- Threads of list clients release only locks that they hold. -/
theorem listClient_disciplined {progs : Nat → List Call} : (listClient progs).Disciplined := fun _ _ _ _ _ _ _ h => h.2 _ rfl

/-- A state in which all threads are at places where they neither go on nor call anything. -/
theorem no_step {C : Client} {s : State} (hb : Blocked s) (hc : ∀ th ∈ s.threads, th.pc ≠ .client) {s' : State} : ¬ Step C s s' := by
  intro h
  cases h with
  | call ht hpc _ => exact hc _ (List.mem_of_getElem? ht) hpc
  | finish ht hpc _ => exact hc _ (List.mem_of_getElem? ht) hpc
  | advance ht h => rw [hb _ _ ht] at h; cases h

theorem blocked_of {s : State} (h : (s.threads.zipIdx.all fun p => match advance s p.2 p.1 with | .ok none => true | _ => false) = true) : Blocked s := by
  intro t th ht
  have := List.all_eq_true.1 h (th, t) (by rw [List.mem_zipIdx_iff_getElem?]; exact ht)
  simp only at this
  split at this
  · assumption
  · cases this

/-- Main creates a lock, spawns a thread, and uses the lock; the thread also uses the lock. -/
def progs1 (t : Nat) : List Call :=
  if t = 0 then [.createLock, .spawn, .acquire 0, .release 0, .join 0] else if t = 1 then [.acquire 0, .release 0] else []

/-- The thread acquires the lock. Main finds it closed. The thread releases the lock and wakes up nobody. Then main starts to wait. -/
def moves1 : List Move :=
  [.call 0 .createLock, .advance 0, .call 0 .spawn, .advance 0, .call 1 (.acquire 0), .advance 1, .call 0 (.acquire 0), .advance 0,
    .call 1 (.release 0), .advance 1, .advance 1, .finish 1, .advance 0]

def state1 : State where
  threads := [⟨.park 0, false⟩, ⟨.done, false⟩]
  handles := [some 1]
  holder := none
  locks := [false]
  waiting := [0]
  history := [.did 0 .createLock 0, .did 0 .spawn 0, .did 1 (.acquire 0) 0, .did 1 (.release 0) 0, .finished 1]

/-- C82: a thread waits forever for a lock that is open: all other threads have finished, and nothing can happen except that it is woken up
without a reason. MiniRust allows it to acquire the lock. -/
theorem C82_lost_wakeup : ∃ (C : Client) (s : State), C.Disciplined ∧ (∀ h t c, C.calls h t c → (c = .spawn ∨ ∃ id, c = .join id) → t = 0) ∧
    Reachable C s ∧ (∀ s', ¬ Step C s s') ∧ s.threads = [⟨.park 0, false⟩, ⟨.done, false⟩] ∧ s.locks = [false] ∧
    Allowed s.history (.did 0 (.acquire 0) 0) := by
  refine ⟨listClient progs1, state1, listClient_disciplined, ?_, execs_reachable (ms := moves1) .init (by decide), fun s' => no_step (blocked_of (by decide)) (by decide),
    rfl, rfl, .acquire (by decide) fun u hu => ?_⟩
  · rintro h t c ⟨hc, _⟩ hh
    by_contra h0
    unfold progs1 at hc
    rw [if_neg h0] at hc
    split at hc
    · have := List.mem_of_getElem? hc
      simp only [List.mem_cons, List.not_mem_nil, or_false] at this
      rcases this with rfl | rfl <;> simp at hh
    · cases hc
  · have := holdsB_iff.2 hu
    simp only [holdsB, state1, List.foldl_cons, List.foldl_nil] at this
    split at this <;> simp_all

/-- Main spawns a thread and joins it; the thread spawns another one. -/
def progs2 (t : Nat) : List Call := if t = 0 then [.spawn, .join 0] else if t = 1 then [.spawn] else []

def moves2 : List Move := [.call 0 .spawn, .advance 0, .call 0 (.join 0), .advance 0, .call 1 .spawn]

def state2 : State where
  threads := [⟨.joining 0 1, false⟩, ⟨.want .spawn, false⟩]
  handles := [none]
  holder := some 0
  locks := []
  waiting := []
  history := [.did 0 .spawn 0]

/-- C82: a thread that is being joined cannot spawn a thread, so both wait forever. MiniRust allows it to spawn the thread. -/
theorem C82_spawn_blocked : ∃ (C : Client) (s : State), C.Disciplined ∧ Orderly C s ∧ (∀ s', ¬ Step C s s') ∧
    s.threads = [⟨.joining 0 1, false⟩, ⟨.want .spawn, false⟩] ∧ Allowed s.history (.did 1 .spawn 1) :=
  ⟨listClient progs2, state2, listClient_disciplined, execs_orderly (ms := moves2) .init (by decide) (by decide), fun s' => no_step (blocked_of (by decide)) (by decide),
    rfl, .spawn⟩

/-- The conditions of `C81_legal`, `C81_exclusive` and `C81_join` are met: the lock is acquired by the thread, and then by main, which joins the thread. -/
example : ∃ s, (listClient progs1).Disciplined ∧ Reachable (listClient progs1) s ∧ s.history = [.did 0 .createLock 0, .did 0 .spawn 0] ++
    .did 1 (.acquire 0) 0 :: ([.did 1 (.release 0) 0, .finished 1] ++ .did 0 (.acquire 0) 0 :: [.did 0 (.release 0) 0, .did 0 (.join 0) 0]) := by
  obtain ⟨s, h1, h2⟩ : ∃ s, execs progs1 .init [.call 0 .createLock, .advance 0, .call 0 .spawn, .advance 0, .call 1 (.acquire 0), .advance 1, .call 0 (.acquire 0),
      .advance 0, .advance 0, .call 1 (.release 0), .advance 1, .advance 1, .finish 1, .advance 0, .advance 0, .call 0 (.release 0), .advance 0, .advance 0,
      .call 0 (.join 0), .advance 0, .advance 0] = some s ∧ s.history = [.did 0 .createLock 0, .did 0 .spawn 0] ++
    .did 1 (.acquire 0) 0 :: ([.did 1 (.release 0) 0, .finished 1] ++ .did 0 (.acquire 0) 0 :: [.did 0 (.release 0) 0, .did 0 (.join 0) 0]) :=
    ⟨_, rfl, by decide⟩
  exact ⟨s, listClient_disciplined, execs_reachable .init h1, h2⟩

/-- The conditions of `C82_blocked_partial` and `C82_no_deadlock_partial` are met in a state where main waits for a lock of the thread. -/
example : ∃ s, (listClient progs1).Disciplined ∧ Orderly (listClient progs1) s ∧ Blocked s ∧ s.threads[0]? = some ⟨.park 0, false⟩ ∧ Holds s.history 1 0 := by
  obtain ⟨s, h1, h2, h3, h4⟩ : ∃ s, execs progs1 .init [.call 0 .createLock, .advance 0, .call 0 .spawn, .advance 0, .call 1 (.acquire 0), .advance 1, .call 0 (.acquire 0),
      .advance 0, .advance 0] = some s ∧ s.threads[0]? = some ⟨.park 0, false⟩ ∧ holdsB s.history 1 0 = true ∧
        (s.threads.zipIdx.all fun p => match advance s p.2 p.1 with | .ok none => true | _ => false) = true := ⟨_, rfl, by decide, by decide, by decide⟩
  exact ⟨s, listClient_disciplined, execs_orderly .init (by decide) h1, blocked_of h4, h2, holdsB_iff.1 h3⟩

end Native
end MiniRust
