import Verif.Lemmas.KnownReach
import Verif.Props.Memory
import Verif.Examples.Programs
import Verif.Examples.Run
/-
C57: provenance cannot be forged. The program only ever holds provenance of allocations that were made, and once
it has lost all pointers to an allocation, it gets none back and no later step changes or frees that allocation.

The theorems hold for every memory model built on the basic one, in particular for both memory models of the
specification.
-/
set_option linter.unusedSectionVars false
namespace MiniRust

section
variable {M PE AE F : Type} [T : Target] [DecidableEq PE] [Memory M (AllocId × PE) F] [SoftMem M (AllocId × PE) F]
  [B : BasicBacked M PE AE F]
variable {s s' : Machine M (AllocId × PE) F} {prog : Program} {h h' : MemHistory PE}

/-- C57: in every reachable state, all provenance the machine holds, in memory or outside, is that of an
allocation made during the run. -/
theorem C57_genuine (hr : Reachable prog s) (hm : MemReach (F := F) h s.mem.memory) (p : AllocId × PE)
    (hp : Root s p ∨ ∃ id, Stored s id p) : ∃ i, WasAllocated h p.1 i := by
  refine (made_iff hm).1 ?_
  rcases hp with hp | ⟨id, hp⟩
  · exact hr.known.root hp
  · have hp' := hp
    obtain ⟨a, h1, _⟩ := hp'
    exact hr.known.stored (List.getElem?_eq_some_iff.1 h1).1 hp

/-- C57: evaluating an expression, whether its result is a value or a place, in a reachable state only gives
pointers to allocations the program could already get at, and does not change the contents of memory. -/
theorem C57_evaluation (hr : Reachable prog s) :
    (∀ (e : ValueExpr) v ty, evalValue e s = .ok ((v, ty), s') →
      SameData (B.mem s.mem.memory) (B.mem s'.mem.memory) ∧ ∀ p, ProvIn p v → CanReach s p.1) ∧
    (∀ (e : PlaceExpr) pl ty, evalPlace e s = .ok ((pl, ty), s') →
      SameData (B.mem s.mem.memory) (B.mem s'.mem.memory) ∧ ∀ p, ProvIn p (.ptr pl.ptr) → CanReach s p.1) := by
  constructor
  · intro e v ty he
    have hsame := ((tri_evalValue (Rm := SameAllocs (M := M) (B := B)) e).ok _ _ _ he).mem
    refine ⟨hsame, fun p hp => ?_⟩
    rcases (Kt.evalValue reachOrNew_caps e s known_self _ _ he).2 p hp with h1 | h1
    · exact h1
    · have h2 : p.1 < cnt s' := (Kt.evalValue made_caps e s hr.known _ _ he).2 p hp
      have h3 : cnt s = cnt s' := hsame.1
      omega
  · intro e v ty he
    have hsame := ((tri_evalPlace (Rm := SameAllocs (M := M) (B := B)) e).ok _ _ _ he).mem
    refine ⟨hsame, fun p hp => ?_⟩
    rcases (Kt.evalPlace reachOrNew_caps e s known_self _ _ he).2 p hp with h1 | h1
    · exact h1
    · have h2 : p.1 < cnt s' := (Kt.evalPlace made_caps e s hr.known _ _ he).2 p hp
      have h3 : cnt s = cnt s' := hsame.1
      omega

/-- C57: whatever the program does, the allocations it can get at afterwards are those it could get at before and
those made in between. -/
theorem C57_no_forging (hr : Reachable prog s) (hm : MemReach (F := F) h s.mem.memory)
    (hm' : MemReach (F := F) h' s'.mem.memory) (hs : Steps s s') {id : AllocId} (hid : CanReach s' id) :
    CanReach s id ∨ ((¬ ∃ i, WasAllocated h id i) ∧ ∃ i, WasAllocated h' id i) := by
  obtain ⟨oracle, s0, h0, h1⟩ := hr
  have hr' : Reachable prog s' := ⟨oracle, s0, h0, h1.trans hs⟩
  rcases (hs.grow reachOrNew_caps known_self).known.canReach hid with h2 | h2
  · exact .inl h2
  · refine .inr ⟨fun h3 => ?_, (made_iff hm').1 (hr'.known.canReach hid)⟩
    have : id < cnt s := (made_iff hm).2 h3
    omega

/-- C57: an allocation the program cannot get at any more keeps its place and its contents forever and is never
freed, whatever the program does. -/
theorem C57_untouched (hm : MemReach (F := F) h s.mem.memory) (hm' : MemReach (F := F) h' s'.mem.memory)
    (hs : Steps s s') {id : AllocId} {i : AllocInfo} (hi : WasAllocated h id i) (hn : ¬ CanReach s id) :
    WasAllocated h' id i ∧ (LiveIn h' id i ↔ LiveIn h id i) ∧
    ∀ a, i.addr ≤ a → a < i.addr + i.size → lastStored h' id a = lastStored h id a := by
  obtain ⟨a, ha, rfl⟩ := hm.rep.conv id i hi
  have hlt : id < cnt s := (List.getElem?_eq_some_iff.1 ha).1
  obtain ⟨a', ha', e⟩ := (hs.grow reachOrNew_caps known_self).same id a ha (by
    rintro (h1 | h1)
    · exact hn h1
    · omega)
  have hinfo : a'.info = a.info := by
    unfold Alloc.info Alloc.size
    rw [e.kind, e.addr, e.align, e.data]
  have hw : WasAllocated h' id a.info := hinfo ▸ hm'.rep.was id a' ha'
  refine ⟨hw, ?_, ?_⟩
  · have h1 := hm.rep.live id a ha
    have h2 := hm'.rep.live id a' ha'
    unfold LiveIn
    rw [e.live] at h2
    rw [← h1, ← h2]
    exact ⟨fun h => ⟨hi, h.2⟩, fun h => ⟨hw, h.2⟩⟩
  · intro x h1 h2
    have hx : x = a.addr + ((x - a.addr).toNat : Nat) := by
      have : a.info.addr = a.addr := rfl
      omega
    have hk : (x - a.addr).toNat < a.size := by
      have : a.info.addr = a.addr := rfl
      have : a.info.size = a.size := rfl
      omega
    have b1 := hm.rep.bytes id a _ ha hk
    have b2 := hm'.rep.bytes id a' _ ha' (by unfold Alloc.size at hk ⊢; rw [e.data]; exact hk)
    rw [e.data, b1, e.addr, ← hx] at b2
    exact (Option.some.inj b2).symm
end
end MiniRust
namespace MiniRust
namespace Ex
attribute [local instance] x86_64
/-- Allocates 8 bytes on the heap, forgets the pointer, allocates 8 bytes again and writes to them. -/
def forgetProg : Program := mainProg [(1, rawTy)] [
  (0, ⟨[.storageLive 1], .intrinsic .allocate [usz 8, usz 8] (.local 1) (some 1), .regular⟩),
  (1, ⟨[.storageDead 1, .storageLive 1], .intrinsic .allocate [usz 8, usz 8] (.local 1) (some 2), .regular⟩),
  (2, ⟨[.assign (.deref (.load (.local 1)) usize) (usz 7)], .intrinsic .abort [] (.local 0) none, .regular⟩)]
/-- Choices for `forgetProg`. -/
def forgetRun : List (Choice (Nat × Unit)) :=
  [.int 16, .int 32, .int 48, .int 0, .int 64, .int 0, .int 80, .int 0, .int 0, .int 96, .int 0, .int 112, .int 0, .int 0]
/-- The allocations whose provenance occurs in the bytes. -/
def idsOf (bs : List (AByte (Nat × Unit))) : List Nat := bs.filterMap fun b => b.frag.map (·.prov.1)
/-- The allocation a pointer belongs to. -/
def idOf (p : ThinPtr (Nat × Unit)) : List Nat := p.prov.toList.map (·.1)
/-- The allocations the machine has pointers to outside memory. -/
def rootIds (s : BMach) : List Nat :=
  (s.threads.flatMap fun t => (t.stack.flatMap fun fr => fr.locals.flatMap (fun x => idOf x.2) ++
    (match fr.stackPopAction with | .bottomOfStack => [] | .backToCaller _ _ p => idOf p)) ++ t.unwindPayloads.flatMap idOf) ++
  s.intptrcast.exposed.map (·.1) ++ s.globalPtrs.flatMap (fun x => idOf x.2) ++ s.fnPtrs.flatMap (fun x => idOf x.2) ++
  s.vtablePtrs.flatMap (fun x => idOf x.2)
/-- The allocations in `l` contain all roots and only pointers to each other. -/
def Closed (s : BMach) (l : List Nat) : Prop :=
  (∀ id ∈ rootIds s, id ∈ l) ∧ ∀ id ∈ l, ∀ a ∈ s.allocs[id]?, ∀ id' ∈ idsOf a.data, id' ∈ l
instance (s : BMach) (l : List Nat) : Decidable (Closed s l) := by unfold Closed; infer_instance
theorem mem_idOf {p : ThinPtr (Nat × Unit)} {q} (h : p.prov = some q) : q.1 ∈ idOf p := by simp [idOf, h]
theorem closed_canReach {s : BMach} {l : List Nat} (hc : Closed s l) {id : Nat} (h : CanReach s id) : id ∈ l := by
  induction h with
  | root p hp =>
    refine hc.1 _ ?_
    simp only [rootIds, List.mem_append, List.mem_flatMap, List.mem_map]
    cases hp with
    | «local» t fr x ptr h1 h2 h3 h4 => exact .inl (.inl (.inl (.inl ⟨t, h1, .inl ⟨fr, h2, .inl ⟨_, h3, mem_idOf h4⟩⟩⟩)))
    | ret t fr n u ptr h1 h2 h3 h4 =>
      exact .inl (.inl (.inl (.inl ⟨t, h1, .inl ⟨fr, h2, .inr (by rw [h3]; exact mem_idOf h4)⟩⟩)))
    | payload t ptr h1 h2 h3 => exact .inl (.inl (.inl (.inl ⟨t, h1, .inr ⟨_, h2, mem_idOf h3⟩⟩)))
    | exposed h1 => exact .inl (.inl (.inl (.inr ⟨_, h1, rfl⟩)))
    | global x ptr h1 h2 => exact .inl (.inl (.inr ⟨_, h1, mem_idOf h2⟩))
    | fn x ptr h1 h2 => exact .inl (.inr ⟨_, h1, mem_idOf h2⟩)
    | vtable x ptr h1 h2 => exact .inr ⟨_, h1, mem_idOf h2⟩
  | stored id p _ hp ih =>
    obtain ⟨a, h1, _, b, h3, h4⟩ := hp
    refine hc.2 _ ih a h1 _ ?_
    obtain ⟨i, hi⟩ := h4
    exact List.mem_filterMap.2 ⟨b, h3, by rw [hi]; rfl⟩
-- After the third step of `forgetProg` there is a live heap allocation (number 4) that the program cannot get at.
-- It then makes and writes a further one.
example : ∃ (s s' : BMach) (h : MemHistory Unit), Reachable forgetProg s ∧ Steps s s' ∧ MemReach (F := Unit) h s.mem.memory ∧
    (∃ i, WasAllocated h 4 i) ∧ ¬ CanReach s 4 ∧ ¬ CanReach s 6 ∧ CanReach s' 6 := by
  obtain ⟨s, s', hr, hs, ⟨h1, h2⟩, h3, h4⟩ := exists_steps (M := BasicMem Unit Unit) (F := Unit) (prog := forgetProg) forgetRun 3 3
    (fun s s' => (Closed s [2, 0, 1] ∧ 4 < cnt s) ∧ ((do
      let t ← s'.threads[0]?
      let fr ← t.stack[0]?
      let p ← fr.locals.get? 1
      p.prov : Option (Nat × Unit)) = some (5, ())) ∧ ((do
      let a ← s'.allocs[5]?
      let b ← a.data[0]?
      if a.live then b.frag else none : Option _) = some ⟨(6, ()), 0⟩)) (by decide +kernel)
  obtain ⟨h, hm⟩ := hr.memReach
  refine ⟨s, s', h, hr, runSteps_steps hs, hm, (made_iff hm).1 h2, fun hc => ?_, fun hc => ?_, ?_⟩
  · have := closed_canReach h1 hc; simp at this
  · have := closed_canReach h1 hc; simp at this
  · simp only [Option.bind_eq_bind, Option.bind_eq_some_iff] at h3 h4
    obtain ⟨t, ht, fr, hf, p, hp, hpp⟩ := h3
    obtain ⟨a, ha, b, hb, hx⟩ := h4
    split at hx
    · rename_i hl
      exact .stored 5 (6, ()) (.root (5, ()) (.local t fr 1 p (List.mem_of_getElem? ht) (List.mem_of_getElem? hf) (Map.get?_mem hp) hpp))
        ⟨a, ha, hl, b, List.mem_of_getElem? hb, 0, hx⟩
    · cases hx
end Ex
end MiniRust
