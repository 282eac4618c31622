import Verif.Lemmas.KnownStep
import Verif.Lemmas.TBInv
/-
From the provenance logic to reachability of allocations (property C57).
-/
set_option linter.unusedSectionVars false
namespace MiniRust

section
variable {M PE AE F : Type} [T : Target] [DecidableEq PE] [Memory M (AllocId × PE) F] [B : BasicBacked M PE AE F]
variable {s s' : Machine M (AllocId × PE) F} {prog : Program} {h h' : MemHistory PE}

/-! ### The sets of allocations -/

/-- What the program could get at before, and everything new. -/
def reachOrNew (s : Machine M (AllocId × PE) F) (_ : Nat) (id : AllocId) : Prop := CanReach s id ∨ cnt s ≤ id

theorem reachOrNew_caps : Caps (reachOrNew s) (cnt s) :=
  ⟨fun _ h => h, fun h => .inr h, fun _ h => h⟩

theorem Known.root {K N0} (hs : Known K N0 s) {p : AllocId × PE} (hp : Root s p) : K (cnt s) p.1 := by
  cases hp with
  | «local» t fr l ptr h1 h2 h3 h4 => exact ((hs.threads t h1).stack fr h2).locals _ h3 p h4
  | ret t fr n u ptr h1 h2 h3 h4 =>
    have := ((hs.threads t h1).stack fr h2).action
    rw [h3] at this; exact this p h4
  | payload t ptr h1 h2 h3 => exact (hs.threads t h1).payloads ptr h2 p h3
  | exposed h1 => exact hs.exposed p h1
  | global x ptr h1 h2 => exact hs.globals _ h1 p h2
  | fn x ptr h1 h2 => exact hs.fns _ h1 p h2
  | vtable x ptr h1 h2 => exact hs.vtables _ h1 p h2

theorem Known.stored {K N0} (hs : Known K N0 s) {id} (hid : K (cnt s) id) {p : AllocId × PE} (hp : Stored s id p) :
    K (cnt s) p.1 := by
  obtain ⟨a, h1, h2, h3⟩ := hp
  exact hs.mem id a h1 h2 hid p h3

theorem Known.canReach {K N0} (hs : Known K N0 s) {id} (hid : CanReach s id) : K (cnt s) id := by
  induction hid with
  | root p hp => exact hs.root hp
  | stored id p _ hp ih => exact hs.stored ih hp

theorem known_self : Known (reachOrNew s) (cnt s) s := by
  refine ⟨Nat.le_refl _, ?_, ?_, ?_, ?_, ?_, ?_⟩
  · intro id a ha hl hid q hq
    have : CanReach s id := by
      rcases hid with hid | hid
      · exact hid
      · exact absurd (List.getElem?_eq_some_iff.1 ha).1 (Nat.not_lt.2 hid)
    exact .inl (.stored id q this ⟨a, ha, hl, hq⟩)
  · intro p hp; exact .inl (.root p (.exposed hp))
  · intro x hx q hq; exact .inl (.root q (.global _ _ hx hq))
  · intro x hx q hq; exact .inl (.root q (.fn _ _ hx hq))
  · intro x hx q hq; exact .inl (.root q (.vtable _ _ hx hq))
  · intro t ht
    refine ⟨fun fr hf => ⟨fun x hx q hq => .inl (.root q (.local t fr _ _ ht hf hx hq)), ?_⟩,
      fun p hp q hq => .inl (.root q (.payload t p ht hp hq))⟩
    cases e : fr.stackPopAction with
    | bottomOfStack => trivial
    | backToCaller n u ptr => exact fun q hq => .inl (.root q (.ret t fr n u ptr ht hf e hq))

theorem Steps.grow {K N0} (hK : Caps K N0) (h : Steps s s') (hs : Known K N0 s) : Grow K N0 s s' := by
  induction h with
  | refl => exact .refl hs
  | tail _ h2 ih => exact ih.trans hK (Kt.step hK ih.known _ _ h2).1

/-- Evaluating an expression leaves all allocations as they are. -/
def SameAllocs (m m' : ConcMem M) : Prop := SameData (B.mem m.memory) (B.mem m'.memory)

instance : ReadRel (P := AllocId × PE) (F := F) (SameAllocs (M := M) (B := B)) where
  refl m := SameData.refl
  trans m m' m'' h1 h2 := SameData.trans h1 h2
  load m m' p n al at' bytes h0 := by
    obtain ⟨mm, h1, rfl⟩ := ConcMem.load_eq_ok.1 h0
    obtain ⟨hx, e⟩ := B.load m.memory p n al
    rw [h1] at e
    have e' : (B.mem m.memory).load p n al hx = .ok (bytes, B.mem mm) := e.symm
    rw [BasicMem.load_eq_ok] at e'
    obtain ⟨_, ⟨_, _, e'⟩ | ⟨_, id, pe, a, off, extra, hp, ha, hl, h3, h4, hx', _, e'⟩⟩ := e'
    · show SameData _ (B.mem mm); rw [e']; exact SameData.refl
    · show SameData _ (B.mem mm); rw [e']; exact SameData.set ha
  retag m m' f f' p p' pty e vt h1 := by
    obtain ⟨⟨q, g, mm⟩, h2, h3⟩ := Res.bind_eq_ok.1 h1
    cases h3
    exact B.retag _ _ _ _ _ _ _ _ _ h2

end
end MiniRust
