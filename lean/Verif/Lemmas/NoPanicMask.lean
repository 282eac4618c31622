import Verif.Lemmas.NoPanic
import Verif.Lemmas.FreezeMask
import Verif.Lemmas.Good
import Verif.TreeBorrows
/-
The bytes that a reference may not mutate can be computed for every valid pointer of a well-formed type.
-/
namespace MiniRust
variable {M PE AE F : Type} [T : Target] [DecidableEq PE] [Memory M (AllocId × PE) F] [B : BasicBacked M PE AE F]
variable {prog : Program} {s : Machine M (AllocId × PE) F}

theorem checkVTables_cells : ∀ {vs : List VTable} {v}, checkVTables prog vs = .ok () → v ∈ vs → checkCells v.cells v.size = .ok ()
  | [], v, _, h => by cases h
  | x :: vs, v, hc, h => by
    simp only [checkVTables, Res.bind_eq_ok] at hc
    obtain ⟨_, _, _, h1, hc⟩ := hc
    cases ht : prog.traits.get? x.traitName with
    | none => rw [ht] at hc; cases hc
    | some ms =>
      rw [ht] at hc
      simp only [Res.bind_eq_ok] at hc
      obtain ⟨_, _, h2⟩ := hc
      rcases List.mem_cons.1 h with rfl | h
      · exact h1
      · exact checkVTables_cells h2 h

theorem Program.vtable_cells (h : prog.checkWf = .ok ()) {x v} (hv : prog.vtables.get? x = some v) : checkCells v.cells v.size = .ok () := by
  simp only [Program.checkWf, Res.bind_eq_ok] at h
  obtain ⟨_, h, _⟩ := h
  exact checkVTables_cells h (Map.mem_values hv)

theorem vtableLookup_cells (hp : s.prog = prog) (h : prog.checkWf = .ok ()) {p : ThinPtr (AllocId × PE)} {v} (hv : s.vtableFromPtr p = .ok v) :
    s.vtableLookup p = .ok v ∧ checkCells v.cells v.size = .ok () := by
  unfold Machine.vtableFromPtr at hv
  unfold Machine.vtableLookup
  split at hv
  · cases hv
  · rename_i name hn
    refine ⟨hv, ?_⟩
    rw [hp] at hv
    exact Program.vtable_cells h (Map.get_eq_ok.1 hv)

theorem freezeMask_ok (hp : s.prog = prog) (h : prog.checkWf = .ok ()) : ∀ (c : UnsafeCellStrategy) (l : LayoutStrategy) (m : Option (PtrMeta (AllocId × PE))),
    c.checkWf l = .ok () → checkPtrMetadata s.valEnv m l.metaKind = .ok () → ∃ mask, c.freezeMask s.vtableLookup l m = .ok mask := by
  intro c
  induction c with
  | sized cells =>
    intro l m hc hm
    cases l with
    | sized n a =>
      obtain ⟨mask, h1, _⟩ := cellsToFreezeMask_spec hc
      exact ⟨mask, h1⟩
    | _ => cases hc
  | slice cells =>
    intro l m hc hm
    cases l with
    | slice n a =>
      obtain ⟨mask, h1, _⟩ := cellsToFreezeMask_spec hc
      unfold checkPtrMetadata at hm
      split at hm <;> rename_i hk <;> first | cases hk | cases hm | skip
      exact ⟨_, by simp only [UnsafeCellStrategy.freezeMask, h1, Res.bind_ok]; rfl⟩
    | _ => cases hc
  | traitObject =>
    intro l m hc hm
    cases l with
    | traitObject t =>
      unfold checkPtrMetadata at hm
      split at hm <;> rename_i hk <;> first | cases hk | cases hm | skip
      simp only [checkVTablePtr, Res.bind_eq_ok] at hm
      obtain ⟨_, _, v, hv, _⟩ := hm
      obtain ⟨h1, h2⟩ := vtableLookup_cells hp h hv
      obtain ⟨mask, h3, _⟩ := cellsToFreezeMask_spec h2
      exact ⟨mask, by simp only [UnsafeCellStrategy.freezeMask, h1, Res.bind_ok, h3]⟩
    | _ => cases hc
  | tuple hd tl ih =>
    intro l m hc hm
    cases l with
    | tuple head tail =>
      simp only [UnsafeCellStrategy.checkWf, Res.bind_eq_ok] at hc
      obtain ⟨_, h1, h2⟩ := hc
      obtain ⟨mask, h3, _⟩ := cellsToFreezeMask_spec h1
      obtain ⟨mask', h4⟩ := ih tail m h2 hm
      exact ⟨mask ++ mask', by simp only [UnsafeCellStrategy.freezeMask, h3, h4, Res.bind_ok]⟩
    | _ => cases hc

/-- The mask of a valid pointer. -/
theorem checkPtr_mask (hp : s.prog = prog) (h : prog.checkWf = .ok ()) {ty : PtrType} {p : Pointer (AllocId × PE)} (hw : ty.checkWf prog = .ok ())
    (hv : checkPtr s.valEnv p ty = .ok ()) : ∀ info, ty.safePointee = some info →
      ∃ mask, info.unsafeCells.freezeMask s.vtableLookup info.layout p.metadata = .ok mask := by
  intro info hi
  simp only [checkPtr, Res.bind_eq_ok] at hv
  obtain ⟨_, _, _, hm, _⟩ := hv
  have : info.unsafeCells.checkWf info.layout = .ok () ∧ ty.metaKind = info.layout.metaKind := by
    cases ty <;> cases hi <;>
    · simp only [PtrType.checkWf, PointeeInfo.checkWf, Res.bind_eq_ok] at hw
      obtain ⟨_, _, h⟩ := hw
      exact ⟨h, rfl⟩
  rw [this.2] at hm
  exact freezeMask_ok hp h _ _ _ this.1 hm

theorem tuple_fields_wf {fs hd u} (h : (Ty.tuple fs hd u).checkWf prog = .ok ()) : ∀ f ∈ fs, f.2.checkWf prog = .ok () := by
  cases u with
  | none =>
    simp only [Ty.checkWf, Res.bind_eq_ok] at h
    obtain ⟨b, h, _⟩ := h
    exact fun f hf => ((tupleFields_ok h).1 f hf).1
  | some t =>
    simp only [Ty.checkWf, Res.bind_eq_ok] at h
    obtain ⟨b, h, _⟩ := h
    exact fun f hf => ((tupleFields_ok h).1 f hf).1

theorem array_elem_wf {e n} (h : (Ty.array e n).checkWf prog = .ok ()) : e.checkWf prog = .ok () := by
  simp only [Ty.checkWf, Res.bind_eq_ok] at h
  obtain ⟨_, _, _, _, _, _, _, h, _⟩ := h
  exact h

theorem enum_variant_wf {vs dt disc size al d x} (h : (Ty.enum vs dt disc size al).checkWf prog = .ok ()) (hx : Map.get? vs d = some x) :
    x.1.checkWf prog = .ok () := by
  simp only [Ty.checkWf, Res.bind_eq_ok] at h
  obtain ⟨_, h, _⟩ := h
  exact (checkVariants_ok h _ (Map.get?_mem hx)).2.1

theorem ptr_type_wf {pty} (h : (Ty.ptr pty).checkWf prog = .ok ()) : pty.checkWf prog = .ok () := by
  simp only [Ty.checkWf, Res.bind_eq_ok] at h
  obtain ⟨_, h, _⟩ := h
  exact h

end MiniRust
