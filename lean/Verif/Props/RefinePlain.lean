import Verif.Props.Refine
/-
Programs without references and boxes do under Tree Borrows what they do in the basic memory model.
-/
set_option linter.unusedSectionVars false
namespace MiniRust

/-! ### Tree Borrows does not interfere as long as nothing is reborrowed -/

theorem set_replicate_self {α : Type} (n i : Nat) (a : α) : (List.replicate n a).set i a = List.replicate n a := by
  apply List.ext_getElem?
  intro j
  rw [List.getElem?_set]
  split
  · subst_vars
    simp only [List.length_replicate, List.getElem?_replicate]
  · rfl

theorem transitionLoop_root (kind : AccessKind) (size : Nat) : ∀ n offset, offset + n ≤ size →
    Node.transitionLoop .localNode kind (List.replicate size (.unprot .unique)) offset n =
      .ok (List.replicate size (.unprot .unique))
  | 0, _, _ => rfl
  | n + 1, offset, h => by
    have h1 : index (List.replicate size (Permission.unprot .unique)) offset = .ok (.unprot .unique) :=
      index_eq_ok.2 (by rw [List.getElem?_replicate, if_pos (by omega)])
    have h2 : (Permission.unprot .unique).transition kind .localNode = .ok (.unprot .unique) := by
      cases kind <;> rfl
    unfold Node.transitionLoop
    rw [h1]
    show ((Permission.unprot .unique).transition kind .localNode >>= _) = _
    rw [h2]
    show Node.transitionLoop .localNode kind ((List.replicate size _).set offset _) (offset + 1) n = _
    rw [set_replicate_self]
    exact transitionLoop_root kind size n (offset + 1) (by omega)

theorem access_root (kind : AccessKind) {size offset n : Nat} (h : offset + n ≤ size) :
    (TBMem.newRoot size).access (some []) kind offset n = .ok (TBMem.newRoot size) := by
  unfold TBMem.newRoot Node.access
  show (Node.transitionLoop .localNode kind _ offset n >>= _) = _
  rw [transitionLoop_root kind size n offset h]
  rfl

instance [T : Target] : QuietMem TBMem Path Node TBFrame where
  mem := TBMem.mem
  new := rfl
  newCall := rfl
  allocate n kind size align pick p m h := by
    refine ⟨⟨m⟩, ?_, rfl⟩
    show (n.mem.allocate kind size align [] (TBMem.newRoot size) pick >>= _) = _
    rw [show n.mem.allocate kind size align [] (TBMem.newRoot size) pick = .ok (p, m) from h]
    rfl
  deallocate n ptr kind size align := by
    refine ⟨TBMem.deallocHandler size, ?_, fun m h => ⟨⟨m⟩, ?_, rfl⟩⟩
    · show ((TBMem.newRoot size).access (some []) .write 0 size >>= _) = _
      rw [access_root .write (by omega)]
      rfl
    · show (n.mem.deallocate ptr kind size align (TBMem.deallocHandler size) >>= _) = _
      rw [h]; rfl
  store n ptr bytes align := by
    refine ⟨TBMem.accessHandler .write bytes.length, fun size off h => access_root .write h, fun m h => ⟨⟨m⟩, ?_, rfl⟩⟩
    show (n.mem.store ptr bytes align (TBMem.accessHandler .write bytes.length) >>= _) = _
    rw [h]; rfl
  load n ptr len align := by
    refine ⟨TBMem.accessHandler .read len, fun size off h => access_root .read h, fun bytes m h => ⟨⟨m⟩, ?_, rfl⟩⟩
    show (n.mem.load ptr len align (TBMem.accessHandler .read len) >>= _) = _
    rw [h]; rfl
  dereferenceable n ptr len := by
    show (n.mem.checkPtr ptr len >>= fun _ => .ok ()) = (fun _ => ()) <$> n.mem.checkPtr ptr len
    generalize n.mem.checkPtr ptr len = r
    cases r <;> rfl
  retag n ptr pty entry vt h := by
    have h1 : ReborrowSettings.new ptr pty entry vt = .ok none := by
      cases pty with
      | ref m p =>
        cases m with
        | imm => exact h.elim
        | «mut» =>
          replace h : p.unpin = false := h
          simp [ReborrowSettings.new, PtrType.safePointee, h]
      | box p => exact h.elim
      | raw => rfl
      | fnPtr => rfl
      | vtablePtr => rfl
    show (ReborrowSettings.new ptr pty entry vt >>= _) = _
    rw [h1]
    rfl
  endCall _ := rfl
  leakCheck _ := rfl

section
variable [T : Target]

theorem map_rootChoices (oracle : List (Choice (AllocId × Unit))) : (rootChoices oracle).map Choice.dropExtra = oracle := by
  unfold rootChoices
  rw [List.map_map]
  conv_rhs => rw [← List.map_id oracle]
  refine List.map_congr_left fun c _ => ?_
  cases c with
  | int => rfl
  | prov p => cases p <;> rfl

/-- Each of the two states is the other one, up to the extra information of the memory model. -/
def Twins (t : BasicMachine) (s : TreeMachine) : Prop := StateBelow t s ∧ StateBelow s t

theorem twins_new {prog : Program} (hq : prog.AllPtr (Plain.quiet Path)) {oracle : List (Choice (AllocId × Unit))}
    {t : BasicMachine} (h : Machine.new prog oracle = .ok t) :
    ∃ s : TreeMachine, Machine.new prog (rootChoices oracle) = .ok s ∧ Twins t s := by
  obtain ⟨s, h1, h2⟩ := new_below (N := TBMem) (.refl prog) hq (checkWf_of_new h) h
  obtain ⟨t', h3, h4⟩ := new_below (N := BasicMem Unit Unit) (.refl prog) (allPtr_basic prog) (checkWf_of_new h) h1
  rw [map_rootChoices, h] at h3
  cases h3
  exact ⟨s, h1, h2, h4⟩

theorem twins_step {t t' : BasicMachine} {s : TreeMachine} (hs : Twins t s) (h : step t = .ok ((), t')) :
    ∃ s', step s = .ok ((), s') ∧ Twins t' s' := by
  have h1 := step_sim _ _ hs.1
  rw [h] at h1
  obtain ⟨⟨_, s'⟩, h2, _, h3⟩ := h1
  have h4 := step_sim _ _ hs.2
  rw [h2] at h4
  obtain ⟨⟨_, t''⟩, h5, _, h6⟩ := h4
  rw [h] at h5
  cases h5
  exact ⟨s', h2, h3, h6⟩

theorem twins_step' {t : BasicMachine} {s s' : TreeMachine} (hs : Twins t s) (h : step s = .ok ((), s')) :
    ∃ t', step t = .ok ((), t') ∧ Twins t' s' := by
  have h1 := step_sim _ _ hs.2
  rw [h] at h1
  obtain ⟨⟨_, t'⟩, h2, _, h3⟩ := h1
  obtain ⟨s'', h4, h5⟩ := twins_step hs h2
  rw [h] at h4
  cases h4
  exact ⟨t', h2, h5⟩

theorem twins_steps {t t' : BasicMachine} {s : TreeMachine} (hs : Twins t s) (h : Steps t t') :
    ∃ s', Steps s s' ∧ Twins t' s' := by
  induction h with
  | refl => exact ⟨s, .refl _, hs⟩
  | tail _ hstep ih =>
    obtain ⟨s1, h1, h2⟩ := ih
    obtain ⟨s2, h3, h4⟩ := twins_step h2 hstep
    exact ⟨s2, .tail h1 h3, h4⟩

theorem twins_steps' {t : BasicMachine} {s s' : TreeMachine} (hs : Twins t s) (h : Steps s s') :
    ∃ t', Steps t t' ∧ Twins t' s' := by
  induction h with
  | refl => exact ⟨t, .refl _, hs⟩
  | tail _ hstep ih =>
    obtain ⟨t1, h1, h2⟩ := ih
    obtain ⟨t2, h3, h4⟩ := twins_step' h2 hstep
    exact ⟨t2, .tail h1 h3, h4⟩

/-! ### C76: without references and boxes, Tree Borrows is the basic memory model -/

theorem Twins.same {t : BasicMachine} {s : TreeMachine} (h : Twins t s) : SameBehavior t s where
  stdout := h.1.stdout
  stderr := h.1.stderr
  threads := by
    have := h.1.threads
    generalize t.threads = a at this
    generalize s.threads = b at this
    induction this with
    | nil => rfl
    | cons h _ ih => simp only [List.map_cons, h.state, ih]
  goesOn := ⟨fun ⟨_, h1⟩ => let ⟨s', h2, _⟩ := twins_step h h1; ⟨s', h2⟩,
    fun ⟨_, h1⟩ => let ⟨t', h2, _⟩ := twins_step' h h1; ⟨t', h2⟩⟩
  ends _ he := ⟨end_below h.1 he, end_below h.2 he⟩

/-- Each execution in the basic memory model is one under Tree Borrows. -/
theorem C76_basic_is_tree_borrows {prog : Program} (hq : prog.AllPtr (Plain.quiet Path))
    {oracle : List (Choice (AllocId × Unit))} {t : BasicMachine} (h : Exec prog oracle t) :
    ∃ s : TreeMachine, Exec prog (rootChoices oracle) s ∧ StateBelow t s ∧ StateBelow s t ∧ SameBehavior t s := by
  obtain ⟨t₀, h1, h2⟩ := h
  obtain ⟨s₀, h3, h4⟩ := twins_new hq h1
  obtain ⟨s, h5, h6⟩ := twins_steps h4 h2
  exact ⟨s, ⟨s₀, h3, h5⟩, h6.1, h6.2, h6.same⟩

/-- Each execution under Tree Borrows with those choices is one in the basic memory model. -/
theorem C76_tree_borrows_is_basic {prog : Program} (hq : prog.AllPtr (Plain.quiet Path))
    {oracle : List (Choice (AllocId × Unit))} {s : TreeMachine} (h : Exec prog (rootChoices oracle) s) :
    ∃ t : BasicMachine, Exec prog oracle t ∧ StateBelow t s ∧ StateBelow s t ∧ SameBehavior t s := by
  obtain ⟨s₀, h1, h2⟩ := h
  obtain ⟨t₀, h3, _⟩ := new_below (N := BasicMem Unit Unit) (.refl prog) (allPtr_basic prog) (checkWf_of_new h1) h1
  rw [map_rootChoices] at h3
  obtain ⟨s₁, h4, h5⟩ := twins_new hq h3
  rw [h1] at h4
  cases h4
  obtain ⟨t, h6, h7⟩ := twins_steps' h5 h2
  exact ⟨t, ⟨t₀, h3, h6⟩, h7.1, h7.2, h7.same⟩

/-- What a program without references and boxes can print before ending, and how it can end, does not
depend on the memory model. -/
theorem C76_same_outcomes {prog : Program} (hq : prog.AllPtr (Plain.quiet Path)) (out err : List Printed) (e : Err)
    (he : e = .machineStop ∨ e = .abort ∨ e = .deadlock ∨ e = .memoryLeak) :
    (∃ oracle, ∃ t : BasicMachine, Exec prog oracle t ∧ t.stdout = out ∧ t.stderr = err ∧ step t = .error e) ↔
      ∃ oracle, ∃ s : TreeMachine, Exec prog oracle s ∧ s.stdout = out ∧ s.stderr = err ∧ step s = .error e := by
  constructor
  · rintro ⟨oracle, t, h1, rfl, rfl, h4⟩
    obtain ⟨s, h5, _, _, h6⟩ := C76_basic_is_tree_borrows hq h1
    exact ⟨_, s, h5, h6.stdout.symm, h6.stderr.symm, (h6.ends e he).1 h4⟩
  · rintro ⟨oracle, s, h1, rfl, rfl, h4⟩
    obtain ⟨t, h5, _, h6, h7, h8⟩ := C71_tree_borrows_only_adds_ub h1
    exact ⟨_, t, h5, h6.symm, h7.symm, h8 e he h4⟩
end

/-! ### Examples -/

namespace Ex
attribute [local instance] x86_64

/-- `let mut x: u32 = 7; let r = &raw mut x; *r = 8; print(x); *r = 9; print(x); exit()`: like
`aliasProg true`, but with a raw pointer. -/
def rawProg : Program :=
  let n (i : Int) : ValueExpr := .constant (.int i) u32
  let r : PlaceExpr := .deref (.load (.local 2)) u32
  mainProg [(1, u32), (2, rawTy)] [
    (0, ⟨[.storageLive 1, .storageLive 2, .assign (.local 1) (n 7), .assign (.local 2) (.addrOf (.local 1) (.raw .none)),
      .validate (.local 2) true, .assign r (n 8)], .intrinsic .printStdout [.load (.local 1)] (.local 0) (some 1), .regular⟩),
    (1, ⟨[.assign r (n 9)], .intrinsic .printStdout [.load (.local 1)] (.local 0) (some 2), .regular⟩),
    (2, ⟨[], .intrinsic .exit [] (.local 0) none, .regular⟩)]
/-- Choices for `rawProg`. -/
def rawRun {P : Type} : List (Choice P) :=
  [.int 16, .int 32, .int 48, .int 0, .int 64, .int 0, .int 80, .int 0, .int 0, .int 0, .int 0, .int 0, .int 0, .int 0, .int 0]

theorem rawProg_quiet : rawProg.AllPtr (Plain.quiet Path) := by
  intro f hf
  simp only [rawProg, mainProg, List.mem_singleton] at hf
  subst hf
  refine ⟨?_, ?_, ?_⟩ <;>
    simp [Ty.AllPtr, Statement.AllPtr, PlaceExpr.AllPtr, ValueExpr.AllPtr, Terminator.AllPtr, unitTy, rawTy, u32,
      Ty.AllPtrFields, Plain.quiet]
-- The program with the reference does not satisfy the condition.
example : ¬ (aliasProg true).AllPtr (Plain.quiet Path) := by
  intro h
  have h1 := (h _ List.mem_cons_self).locals (2, .ptr refTy4) (by simp)
  simp [Ty.AllPtr, Plain.quiet, refTy4] at h1

-- It runs to its end in the basic memory model, so it does under Tree Borrows.
example : ∃ (t : BasicMachine) (s : TreeMachine), Exec rawProg rawRun t ∧ Exec rawProg rawRun s ∧ SameBehavior t s ∧
    s.stdout = [.int 8, .int 9] ∧ step s = .error .machineStop := by
  have h : observe (M := BasicMem Unit Unit) (P := Nat × Unit) (F := Unit) rawProg rawRun 9
      (fun s => .ok (decide (s.stdout = [.int 8, .int 9] ∧ errOf (step s) = some .machineStop))) = .ok true := by
    decide +kernel
  unfold observe at h
  obtain ⟨s0, h0, h⟩ := Res.bind_eq_ok.1 h
  obtain ⟨⟨_, s2⟩, h1, h2⟩ := Res.bind_eq_ok.1 h
  cases h2
  obtain ⟨_, s, h3, h4⟩ := EM.bind_eq_ok.1 h1
  obtain ⟨h5, rfl⟩ := EM.read_eq_ok.1 h4
  injection h5 with h5
  obtain ⟨h6, h7⟩ := of_decide_eq_true h5
  have he : Exec rawProg rawRun s2 := ⟨s0, h0, runSteps_steps h3⟩
  obtain ⟨t, h8, _, _, h9⟩ := C76_basic_is_tree_borrows rawProg_quiet he
  exact ⟨s2, t, he, h8, h9, h9.stdout ▸ h6, (h9.ends _ (.inl rfl)).1 (errOf_eq_some h7)⟩
-- The same under Tree Borrows directly.
example : ∃ s : TreeMachine, Reachable rawProg s ∧ s.stdout = [.int 8, .int 9] ∧ errOf (step s) = some .machineStop :=
  exists_reachable rawRun 9 _ (by decide +kernel)
end Ex
end MiniRust
