import Verif.Lemmas.RefineStep
import Verif.Props.Expr
/-
Comparing executions: Tree Borrows with the basic memory model, and less with more defined data.
-/
set_option linter.unusedSectionVars false
namespace MiniRust

instance [T : Target] : RootProv (BasicMem Unit Unit) Unit Unit where
  root := ()
  allocate := by
    intro m m' kind size align pick p h
    replace h : BasicMem.allocate m kind size align () () pick = .ok (p, m') := h
    unfold BasicMem.allocate at h
    split at h
    · cases h
    · split at h
      · cases h
      · cases h; exact ⟨_, rfl⟩

instance [T : Target] : RootProv TBMem Path TBFrame where
  root := []
  allocate := by
    intro m m' kind size align pick p h
    have h := tb_allocate_eq_ok.1 h
    unfold BasicMem.allocate at h
    split at h
    · cases h
    · split at h
      · cases h
      · simp only [Except.ok.injEq, Prod.mk.injEq] at h
        rw [← h.1]
        exact ⟨_, rfl⟩

/-- Nothing interferes with the basic memory model. -/
instance [T : Target] : QuietMem (BasicMem Unit Unit) Unit Unit Unit where
  mem := id
  new := rfl
  newCall := rfl
  allocate _ _ _ _ _ _ m h := ⟨m, h, rfl⟩
  deallocate _ _ _ _ _ := ⟨fun _ _ => .ok (), rfl, fun m h => ⟨m, h, rfl⟩⟩
  store _ _ _ _ := ⟨fun _ _ _ => .ok (), fun _ _ _ => rfl, fun m h => ⟨m, h, rfl⟩⟩
  load _ _ _ _ := ⟨fun _ _ _ => .ok (), fun _ _ _ => rfl, fun _ m h => ⟨m, h, rfl⟩⟩
  dereferenceable n ptr len := by
    show (n.checkPtr ptr len >>= fun _ => .ok ()) = (fun _ => ()) <$> n.checkPtr ptr len
    generalize n.checkPtr ptr len = r
    cases r <;> rfl
  retag _ _ _ _ _ _ := rfl
  endCall _ := rfl
  leakCheck _ := rfl

mutual
theorem Ty.allPtr_of_all {q : PtrType → Prop} (h : ∀ p, q p) : ∀ ty : Ty, ty.AllPtr q
  | .int _ | .bool | .traitObject _ => by simp only [Ty.AllPtr]
  | .ptr p => by simp only [Ty.AllPtr]; exact h p
  | .tuple fields _ none => by simp only [Ty.AllPtr]; exact Ty.allPtrFields_of_all h fields
  | .tuple fields _ (some tail) => by
    simp only [Ty.AllPtr]; exact ⟨Ty.allPtrFields_of_all h fields, Ty.allPtr_of_all h tail⟩
  | .array elem _ => by simp only [Ty.AllPtr]; exact Ty.allPtr_of_all h elem
  | .slice elem => by simp only [Ty.AllPtr]; exact Ty.allPtr_of_all h elem
  | .union fields _ _ _ => by simp only [Ty.AllPtr]; exact Ty.allPtrFields_of_all h fields
  | .enum variants _ _ _ _ => by simp only [Ty.AllPtr]; exact Ty.allPtrVariants_of_all h variants
theorem Ty.allPtrFields_of_all {q : PtrType → Prop} (h : ∀ p, q p) : ∀ fs : List (Nat × Ty), Ty.AllPtrFields q fs
  | [] => by simp only [Ty.AllPtrFields]
  | (_, ty) :: rest => by simp only [Ty.AllPtrFields]; exact ⟨Ty.allPtr_of_all h ty, Ty.allPtrFields_of_all h rest⟩
theorem Ty.allPtrVariants_of_all {q : PtrType → Prop} (h : ∀ p, q p) : ∀ vs : Variants, Ty.AllPtrVariants q vs
  | [] => by simp only [Ty.AllPtrVariants]
  | (_, (ty, _)) :: rest => by
    simp only [Ty.AllPtrVariants]; exact ⟨Ty.allPtr_of_all h ty, Ty.allPtrVariants_of_all h rest⟩
end

mutual
theorem ValueExpr.allPtr_of_all {q : PtrType → Prop} (h : ∀ p, q p) : ∀ e : ValueExpr, e.AllPtr q
  | .constant _ _ => by simp only [ValueExpr.AllPtr]
  | .tuple es _ => by simp only [ValueExpr.AllPtr]; exact ValueExpr.allPtrList_of_all h es
  | .union _ e _ => by simp only [ValueExpr.AllPtr]; exact ValueExpr.allPtr_of_all h e
  | .variant _ e _ => by simp only [ValueExpr.AllPtr]; exact ValueExpr.allPtr_of_all h e
  | .getDiscriminant p => by simp only [ValueExpr.AllPtr]; exact PlaceExpr.allPtr_of_all h p
  | .load p => by simp only [ValueExpr.AllPtr]; exact PlaceExpr.allPtr_of_all h p
  | .addrOf p ptrTy => by simp only [ValueExpr.AllPtr]; exact ⟨PlaceExpr.allPtr_of_all h p, h ptrTy⟩
  | .unOp _ e => by simp only [ValueExpr.AllPtr]; exact ValueExpr.allPtr_of_all h e
  | .binOp _ l r => by simp only [ValueExpr.AllPtr]; exact ⟨ValueExpr.allPtr_of_all h l, ValueExpr.allPtr_of_all h r⟩
theorem ValueExpr.allPtrList_of_all {q : PtrType → Prop} (h : ∀ p, q p) : ∀ es : List ValueExpr, ValueExpr.AllPtrList q es
  | [] => by simp only [ValueExpr.AllPtrList]
  | e :: es => by
    simp only [ValueExpr.AllPtrList]; exact ⟨ValueExpr.allPtr_of_all h e, ValueExpr.allPtrList_of_all h es⟩
theorem PlaceExpr.allPtr_of_all {q : PtrType → Prop} (h : ∀ p, q p) : ∀ e : PlaceExpr, e.AllPtr q
  | .local _ => by simp only [PlaceExpr.AllPtr]
  | .deref e ty => by simp only [PlaceExpr.AllPtr]; exact ⟨ValueExpr.allPtr_of_all h e, Ty.allPtr_of_all h ty⟩
  | .field r _ => by simp only [PlaceExpr.AllPtr]; exact PlaceExpr.allPtr_of_all h r
  | .index r i => by simp only [PlaceExpr.AllPtr]; exact ⟨PlaceExpr.allPtr_of_all h r, ValueExpr.allPtr_of_all h i⟩
  | .downcast r _ => by simp only [PlaceExpr.AllPtr]; exact PlaceExpr.allPtr_of_all h r
end

theorem Function.allPtr_of_all {q : PtrType → Prop} (h : ∀ p, q p) (f : Function) : f.AllPtr q where
  locals _ _ := Ty.allPtr_of_all h _
  statements _ _ s _ := by
    cases s <;> simp [Statement.AllPtr, PlaceExpr.allPtr_of_all h, ValueExpr.allPtr_of_all h]
  terminators b _ := by
    have ha : ∀ a : ArgumentExpr, a.AllPtr q := by
      intro a; cases a <;> simp [ArgumentExpr.AllPtr, PlaceExpr.allPtr_of_all h, ValueExpr.allPtr_of_all h]
    cases b.2.terminator <;> simp [Terminator.AllPtr, PlaceExpr.allPtr_of_all h, ValueExpr.allPtr_of_all h, ha]

/-- The restriction on the pointer types is none if all are allowed, as in the basic memory model. -/
theorem Program.allPtr_of_all {q : PtrType → Prop} (h : ∀ p, q p) (prog : Program) : prog.AllPtr q :=
  fun _ _ => Function.allPtr_of_all h _

theorem allPtr_basic (prog : Program) : prog.AllPtr (Plain.quiet Unit) := prog.allPtr_of_all fun _ => trivial

section
variable [T : Target]

section
variable {M PE AE F : Type} [DecidableEq PE] [Memory M (AllocId × PE) F]
  [S : SoftMem M (AllocId × PE) F] [B : BasicBacked M PE AE F] [RP : RootProv M PE F]
  {N QE QA G : Type} [DecidableEq QE] [Memory N (AllocId × QE) G] [Plain QE] [PlainAlloc QA] [PlainFrame G]
  [C : QuietMem N QE QA G]

theorem steps_below {s s' : Machine M (AllocId × PE) F} {t : Machine N (AllocId × QE) G}
    (hs : StateBelow s t) (h : Steps s s') : ∃ t', Steps t t' ∧ StateBelow s' t' := by
  induction h with
  | refl => exact ⟨t, .refl _, hs⟩
  | tail _ hstep ih =>
    obtain ⟨t1, h1, h2⟩ := ih
    have h3 := step_sim _ _ h2
    rw [hstep] at h3
    obtain ⟨⟨_, t2⟩, h4, _, h5⟩ := h3
    exact ⟨t2, .tail h1 h4, h5⟩

theorem end_below {s : Machine M (AllocId × PE) F} {t : Machine N (AllocId × QE) G}
    (hs : StateBelow s t) {e : Err} (he : e.Regular) (h : step s = .error e) : step t = .error e := by
  have h1 := step_sim _ _ hs
  rw [h] at h1
  rcases h1 with h1 | h1
  · rcases he with rfl | rfl | rfl | rfl <;> rcases h1 with h | h | h | h <;> cases h
  · exact h1

theorem ub_below {s : Machine M (AllocId × PE) F} {t : Machine N (AllocId × QE) G}
    (hs : StateBelow s t) (h : step t = .error .ub) : ∃ e, step s = .error e ∧ e.Excused := by
  have h1 := step_sim _ _ hs
  cases hx : step s with
  | ok a => rw [hx, h] at h1; obtain ⟨_, h2, _⟩ := h1; cases h2
  | error e =>
    rw [hx, h] at h1
    rcases h1 with h1 | h1
    · exact ⟨e, rfl, h1⟩
    · cases h1; exact ⟨_, rfl, .inl rfl⟩

theorem new_below {prog prog' : Program} (hp : ProgBelow prog prog') (hq : prog'.AllPtr (Plain.quiet QE)) (hwf : prog'.checkWf = .ok ())
    {oracle : List (Choice (AllocId × PE))} {s : Machine M (AllocId × PE) F} (h : Machine.new prog oracle = .ok s) :
    ∃ t : Machine N (AllocId × QE) G,
      Machine.new prog' (oracle.map Choice.dropExtra) = .ok t ∧ StateBelow s t := by
  unfold Machine.new at h
  obtain ⟨_, _, h⟩ := Res.bind_eq_ok.1 h
  obtain ⟨⟨_, s'⟩, h1, h2⟩ := Res.bind_eq_ok.1 h
  cases h2
  have h0 : StateBelow (Machine.empty prog oracle : Machine M (AllocId × PE) F)
      (Machine.empty prog' (oracle.map Choice.dropExtra) : Machine N (AllocId × QE) G) := by
    refine ⟨hp, hq, ?_, rfl, ?_, .nil, rfl, rfl, rfl, .nil, .nil, ?_, .nil, ?_, rfl, rfl, rfl⟩
    · show MemBelow (B.mem Memory.new) (C.mem Memory.new)
      rw [B.new, C.new]
      exact List.Forall₂.nil
    · intro p hp; cases hp
    · intro p hp; cases hp
    · intro p hp; cases hp
  have h3 := initMachine_sim hp hq _ _ h0
  rw [h1] at h3
  obtain ⟨⟨_, t⟩, h4, _, h5⟩ := h3
  refine ⟨t, ?_, h5⟩
  unfold Machine.new
  rw [hwf]
  refine Res.bind_eq_ok.2 ⟨(), rfl, Res.bind_eq_ok.2 ⟨_, h4, rfl⟩⟩

theorem exec_below {prog prog' : Program} (hp : ProgBelow prog prog') (hq : prog'.AllPtr (Plain.quiet QE)) (hwf : prog'.checkWf = .ok ())
    {oracle : List (Choice (AllocId × PE))} {s : Machine M (AllocId × PE) F} (h : Exec prog oracle s) :
    ∃ t : Machine N (AllocId × QE) G,
      Exec prog' (oracle.map Choice.dropExtra) t ∧ StateBelow s t := by
  obtain ⟨s₀, h1, h2⟩ := h
  obtain ⟨t₀, h3, h4⟩ := new_below (N := N) hp hq hwf h1
  obtain ⟨t, h5, h6⟩ := steps_below h4 h2
  exact ⟨t, ⟨t₀, h3, h5⟩, h6⟩
end

theorem ProgBelow.refl (p : Program) : ProgBelow p p :=
  ⟨rfl, rfl, List.forall₂_same.2 fun _ _ => ⟨rfl, List.forall₂_same.2 fun _ _ => .inr rfl, rfl, rfl⟩, rfl, rfl⟩

theorem checkWf_of_new {M P F : Type} [Memory M P F] [DecidableEq P] {prog : Program} {oracle : List (Choice P)}
    {s : Machine M P F} (h : Machine.new prog oracle = .ok s) : prog.checkWf = .ok () := by
  unfold Machine.new at h
  obtain ⟨_, h, _⟩ := Res.bind_eq_ok.1 h
  exact h

theorem map_dropExtra_unit (oracle : List (Choice (AllocId × Unit))) : oracle.map Choice.dropExtra = oracle := by
  rw [List.map_congr_left (g := id) (fun c _ => ?_), List.map_id]
  cases c with
  | int => rfl
  | prov p => cases p <;> rfl

/-! ### C71: Tree Borrows only adds undefined behavior -/

/-- Whatever a program does under Tree Borrows it also does, with the same choices, under the basic
memory model: it gets to the same state (up to the Tree Borrows bookkeeping), having printed the same,
and if it ends there other than by undefined behavior it ends the same way. -/
theorem C71_tree_borrows_only_adds_ub {prog : Program} {oracle : List (Choice TBProv)}
    {s : Machine TBMem TBProv TBFrame} (h : Exec prog oracle s) :
    ∃ t : Machine (BasicMem Unit Unit) (AllocId × Unit) Unit, Exec prog (oracle.map Choice.dropExtra) t ∧
      StateBelow s t ∧ s.stdout = t.stdout ∧ s.stderr = t.stderr ∧
      ∀ e, e.Regular → step s = .error e → step t = .error e := by
  obtain ⟨t, h1, h2⟩ := exec_below (N := BasicMem Unit Unit) (.refl prog) (allPtr_basic prog) (checkWf_of_new h.choose_spec.1) h
  exact ⟨t, h1, h2, h2.stdout, h2.stderr, fun e he h => end_below h2 he h⟩

/-- What is undefined behavior under the basic model stops the execution under Tree Borrows too: for
each execution under Tree Borrows there is one under the basic model that can go on only if the first
one cannot go on, or goes on as well. -/
theorem C71_basic_ub_is_tree_borrows_ub {prog : Program} {oracle : List (Choice TBProv)}
    {s : Machine TBMem TBProv TBFrame} (h : Exec prog oracle s) :
    ∃ t : Machine (BasicMem Unit Unit) (AllocId × Unit) Unit, Exec prog (oracle.map Choice.dropExtra) t ∧
      StateBelow s t ∧ (step t = .error .ub → ∃ e, step s = .error e ∧ (e = .ub ∨ e = .panic ∨ e = .noBehavior ∨ e = .none)) ∧
      (∀ s', step s = .ok ((), s') → ∃ t', step t = .ok ((), t') ∧ StateBelow s' t') := by
  obtain ⟨t, h1, h2⟩ := exec_below (N := BasicMem Unit Unit) (.refl prog) (allPtr_basic prog) (checkWf_of_new h.choose_spec.1) h
  refine ⟨t, h1, h2, fun h => ub_below h2 h, fun s' hs => ?_⟩
  have h3 := step_sim _ _ h2
  rw [hs] at h3
  obtain ⟨⟨_, t'⟩, h4, _, h5⟩ := h3
  exact ⟨t', h4, h5⟩

/-! ### C72: defining more never introduces undefined behavior -/

/-- A state in which more bytes are initialized and more pointers have provenance does what the
original state does. -/
theorem C72_more_defined_states {s s' t : Machine (BasicMem Unit Unit) (AllocId × Unit) Unit} (hs : StateBelow s t)
    (h : Steps s s') :
    ∃ t', Steps t t' ∧ StateBelow s' t' ∧ s'.stdout = t'.stdout ∧ s'.stderr = t'.stderr ∧
      ∀ e, e.Regular → step s' = .error e → step t' = .error e := by
  obtain ⟨t', h1, h2⟩ := steps_below hs h
  exact ⟨t', h1, h2, h2.stdout, h2.stderr, fun e he h => end_below h2 he h⟩

/-- Initializing uninitialized bytes of the globals of a program keeps all its executions. -/
theorem C72_more_defined_globals {prog prog' : Program} (hp : ProgBelow prog prog') (hwf : prog'.checkWf = .ok ())
    {oracle : List (Choice (AllocId × Unit))} {s : Machine (BasicMem Unit Unit) (AllocId × Unit) Unit}
    (h : Exec prog oracle s) :
    ∃ t : Machine (BasicMem Unit Unit) (AllocId × Unit) Unit, Exec prog' oracle t ∧ StateBelow s t ∧
      s.stdout = t.stdout ∧ s.stderr = t.stderr ∧ ∀ e, e.Regular → step s = .error e → step t = .error e := by
  obtain ⟨t, h1, h2⟩ := exec_below (N := BasicMem Unit Unit) hp (allPtr_basic _) hwf h
  rw [map_dropExtra_unit] at h1
  exact ⟨t, h1, h2, h2.stdout, h2.stderr, fun e he h => end_below h2 he h⟩
end

/-! ### Examples -/

namespace Ex
attribute [local instance] x86_64

/-- `let mut x: u32 = 7; let r = &mut x; *r = 8; print(x); [*r = 9; print(x)]; exit()`. -/
def aliasProg (again : Bool) : Program :=
  let n (i : Int) : ValueExpr := .constant (.int i) u32
  let r : PlaceExpr := .deref (.load (.local 2)) u32
  mainProg [(1, u32), (2, .ptr refTy4)] [
    (0, ⟨[.storageLive 1, .storageLive 2, .assign (.local 1) (n 7), .assign (.local 2) (.addrOf (.local 1) refTy4),
      .assign r (n 8)], .intrinsic .printStdout [.load (.local 1)] (.local 0) (some 1), .regular⟩),
    (1, ⟨if again then [.assign r (n 9)] else [], .intrinsic .printStdout [.load (.local 1)] (.local 0) (some 2), .regular⟩),
    (2, ⟨[], .intrinsic .exit [] (.local 0) none, .regular⟩)]
/-- Choices for `aliasProg`. -/
def aliasRun {P : Type} : List (Choice P) :=
  [.int 16, .int 32, .int 48, .int 0, .int 64, .int 0, .int 80, .int 0, .int 0, .int 0, .int 0, .int 0, .int 0, .int 0]

-- Under Tree Borrows the first program prints twice and exits, as under the basic model. The second one writes through
-- the reference after the variable has been read: undefined behavior under Tree Borrows, but not under the basic model.
example : ∃ s : Machine TBMem TBProv TBFrame, Reachable (aliasProg false) s ∧
    s.stdout = [.int 8, .int 8] ∧ errOf (step s) = some .machineStop :=
  exists_reachable aliasRun 7 _ (by decide +kernel)
example : ∃ s : Machine TBMem TBProv TBFrame, Reachable (aliasProg true) s ∧
    s.stdout = [.int 8] ∧ errOf (step s) = some .ub :=
  exists_reachable aliasRun 6 _ (by decide +kernel)
example : ∃ s : BMach, Reachable (aliasProg true) s ∧ s.stdout = [.int 8, .int 9] ∧ errOf (step s) = some .machineStop :=
  exists_reachable aliasRun 8 _ (by decide +kernel)

/-- Prints the byte at the given offset of a global whose second byte is `b`. -/
def globalProg (b : Option UInt8) (offset : Nat) : Program :=
  let u8 : Ty := .int ⟨.unsigned, 1⟩
  { mainProg [] [
    (0, ⟨[], .intrinsic .printStdout [.load (.deref (global offset) u8)] (.local 0) (some 1), .regular⟩),
    (1, ⟨[], .intrinsic .exit [] (.local 0) none, .regular⟩)] with
    globals := [(0, ⟨[some 5, b], [], ⟨0⟩⟩)] }
theorem globalProg_below (offset : Nat) : ProgBelow (globalProg none offset) (globalProg (some 6) offset) :=
  ⟨rfl, rfl, .cons ⟨rfl, .cons (.inr rfl) (.cons (.inl rfl) .nil), rfl, rfl⟩ .nil, rfl, rfl⟩
example : (globalProg (some 6) 0).checkWf = .ok () ∧ (globalProg (some 6) 1).checkWf = .ok () := by decide +kernel
-- The byte that is uninitialized can be there as long as it is not read.
example : (∃ s : BMach, Reachable (globalProg none 0) s ∧ s.stdout = [.int 5] ∧ errOf (step s) = some .machineStop) ∧
    (∃ s : BMach, Reachable (globalProg none 1) s ∧ errOf (step s) = some .ub) ∧
    ∃ s : BMach, Reachable (globalProg (some 6) 1) s ∧ s.stdout = [.int 6] ∧ errOf (step s) = some .machineStop :=
  ⟨exists_reachable printRun 1 _ (by decide +kernel), exists_reachable printRun 0 _ (by decide +kernel),
    exists_reachable printRun 1 _ (by decide +kernel)⟩
-- The theorems apply to these executions.
example : ∃ s t : BMach, Exec (globalProg none 0) printRun s ∧ Exec (globalProg (some 6) 0) printRun t ∧
    StateBelow s t ∧ t.stdout = [.int 5] ∧ step t = .error .machineStop := by
  have h : observe (M := BasicMem Unit Unit) (P := Nat × Unit) (F := Unit) (globalProg none 0) printRun 1
      (fun s => .ok (decide (s.stdout = [.int 5] ∧ errOf (step s) = some .machineStop))) = .ok true := by decide +kernel
  unfold observe at h
  obtain ⟨s0, h0, h⟩ := Res.bind_eq_ok.1 h
  obtain ⟨⟨_, s2⟩, h1, h2⟩ := Res.bind_eq_ok.1 h
  cases h2
  obtain ⟨_, s, h3, h4⟩ := EM.bind_eq_ok.1 h1
  obtain ⟨h5, rfl⟩ := EM.read_eq_ok.1 h4
  injection h5 with h5
  obtain ⟨h6, h7⟩ := of_decide_eq_true h5
  have he : Exec (globalProg none 0) printRun s2 := ⟨s0, h0, runSteps_steps h3⟩
  obtain ⟨t, h8, h9, h10, _, h11⟩ := C72_more_defined_globals (globalProg_below 0) (by decide +kernel) he
  exact ⟨s2, t, he, h8, h9, h10 ▸ h6, h11 _ (.inl rfl) (errOf_eq_some h7)⟩
example : ∃ (s : Machine TBMem TBProv TBFrame) (t : BMach), Exec (aliasProg false) aliasRun s ∧
    Exec (aliasProg false) aliasRun t ∧ StateBelow s t ∧ t.stdout = [.int 8, .int 8] ∧ step t = .error .machineStop := by
  have h : observe (M := TBMem) (P := TBProv) (F := TBFrame) (aliasProg false) aliasRun 7
      (fun s => .ok (decide (s.stdout = [.int 8, .int 8] ∧ errOf (step s) = some .machineStop))) = .ok true := by decide +kernel
  unfold observe at h
  obtain ⟨s0, h0, h⟩ := Res.bind_eq_ok.1 h
  obtain ⟨⟨_, s2⟩, h1, h2⟩ := Res.bind_eq_ok.1 h
  cases h2
  obtain ⟨_, s, h3, h4⟩ := EM.bind_eq_ok.1 h1
  obtain ⟨h5, rfl⟩ := EM.read_eq_ok.1 h4
  injection h5 with h5
  obtain ⟨h6, h7⟩ := of_decide_eq_true h5
  have he : Exec (aliasProg false) aliasRun s2 := ⟨s0, h0, runSteps_steps h3⟩
  obtain ⟨t, h8, h9, h10, _, h11⟩ := C71_tree_borrows_only_adds_ub he
  exact ⟨s2, t, he, h8, h9, h10 ▸ h6, h11 _ (.inl rfl) (errOf_eq_some h7)⟩
end Ex
end MiniRust
