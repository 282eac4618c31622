import Verif.Spec.Run
import Verif.Props.RefinePlain
import Mathlib.Data.Nat.Digits.Lemmas
/-
C79: running a program reports how it ends and what it prints; the exit code of minirun.
-/
namespace MiniRust

/-! ### Lines -/

theorem readDigit_digitChar {d : Nat} (h : d < 10) : readDigit (Nat.digitChar d) = some d := by
  have : ∀ d : Fin 10, readDigit (Nat.digitChar d) = some d.1 := by decide
  exact this ⟨d, h⟩

theorem readDigits_map : ∀ (ds : List Nat) (n : Nat), (∀ d ∈ ds, d < 10) →
    readDigits n (ds.map Nat.digitChar) = some (ds.foldl (fun a d => 10 * a + d) n)
  | [], n, _ => rfl
  | d :: ds, n, h => by
    rw [List.map_cons, readDigits, readDigit_digitChar (h d List.mem_cons_self), Option.bind_some, readDigits_map ds _ fun x hx => h x (List.mem_cons_of_mem _ hx)]
    rfl

theorem readDigits_natText (n : Nat) : readDigits 0 (natText n) = some n := by
  unfold natText
  split
  · subst_vars; decide
  · rw [readDigits_map _ _ fun d hd => Nat.digits_lt_base (by decide) (List.mem_reverse.1 hd), List.foldl_reverse]
    have := Nat.ofDigits_digits 10 n
    rw [Nat.ofDigits_eq_foldr] at this
    congr 1
    conv => rhs; rw [← this]
    congr 1
    funext a b
    simp [Nat.add_comm]

/-- The characters of numbers. -/
theorem natText_digit {n : Nat} {c : Char} (h : c ∈ natText n) : ∃ d : Fin 10, c = Nat.digitChar d := by
  unfold natText at h
  split at h
  · cases List.mem_singleton.1 h; exact ⟨0, rfl⟩
  · obtain ⟨d, hd, rfl⟩ := List.mem_map.1 h
    exact ⟨⟨d, Nat.digits_lt_base (by decide) (List.mem_reverse.1 hd)⟩, rfl⟩

theorem natText_ne_nil (n : Nat) : natText n ≠ [] := by
  unfold natText
  split
  · simp
  · rename_i h
    simp [Nat.digits_ne_nil_iff_ne_zero.2 h]

theorem natText_cons (n : Nat) : ∃ (d : Fin 10) (cs : List Char), natText n = Nat.digitChar d :: cs := by
  cases h : natText n with
  | nil => exact absurd h (natText_ne_nil n)
  | cons c cs =>
    obtain ⟨d, rfl⟩ := natText_digit (n := n) (c := c) (by rw [h]; exact List.mem_cons_self)
    exact ⟨d, cs, rfl⟩

theorem digitChar_ne : ∀ d : Fin 10, Nat.digitChar d ≠ '-' ∧ Nat.digitChar d ≠ 't' ∧ Nat.digitChar d ≠ 'f' ∧
    Nat.digitChar d ≠ '\n' ∧ Nat.digitChar d ≠ '\r' := by decide

/-- C79: what is printed can be read back: numbers are printed in decimal, Booleans as `true` and `false`. -/
theorem C79_text (p : Printed) : readLine p.text = some p := by
  cases p with
  | bool b => cases b <;> decide
  | int i =>
    obtain ⟨d, cs, hd⟩ := natText_cons i.natAbs
    obtain ⟨h1, h2, h3, _⟩ := digitChar_ne d
    have hr := readDigits_natText i.natAbs
    unfold Printed.text intText
    dsimp only
    split
    · rename_i hi
      unfold readLine
      rw [if_neg (by simp), if_neg (by simp)]
      have : -(i.natAbs : Int) = i := by omega
      simp only [hr, Option.map_some, this]
    · rename_i hi
      unfold readLine
      rw [hd, if_neg (by simp [h2]), if_neg (by simp [h3])]
      split
      · rename_i h; cases h
      · rename_i h; injection h with h; exact absurd h h1
      · have : (i.natAbs : Int) = i := by omega
        rw [← hd, hr, Option.map_some, this]

theorem lines_append : ∀ {l cs : List Char}, '\n' ∉ l → '\r' ∉ l → lines (l ++ '\n' :: cs) = l :: lines cs
  | [], cs, _, _ => by rw [List.nil_append, lines]
  | c :: l, cs, h1, h2 => by
    have ih := lines_append (l := l) (cs := cs) (fun h => h1 (List.mem_cons_of_mem _ h)) (fun h => h2 (List.mem_cons_of_mem _ h))
    have hc : c ≠ '\n' := fun h => h1 (by rw [h]; exact List.mem_cons_self)
    have hc' : c ≠ '\r' := fun h => h2 (by rw [h]; exact List.mem_cons_self)
    rw [List.cons_append, lines, ih]
    · exact hc
    · exact fun _ h => absurd h hc'

theorem text_noEol (p : Printed) : '\n' ∉ p.text ∧ '\r' ∉ p.text := by
  cases p with
  | bool b => cases b <;> decide
  | int i =>
    have hn : '\n' ∉ natText i.natAbs ∧ '\r' ∉ natText i.natAbs := by
      constructor <;> intro h <;> obtain ⟨d, hd⟩ := natText_digit h
      · exact (digitChar_ne d).2.2.2.1 hd.symm
      · exact (digitChar_ne d).2.2.2.2 hd.symm
    unfold Printed.text intText
    dsimp only
    split <;> simp [hn]

theorem lines_streamText (out : List Printed) : lines (streamText out) = out.map (·.text) := by
  induction out with
  | nil => rfl
  | cons p out ih =>
    obtain ⟨h1, h2⟩ := text_noEol p
    have : streamText (p :: out) = p.text ++ '\n' :: streamText out := by
      simp only [streamText, List.flatMap_cons, List.append_assoc]; rfl
    rw [this, lines_append h1 h2, ih, List.map_cons]

/-- C79: the lines on stdout are the printed values, one per line, in the order in which they were printed. -/
theorem C79_lines (out : List Printed) : (lines (streamText out)).map readLine = out.map some := by
  rw [lines_streamText, List.map_map]
  exact List.map_congr_left fun p _ => C79_text p

/-! ### Runs -/

section
variable {M P F : Type} [Memory M P F] [DecidableEq P] [T : Target]

theorem Steps.head' {s t u : Machine M P F} (h : step s = .ok ((), t)) (h' : Steps t u) : Steps s u := by
  induction h' with
  | refl => exact .tail (.refl _) h
  | tail _ h2 ih => exact .tail ih h2

theorem runLoop_steps : ∀ {n : Nat} {s s' : Machine M P F} {e}, runLoop n s = some (e, s') → Steps s s' ∧ step s' = .error e
  | 0, _, _, _, h => by cases h
  | n + 1, s, s', e, h => by
    unfold runLoop at h
    split at h
    · rename_i s1 h1
      obtain ⟨h2, h3⟩ := runLoop_steps h
      exact ⟨.head' h1 h2, h3⟩
    · rename_i e' h1
      cases h
      exact ⟨.refl _, h1⟩

theorem runLoop_of_steps {s t : Machine M P F} (h : Steps s t) : ∀ {n r}, runLoop n t = some r → ∃ m, runLoop m s = some r := by
  induction h with
  | refl => exact fun h => ⟨_, h⟩
  | tail _ h2 ih =>
    intro n r h
    refine ih (n := n + 1) ?_
    rw [runLoop, h2]
    exact h

theorem runLoop_mono : ∀ {n m : Nat} {s : Machine M P F} {r}, n ≤ m → runLoop n s = some r → runLoop m s = some r
  | 0, _, _, _, _, h => by cases h
  | n + 1, 0, _, _, h, _ => by omega
  | n + 1, m + 1, s, r, hnm, h => by
    unfold runLoop at h ⊢
    split at h
    · exact runLoop_mono (Nat.le_of_succ_le_succ hnm) h
    · exact h

/-- C79: a run reports exactly how the execution ends, and what it has printed until then. -/
theorem C79_run (prog : Program) (oracle : List (Choice P)) (e : Err) (out err : List Printed) :
    (∃ fuel, run M fuel prog oracle = some (e, out, err)) ↔ Ends M prog oracle e out err := by
  unfold run Ends Exec
  cases hn : (Machine.new prog oracle : Res (Machine M P F)) with
  | error e' =>
    constructor
    · rintro ⟨_, h⟩; cases h; exact .inl ⟨rfl, rfl, rfl⟩
    · rintro (⟨h, rfl, rfl⟩ | ⟨s, ⟨s₀, h, _⟩, _⟩)
      · cases h; exact ⟨0, rfl⟩
      · cases h
  | ok s₀ =>
    constructor
    · rintro ⟨fuel, h⟩
      dsimp only at h
      split at h
      · cases h
      · rename_i e' s' h1
        cases h
        obtain ⟨h2, h3⟩ := runLoop_steps h1
        exact .inr ⟨s', ⟨s₀, rfl, h2⟩, h3, rfl, rfl⟩
    · rintro (⟨h, _⟩ | ⟨s, ⟨_, h, h2⟩, h3, rfl, rfl⟩)
      · cases h
      · cases h
        obtain ⟨m, hm⟩ := runLoop_of_steps h2 (n := 1) (r := (e, s)) (by rw [runLoop, h3])
        exact ⟨m, by dsimp only; rw [hm]⟩

/-- C79: the bound on the number of steps does not matter once the run ends within it. -/
theorem C79_run_mono {prog : Program} {oracle : List (Choice P)} {n m : Nat} (h : n ≤ m) {r} (hr : run M n prog oracle = some r) :
    run M m prog oracle = some r := by
  unfold run at hr ⊢
  split at hr
  · exact hr
  · split at hr
    · cases hr
    · rename_i h1
      rw [runLoop_mono h h1]
      exact hr

/-- C79: `get_stdout` succeeds exactly if the program stops regularly, and then gives one line for each printed value. -/
theorem C79_stdout (prog : Program) (oracle : List (Choice P)) (ls : List (List Char)) :
    (∃ fuel, getStdout M fuel prog oracle = some (.ok ls)) ↔
      ∃ out err, Ends M prog oracle .machineStop out err ∧ ls = out.map (·.text) := by
  constructor
  · rintro ⟨fuel, h⟩
    unfold getStdout at h
    split at h
    · cases h
    · rename_i out err h1
      injection h with h; injection h with h
      exact ⟨out, err, (C79_run ..).1 ⟨fuel, h1⟩, by rw [← h, lines_streamText]⟩
    · cases h
  · rintro ⟨out, err, h, rfl⟩
    obtain ⟨fuel, h⟩ := (C79_run ..).2 h
    exact ⟨fuel, by rw [getStdout, h]; simp only [lines_streamText]⟩

/-- C79: otherwise `get_stdout` gives the reason. -/
theorem C79_stdout_error (prog : Program) (oracle : List (Choice P)) (e : Err) :
    (∃ fuel, getStdout M fuel prog oracle = some (.error e)) ↔ e ≠ .machineStop ∧ ∃ out err, Ends M prog oracle e out err := by
  constructor
  · rintro ⟨fuel, h⟩
    unfold getStdout at h
    split at h
    · cases h
    · cases h
    · rename_i e' out err hne h1
      injection h with h; injection h with h
      subst h
      exact ⟨hne, out, err, (C79_run ..).1 ⟨fuel, h1⟩⟩
  · rintro ⟨hne, out, err, h⟩
    obtain ⟨fuel, h⟩ := (C79_run ..).2 h
    refine ⟨fuel, ?_⟩
    rw [getStdout, h]
    split
    · rename_i h; cases h
    · rename_i h; cases h; exact absurd rfl hne
    · rename_i h; cases h; rfl

end

/-! ### The command line -/

theorem isFlag_iff {arg : List Char} : flagPrefix.toList.isPrefixOf arg = true ↔ IsFlag arg := by
  rw [List.isPrefixOf_iff_prefix]
  exact ⟨fun ⟨r, h⟩ => ⟨r, h.symm⟩, fun ⟨r, h⟩ => ⟨r, h.symm⟩⟩

instance : DecidablePred IsFlag := fun _ => decidable_of_iff _ isFlag_iff

theorem consumeArg_eq (tb : Bool) (arg : List Char) : consumeArg tb arg =
    if IsFlag arg then if arg = treeBorrowsFlag then some (true, true) else none else some (false, tb) := by
  unfold consumeArg
  by_cases h : IsFlag arg
  · rw [if_pos h, if_pos (isFlag_iff.2 h)]
    obtain ⟨r, rfl⟩ := h
    refine if_congr ?_ rfl rfl
    have h1 : treeBorrowsFlag = "--minirust-".toList ++ "tree-borrows".toList := by decide
    rw [h1, List.append_cancel_left_eq]
    exact Iff.of_eq (congrArg (· = _) (List.drop_left' rfl))
  · rw [if_neg h, if_neg (fun h' => h (isFlag_iff.1 h'))]

theorem treeBorrowsFlag_isFlag : IsFlag treeBorrowsFlag := ⟨"tree-borrows".toList, by decide⟩

/-- C79: the flags may be anywhere among the arguments; unknown ones are rejected, and the others select the memory model. -/
theorem C79_flags : ∀ (args : List (List Char)) (tb tb' : Bool) (files : List (List Char)),
    consumeArgs tb args = some (tb', files) ↔ (∀ a ∈ args, IsFlag a → a = treeBorrowsFlag) ∧
      (tb' = true ↔ tb = true ∨ treeBorrowsFlag ∈ args) ∧ files = args.filter fun a => ¬ IsFlag a
  | [], tb, tb', files => by
    simp only [consumeArgs, Option.some.injEq, Prod.mk.injEq, List.not_mem_nil, or_false, List.filter_nil]
    constructor
    · rintro ⟨rfl, rfl⟩; simp
    · rintro ⟨_, h, rfl⟩; exact ⟨by cases tb <;> cases tb' <;> simp_all, rfl⟩
  | a :: args, tb, tb', files => by
    rw [consumeArgs, consumeArg_eq]
    by_cases h : IsFlag a
    · rw [if_pos h]
      by_cases h' : a = treeBorrowsFlag
      · rw [if_pos h']
        have ih := C79_flags args true tb'
        subst h'
        dsimp only
        cases hc : consumeArgs true args with
        | none =>
          simp only [hc, false_iff, reduceCtorEq, not_and] at ih ⊢
          intro h1 h2 h3
          refine ih files (fun x hx => h1 x (List.mem_cons_of_mem _ hx)) (by simpa using h2) ?_
          rw [h3, List.filter_cons_of_neg (by simp [h])]
        | some r =>
          obtain ⟨t1, f1⟩ := r
          have ih := ih files
          rw [hc] at ih
          simp only [if_true, Option.some.injEq, Prod.mk.injEq] at ih ⊢
          rw [ih, List.filter_cons_of_neg (by simp [h])]
          rw [List.forall_mem_cons]
          simp only [true_or, iff_true, List.mem_cons, or_true, implies_true, true_and]
      · rw [if_neg h']
        simp only [reduceCtorEq, false_iff, not_and]
        exact fun h1 => absurd (h1 a List.mem_cons_self h) h'
    · rw [if_neg h]
      have hne : treeBorrowsFlag ≠ a := fun h' => h (h' ▸ treeBorrowsFlag_isFlag)
      have ih := C79_flags args tb tb'
      dsimp only
      cases hc : consumeArgs tb args with
      | none =>
        simp only [hc, false_iff, reduceCtorEq, not_and] at ih ⊢
        intro h1 h2 h3
        refine ih _ (fun x hx => h1 x (List.mem_cons_of_mem _ hx)) (by simpa [hne] using h2) rfl
      | some r =>
        obtain ⟨t1, f1⟩ := r
        have ih := ih f1
        rw [hc] at ih
        simp only [Bool.false_eq_true, if_false, Option.some.injEq, Prod.mk.injEq] at ih ⊢
        rw [List.filter_cons_of_pos (by simp [h])]
        rw [List.forall_mem_cons, List.mem_cons, or_iff_right hne]
        have hf : f1 = args.filter fun a => ¬ IsFlag a := ((C79_flags args tb t1 f1).1 hc).2.2
        constructor
        · rintro ⟨rfl, rfl⟩
          obtain ⟨h1, h2, h3⟩ := ih.1 ⟨rfl, trivial⟩
          exact ⟨⟨fun h' => absurd h' h, h1⟩, h2, by rw [← h3]⟩
        · rintro ⟨⟨_, h1⟩, h2, rfl⟩
          exact ⟨(ih.2 ⟨h1, h2, hf⟩).1, by rw [← hf]⟩

section
variable [T : Target]

theorem runProgram_ends {M P F : Type} [Memory M P F] [DecidableEq P] (prog : Program) (oracle : List (Choice P)) (e : Err) (text : List Char) :
    (∃ fuel, runProgram M fuel prog oracle = some (e, text)) ↔ ∃ out err, Ends M prog oracle e out err ∧ text = streamText out := by
  constructor
  · rintro ⟨fuel, h⟩
    unfold runProgram at h
    split at h
    · cases h
    · rename_i out err h1
      cases h
      exact ⟨out, err, (C79_run ..).1 ⟨fuel, h1⟩, rfl⟩
  · rintro ⟨out, err, h, rfl⟩
    obtain ⟨fuel, h⟩ := (C79_run ..).2 h
    exact ⟨fuel, by rw [runProgram, h]⟩

theorem exitCode_zero {e : Err} : exitCode e = 0 ↔ e = .machineStop := by cases e <;> simp [exitCode, errorCode]

/-- C79: the exit code of minirun is 0 exactly if there are no unknown flags, there is at most one other argument, the program can be loaded from
there or else from stdin, and it stops regularly under Tree Borrows, if the flag is given, and under the basic model otherwise. Stdout has the
lines that it prints. -/
theorem C79_exit_code (load : Option (List Char) → Option Program) (basic : List (Choice (AllocId × Unit)))
    (tree : List (Choice TBProv)) (args : List (List Char)) (text : List Char) :
    (∃ fuel, minirun fuel load basic tree args = some (0, text)) ↔
      (∀ a ∈ args, IsFlag a → a = treeBorrowsFlag) ∧
      ∃ (file : Option (List Char)) (prog : Program) (out err : List Printed), (args.filter fun a => ¬ IsFlag a) = file.toList ∧
        load file = some prog ∧ text = streamText out ∧
        if treeBorrowsFlag ∈ args then Ends TBMem prog tree .machineStop out err
        else Ends (BasicMem Unit Unit) prog basic .machineStop out err := by
  constructor
  · rintro ⟨fuel, h⟩
    unfold minirun at h
    split at h
    · cases h
    · rename_i tb files h1
      obtain ⟨h2, h3, h4⟩ := (C79_flags ..).1 h1
      split at h
      · cases h
      · rename_i prog h5
        refine ⟨h2, ?_⟩
        split at h
        · cases h
        · rename_i e out' h6
          injection h with h; injection h with h h7
          subst h7
          rw [exitCode_zero] at h
          subst h
          have hfile : ∃ file : Option (List Char), files = file.toList ∧ load file = some prog := by
            split at h5
            · exact ⟨none, rfl, h5⟩
            · exact ⟨some _, rfl, h5⟩
            · cases h5
          obtain ⟨file, rfl, h8⟩ := hfile
          by_cases ht : treeBorrowsFlag ∈ args
          · rw [if_pos (h3.2 (.inr ht))] at h6
            obtain ⟨out, err, h9, h10⟩ := (runProgram_ends ..).1 ⟨fuel, h6⟩
            exact ⟨file, prog, out, err, h4.symm, h8, h10, by rw [if_pos ht]; exact h9⟩
          · rw [if_neg (fun h => by simpa [ht] using h3.1 h)] at h6
            obtain ⟨out, err, h9, h10⟩ := (runProgram_ends ..).1 ⟨fuel, h6⟩
            exact ⟨file, prog, out, err, h4.symm, h8, h10, by rw [if_neg ht]; exact h9⟩
  · rintro ⟨h2, file, prog, out, err, h3, h4, rfl, h5⟩
    have h1 : consumeArgs false args = some (decide (treeBorrowsFlag ∈ args), file.toList) :=
      (C79_flags ..).2 ⟨h2, by simp, h3.symm⟩
    by_cases ht : treeBorrowsFlag ∈ args
    · rw [if_pos ht] at h5
      obtain ⟨fuel, h6⟩ := (runProgram_ends ..).2 ⟨out, err, h5, rfl⟩
      refine ⟨fuel, ?_⟩
      cases file <;> simp only [minirun, h1, Option.toList, h4, ht, decide_true, if_true, h6] <;> rfl
    · rw [if_neg ht] at h5
      obtain ⟨fuel, h6⟩ := (runProgram_ends ..).2 ⟨out, err, h5, rfl⟩
      refine ⟨fuel, ?_⟩
      cases file <;> simp only [minirun, h1, Option.toList, h4, ht, decide_false, Bool.false_eq_true, if_false, h6] <;> rfl

/-- C79: there are no other exit codes than 0 and 101. -/
theorem C79_codes {fuel : Nat} {load : Option (List Char) → Option Program} {basic : List (Choice (AllocId × Unit))}
    {tree : List (Choice TBProv)} {args : List (List Char)} {code : Nat} {text : List Char}
    (h : minirun fuel load basic tree args = some (code, text)) : code = 0 ∨ code = 101 := by
  unfold minirun at h
  split at h
  · cases h; exact .inr rfl
  · split at h
    · cases h; exact .inr rfl
    · split at h
      · cases h
      · rename_i e _ _
        cases h
        cases e <;> simp [exitCode, errorCode]

/-- The arguments without the flags. -/
def withoutFlags (args : List (List Char)) : List (List Char) := args.filter fun a => ¬ IsFlag a

theorem withoutFlags_known (args : List (List Char)) : (∀ a ∈ withoutFlags args, IsFlag a → a = treeBorrowsFlag) ∧
    treeBorrowsFlag ∉ withoutFlags args ∧ ((withoutFlags args).filter fun a => ¬ IsFlag a) = withoutFlags args := by
  refine ⟨fun a ha h => ?_, fun h => ?_, by simp [withoutFlags]⟩
  · simp [withoutFlags, h] at ha
  · simp [withoutFlags, treeBorrowsFlag_isFlag] at h

/-- C79: what a program can do successfully with Tree Borrows, it can also do without. -/
theorem C79_drop_flag {load : Option (List Char) → Option Program} {basic : List (Choice (AllocId × Unit))}
    {tree : List (Choice TBProv)} {args : List (List Char)} {text : List Char} {fuel : Nat}
    (h : minirun fuel load basic tree args = some (0, text)) (ht : treeBorrowsFlag ∈ args) :
    ∃ fuel', minirun fuel' load (tree.map Choice.dropExtra) [] (withoutFlags args) = some (0, text) := by
  obtain ⟨_, file, prog, out, err, h3, h4, h5, h6⟩ := (C79_exit_code ..).1 ⟨fuel, h⟩
  obtain ⟨k1, k2, k3⟩ := withoutFlags_known args
  rw [if_pos ht] at h6
  refine (C79_exit_code ..).2 ⟨k1, file, prog, out, err, k3.trans h3, h4, h5, ?_⟩
  rw [if_neg k2]
  rcases h6 with ⟨h6, rfl, rfl⟩ | ⟨s, h6, h7, rfl, rfl⟩
  · refine .inl ⟨?_, rfl, rfl⟩
    cases hw : prog.checkWf with
    | ok _ =>
      have := (C41_ill_formed (M := TBMem) (F := TBFrame) prog tree).2 hw _ h6
      unfold Soft at this
      simp at this
    | error e =>
      unfold Machine.new at h6 ⊢
      rw [hw] at h6 ⊢
      cases h6
      rfl
  · obtain ⟨t, h8, _, h9, h10, h11⟩ := C71_tree_borrows_only_adds_ub h6
    exact .inr ⟨t, h8, h11 _ (.inl rfl) h7, h9.symm, h10.symm⟩

/-- C79: for a program without references and boxes the flag makes no difference. -/
theorem C79_flag_irrelevant {load : Option (List Char) → Option Program} {args : List (List Char)} {text : List Char}
    (hl : ∀ file prog, load file = some prog → prog.AllPtr (Plain.quiet Path))
    (hk : ∀ a ∈ args, IsFlag a → a = treeBorrowsFlag) (ht : treeBorrowsFlag ∈ args) :
    (∃ fuel basic, minirun fuel load basic [] (withoutFlags args) = some (0, text)) ↔
      ∃ fuel tree, minirun fuel load [] tree args = some (0, text) := by
  obtain ⟨k1, k2, k3⟩ := withoutFlags_known args
  constructor
  · rintro ⟨fuel, basic, h⟩
    obtain ⟨_, file, prog, out, err, h3, h4, h5, h6⟩ := (C79_exit_code ..).1 ⟨fuel, h⟩
    rw [if_neg k2] at h6
    suffices ∃ tree, Ends TBMem prog tree .machineStop out err by
      obtain ⟨tree, h7⟩ := this
      obtain ⟨fuel', h8⟩ := (C79_exit_code load [] tree args text).2
        ⟨hk, file, prog, out, err, k3.symm.trans h3, h4, h5, by rw [if_pos ht]; exact h7⟩
      exact ⟨fuel', tree, h8⟩
    rcases h6 with ⟨h6, rfl, rfl⟩ | ⟨s, h6, h7, h8, h9⟩
    · refine ⟨[], .inl ⟨?_, rfl, rfl⟩⟩
      cases hw : prog.checkWf with
      | ok _ =>
        have := (C41_ill_formed (M := BasicMem Unit Unit) (F := Unit) prog basic).2 hw _ h6
        unfold Soft at this
        simp at this
      | error e =>
        unfold Machine.new at h6 ⊢
        rw [hw] at h6 ⊢
        cases h6
        rfl
    · obtain ⟨o, t, h10, h11, h12, h13⟩ := (C76_same_outcomes (hl _ _ h4) out err .machineStop (.inl rfl)).1 ⟨basic, s, h6, h8, h9, h7⟩
      exact ⟨o, .inr ⟨t, h10, h13, h11, h12⟩⟩
  · rintro ⟨fuel, tree, h⟩
    obtain ⟨fuel', h'⟩ := C79_drop_flag h ht
    exact ⟨fuel', _, h'⟩

end

/-! ### Concrete cases -/

section
attribute [local instance] x86_64
open Ex

/-- Prints a negative number and a Boolean, and then another number. -/
def printProg : Program where
  functions := [(0, {
    locals := [(0, unitTy)]
    args := []
    ret := 0
    callingConvention := .c
    blocks := [
      (0, ⟨[], .intrinsic .printStdout [.constant (.int (-120)) (.int ⟨.signed, 1⟩), .constant (.bool true) .bool] (.local 0) (some 1), .regular⟩),
      (1, ⟨[], .intrinsic .printStdout [.constant (.int 0) u32] (.local 0) (some 2), .regular⟩),
      (2, ⟨[], .intrinsic .exit [] (.local 0) none, .regular⟩)]
    start := 0 })]
  start := 0
  globals := []
  traits := []
  vtables := []

example : getStdout (BasicMem Unit Unit) 3 printProg [.int 16, .int 32, .int 0, .int 0, .int 0] =
    some (.ok ["-120".toList, "true".toList, "0".toList]) := by decide +kernel

example : minirun 3 (fun f => if f = some "prog.json".toList then some printProg else none) [] [.int 16, .int 32, .int 0, .int 0, .int 0]
    ["prog.json".toList, "--minirust-tree-borrows".toList] = some (0, "-120\ntrue\n0\n".toList) := by decide +kernel

example : minirun 3 (fun _ => some printProg) [] [] ["a".toList, "b".toList] = some (101, []) ∧
    minirun 3 (fun _ => some printProg) [] [] ["--minirust-treeborrows".toList] = some (101, []) := by decide +kernel

-- `C79_drop_flag` and `C79_flag_irrelevant` apply to a program with raw pointers.
example : ∃ fuel basic, minirun fuel (fun _ => some rawProg) basic [] [] = some (0, "8\n9\n".toList) := by
  have h : minirun 10 (fun _ => some rawProg) [] rawRun ["--minirust-tree-borrows".toList] = some (0, "8\n9\n".toList) := by decide +kernel
  exact (C79_flag_irrelevant (args := ["--minirust-tree-borrows".toList]) (fun _ _ h => by cases h; exact rawProg_quiet)
    (by decide) (by decide)).2 ⟨_, _, h⟩

end
end MiniRust
