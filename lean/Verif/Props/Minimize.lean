import Verif.Minimize
import Verif.Spec.Minimize
import Verif.Props.Run
/-
C85: the command line of minimize.
-/
namespace MiniRust

theorem stripPrefix_eq {pre : String} {arg rest : List Char} : stripPrefix pre arg = some rest ↔ arg = pre.toList ++ rest := by
  unfold stripPrefix
  constructor
  · intro h
    split at h
    · rename_i h1
      obtain ⟨r, rfl⟩ := List.isPrefixOf_iff_prefix.1 h1
      cases h
      rw [List.drop_left' rfl]
    · cases h
  · rintro rfl
    rw [if_pos (List.isPrefixOf_iff_prefix.2 (List.prefix_append _ _)), List.drop_left' rfl]

theorem stripPrefix_none {pre : String} {arg : List Char} : stripPrefix pre arg = none ↔ ¬ ∃ rest, arg = pre.toList ++ rest := by
  constructor
  · rintro h ⟨r, h1⟩
    rw [stripPrefix_eq.2 h1] at h; cases h
  · intro h
    cases h1 : stripPrefix pre arg with
    | none => rfl
    | some r => exact absurd ⟨r, stripPrefix_eq.1 h1⟩ h

theorem dumpFlag_eq (d : List Char) : dumpFlag d = "--minimize-".toList ++ ("dump=".toList ++ d) := by
  unfold dumpFlag
  rw [← List.append_assoc]
  congr 1

theorem roundtripFlag_eq : roundtripFlag = "--minimize-".toList ++ "check-json-roundtrip".toList := by decide

theorem dumpFlag_isFlag (d : List Char) : IsMinimizeFlag (dumpFlag d) := ⟨_, dumpFlag_eq d⟩
theorem roundtripFlag_isFlag : IsMinimizeFlag roundtripFlag := ⟨_, roundtripFlag_eq⟩

theorem not_both {a : List Char} (h : IsMinimizeFlag a) : ¬ IsFlag a := by
  rintro ⟨r, h2⟩
  obtain ⟨r', h1⟩ := h
  have h3 : a.take 7 = "--minim".toList := by rw [h1]; rfl
  have h4 : a.take 7 = "--minir".toList := by rw [h2]; rfl
  rw [h3] at h4
  revert h4; decide

theorem roundtrip_ne_dump (d : List Char) : roundtripFlag ≠ dumpFlag d := by
  intro h
  have h1 := congrArg (fun l => l.take 13) h
  have h2 : (dumpFlag d).take 13 = "--minimize-du".toList := rfl
  have h3 : roundtripFlag.take 13 = "--minimize-ch".toList := rfl
  simp only [h2, h3] at h1
  revert h1; decide

/-- What one argument does. -/
theorem parseArg_eq {c c' : MinimizeConfig} {arg : List Char} {b : Bool} : parseArg c arg = some (c', b) ↔
    (b = false ∧ ((arg = roundtripFlag ∧ c' = { c with checkJsonRoundtrip := true }) ∨
      (∃ d, arg = dumpFlag d ∧ c.dump = none ∧ c' = { c with dump := some d }) ∨
      (arg = treeBorrowsFlag ∧ c' = { c with treeBorrows := true }))) ∨
    (b = true ∧ IsOther arg ∧ c' = c) := by
  unfold parseArg
  cases h : stripPrefix "--minimize-" arg with
  | some rest =>
    have h1 := stripPrefix_eq.1 h
    have hm : IsMinimizeFlag arg := ⟨rest, h1⟩
    dsimp only
    cases hd : stripPrefix "dump=" rest with
    | some d =>
      have h2 := stripPrefix_eq.1 hd
      have h3 : arg = dumpFlag d := by rw [h1, h2, dumpFlag_eq]
      dsimp only
      constructor
      · intro h4
        split at h4
        · cases h4
        · rename_i h5
          cases h4
          exact .inl ⟨rfl, .inr (.inl ⟨d, h3, by simpa using h5, rfl⟩)⟩
      · rintro (⟨rfl, ⟨h4, _⟩ | ⟨d', h4, h5, rfl⟩ | ⟨h4, _⟩⟩ | ⟨_, h4, _⟩)
        · exact absurd (h4.symm.trans h3) (roundtrip_ne_dump d)
        · have : d = d' := List.append_cancel_left (h3.symm.trans h4)
          subst this
          rw [if_neg (by simp [h5])]
        · exact absurd (h4 ▸ treeBorrowsFlag_isFlag) (not_both hm)
        · exact absurd hm h4.1
    | none =>
      have h2 := stripPrefix_none.1 hd
      dsimp only
      have hnd : ∀ d, arg ≠ dumpFlag d := fun d h3 => h2 ⟨d, List.append_cancel_left (h1.symm.trans (h3.trans (dumpFlag_eq d)))⟩
      constructor
      · intro h4
        split at h4
        · rename_i h5
          cases h4
          exact .inl ⟨rfl, .inl ⟨by rw [h1, h5, roundtripFlag_eq], rfl⟩⟩
        · cases h4
      · rintro (⟨rfl, ⟨h4, rfl⟩ | ⟨d', h4, _⟩ | ⟨h4, _⟩⟩ | ⟨_, h4, _⟩)
        · have : rest = "check-json-roundtrip".toList := List.append_cancel_left (h1.symm.trans (h4.trans roundtripFlag_eq))
          rw [if_pos this]
        · exact absurd h4 (hnd d')
        · exact absurd (h4 ▸ treeBorrowsFlag_isFlag) (not_both hm)
        · exact absurd hm h4.1
  | none =>
    have hm : ¬ IsMinimizeFlag arg := stripPrefix_none.1 h
    dsimp only
    rw [consumeArg_eq]
    by_cases h1 : IsFlag arg
    · rw [if_pos h1]
      by_cases h2 : arg = treeBorrowsFlag
      · rw [if_pos h2]
        constructor
        · intro h3; cases h3; exact .inl ⟨rfl, .inr (.inr ⟨h2, rfl⟩)⟩
        · rintro (⟨rfl, ⟨h4, _⟩ | ⟨d', h4, _⟩ | ⟨_, rfl⟩⟩ | ⟨_, h4, _⟩)
          · exact absurd (h4 ▸ roundtripFlag_isFlag) hm
          · exact absurd (h4 ▸ dumpFlag_isFlag d') hm
          · rfl
          · exact absurd h1 h4.2
      · rw [if_neg h2]
        refine ⟨fun h => (by cases h), ?_⟩
        rintro (⟨rfl, ⟨h4, _⟩ | ⟨d', h4, _⟩ | ⟨h4, _⟩⟩ | ⟨_, h4, _⟩)
        · exact absurd (h4 ▸ roundtripFlag_isFlag) hm
        · exact absurd (h4 ▸ dumpFlag_isFlag d') hm
        · exact absurd h4 h2
        · exact absurd h1 h4.2
    · rw [if_neg h1]
      constructor
      · intro h3; cases h3; exact .inr ⟨rfl, ⟨hm, h1⟩, rfl⟩
      · rintro (⟨rfl, ⟨h4, _⟩ | ⟨d', h4, _⟩ | ⟨h4, _⟩⟩ | ⟨rfl, h4, rfl⟩)
        · exact absurd (h4 ▸ roundtripFlag_isFlag) hm
        · exact absurd (h4 ▸ dumpFlag_isFlag d') hm
        · exact absurd (h4 ▸ treeBorrowsFlag_isFlag) h1
        · rfl

theorem dumps_inj : ∀ {o o' : Option (List Char)}, o'.toList.map dumpFlag = o.toList.map dumpFlag → o' = o
  | none, none, _ => rfl
  | none, some _, h => nomatch h
  | some _, none, h => nomatch h
  | some _, some _, h => congrArg some (List.append_cancel_left (List.cons.inj h).1)

open Classical in
/-- What the arguments do, from any configuration. -/
theorem parseArgs_eq : ∀ {args : List (List Char)} {c c' : MinimizeConfig} {rest : List (List Char)}, parseArgs c args = some (c', rest) ↔
    FlagsKnown args ∧
    c'.dump.toList.map dumpFlag = c.dump.toList.map dumpFlag ++ (args.filter fun a => ∃ d, a = dumpFlag d) ∧
    (c'.checkJsonRoundtrip = true ↔ c.checkJsonRoundtrip = true ∨ roundtripFlag ∈ args) ∧
    (c'.treeBorrows = true ↔ c.treeBorrows = true ∨ treeBorrowsFlag ∈ args) ∧
    rest = args.filter fun a => IsOther a
  | [], c, c', rest => by
    rw [parseArgs]
    constructor
    · intro h
      obtain ⟨rfl, rfl⟩ := Prod.mk.inj (Option.some.inj h)
      exact ⟨fun a h => absurd h List.not_mem_nil, (List.append_nil _).symm, by simp, by simp, rfl⟩
    · rintro ⟨_, h1, h2, h3, rfl⟩
      have e1 := dumps_inj (h1.trans (List.append_nil _))
      have e2 : c'.checkJsonRoundtrip = c.checkJsonRoundtrip := Bool.eq_iff_iff.2 (h2.trans (or_iff_left List.not_mem_nil))
      have e3 : c'.treeBorrows = c.treeBorrows := Bool.eq_iff_iff.2 (h3.trans (or_iff_left List.not_mem_nil))
      have : c' = c := by cases c; cases c'; cases e1; cases e2; cases e3; rfl
      rw [this]; rfl
  | a :: args, c, c', rest => by
    have key : parseArgs c (a :: args) = some (c', rest) ↔ ∃ c1 b r, parseArg c a = some (c1, b) ∧ parseArgs c1 args = some (c', r) ∧
        rest = if b then a :: r else r := by
      rw [parseArgs]
      constructor
      · intro h
        split at h
        · cases h
        · rename_i c1 b h1
          split at h
          · cases h
          · rename_i c2 r h2
            cases h
            exact ⟨c1, b, r, h1, h2, rfl⟩
      · rintro ⟨c1, b, r, h1, h2, rfl⟩
        rw [h1]
        dsimp only
        rw [h2]
    rw [key]
    simp only [parseArgs_eq (args := args)]
    have other : ∀ {x}, ¬ IsOther x → (List.filter (fun a => decide (IsOther a)) (x :: args)) = args.filter fun a => IsOther a :=
      fun h => List.filter_cons_of_neg (by simpa using h)
    constructor
    · rintro ⟨c1, b, r, h1, ⟨h2, h3, h4, h5, rfl⟩, rfl⟩
      rcases parseArg_eq.1 h1 with ⟨rfl, ⟨rfl, rfl⟩ | ⟨d, rfl, h6, rfl⟩ | ⟨rfl, rfl⟩⟩ | ⟨rfl, h6, rfl⟩
      · refine ⟨?_, ?_, ?_, ?_, ?_⟩
        · intro x hx
          rcases List.mem_cons.1 hx with rfl | hx
          · exact ⟨fun _ => .inl rfl, fun h => absurd h (not_both roundtripFlag_isFlag)⟩
          · exact h2 x hx
        · rw [h3, List.filter_cons_of_neg (by simpa using fun d => roundtrip_ne_dump d)]
        · simp [h4]
        · rw [h5, List.mem_cons, or_iff_right (a := treeBorrowsFlag = roundtripFlag)]
          intro h; exact not_both roundtripFlag_isFlag (h ▸ treeBorrowsFlag_isFlag)
        · rw [other fun h => h.1 roundtripFlag_isFlag]; rfl
      · refine ⟨?_, ?_, ?_, ?_, ?_⟩
        · intro x hx
          rcases List.mem_cons.1 hx with rfl | hx
          · exact ⟨fun _ => .inr ⟨d, rfl⟩, fun h => absurd h (not_both (dumpFlag_isFlag d))⟩
          · exact h2 x hx
        · rw [h3, List.filter_cons_of_pos (by simp only [decide_eq_true_eq]; exact ⟨d, rfl⟩), h6]; rfl
        · rw [h4, List.mem_cons, or_iff_right (a := roundtripFlag = dumpFlag d)]
          exact roundtrip_ne_dump d
        · rw [h5, List.mem_cons, or_iff_right (a := treeBorrowsFlag = dumpFlag d)]
          intro h; exact not_both (dumpFlag_isFlag d) (h ▸ treeBorrowsFlag_isFlag)
        · rw [other fun h => h.1 (dumpFlag_isFlag d)]; rfl
      · refine ⟨?_, ?_, ?_, ?_, ?_⟩
        · intro x hx
          rcases List.mem_cons.1 hx with rfl | hx
          · exact ⟨fun h => absurd treeBorrowsFlag_isFlag (not_both h), fun _ => rfl⟩
          · exact h2 x hx
        · rw [h3, List.filter_cons_of_neg]
          simp only [decide_eq_true_eq]
          rintro ⟨d, h⟩
          exact not_both (dumpFlag_isFlag d) (h ▸ treeBorrowsFlag_isFlag)
        · rw [h4, List.mem_cons, or_iff_right (a := roundtripFlag = treeBorrowsFlag)]
          intro h; exact not_both roundtripFlag_isFlag (h ▸ treeBorrowsFlag_isFlag)
        · simp [h5]
        · rw [other fun h => h.2 treeBorrowsFlag_isFlag]; rfl
      · refine ⟨?_, ?_, ?_, ?_, ?_⟩
        · intro x hx
          rcases List.mem_cons.1 hx with rfl | hx
          · exact ⟨fun h => absurd h h6.1, fun h => absurd h h6.2⟩
          · exact h2 x hx
        · rw [h3, List.filter_cons_of_neg]
          simp only [decide_eq_true_eq]
          rintro ⟨d, h⟩
          exact h6.1 (h ▸ dumpFlag_isFlag d)
        · rw [h4, List.mem_cons, or_iff_right (a := roundtripFlag = a)]
          intro h; exact h6.1 (h ▸ roundtripFlag_isFlag)
        · rw [h5, List.mem_cons, or_iff_right (a := treeBorrowsFlag = a)]
          intro h; exact h6.2 (h ▸ treeBorrowsFlag_isFlag)
        · rw [List.filter_cons_of_pos (by simpa using h6)]; rfl
    · rintro ⟨h2, h3, h4, h5, rfl⟩
      have h2' : FlagsKnown args := fun x hx => h2 x (List.mem_cons_of_mem _ hx)
      obtain ⟨k1, k2⟩ := h2 a List.mem_cons_self
      by_cases hm : IsMinimizeFlag a
      · rcases k1 hm with rfl | ⟨d, rfl⟩
        · refine ⟨_, _, _, parseArg_eq.2 (.inl ⟨rfl, .inl ⟨rfl, rfl⟩⟩), ⟨h2', ?_, ?_, ?_, rfl⟩, ?_⟩
          · rw [h3, List.filter_cons_of_neg (by simpa using fun d => roundtrip_ne_dump d)]
          · simp [h4]
          · rw [h5, List.mem_cons, or_iff_right (a := treeBorrowsFlag = roundtripFlag)]
            intro h; exact not_both roundtripFlag_isFlag (h ▸ treeBorrowsFlag_isFlag)
          · rw [other fun h => h.1 roundtripFlag_isFlag]; rfl
        · rw [List.filter_cons_of_pos (by simp only [decide_eq_true_eq]; exact ⟨d, rfl⟩)] at h3
          have hn : c.dump = none := by
            cases hc : c.dump with
            | none => rfl
            | some d0 =>
              rw [hc] at h3
              have := congrArg List.length h3
              simp only [List.length_map, Option.toList_some, List.length_append, List.length_cons, List.length_nil] at this
              have : c'.dump.toList.length ≤ 1 := by cases c'.dump <;> simp
              omega
          refine ⟨_, _, _, parseArg_eq.2 (.inl ⟨rfl, .inr (.inl ⟨d, rfl, hn, rfl⟩)⟩), ⟨h2', ?_, ?_, ?_, rfl⟩, ?_⟩
          · rw [h3, hn]; rfl
          · rw [h4, List.mem_cons, or_iff_right (a := roundtripFlag = dumpFlag d)]
            exact roundtrip_ne_dump d
          · rw [h5, List.mem_cons, or_iff_right (a := treeBorrowsFlag = dumpFlag d)]
            intro h; exact not_both (dumpFlag_isFlag d) (h ▸ treeBorrowsFlag_isFlag)
          · rw [other fun h => h.1 (dumpFlag_isFlag d)]; rfl
      · have hnd : ¬ ∃ d, a = dumpFlag d := fun ⟨d, h⟩ => hm (h ▸ dumpFlag_isFlag d)
        rw [List.filter_cons_of_neg (by simpa using hnd)] at h3
        rw [List.mem_cons, or_iff_right (a := roundtripFlag = a) (fun h => hm (h ▸ roundtripFlag_isFlag))] at h4
        by_cases hf : IsFlag a
        · have := k2 hf
          subst this
          refine ⟨_, _, _, parseArg_eq.2 (.inl ⟨rfl, .inr (.inr ⟨rfl, rfl⟩)⟩), ⟨h2', h3, h4, ?_, rfl⟩, ?_⟩
          · simp [h5]
          · rw [other fun h => h.2 treeBorrowsFlag_isFlag]; rfl
        · refine ⟨_, _, _, parseArg_eq.2 (.inr ⟨rfl, ⟨hm, hf⟩, rfl⟩), ⟨h2', h3, h4, ?_, rfl⟩, ?_⟩
          · rw [h5, List.mem_cons, or_iff_right (a := treeBorrowsFlag = a)]
            intro h; exact hf (h ▸ treeBorrowsFlag_isFlag)
          · rw [List.filter_cons_of_pos (by simp only [decide_eq_true_eq]; exact ⟨hm, hf⟩)]; rfl

open Classical in
/-- C85: minimize accepts exactly the arguments with only known flags and at most one that asks for a dump. The flags have the effect that they
should have wherever they are, and rustc gets the other arguments, in the same order. -/
theorem C85_flags (args : List (List Char)) (config : MinimizeConfig) (rest : List (List Char)) :
    parseArgs {} args = some (config, rest) ↔
      FlagsKnown args ∧ dumpFlags args = config.dump.toList.map dumpFlag ∧ (config.checkJsonRoundtrip = true ↔ roundtripFlag ∈ args) ∧
      (config.treeBorrows = true ↔ treeBorrowsFlag ∈ args) ∧ rest = args.filter fun a => IsOther a := by
  rw [parseArgs_eq]
  simp only [Option.toList_none, List.map_nil, List.nil_append, Bool.false_eq_true, false_or]
  unfold dumpFlags
  exact and_congr_right fun _ => and_congr_left fun _ => eq_comm

theorem parseArgs_others (c : MinimizeConfig) (args : List (List Char)) : ∀ {pre : List (List Char)}, (∀ a ∈ pre, IsOther a) →
    parseArgs c (pre ++ args) = (parseArgs c args).map fun r => (r.1, pre ++ r.2)
  | [], _ => by cases h : parseArgs c args <;> simp [h]
  | a :: pre, h => by
    rw [List.cons_append, parseArgs, parseArg_eq.2 (.inr ⟨rfl, h a List.mem_cons_self, rfl⟩)]
    dsimp only
    rw [parseArgs_others c args fun x hx => h x (List.mem_cons_of_mem _ hx)]
    cases h : parseArgs c args <;> simp

theorem isOther_of_take {a : List Char} (h : a.take 6 ≠ "--mini".toList) : IsOther a := by
  constructor
  · rintro ⟨r, rfl⟩; exact h rfl
  · rintro ⟨r, rfl⟩; exact h rfl

theorem defaultArgs_other : ∀ a ∈ defaultArgs, IsOther a := fun a h =>
  isOther_of_take ((by decide : ∀ a ∈ defaultArgs, a.take 6 ≠ "--mini".toList) a h)

theorem defaultArgs_eq : defaultArgs = ["--cfg=miri", "-Zalways-encode-mir", "-Zextra-const-ub-checks", "-Zmir-emit-retag", "-Zmir-opt-level=0",
    "-Zmir-enable-passes=-CheckAlignment", "-Zmir-preserve-ub", "-Zub-checks=false"].map String.toList := rfl

theorem probes_eq (exe : List Char) (args : List (List Char)) : probes (exe :: (defaultArgs ++ args)) = true ↔ AsksRustc exe args := by
  have hd : ∀ a ∈ defaultArgs, ¬ (a = "-vV".toList ∨ (stripPrefix "--print=" a).isSome = true) := by decide
  unfold probes AsksRustc
  simp only [List.any_eq_true, Bool.or_eq_true, decide_eq_true_eq, Option.isSome_iff_exists, stripPrefix_eq] at hd ⊢
  constructor
  · rintro ⟨a, h1, h2⟩
    refine ⟨a, ?_, h2⟩
    rcases List.mem_cons.1 h1 with rfl | h1
    · exact List.mem_cons_self
    · rcases List.mem_append.1 h1 with h1 | h1
      · exact absurd h2 (hd a h1)
      · exact List.mem_cons_of_mem _ h1
  · rintro ⟨a, h1, h2⟩
    refine ⟨a, ?_, h2⟩
    rcases List.mem_cons.1 h1 with rfl | h1
    · exact List.mem_cons_self
    · exact List.mem_cons_of_mem _ (List.mem_append_right _ h1)

section
variable [T : Target]

theorem minimize_eq {env : MinimizeEnv} {exe : List Char} (he : Translates env exe) (fuel : Nat) (basic : List (Choice (AllocId × Unit)))
    (tree : List (Choice TBProv)) (args : List (List Char)) :
    minimize fuel env basic tree exe args = match parseArgs {} args with
      | none => some (101, [])
      | some (config, _) => match env.compile (argsForRustc env exe args) with
        | .error code => some (code, [])
        | .ok prog => minimizeProg fuel env basic tree config prog := by
  classical
  have key : ∃ pre, allArgs env exe args = some (pre ++ args) ∧ (∀ a ∈ pre, IsOther a) ∧
      argsForRustc env exe args = pre ++ args.filter fun a => IsOther a := by
    have hs : IsOther ("--sysroot=".toList ++ env.sysrootDir) := isOther_of_take (by
      rw [show ("--sysroot=".toList ++ env.sysrootDir).take 6 = "--sysr".toList from rfl]; decide)
    unfold allArgs
    dsimp only
    rw [if_neg he.notOnly]
    by_cases h1 : env.sysrootMode = some "off".toList ∨ AsksRustc exe args
    · refine ⟨exe :: defaultArgs, ?_, ?_, ?_⟩
      · by_cases h2 : env.sysrootMode = some "off".toList
        · rw [if_pos h2]; rfl
        · rw [if_neg h2, if_pos ((probes_eq ..).2 (h1.resolve_left h2))]; rfl
      · intro a ha
        rcases List.mem_cons.1 ha with rfl | ha
        · exact he.exe
        · exact defaultArgs_other a ha
      · rw [argsForRustc, if_pos h1]; rfl
    · refine ⟨exe :: ("--sysroot=".toList ++ env.sysrootDir) :: defaultArgs, ?_, ?_, ?_⟩
      · rw [if_neg fun h => h1 (.inl h), if_neg fun h => h1 (.inr ((probes_eq ..).1 h))]; rfl
      · intro a ha
        rcases List.mem_cons.1 ha with rfl | ha
        · exact he.exe
        · rcases List.mem_cons.1 ha with rfl | ha
          · exact hs
          · exact defaultArgs_other a ha
      · rw [argsForRustc, if_neg h1]; rfl
  obtain ⟨pre, h1, h2, h3⟩ := key
  unfold minimize
  rw [h1, he.notRustc]
  dsimp only
  rw [if_neg Bool.false_ne_true, parseArgs_others _ _ h2]
  cases h4 : parseArgs {} args with
  | none => rfl
  | some r =>
    obtain ⟨config, rest⟩ := r
    obtain ⟨_, _, _, _, rfl⟩ := (C85_flags ..).1 h4
    simp only [Option.map_some]
    rw [h3]
    cases env.compile (pre ++ args.filter fun a => IsOther a) <;> rfl

omit T in
/-- The configuration for acceptable arguments. -/
theorem config_of {args : List (List Char)} {dump : Option (List Char)} (hk : FlagsKnown args) (hd : dumpFlags args = dump.toList.map dumpFlag) :
    ∃ config rest, parseArgs {} args = some (config, rest) ∧ config.dump = dump ∧ (config.checkJsonRoundtrip = true ↔ roundtripFlag ∈ args) ∧
      (config.treeBorrows = true ↔ treeBorrowsFlag ∈ args) := by
  classical
  exact ⟨⟨dump, decide (roundtripFlag ∈ args), decide (treeBorrowsFlag ∈ args)⟩, _,
    (C85_flags ..).2 ⟨hk, hd, by simp, by simp, rfl⟩, rfl, by simp, by simp⟩

/-- C85: with an unknown flag, or with two that ask for a dump, minimize fails without compiling or running anything. -/
theorem C85_bad_flags {env : MinimizeEnv} {exe : List Char} {args : List (List Char)} (he : Translates env exe)
    (h : ¬ FlagsKnown args ∨ 2 ≤ (dumpFlags args).length) (fuel : Nat) (basic : List (Choice (AllocId × Unit))) (tree : List (Choice TBProv)) :
    minimize fuel env basic tree exe args = some (101, []) := by
  rw [minimize_eq he]
  cases h1 : parseArgs {} args with
  | none => rfl
  | some r =>
    obtain ⟨config, rest⟩ := r
    obtain ⟨h2, h3, _⟩ := (C85_flags ..).1 h1
    rcases h with h | h
    · exact absurd h2 h
    · have := congrArg List.length h3
      rw [List.length_map] at this
      have : config.dump.toList.length ≤ 1 := by cases config.dump <;> simp
      omega

/-- C85: if rustc or the translation fails then its exit code is that of minimize. -/
theorem C85_compile_error {env : MinimizeEnv} {exe : List Char} {args : List (List Char)} (he : Translates env exe) (hk : FlagsKnown args)
    (hd : (dumpFlags args).length ≤ 1) {code : Nat} (hc : env.compile (argsForRustc env exe args) = .error code) (fuel : Nat)
    (basic : List (Choice (AllocId × Unit))) (tree : List (Choice TBProv)) :
    minimize fuel env basic tree exe args = some (code, []) := by
  have : ∃ d : Option (List Char), dumpFlags args = d.toList.map dumpFlag := by
    have hm : ∀ a ∈ dumpFlags args, ∃ d, a = dumpFlag d := by
      intro a ha
      unfold dumpFlags at ha
      simpa using (List.mem_filter.1 ha).2
    match h : dumpFlags args with
    | [] => exact ⟨none, rfl⟩
    | [a] =>
      obtain ⟨d, rfl⟩ := hm a (by rw [h]; exact List.mem_cons_self)
      exact ⟨some d, rfl⟩
    | _ :: _ :: _ => rw [h] at hd; simp at hd
  obtain ⟨d, hd⟩ := this
  obtain ⟨config, rest, h1, _⟩ := config_of hk hd
  rw [minimize_eq he, h1, hc]

/-- C85: with a flag that asks for a dump minimize prints the program in that format, and does not run it. -/
theorem C85_dump {env : MinimizeEnv} {exe : List Char} {args : List (List Char)} (he : Translates env exe) (hk : FlagsKnown args) {format : List Char}
    (hd : dumpFlags args = [dumpFlag format]) {prog : Program} (hc : env.compile (argsForRustc env exe args) = .ok prog) (fuel : Nat)
    (basic : List (Choice (AllocId × Unit))) (tree : List (Choice TBProv)) :
    (format = "pretty".toList → minimize fuel env basic tree exe args = some (0, env.pretty prog)) ∧
    (format = "json".toList → minimize fuel env basic tree exe args = some (0, env.json prog)) ∧
    (format ≠ "pretty".toList → format ≠ "json".toList → minimize fuel env basic tree exe args = some (101, [])) := by
  obtain ⟨config, rest, h1, h2, _⟩ := config_of (dump := some format) hk hd
  rw [minimize_eq he, h1, hc]
  dsimp only
  unfold minimizeProg
  rw [h2]
  dsimp only
  refine ⟨?_, ?_, fun h3 h4 => ?_⟩
  · rintro rfl
    rw [if_pos rfl]
  · rintro rfl
    rw [if_neg (by decide), if_pos rfl]
  · rw [if_neg h3, if_neg h4]; rfl

/-- C85: without such a flag minimize runs the program. The exit code is 0 exactly if it stops regularly under the memory model selected, and the
test of the JSON format, if asked for, succeeds. Stdout has the lines that the program prints. -/
theorem C85_run {env : MinimizeEnv} {exe : List Char} {args : List (List Char)} (he : Translates env exe) (hk : FlagsKnown args)
    (hd : dumpFlags args = []) {prog : Program} (hc : env.compile (argsForRustc env exe args) = .ok prog)
    (basic : List (Choice (AllocId × Unit))) (tree : List (Choice TBProv)) (text : List Char) :
    (∃ fuel, minimize fuel env basic tree exe args = some (0, text)) ↔
      (roundtripFlag ∈ args → env.roundtrips prog = true) ∧ ∃ out err, text = streamText out ∧
        if treeBorrowsFlag ∈ args then Ends TBMem prog tree .machineStop out err
        else Ends (BasicMem Unit Unit) prog basic .machineStop out err := by
  obtain ⟨config, rest, h1, h2, h3, h4⟩ := config_of (dump := none) hk hd
  simp only [minimize_eq he, h1, hc, minimizeProg, h2]
  by_cases hr : roundtripFlag ∈ args ∧ env.roundtrips prog = false
  · rw [h3.2 hr.1, hr.2]
    simp [hr.1, errorCode]
  · have e1 : (config.checkJsonRoundtrip && !env.roundtrips prog) = false := by
      cases h5 : config.checkJsonRoundtrip with
      | false => rfl
      | true =>
        cases h6 : env.roundtrips prog with
        | true => rfl
        | false => exact absurd ⟨h3.1 h5, h6⟩ hr
    have e2 : roundtripFlag ∈ args → env.roundtrips prog = true := fun h => by
      cases h6 : env.roundtrips prog with
      | true => rfl
      | false => exact absurd ⟨h, h6⟩ hr
    rw [e1]
    simp only [Bool.false_eq_true, if_false]
    rw [and_iff_right e2]
    by_cases ht : treeBorrowsFlag ∈ args
    · rw [h4.2 ht]
      simp only [ht, if_true]
      constructor
      · rintro ⟨fuel, h⟩
        split at h
        · cases h
        · rename_i e out h5
          obtain ⟨h6, rfl⟩ := Prod.mk.inj (Option.some.inj h)
          rw [exitCode_zero.1 h6] at h5
          obtain ⟨o, er, h7, h8⟩ := (runProgram_ends ..).1 ⟨fuel, h5⟩
          exact ⟨o, er, h8, h7⟩
      · rintro ⟨o, er, h8, h7⟩
        obtain ⟨fuel, h5⟩ := (runProgram_ends ..).2 ⟨o, er, h7, h8⟩
        exact ⟨fuel, by rw [h5]; rfl⟩
    · rw [Bool.eq_false_iff.2 fun h => ht (h4.1 h)]
      simp only [ht, Bool.false_eq_true, if_false]
      constructor
      · rintro ⟨fuel, h⟩
        split at h
        · cases h
        · rename_i e out h5
          obtain ⟨h6, rfl⟩ := Prod.mk.inj (Option.some.inj h)
          rw [exitCode_zero.1 h6] at h5
          obtain ⟨o, er, h7, h8⟩ := (runProgram_ends ..).1 ⟨fuel, h5⟩
          exact ⟨o, er, h8, h7⟩
      · rintro ⟨o, er, h8, h7⟩
        obtain ⟨fuel, h5⟩ := (runProgram_ends ..).2 ⟨o, er, h7, h8⟩
        exact ⟨fuel, by rw [h5]; rfl⟩

/-- C85: dumping the program in JSON and running the dump with minirun is the same as running the crate with minimize, if the JSON format preserves the
program: the same choices lead to the same exit code and the same text on stdout. -/
theorem C85_pipeline {env : MinimizeEnv} {exe : List Char} {args : List (List Char)} (he : Translates env exe) (hk : FlagsKnown args)
    (hd : dumpFlags args = []) (hr : roundtripFlag ∉ args) {prog : Program} (hc : env.compile (argsForRustc env exe args) = .ok prog)
    {parse : List Char → Option Program} (hj : parse (env.json prog) = some prog) (fuel : Nat) (basic : List (Choice (AllocId × Unit)))
    (tree : List (Choice TBProv)) :
    ∃ dump, minimize fuel env basic tree exe (dumpFlag "json".toList :: args) = some (0, dump) ∧
      ∀ load : Option (List Char) → Option Program, load none = parse dump →
        minirun fuel load basic tree (args.filter fun a => a = treeBorrowsFlag) = minimize fuel env basic tree exe args := by
  classical
  have hother : ¬ IsOther (dumpFlag "json".toList) := fun h => h.1 (dumpFlag_isFlag _)
  have ha : argsForRustc env exe (dumpFlag "json".toList :: args) = argsForRustc env exe args := by
    unfold argsForRustc
    have : AsksRustc exe (dumpFlag "json".toList :: args) ↔ AsksRustc exe args := by
      unfold AsksRustc
      have hn : ¬ (dumpFlag "json".toList = "-vV".toList ∨ ∃ rest, dumpFlag "json".toList = "--print=".toList ++ rest) := by
        rintro (h | ⟨r, h⟩)
        · revert h; decide
        · have := congrArg (fun l => l.take 6) h
          have h2 : ("--print=".toList ++ r).take 6 = "--prin".toList := rfl
          simp only [h2] at this
          revert this; decide
      simp only [List.mem_cons, exists_eq_or_imp, hn, false_or]
    rw [List.filter_cons_of_neg (by simpa using hother)]
    simp only [this]
  have hdump := (C85_dump (env := env) (exe := exe) (args := dumpFlag "json".toList :: args) (format := "json".toList) (prog := prog) he
    (by
      intro a h
      rcases List.mem_cons.1 h with rfl | h
      · exact ⟨fun _ => .inr ⟨_, rfl⟩, fun h => absurd h (not_both (dumpFlag_isFlag _))⟩
      · exact hk a h)
    (by
      unfold dumpFlags at hd ⊢
      rw [List.filter_cons_of_pos (by simp only [decide_eq_true_eq]; exact ⟨_, rfl⟩), hd])
    (ha ▸ hc) fuel basic tree).2.1 rfl
  refine ⟨_, hdump, fun load hl => ?_⟩
  obtain ⟨config, rest, h1, h2, h3, h4⟩ := config_of (dump := none) hk hd
  have hf : consumeArgs false (args.filter fun a => a = treeBorrowsFlag) = some (config.treeBorrows, []) := by
    refine (C79_flags ..).2 ⟨fun a h _ => by simpa using (List.mem_filter.1 h).2, by simp [h4], ?_⟩
    symm
    rw [List.filter_eq_nil_iff]
    intro a h
    have : a = treeBorrowsFlag := by simpa using (List.mem_filter.1 h).2
    simp [this, treeBorrowsFlag_isFlag]
  rw [minimize_eq he, h1, hc]
  dsimp only
  unfold minimizeProg minirun
  rw [h2, hf, Bool.eq_false_iff.2 fun h => hr (h3.1 h)]
  dsimp only
  rw [hl, hj]
  rfl

end

/-! ### Concrete cases -/

section
attribute [local instance] x86_64
open Ex

/-- An environment in which a crate compiles if rustc gets the right sysroot, no flags, and one file. -/
def demoEnv : MinimizeEnv where
  sysrootMode := none
  beRustc := false
  sysrootDir := "/s".toList
  rustc _ := (0, "rustc".toList)
  compile args := if args = ["minimize".toList, "--sysroot=/s".toList] ++ defaultArgs ++ ["a.rs".toList, "-O".toList] then .ok printProg else .error 1
  pretty _ := "fn".toList
  json _ := "{}".toList
  roundtrips _ := true

theorem demo_translates : Translates demoEnv "minimize".toList := ⟨by decide, rfl, isOther_of_take (by decide)⟩

/-- The arguments of a user. -/
def demoArgs : List (List Char) := ["--minirust-tree-borrows".toList, "a.rs".toList, "-O".toList]

theorem demo_parse : parseArgs {} demoArgs = some (⟨none, false, true⟩, ["a.rs".toList, "-O".toList]) := by decide

theorem demo_args : argsForRustc demoEnv "minimize".toList demoArgs =
    ["minimize".toList, "--sysroot=/s".toList] ++ defaultArgs ++ ["a.rs".toList, "-O".toList] := by
  have h1 : ¬ AsksRustc "minimize".toList demoArgs := fun h => by
    have := (probes_eq ..).2 h
    revert this; decide
  have h2 : ¬ (demoEnv.sysrootMode = some "off".toList ∨ AsksRustc "minimize".toList demoArgs) := by
    rintro (h | h)
    · revert h; decide
    · exact h1 h
  rw [argsForRustc, if_neg h2, ← ((C85_flags ..).1 demo_parse).2.2.2.2]
  rfl

-- The hypotheses of `C85_pipeline` are met.
example : ∃ dump, minimize 3 demoEnv [] [.int 16, .int 32, .int 0, .int 0, .int 0] "minimize".toList (dumpFlag "json".toList :: demoArgs) = some (0, dump) ∧
    minirun 3 (fun _ => if dump = "{}".toList then some printProg else none) [] [.int 16, .int 32, .int 0, .int 0, .int 0]
      ["--minirust-tree-borrows".toList] = some (0, "-120\ntrue\n0\n".toList) := by
  obtain ⟨hk, hd, _⟩ := (C85_flags ..).1 demo_parse
  obtain ⟨dump, h1, h2⟩ := C85_pipeline demo_translates hk hd (by decide) (prog := printProg)
    (by rw [demo_args]; unfold demoEnv; dsimp only; rw [if_pos rfl]) (parse := fun t => if t = "{}".toList then some printProg else none) (if_pos rfl) 3 []
    [.int 16, .int 32, .int 0, .int 0, .int 0]
  refine ⟨dump, h1, ?_⟩
  have h3 := h2 (fun _ => if dump = "{}".toList then some printProg else none) rfl
  rw [show (demoArgs.filter fun a => a = treeBorrowsFlag) = ["--minirust-tree-borrows".toList] by decide] at h3
  rw [h3]
  decide +kernel

example : minimize 3 demoEnv [] [.int 16, .int 32, .int 0, .int 0, .int 0] "minimize".toList demoArgs =
    some (0, "-120\ntrue\n0\n".toList) := by decide +kernel

example : minimize 3 demoEnv [] [] "minimize".toList ("--minimize-dump=json".toList :: demoArgs) = some (0, "{}".toList) ∧
    minimize 3 demoEnv [] [] "minimize".toList ("--minimize-dump=xml".toList :: demoArgs) = some (101, []) ∧
    minimize 3 demoEnv [] [] "minimize".toList ("--minimize-check".toList :: demoArgs) = some (101, []) ∧
    minimize 3 demoEnv [] [] "minimize".toList ("--minimize-dump=json".toList :: "--minimize-dump=json".toList :: demoArgs) = some (101, []) ∧
    minimize 3 demoEnv [] [] "minimize".toList ("-vV".toList :: demoArgs) = some (1, []) ∧
    minimize 3 { demoEnv with sysrootMode := some "only".toList } [] [] "minimize".toList demoArgs = some (0, []) ∧
    minimize 3 { demoEnv with beRustc := true } [] [] "minimize".toList demoArgs = some (0, "rustc".toList) := by decide +kernel

end
end MiniRust
