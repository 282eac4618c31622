import Verif.Lemmas.Init
import Verif.Examples.Programs
import Verif.Props.Outcomes
import Verif.Spec.Pointers
/-
C55: the start of a program, and the places of its globals, functions and vtables during the whole run.

The theorems hold for every memory model built on the basic one. `KeysUnique` says that no name is bound
twice, which libspecr's maps guarantee.
-/
set_option linter.unusedSectionVars false
namespace MiniRust

section
variable {M PE AE F : Type} [T : Target] [DecidableEq PE] [Memory M (AllocId × PE) F]
  [SoftMem M (AllocId × PE) F] [B : BasicBacked M PE AE F]
variable {s s' : Machine M (AllocId × PE) F} {prog : Program}
include B

/-- The globals, functions and vtables of the program have their own live allocations. -/
structure StaticsPlaced (prog : Program) (h : MemHistory PE) (s : Machine M (AllocId × PE) F) : Prop where
  globals : Placed h s.globalPtrs .global prog.IsGlobal
  functions : Placed h s.fnPtrs .function prog.IsFn
  vtables : Placed h s.vtablePtrs .vtable prog.IsVTable

omit T [DecidableEq PE] [Memory M (AllocId × PE) F] [SoftMem M (AllocId × PE) F] B in
theorem isGlobal_iff (hu : prog.KeysUnique) {k n a} : prog.IsGlobal k n a ↔
    ∃ g, (k, g) ∈ prog.globals ∧ n = g.bytes.length ∧ a = g.align := by
  constructor
  · rintro ⟨g, h1, h2⟩; exact ⟨g, Map.get?_mem h1, h2⟩
  · rintro ⟨g, h1, h2⟩; exact ⟨g, Map.get?_of_mem hu.globals h1, h2⟩

/-- The history of the initialisation. -/
theorem new_history (hu : prog.KeysUnique) {oracle : List (Choice (AllocId × PE))}
    (h : Machine.new prog oracle = .ok s) :
    ∃ h : MemHistory PE, MemReach (F := F) h s.mem.memory ∧ StaticsPlaced prog h s ∧
      ∀ name g p id, prog.globals.get? name = some g → s.globalPtrs.get? name = some p → p.HasId id →
        ∀ k, k < g.bytes.length → g.InitByte s.globalPtrs k (lastStored h id (p.addr + k)) := by
  obtain ⟨s1, s2, s3, s4, s5, f, fr, _, h1, h2, h3, h4, _, h5, rfl⟩ := new_stages h
  obtain ⟨⟨e1, r1, a1, p1⟩, q1, _⟩ := allocGlobals_loop (B := B) hu.globals h1
  obtain ⟨q2, e2, r2, a2, p2⟩ := fillGlobals_loop (B := B) hu.globals h2
  obtain ⟨⟨e3, r3, a3, p3⟩, q3⟩ := allocFunctions_loop (B := B) hu.functions h3
  obtain ⟨⟨e4, r4, a4, p4⟩, q4⟩ := allocVTables_loop (B := B) hu.vtables h4
  obtain ⟨n, al, p, r5, q5, _, _⟩ := createFrame_start h5
  have m1 : MemReach (F := F) (e1 ++ []) s1.mem.memory := MemRun.append .nil r1
  have m2 : MemReach (F := F) (e2 ++ (e1 ++ [])) s2.mem.memory := MemRun.append m1 r2
  have m3 : MemReach (F := F) (e3 ++ (e2 ++ (e1 ++ []))) s3.mem.memory := MemRun.append m2 r3
  have m4 : MemReach (F := F) (e4 ++ (e3 ++ (e2 ++ (e1 ++ [])))) s4.mem.memory := MemRun.append m3 r4
  have m5 : MemReach (F := F) (.alloc .stack n al p :: (e4 ++ (e3 ++ (e2 ++ (e1 ++ []))))) s5.mem.memory := .cons m4 r5
  have k2 : ∀ e ∈ e2, e.KeepsStatics := by
    intro e he; obtain ⟨_, _, _, _, _, _, _, rfl⟩ := a2 e he; trivial
  have k3 : ∀ e ∈ e3, e.KeepsStatics := fun e he => (a3 e he).keeps
  have k4 : ∀ e ∈ e4, e.KeepsStatics := fun e he => (a4 e he).keeps
  have k5 : ∀ e ∈ [(.alloc .stack n al p : MemEvent PE)], e.KeepsStatics := by
    intro e he; cases List.mem_singleton.1 he; trivial
  have g1 : s2.globalPtrs = s1.globalPtrs := by rw [q2]
  have g2 : s3.globalPtrs = s1.globalPtrs := by rw [q3]; exact g1
  have g3 : s4.globalPtrs = s1.globalPtrs := by rw [q4]; exact g2
  have g4 : s5.globalPtrs = s1.globalPtrs := by rw [q5]; exact g3
  have f2 : s2.fnPtrs = [] := by rw [q2]; dsimp only; rw [q1]; rfl
  have f4 : s5.fnPtrs = s3.fnPtrs := by rw [q5]; dsimp only; rw [q4]
  have v3 : s3.vtablePtrs = [] := by rw [q3]; dsimp only; rw [q2]; dsimp only; rw [q1]; rfl
  have v4 : s5.vtablePtrs = s4.vtablePtrs := by rw [q5]
  have pl1 := p1 [] .nil _ (Placed.empty (B := B)) (by intro k n a _ hk; cases hk)
  have pl3 := p3 _ m2 _ (by show Placed _ s2.fnPtrs _ _; rw [f2]; exact Placed.empty (B := B))
    (by intro k n a _ hk; change k ∈ s2.fnPtrs.keys at hk; rw [f2] at hk; cases hk)
  have pl4 := p4 _ m3 _ (by show Placed _ s3.vtablePtrs _ _; rw [v3]; exact Placed.empty (B := B))
    (by intro k n a _ hk; change k ∈ s3.vtablePtrs.keys at hk; rw [v3] at hk; cases hk)
  have gl := (pl1.mono (B := B) (i2 := prog.IsGlobal) fun k n a => by rw [isGlobal_iff hu, false_or])
  refine ⟨_, m5, ⟨?_, ?_, ?_⟩, ?_⟩
  · show Placed _ s5.globalPtrs _ _
    rw [g4]
    exact (((gl.run m1 r2 k2 (by simp) (by simp)).run m2 r3 k3 (by simp) (by simp)).run m3 r4 k4 (by simp) (by simp)).run
      m4 (.cons .nil r5) k5 (by simp) (by simp)
  · show Placed _ s5.fnPtrs _ _
    rw [f4]
    have := (pl3.run m3 r4 k4 (by simp) (by simp)).run m4 (.cons .nil r5) k5 (by simp) (by simp)
    exact this.mono (B := B) fun k n a => by rw [false_or]; rfl
  · show Placed _ s5.vtablePtrs _ _
    rw [v4]
    have := pl4.run m4 (.cons .nil r5) k5 (by simp) (by simp)
    exact this.mono (B := B) fun k n a => by rw [false_or]; rfl
  · intro name g p' id hg hp hid k hk
    change s5.globalPtrs.get? name = some p' at hp
    show g.InitByte s5.globalPtrs _ _
    rw [g4] at hp ⊢
    have hall : ∀ e ∈ [(.alloc .stack n al p : MemEvent PE)] ++ (e4 ++ e3), e.IsAlloc := by
      intro e he
      rcases List.mem_append.1 he with he | he
      · cases List.mem_singleton.1 he; trivial
      · rcases List.mem_append.1 he with he | he
        exacts [a4 e he, a3 e he]
    have hls := lastStored_allocs hall (h := e2 ++ (e1 ++ [])) (id := id) (x := p'.addr + k)
    simp only [List.append_assoc, List.cons_append, List.nil_append, List.append_nil] at hls
    simp only [List.append_nil]
    rw [hls]
    refine p2 name g p' id (Map.get?_mem hg) hp hid ?_ e1 k hk
    intro name' q hq hqid
    obtain ⟨_, n1, b1, i1⟩ := gl.only name p' (Map.get?_mem hp)
    obtain ⟨_, n2, b2, i2⟩ := gl.only name' q (Map.get?_mem hq)
    obtain ⟨x1, y1, w1⟩ := gl.has _ _ _ i1
    obtain ⟨x2, y2, w2⟩ := gl.has _ _ _ i2
    rw [hp] at y1; cases y1
    rw [hq] at y2; cases y2
    refine gl.apart name' name q p' hq hp ?_
    obtain ⟨id1, z1, l1⟩ := w1
    obtain ⟨id2, z2, l2⟩ := w2
    obtain ⟨c, hc⟩ := hid
    obtain ⟨d, hd⟩ := hqid
    obtain ⟨c', hc'⟩ := z1
    obtain ⟨d', hd'⟩ := z2
    rw [hc] at hc'; cases hc'
    rw [hd] at hd'; cases hd'
    have := liveIn_unique m1 l1 l2
    simp only [AllocInfo.mk.injEq] at this
    exact this.2.2.2.symm

/-- C55: at every moment of every run, each global, function and vtable of the program has exactly one
pointer; it points to the start of a live allocation of the kind, size and alignment the program asks for
(functions and vtables take no space); and different globals, functions or vtables are at different
addresses. -/
theorem C55_statics_placed (hu : prog.KeysUnique) (hr : Reachable prog s) {h : MemHistory PE}
    (hm : MemReach (F := F) h s.mem.memory) : StaticsPlaced prog h s := by
  suffices ∃ h : MemHistory PE, MemReach (F := F) h s.mem.memory ∧ StaticsPlaced prog h s by
    obtain ⟨h', hm', p⟩ := this
    exact ⟨p.globals.congr hm' hm, p.functions.congr hm' hm, p.vtables.congr hm' hm⟩
  refine hr.induct (I := fun s => ∃ h : MemHistory PE, MemReach (F := F) h s.mem.memory ∧ StaticsPlaced prog h s) ?_ ?_
  · intro o s hn
    obtain ⟨h, h1, h2, _⟩ := new_history hu hn
    exact ⟨h, h1, h2⟩
  · rintro s s' ⟨h, h1, h2⟩ hst
    obtain ⟨h', r, k⟩ := step_memRun hst
    obtain ⟨_, c1, c2, c3, _⟩ := step_outward hst
    refine ⟨h' ++ h, MemRun.append h1 r, ?_, ?_, ?_⟩
    · rw [c1]; exact h2.globals.run h1 r k (by simp) (by simp)
    · rw [c2]; exact h2.functions.run h1 r k (by simp) (by simp)
    · rw [c3]; exact h2.vtables.run h1 r k (by simp) (by simp)

/-- C55: no global, function or vtable shares its address with one of another sort. -/
theorem C55_sorts_apart (hu : prog.KeysUnique) (hr : Reachable prog s) {g f v} {p q r : ThinPtr (AllocId × PE)}
    (hg : s.globalPtrs.get? g = some p) (hf : s.fnPtrs.get? f = some q) (hv : s.vtablePtrs.get? v = some r) :
    p.addr ≠ q.addr ∧ p.addr ≠ r.addr ∧ q.addr ≠ r.addr := by
  obtain ⟨h, hm⟩ := hr.memReach
  have sp := C55_statics_placed hu hr hm
  obtain ⟨_, n1, a1, i1⟩ := sp.globals.only _ _ (Map.get?_mem hg)
  obtain ⟨_, n2, a2, i2⟩ := sp.functions.only _ _ (Map.get?_mem hf)
  obtain ⟨_, n3, a3, i3⟩ := sp.vtables.only _ _ (Map.get?_mem hv)
  obtain ⟨_, e1, l1⟩ := sp.globals.has _ _ _ i1
  obtain ⟨_, e2, l2⟩ := sp.functions.has _ _ _ i2
  obtain ⟨_, e3, l3⟩ := sp.vtables.has _ _ _ i3
  rw [hg] at e1; cases e1
  rw [hf] at e2; cases e2
  rw [hv] at e3; cases e3
  refine ⟨fun he => ?_, fun he => ?_, fun he => ?_⟩
  · have := (startsLive_addr hm l1 l2 he).1; cases this
  · have := (startsLive_addr hm l1 l3 he).1; cases this
  · have := (startsLive_addr hm l2 l3 he).1; cases this

/-- C55: when the program starts, each global holds exactly its initial bytes: pointers to other globals
where there are relocations, and the given data elsewhere. -/
theorem C55_initial_contents (hu : prog.KeysUnique) {oracle : List (Choice (AllocId × PE))}
    (hn : Machine.new prog oracle = .ok s) {h : MemHistory PE} (hm : MemReach (F := F) h s.mem.memory)
    {name g p id} (hg : prog.globals.get? name = some g) (hp : s.globalPtrs.get? name = some p) (hid : p.HasId id)
    {k : Nat} (hk : k < g.bytes.length) : g.InitByte s.globalPtrs k (lastStored h id (p.addr + k)) := by
  obtain ⟨h', hm', sp, hc⟩ := new_history hu hn
  have := hc name g p id hg hp hid k hk
  suffices lastStored h id (p.addr + k) = lastStored h' id (p.addr + k) by rwa [this]
  obtain ⟨q, hq, id', hid', hl⟩ := sp.globals.has name _ _ ⟨g, hg, rfl, rfl⟩
  rw [hp] at hq; cases hq
  obtain ⟨x, hx⟩ := hid
  obtain ⟨y, hy⟩ := hid'
  rw [hx] at hy; cases hy
  obtain ⟨a, ha, _, hi⟩ := (live_iff hm').1 hl
  simp only [Alloc.info, AllocInfo.mk.injEq] at hi
  have b1 := (MemReach.rep (B := B) hm).bytes id a k ha (by omega)
  have b2 := (MemReach.rep (B := B) hm').bytes id a k ha (by omega)
  rw [b1] at b2
  rw [hi.2.2.2]
  exact Option.some.inj b2

/-- C55: the machine starts with one enabled thread, at the first statement of the start function, whose
only local with storage is the return place; nothing was printed or exposed and there are no locks. -/
theorem C55_start (hu : prog.KeysUnique) {oracle : List (Choice (AllocId × PE))}
    (h : Machine.new prog oracle = .ok s) :
    prog.checkWf = .ok () ∧ s.prog = prog ∧ s.activeThread = 0 ∧ s.locks = [] ∧ s.stdout = [] ∧ s.stderr = [] ∧
    s.intptrcast.exposed = [] ∧ s.synchronizedThreads = [] ∧
    ∃ f p, ∃ fr : StackFrame (AllocId × PE) F, prog.functions.get? prog.start = some f ∧ f.args = [] ∧
      s.threads = [{ state := .enabled, stack := [fr], unwindPayloads := [] }] ∧
      fr.func = f ∧ fr.locals = [(f.ret, p)] ∧ fr.stackPopAction = .bottomOfStack ∧ fr.nextBlock = f.start ∧
      fr.nextStmt = 0 := by
  obtain ⟨s1, s2, s3, s4, s5, f, fr, hw, h1, h2, h3, h4, hf, h5, rfl⟩ := new_stages h
  obtain ⟨_, q1, _⟩ := allocGlobals_loop (B := B) hu.globals h1
  obtain ⟨q2, _⟩ := fillGlobals_loop (B := B) hu.globals h2
  obtain ⟨_, q3⟩ := allocFunctions_loop (B := B) hu.functions h3
  obtain ⟨_, q4⟩ := allocVTables_loop (B := B) hu.vtables h4
  obtain ⟨n, al, p, r5, q5, ha, rfl⟩ := createFrame_start h5
  have hf' : prog.functions.get? prog.start = some f := by simpa [Map.get, unwrap_eq_ok] using hf
  have e1 : s5 = { (Machine.empty prog oracle : Machine M (AllocId × PE) F) with
      mem := s5.mem, oracle := s5.oracle, globalPtrs := s5.globalPtrs, fnPtrs := s5.fnPtrs, vtablePtrs := s5.vtablePtrs } := by
    rw [q5]; dsimp only; rw [q4]; dsimp only; rw [q3]; dsimp only; rw [q2]; dsimp only; rw [q1]
  rw [e1]
  exact ⟨hw, rfl, rfl, rfl, rfl, rfl, rfl, rfl, f, p, _, hf', ha, rfl, rfl, rfl, rfl, rfl, rfl⟩

omit T [DecidableEq PE] [Memory M (AllocId × PE) F] [SoftMem M (AllocId × PE) F] B in
theorem findPtr_eq_some {P K : Type} [DecidableEq P] {m : Map K (ThinPtr P)} {p : ThinPtr P} {k : K}
    (h : findPtr m p = some k) : (k, p) ∈ m := by
  induction m with
  | nil => cases h
  | cons e m ih =>
    obtain ⟨k', p'⟩ := e
    simp only [findPtr] at h
    split at h
    · cases h; subst_vars; exact List.mem_cons_self
    · exact List.mem_cons_of_mem _ (ih h)

omit T [DecidableEq PE] [Memory M (AllocId × PE) F] [SoftMem M (AllocId × PE) F] B in
theorem findPtr_of_mem {P K : Type} [DecidableEq P] {m : Map K (ThinPtr P)} {p : ThinPtr P} {k : K}
    (h : (k, p) ∈ m) : ∃ k', findPtr m p = some k' := by
  induction m with
  | nil => cases h
  | cons e m ih =>
    obtain ⟨k', p'⟩ := e
    simp only [findPtr]
    split
    · exact ⟨_, rfl⟩
    · rcases List.mem_cons.1 h with h | h
      · cases h; contradiction
      · exact ih h

omit [SoftMem M (AllocId × PE) F] B [Memory M (AllocId × PE) F] T in
theorem Placed.find {K : Type} [DecidableEq K] {h : MemHistory PE} {m : Map K (ThinPtr (AllocId × PE))} {kind item}
    (hp : Placed h m kind item) {p k} : findPtr m p = some k ↔ m.get? k = some p := by
  constructor
  · intro hf; exact (hp.only _ _ (findPtr_eq_some hf)).1
  · intro hg
    obtain ⟨k', hk'⟩ := findPtr_of_mem (Map.get?_mem hg)
    have := (hp.only _ _ (findPtr_eq_some hk')).1
    rw [hk', hp.apart _ _ _ _ this hg rfl]

/-- C55: a value identifies a function exactly if it is the thin pointer that function was given; it then
identifies no other function, and looking up any other value is UB. -/
theorem C55_function_lookup (hu : prog.KeysUnique) (hr : Reachable prog s) (v : Value (AllocId × PE)) :
    (∀ f, s.fnFromPtr v = .ok f ↔ s.FnAt v f) ∧ ((∀ f, ¬ s.FnAt v f) ↔ s.fnFromPtr v = .error .ub) ∧
    (∀ f f', s.FnAt v f → s.FnAt v f' → f = f') := by
  obtain ⟨h, hm⟩ := hr.memReach
  have sp := C55_statics_placed hu hr hm
  have hprog := C42_program hr
  have key : (∃ f, s.fnFromPtr v = .ok f ∧ s.FnAt v f ∧ ∀ f', s.FnAt v f' → f' = f) ∨
      (s.fnFromPtr v = .error .ub ∧ ∀ f, ¬ s.FnAt v f) := by
    have no : (∀ p, v ≠ .ptr ⟨p, none⟩) → ∀ f, ¬ s.FnAt v f := by
      rintro hv f ⟨_, p, rfl, _⟩; exact hv p rfl
    unfold Machine.fnFromPtr
    split
    · rename_i thin metadata
      cases metadata with
      | some m => exact .inr ⟨rfl, no (by intro p hp; cases hp)⟩
      | none =>
        simp only [Option.isSome_none, Bool.false_eq_true, if_false]
        cases hf : findPtr s.fnPtrs thin with
        | none =>
          refine .inr ⟨rfl, ?_⟩
          rintro f ⟨name, p, hp, h2, _⟩
          cases hp
          rw [sp.functions.find.2 h2] at hf; cases hf
        | some name =>
          have hg := sp.functions.find.1 hf
          obtain ⟨_, _, _, hi, _⟩ := sp.functions.only _ _ (Map.get?_mem hg)
          obtain ⟨f, hfn⟩ := Map.get?_isSome_iff.2 hi
          rw [← hprog] at hfn
          refine .inl ⟨f, by simp [Map.get, hfn], ⟨name, thin, rfl, hg, hfn⟩, ?_⟩
          rintro f' ⟨name', p, hp, h2, h3⟩
          cases hp
          have := sp.functions.find.2 h2
          rw [hf] at this; cases this
          rw [hfn] at h3; cases h3; rfl
    · rename_i hv
      exact .inr ⟨rfl, no (by rintro p rfl; exact hv _ _ rfl)⟩
  rcases key with ⟨f, h1, h2, h3⟩ | ⟨h1, h2⟩
  · refine ⟨fun f' => ⟨?_, ?_⟩, ⟨fun hh => absurd h2 (hh f), ?_⟩, fun f1 f2 g1 g2 => by rw [h3 _ g1, h3 _ g2]⟩
    · rw [h1]; intro he; cases he; exact h2
    · intro he; rw [h3 _ he, h1]
    · rw [h1]; intro he; cases he
  · refine ⟨fun f' => ⟨?_, fun hh => absurd hh (h2 f')⟩, ⟨fun _ => h1, fun _ => h2⟩, fun f1 f2 g1 => absurd g1 (h2 f1)⟩
    rw [h1]; intro he; cases he

/-- C55: a pointer identifies a vtable exactly if it is the pointer that vtable was given; it then
identifies no other vtable, and looking up any other pointer is UB. -/
theorem C55_vtable_lookup (hu : prog.KeysUnique) (hr : Reachable prog s) (p : ThinPtr (AllocId × PE)) :
    (∀ v, s.vtableFromPtr p = .ok v ↔ s.VTableAt p v) ∧ ((∀ v, ¬ s.VTableAt p v) ↔ s.vtableFromPtr p = .error .ub) ∧
    (∀ v v', s.VTableAt p v → s.VTableAt p v' → v = v') := by
  obtain ⟨h, hm⟩ := hr.memReach
  have sp := C55_statics_placed hu hr hm
  have hprog := C42_program hr
  have key : (∃ f, s.vtableFromPtr p = .ok f ∧ s.VTableAt p f ∧ ∀ f', s.VTableAt p f' → f' = f) ∨
      (s.vtableFromPtr p = .error .ub ∧ ∀ f, ¬ s.VTableAt p f) := by
    unfold Machine.vtableFromPtr
    cases hf : findPtr s.vtablePtrs p with
    | none =>
      refine .inr ⟨rfl, ?_⟩
      rintro f ⟨name, h2, _⟩
      rw [sp.vtables.find.2 h2] at hf; cases hf
    | some name =>
      have hg := sp.vtables.find.1 hf
      obtain ⟨_, _, _, hi, _⟩ := sp.vtables.only _ _ (Map.get?_mem hg)
      obtain ⟨f, hfn⟩ := Map.get?_isSome_iff.2 hi
      rw [← hprog] at hfn
      refine .inl ⟨f, by simp [Map.get, hfn], ⟨name, hg, hfn⟩, ?_⟩
      rintro f' ⟨name', h2, h3⟩
      have := sp.vtables.find.2 h2
      rw [hf] at this; cases this
      rw [hfn] at h3; cases h3; rfl
  rcases key with ⟨f, h1, h2, h3⟩ | ⟨h1, h2⟩
  · refine ⟨fun f' => ⟨?_, ?_⟩, ⟨fun hh => absurd h2 (hh f), ?_⟩, fun f1 f2 g1 g2 => by rw [h3 _ g1, h3 _ g2]⟩
    · rw [h1]; intro he; cases he; exact h2
    · intro he; rw [h3 _ he, h1]
    · rw [h1]; intro he; cases he
  · refine ⟨fun f' => ⟨?_, fun hh => absurd hh (h2 f')⟩, ⟨fun _ => h1, fun _ => h2⟩, fun f1 f2 g1 => absurd g1 (h2 f1)⟩
    rw [h1]; intro he; cases he
end

/-! ### Concrete cases -/

namespace Ex
attribute [local instance] x86_64

example : staticsProg.KeysUnique := ⟨by decide, by decide, by decide⟩
-- The machine of this program: the globals, functions and vtables have seven different addresses; reading
-- the second global gives uninitialised bytes and a pointer into the first.
example : ∃ s : BMach, Reachable staticsProg s ∧
    s.globalPtrs.get? 0 = some ⟨16, some (0, ())⟩ ∧ s.globalPtrs.get? 1 = some ⟨32, some (1, ())⟩ ∧
    s.fnPtrs.get? 0 = some ⟨56, some (2, ())⟩ ∧ s.fnPtrs.get? 1 = some ⟨57, some (3, ())⟩ ∧
    s.vtablePtrs.get? 0 = some ⟨58, some (4, ())⟩ ∧ s.vtablePtrs.get? 1 = some ⟨59, some (5, ())⟩ ∧
    (s.mem.memory.load ⟨32, some (1, ())⟩ 8 ⟨3⟩ (fun _ _ _ => .ok ())).toOption.map
      (·.1.map (·.data)) = some (List.replicate 8 none) ∧
    ((s.mem.memory.load ⟨40, some (1, ())⟩ 8 ⟨3⟩ (fun _ _ _ => .ok ())).toOption.map (·.1)).bind (decodePtr · |>.toOption) =
      some ⟨20, some (0, ())⟩ :=
  exists_reachable staticsRun 0 _ (by decide +kernel)
-- Both a function pointer and a pointer that is none occur.
example : ∃ s : BMach, Reachable staticsProg s ∧
    (s.fnFromPtr (.ptr ⟨⟨57, some (3, ())⟩, none⟩)).toOption.map (·.locals.length) = some 1 ∧
    errOf (s.fnFromPtr (.ptr ⟨⟨57, none⟩, none⟩)) = some .ub ∧
    (s.vtableFromPtr ⟨59, some (5, ())⟩).toOption = some ⟨0, 0, ⟨0⟩, [], [(0, 1)]⟩ ∧
    errOf (s.vtableFromPtr ⟨57, some (3, ())⟩) = some .ub :=
  exists_reachable staticsRun 0 _ (by decide +kernel)
end Ex
end MiniRust
