import Verif.Lemmas.TBKnownReach
import Verif.Props.TBValues
import Verif.Props.Refine
/-
Programs under Tree Borrows: the memory of the machine is used in the way that the properties of Tree Borrows assume.
-/
set_option linter.unusedSectionVars false
namespace MiniRust

/-! ### C73: programs use Tree Borrows in an orderly way -/

section
variable [T : Target] {prog : Program} {s s' : Machine TBMem TBProv TBFrame}

/-- The memory of every state of every execution was reached by operations of the memory interface, and the calls in
progress as far as Tree Borrows is concerned are exactly the stack frames of all threads. -/
theorem C73_memory_is_reached (h : Reachable prog s) :
    ∃ fs, TBReach ⟨s.mem.memory, fs⟩ ∧ fs.Perm s.calls := h.tbWf.reach

/-- What happens to the memory during an execution is a sequence of operations of the memory interface. So the
properties of such sequences (C26 to C30, C39, C40, C64) are properties of programs. -/
theorem C73_steps_are_operations (h : Reachable prog s) (hs : Steps s s') {fs : List TBFrame} (hf : fs.Perm s.calls) :
    ∃ fs', TBRun ⟨s.mem.memory, fs⟩ ⟨s'.mem.memory, fs'⟩ ∧ fs'.Perm s'.calls :=
  (TB.Grow.steps h.tbWf hs).run fs hf

/-- Every pointer that the machine holds has no provenance or one that denotes an existing node. -/
theorem C73_provenance_exists (h : Reachable prog s) {q : TBProv} (hq : s.HoldsProv q) : s.mem.memory.HasNode q := by
  have w := h.tbWf
  cases hq with
  | memory h1 h2 h3 => exact w.mem _ _ h1 h2 q h3
  | global h1 h2 => exact w.globals _ h1 q h2
  | function h1 h2 => exact w.fns _ h1 q h2
  | vtable h1 h2 => exact w.vtables _ h1 q h2
  | «local» h1 h2 h3 h4 => exact ((w.threads _ h1).stack _ h2).locals _ h3 q h4
  | returnPlace h1 h2 h3 h4 =>
    have := ((w.threads _ h1).stack _ h2).action
    rw [h3] at this
    exact this q h4
  | payload h1 h2 h3 => exact (w.threads _ h1).payloads _ h2 q h3
  | exposed h1 => exact w.exposed q h1

/-- So does every value and every place that an expression evaluates to. -/
theorem C73_values_exist (h : Reachable prog s) :
    (∀ e v ty s', evalValue e s = .ok ((v, ty), s') → ∀ q, ProvIn q v → s'.mem.memory.HasNode q) ∧
    (∀ e (p : Place TBProv) ty s', evalPlace e s = .ok ((p, ty), s') → ∀ q, ProvIn q (.ptr p.ptr) → s'.mem.memory.HasNode q) :=
  ⟨fun e v ty s' he q hq => ((TB.Kt.evalValue e s h.tbWf).2 _ _ he).2 q hq,
    fun e p ty s' he q hq => ((TB.Kt.evalPlace e s h.tbWf).2 _ _ he).2 q hq⟩

/-- A provenance denotes a node for ever. -/
theorem C73_provenance_stays (h : Reachable prog s) (hs : Steps s s') {q : TBProv} (hq : s.mem.memory.HasNode q) :
    s'.mem.memory.HasNode q := (TB.Grow.steps h.tbWf hs).le.hasNode hq

theorem C73_aux_protects : (∃ f ∈ s.calls, q ∈ f) ↔ s.Protects q := by
  simp only [Machine.calls, List.mem_flatMap, List.mem_map, Machine.Protects]
  constructor
  · rintro ⟨f, ⟨t, ht, fr, hfr, rfl⟩, hq⟩
    exact ⟨t, ht, fr, hfr, hq⟩
  · rintro ⟨t, ht, fr, hfr, hq⟩
    exact ⟨fr.extra, ⟨t, ht, fr, hfr, rfl⟩, hq⟩

/-- A reference to live memory has a protector if and only if a stack frame of some thread protects it. -/
theorem C73_protected_iff_in_frame (h : Reachable prog s) {q : TBProv} {pr : Protected}
    (hq : s.mem.memory.protectorOf q = some pr) (hl : s.mem.memory.LiveAlloc q.1) : pr ≠ .no ↔ s.Protects q := by
  obtain ⟨fs, hr, hp⟩ := h.tbWf.reach
  obtain ⟨a, ps, ha, hd⟩ := protectorOf_eq_some.1 hq
  obtain ⟨a', ha', hlv⟩ := hl
  rw [ha] at ha'; cases ha'
  rw [(C30_protected_iff_in_call hr ha hlv hd).1, ← C73_aux_protects]
  exact exists_congr fun f => and_congr_left fun _ => hp.mem_iff

/-- No reference is protected by two calls in progress, or twice by one. -/
theorem C73_protectors_unique (h : Reachable prog s) :
    (s.threads.flatMap fun t => t.stack.flatMap fun fr => fr.extra).Nodup := by
  obtain ⟨fs, hr, hp⟩ := h.tbWf.reach
  have := (C30_protectors_unique hr)
  have h2 := (hp.flatten).nodup_iff.1 this
  convert h2 using 1
  rw [List.nil_append, Machine.calls, List.flatten_eq_flatMap, List.flatMap_assoc]
  simp only [List.flatMap_map, id]

/-- The end of a call never is undefined behavior and never panics, for any stack frame at any time. -/
theorem C73_calls_can_end (h : Reachable prog s) {t fr} (ht : t ∈ s.threads) (hfr : fr ∈ t.stack) :
    ∃ m', Memory.endCall s.mem.memory fr.extra = .ok m' := by
  obtain ⟨fs, hr, hp⟩ := h.tbWf.reach
  have : fr.extra ∈ fs := hp.mem_iff.2 (List.mem_flatMap.2 ⟨t, ht, List.mem_map.2 ⟨fr, hfr, rfl⟩⟩)
  obtain ⟨i, hi⟩ := List.mem_iff_getElem?.1 this
  obtain ⟨m', hm, _⟩ := C39_end_call_always_succeeds hr hi
  exact ⟨m', hm⟩

/-- The memory behind a shared reference never changes, by whatever the program does, as long as the reference has not
been invalidated. -/
theorem C73_shared_memory_is_constant (h : Reachable prog s) (hs : Steps s s') {id : AllocId} {q : Path} {addr : Int} {X X'}
    (hX : s.mem.memory.permAt (id, q) addr = some X) (hr : X.ReadOnly)
    (hX' : s'.mem.memory.permAt (id, q) addr = some X') (hv : X' ≠ .unprot .disabled ∧ X' ≠ .prot .disabled) {b}
    (hb : s.mem.memory.byteAt id addr = some b) : s'.mem.memory.byteAt id addr = some b := by
  obtain ⟨fs, hr0, hp⟩ := h.tbWf.reach
  obtain ⟨fs', hrun, _⟩ := C73_steps_are_operations h hs hp
  rcases hrun.readOnly hr0.inv hb hX (readOnly_iff.2 hr) with h | ⟨Y, hY, hd⟩
  · exact h
  · rw [hX'] at hY; cases hY
    exfalso
    rcases X' with (_ | _ | _ | _ | _ | _) | (_ | _ | _ | _ | _) <;> simp_all [Permission.isDisabled]

/-- While a call is in progress, the memory behind a shared reference that it got as an argument (and that is not in an
`UnsafeCell`) does not change, whatever the function, the functions it calls, or other threads do. -/
theorem C73_shared_argument_is_constant (h : Reachable prog s) (hs : Steps s s') {id : AllocId} {q : Path} {addr : Int}
    (hX : s.mem.memory.permAt (id, q) addr = some (.prot (.frozen true)))
    (hprot : s'.Protects (id, q)) (hl : s'.mem.memory.LiveAlloc id) {b}
    (hb : s.mem.memory.byteAt id addr = some b) : s'.mem.memory.byteAt id addr = some b := by
  have h' : Reachable prog s' := by
    obtain ⟨o, s0, h0, h1⟩ := h
    exact ⟨o, s0, h0, h1.trans hs⟩
  have hle := (TB.Grow.steps h.tbWf hs).le
  obtain ⟨X', hX', _⟩ := hle.permAt hX
  have hn : s'.mem.memory.HasNode (id, q) := by
    refine hle.hasNode ?_
    obtain ⟨a, off, ha, _, hk⟩ := permAt_eq_some.1 hX
    obtain ⟨ps, pr, hd, _⟩ := Node.perm_eq_some.1 hk
    exact ⟨a.extra, by simp [TBMem.tree?, ha], by rw [hd]; rfl⟩
  obtain ⟨a, ⟨ps, pr⟩, ha, hd⟩ := hasNode_iff.1 hn
  have hpr : s'.mem.memory.protectorOf (id, q) = some pr := protectorOf_eq_some.2 ⟨a, ps, ha, hd⟩
  obtain ⟨Y, hY, hu⟩ := protected_used hle hX rfl hpr ((C73_protected_iff_in_frame h' hpr hl).2 hprot) hl
  rw [hX'] at hY; cases hY
  refine C73_shared_memory_is_constant h hs hX (.inr (.inl ⟨true, rfl⟩)) hX' ?_ hb
  have := usedRead_not_disabled _ hu
  constructor <;> rintro rfl <;> cases this

end


/-! ### Examples -/

namespace Ex
attribute [local instance] x86_64

/-- `&u32`. -/
def shrTy4 : PtrType := .ref .imm ⟨.sized 4 ⟨2⟩, true, .sized [], true, true⟩
/-- `fn f(r: &u32, p: *mut u32) { [*p = 8;] print(*r) }`, called as `let mut x = 7; f(&x, &raw mut x)`. -/
def argProg (write : Bool) : Program :=
  let n (i : Int) : ValueExpr := .constant (.int i) u32
  { mainProg [(1, u32)] [
      (0, ⟨[.storageLive 1, .assign (.local 1) (n 7)],
        .call (fnPtr 1) .c [.byValue (.addrOf (.local 1) shrTy4), .byValue (.addrOf (.local 1) (.raw .none))] (.local 0) (some 1) none, .regular⟩),
      (1, ⟨[], .intrinsic .exit [] (.local 0) none, .regular⟩)] with
    functions := (mainProg [(1, u32)] [
      (0, ⟨[.storageLive 1, .assign (.local 1) (n 7)],
        .call (fnPtr 1) .c [.byValue (.addrOf (.local 1) shrTy4), .byValue (.addrOf (.local 1) (.raw .none))] (.local 0) (some 1) none, .regular⟩),
      (1, ⟨[], .intrinsic .exit [] (.local 0) none, .regular⟩)]).functions ++
      [(1, { locals := [(0, unitTy), (1, .ptr shrTy4), (2, rawTy), (3, unitTy)], args := [1, 2], ret := 0, callingConvention := .c, start := 0,
             blocks := [(0, ⟨[.storageLive 3, .validate (.local 1) true] ++ (if write then [.assign (.deref (.load (.local 2)) u32) (n 8)] else []),
               .intrinsic .printStdout [.load (.deref (.load (.local 1)) u32)] (.local 3) (some 1), .regular⟩),
              (1, ⟨[], .return, .regular⟩)] })] }
/-- Choices for `argProg`. -/
def argRun {P : Type} : List (Choice P) :=
  [.int 16, .int 32, .int 48, .int 64, .int 0, .int 80, .int 0, .int 0, .int 96, .int 112, .int 128, .int 0, .int 144, .int 0, .int 0,
    .int 0, .int 0, .int 0, .int 0, .int 0]

example : (argProg false).checkWf = .ok () ∧ (argProg true).checkWf = .ok () := by decide +kernel

set_option synthInstance.maxSize 1000 in
/-- The state after `validate` and the one after `print`. -/
theorem argProg_states : ∃ s s' : Machine TBMem TBProv TBFrame, Reachable (argProg false) s ∧ runSteps 1 s = .ok ((), s') ∧
    s.calls = [[(4, [0, 0])], []] ∧ s'.calls = [[(4, [0, 0])], []] ∧
    s.mem.memory.permAt (4, [0, 0]) 80 = some (.prot (.frozen true)) ∧
    s.mem.memory.byteAt 4 80 = some (.init 7 none) ∧
    s'.mem.memory.mem.allocations[4]?.map (·.live) = some true ∧
    s'.stdout = [.int 7] :=
  exists_steps argRun 5 1 _ (by decide +kernel)

-- The hypotheses of the theorem are met, and so is its conclusion.
example : ∃ s s' : Machine TBMem TBProv TBFrame, Reachable (argProg false) s ∧ Steps s s' ∧ s'.stdout = [.int 7] ∧
    s.mem.memory.permAt (4, [0, 0]) 80 = some (.prot (.frozen true)) ∧ s.Protects (4, [0, 0]) ∧ s'.Protects (4, [0, 0]) ∧
    s'.mem.memory.LiveAlloc 4 ∧ s'.mem.memory.byteAt 4 80 = some (.init 7 none) := by
  obtain ⟨s, s', h1, h2, h3, h4, h5, h7, h8, h9⟩ := argProg_states
  obtain ⟨a, ha, hl⟩ := Option.map_eq_some_iff.1 h8
  have hp' : s'.Protects (4, [0, 0]) := C73_aux_protects.1 ⟨_, by rw [h4]; exact List.mem_cons_self, by decide⟩
  have hst := runSteps_steps h2
  exact ⟨s, s', h1, hst, h9, h5, C73_aux_protects.1 ⟨_, by rw [h3]; exact List.mem_cons_self, by decide⟩, hp', ⟨a, ha, hl⟩,
    C73_shared_argument_is_constant h1 hst h5 hp' ⟨a, ha, hl⟩ h7⟩

-- The end of the call removes the protector.
example : ∃ s : Machine TBMem TBProv TBFrame, Reachable (argProg false) s ∧ s.calls = [[]] ∧
    s.mem.memory.protectorOf (4, [0, 0]) = some .no ∧ s.mem.memory.permAt (4, [0, 0]) 80 = some (.unprot .frozen) :=
  exists_reachable argRun 7 _ (by decide +kernel)

-- A write through the raw pointer during the call is undefined behavior.
example : ∃ s : Machine TBMem TBProv TBFrame, Reachable (argProg true) s ∧ s.calls = [[(4, [0, 0])], []] ∧
    step s = .error .ub := by
  obtain ⟨s, h1, h2, h3⟩ := exists_reachable (M := TBMem) (P := TBProv) (F := TBFrame) (prog := argProg true) argRun 5
    (fun s => s.calls = [[(4, [0, 0])], []] ∧ errOf (step s) = some .ub) (by decide +kernel)
  exact ⟨s, h1, h2, errOf_eq_some h3⟩

-- A state that holds the provenance of the reference: in the variable `r` of the function.
example : ∃ s : Machine TBMem TBProv TBFrame, Reachable (argProg false) s ∧ s.HoldsProv (4, [0, 0]) := by
  obtain ⟨s, h1, h2⟩ := exists_reachable (M := TBMem) (P := TBProv) (F := TBFrame) (prog := argProg false) argRun 5
    (fun s => s.mem.memory.mem.allocations.any (fun a => a.live && a.data.any fun b =>
      match b.frag with | some f => decide (f.prov = (4, [0, 0])) | none => false) = true) (by decide +kernel)
  obtain ⟨a, ha, h2⟩ := List.any_eq_true.1 h2
  obtain ⟨id, hid⟩ := List.mem_iff_getElem?.1 ha
  simp only [Bool.and_eq_true, List.any_eq_true] at h2
  obtain ⟨hl, b, hb, h2⟩ := h2
  refine ⟨s, h1, .memory hid hl ⟨b, hb, ?_⟩⟩
  cases hf : b.frag with
  | none => rw [hf] at h2; cases h2
  | some f =>
    rw [hf] at h2
    obtain ⟨p, i⟩ := f
    simp only [decide_eq_true_eq] at h2
    subst h2
    exact ⟨i, rfl⟩
end Ex
end MiniRust
