import Verif.Lemmas.MirFn
import Verif.Props.Activation
/-
C67: translating the MIR body of a function to a MiniRust function. The specification is `Verif/Spec/Mir.lean`.
-/
set_option linter.unusedSectionVars false
namespace MiniRust
open FnCtxt

section
variable [T : Target] {unwinds : Bool} {body : MirBody} {order : List Nat} {f : Function}

/-- The translation of a valid body succeeds, in whatever order the hash map yields the blocks. -/
theorem C67_translates (unwinds : Bool) (hv : body.Valid) (ho : body.Order order) : ∃ f, body.translate unwinds order = .ok f := by
  obtain ⟨f, hf, _⟩ := translate_spec (un := true) (unl := true) (unwinds := unwinds) hv ho (fun _ _ _ _ => rfl) (fun _ _ _ _ => ⟨rfl, rfl⟩)
  exact ⟨f, hf⟩

/-- The locals of the function are those of the body, then the fields of the spread argument, then five variables for each
`catch_unwind`. The arguments are those of the body, but the fields of the spread argument are passed instead of it. -/
theorem C67_signature (hv : body.Valid) (ho : body.Order order) (h : body.translate unwinds order = .ok f) :
    f.locals.keys = List.range f.locals.length ∧
    f.locals.values = body.locals ++ body.spreadTys ++ (order.filter body.catches).flatMap (fun _ => catchTys) ∧
    f.args = (List.range' 1 body.argCount).flatMap (fun i => match body.spread with
      | none => [i]
      | some (s, fields) => if i = s then List.range' body.locals.length fields.length else [i]) ∧
    f.ret = 0 ∧ f.callingConvention = body.conv := by
  obtain ⟨f', hf, hs⟩ := translate_spec (un := true) (unl := true) (unwinds := unwinds) hv ho (fun _ _ _ _ => rfl) (fun _ _ _ _ => ⟨rfl, rfl⟩)
  rw [h] at hf; cases hf
  have hnew : ∀ l : List Nat, l.flatMap body.newTys = (l.filter body.catches).flatMap fun _ => catchTys := by
    intro l
    induction l with
    | nil => rfl
    | cons b l ih =>
      have : body.newTys b = if body.catches b then catchTys else [] := by
        unfold MirBody.newTys MirBody.catches
        cases body.blocks[b]? with
        | none => rfl
        | some blk =>
          unfold MirBlock.catches MirTerm.newTys
          simp only
          split <;> simp_all
      rw [List.flatMap_cons, ih, this]
      cases hb : body.catches b with
      | true => simp [hb]
      | false => simp [hb]
  refine ⟨?_, ?_, hs.args, hs.ret, hs.conv⟩
  · rw [hs.locals]
    simp [Map.keys, Function.comp_def, List.zipIdx_eq_zip_range', List.map_snd_zip, List.range_eq_range']
  · rw [hs.locals, hnew]
    simp [Map.values, Function.comp_def, List.zipIdx_eq_zip_range', List.map_fst_zip]

/-- The function does what the body says: it can perform the same sequences of actions, and is left after the same ones. Not so
if a drop unwinds, or for functions that must panic without unwinding (see `C67_drop_unwind_lost`, `C67_nounwind_unwinds`). -/
theorem C67_same_behavior_partial (hv : body.Valid) (ho : body.Order order)
    (hn : unwinds = true → ∀ blk ∈ body.blocks, ¬ blk.terminator.PanicsNounwind)
    (h : body.translate unwinds order = .ok f) (as : List Act) :
    ((∃ p, CfgRun f.blocks (f.start, 0) as (some p)) ↔ ∃ t, MirRun false (body.todo unwinds order) body.entry as (some t)) ∧
    (CfgRun f.blocks (f.start, 0) as none ↔ MirRun false (body.todo unwinds order) body.entry as none) := by
  obtain ⟨f', hf, hs⟩ := translate_spec (un := true) (unl := false) (unwinds := unwinds) hv ho (fun _ _ _ _ => rfl)
    (fun blk hb hp hu => absurd hp (hn hu blk hb))
  rw [h] at hf; cases hf
  have hat : body.entry.At f.blocks body.blocks.length (f.start, 0) := .inr (.inl hs.entry)
  have hm := hs.laid rfl
  refine ⟨⟨?_, ?_⟩, ?_, ?_⟩
  · rintro ⟨p, hp⟩
    obtain ⟨r, hr, hmt⟩ := Todo.At.back hm hp hat
    cases r with
    | none => exact hmt.elim
    | some c => exact ⟨c, hr⟩
  · rintro ⟨c, hc⟩
    obtain ⟨r, hr, hmt⟩ := Todo.At.forth hm hc hat
    cases r with
    | none => exact hmt.elim
    | some p => exact ⟨p, hr⟩
  · intro hp
    obtain ⟨r, hr, hmt⟩ := Todo.At.back hm hp hat
    cases r with
    | none => exact hr
    | some c => exact hmt.elim
  · intro hc
    obtain ⟨r, hr, hmt⟩ := Todo.At.forth hm hc hat
    cases r with
    | none => exact hr
    | some p => exact hmt.elim

theorem MirBlock.todo_tmp {blk : MirBlock} (h : blk.catches = false) (t t' : Nat) : blk.todo unwinds t = blk.todo unwinds t' := by
  unfold MirBlock.todo
  congr 1
  unfold MirBlock.catches at h
  cases hterm : blk.terminator with
  | call callee args d tg u =>
    rw [hterm] at h
    cases callee with
    | rsIntrinsic i =>
      cases i with
      | catchUnwind => cases h
      | assertValidity b => cases b <;> rfl
      | _ => rfl
    | _ => rfl
  | _ => rfl

/-- The order in which the blocks are translated does not matter, if there is no `catch_unwind` (with it, the names of temporary
variables depend on the order). -/
theorem C67_order_irrelevant (hv : body.Valid) {order' : List Nat} {f' : Function} (ho : body.Order order) (ho' : body.Order order')
    (hn : unwinds = true → ∀ blk ∈ body.blocks, ¬ blk.terminator.PanicsNounwind) (hc : ∀ blk ∈ body.blocks, blk.catches = false)
    (h : body.translate unwinds order = .ok f) (h' : body.translate unwinds order' = .ok f') (as : List Act) :
    ((∃ p, CfgRun f.blocks (f.start, 0) as (some p)) ↔ ∃ p, CfgRun f'.blocks (f'.start, 0) as (some p)) ∧
    (CfgRun f.blocks (f.start, 0) as none ↔ CfgRun f'.blocks (f'.start, 0) as none) ∧ f.args = f'.args ∧ f.locals.values = f'.locals.values := by
  have hm : body.todo unwinds order = body.todo unwinds order' := by
    funext b
    unfold MirBody.todo
    cases hb : body.blocks[b]? with
    | none => rfl
    | some blk => simp only [Option.map_some, MirBlock.todo_tmp (hc blk (List.mem_of_getElem? hb)) (body.tmp order b) (body.tmp order' b)]
  obtain ⟨h1, h2⟩ := C67_same_behavior_partial hv ho hn h as
  obtain ⟨h3, h4⟩ := C67_same_behavior_partial hv ho' hn h' as
  obtain ⟨_, v1, a1, _⟩ := C67_signature hv ho h
  obtain ⟨_, v2, a2, _⟩ := C67_signature hv ho' h'
  have hcf : ∀ l : List Nat, l.filter body.catches = [] := by
    intro l
    rw [List.filter_eq_nil_iff]
    intro b _ hcb
    unfold MirBody.catches at hcb
    cases hb : body.blocks[b]? with
    | none => rw [hb] at hcb; cases hcb
    | some blk => rw [hb] at hcb; simp only [hc blk (List.mem_of_getElem? hb)] at hcb; cases hcb
  refine ⟨h1.trans (hm ▸ h3.symm), h2.trans (hm ▸ h4.symm), a1.trans a2.symm, ?_⟩
  rw [v1, v2, hcf, hcf]

/-- If the types of the locals, and the statements and expressions of the body are well-formed, then so is the function: only
blocks are connected that may be connected. Not so if cleanup code panics (see `C67_cleanup_panic_ill_formed`). -/
theorem C67_wellformed_partial [LawfulTarget T] (hv : body.Valid) (ho : body.Order order)
    (hn : unwinds = true → ∀ blk ∈ body.blocks, ¬ blk.terminator.PanicsNounwind)
    (hp : unwinds = true → ∀ blk ∈ body.blocks, blk.isCleanup = true → ¬ blk.terminator.Panics)
    (h : body.translate unwinds order = .ok f) (prog : Program) (ht : ∀ ty ∈ f.locals.values, LocalTyOk prog ty)
    (he : body.entry.Checked prog f) (hc : ∀ b t, body.todo unwinds order b = some t → t.Checked prog f) : f.checkWf prog = .ok () := by
  obtain ⟨f', hf, hs⟩ := translate_spec (un := false) (unl := false) (unwinds := unwinds) hv ho
    (fun blk hb hpan hu => by
      simp only [Bool.and_eq_true] at hu
      exact absurd hpan (hp hu.1 blk hb hu.2))
    (fun blk hb hpan hu => absurd hpan (hn hu blk hb))
  rw [h] at hf; cases hf
  have hfine := hs.fine rfl prog he hc
  have hlen : body.locals.length + body.spreadTys.length ≤ (body.locals ++ body.spreadTys ++ order.flatMap body.newTys).length := by simp
  have hcontains : ∀ x, x < body.locals.length + body.spreadTys.length → f.locals.contains x = true := by
    intro x hx
    cases hcon : f.locals.contains x with
    | true => rfl
    | false =>
      rw [Map.contains_eq_false, hs.locals, get?_zipIdx_lt (Nat.zero_le _) (by omega)] at hcon
      simp only [Nat.sub_zero, List.getElem?_eq_none_iff] at hcon
      omega
  have hpos : 0 < body.locals.length := Nat.lt_of_le_of_lt (Nat.zero_le _) hv.args
  have hmem : ∀ x, x ∈ f.args → 0 < x ∧ x < body.locals.length + body.spreadTys.length := by
    intro x hx
    rw [hs.args] at hx
    obtain ⟨j, hj, hx⟩ := List.mem_flatMap.mp hx
    simp only [List.mem_range'_1] at hj
    have := hv.args
    unfold argLocals at hx
    have hone : (x : Nat) ∈ [j] → 0 < x ∧ x < body.locals.length + body.spreadTys.length := by
      intro hx
      have hxj := List.mem_singleton.mp hx
      subst hxj
      exact ⟨Nat.lt_of_lt_of_le Nat.zero_lt_one hj.1, Nat.lt_of_lt_of_le (Nat.lt_of_lt_of_le hj.2 (by omega)) (Nat.le_add_right _ _)⟩
    cases hsp : body.spread with
    | none => rw [hsp] at hx; exact hone hx
    | some e =>
      rw [hsp] at hx
      simp only at hx
      split at hx
      · simp only [List.mem_range'_1] at hx
        have : body.spreadTys = e.2 := by simp [MirBody.spreadTys, hsp]
        rw [this]
        exact ⟨Nat.lt_of_lt_of_le hpos hx.1, hx.2⟩
      · exact hone hx
  have hnodup : f.args.Nodup := by
    rw [hs.args]
    have hva := hv.args
    refine List.nodup_flatMap.mpr ⟨fun j hj => ?_, ?_⟩
    · unfold argLocals
      split
      · simp
      · split
        · exact List.nodup_range'
        · simp
    · refine List.Pairwise.imp_of_mem ?_ (List.nodup_range' (s := 1) (n := body.argCount))
      intro a b ha hb hab x hxa hxb
      simp only [List.mem_range'_1] at ha hb
      unfold argLocals at hxa hxb
      cases hsp : body.spread with
      | none =>
        rw [hsp] at hxa hxb
        exact hab ((List.mem_singleton.mp hxa).symm.trans (List.mem_singleton.mp hxb))
      | some e =>
        rw [hsp] at hxa hxb
        simp only at hxa hxb
        split at hxa <;> split at hxb
        · rename_i h1 h2; exact hab (h1.trans h2.symm)
        · simp only [List.mem_range'_1] at hxa
          have hxb : x = b := List.mem_singleton.mp hxb
          have : b < body.locals.length := by omega
          exact absurd (Nat.lt_of_lt_of_le (hxb ▸ this) hxa.1) (Nat.lt_irrefl _)
        · simp only [List.mem_range'_1] at hxb
          have hxa : x = a := List.mem_singleton.mp hxa
          have : a < body.locals.length := by omega
          exact absurd (Nat.lt_of_lt_of_le (hxa ▸ this) hxb.1) (Nat.lt_irrefl _)
        · exact hab ((List.mem_singleton.mp hxa).symm.trans (List.mem_singleton.mp hxb))
  have hargs : checkArgs f.locals f.args [] = .ok ([] ++ f.args) :=
    checkArgs_declared hnodup (by simp) fun x hx => hcontains x (hmem x hx).2
  have hret : f.ret ∉ f.args := fun hx => absurd (hmem _ hx).1 (by rw [hs.ret]; exact Nat.lt_irrefl 0)
  have hretc : f.locals.contains f.ret = true := by rw [hs.ret]; exact hcontains 0 (by omega)
  simp only [Function.checkWf, checkLocals_ok ht, hargs, hretc, Res.bind_ok, ensureWf_true, List.nil_append, if_neg hret]
  have aux : ∀ l : List BasicBlock, (∀ e ∈ l, FineBlock prog f e) → checkBlocks prog f l = .ok () := by
    intro l hl
    induction l with
    | nil => rfl
    | cons e l ih =>
      obtain ⟨h1, h2⟩ := hl e List.mem_cons_self
      simp only [checkBlocks, h1, h2, Res.bind_ok]
      exact ih fun e he => hl e (List.mem_cons_of_mem _ he)
  apply aux
  intro blk hblk
  simp only [Map.values, List.mem_map] at hblk
  obtain ⟨e, he, rfl⟩ := hblk
  exact hfine e he

/-- The function starts in a regular block that exists (`check_wf` does not ask for this). -/
theorem C67_start_exists (hv : body.Valid) (ho : body.Order order) (h : body.translate unwinds order = .ok f) :
    ∃ blk, f.blocks.get? f.start = some blk ∧ blk.kind = .regular := by
  obtain ⟨f', hf, hs⟩ := translate_spec (un := true) (unl := true) (unwinds := unwinds) hv ho (fun _ _ _ _ => rfl) (fun _ _ _ _ => ⟨rfl, rfl⟩)
  rw [h] at hf; cases hf
  exact hs.start
end

section
variable {M PE AE F : Type} [T : Target] [DecidableEq PE] [Memory M (AllocId × PE) F] [hm : SoftMem M (AllocId × PE) F]
  [B : BasicBacked M PE AE F] {prog : Program} {s s' : Machine M (AllocId × PE) F} {i d : Nat} {g : StackFrame (AllocId × PE) F}

include B in
/-- Whatever else the machine does meanwhile, an activation of the translated function does what the MIR body says. -/
theorem C67_activation_follows_mir {unwinds : Bool} {body : MirBody} {order : List Nat} {fn : Function} {as}
    (hv : body.Valid) (ho : body.Order order) (hn : unwinds = true → ∀ blk ∈ body.blocks, ¬ blk.terminator.PanicsNounwind)
    (ht : body.translate unwinds order = .ok fn) (hr : Reachable prog s) (hg : s.FrameAt i d g) (hfresh : g.Fresh fn)
    (h : s.Lives i d as s') : ∃ t, MirRun false (body.todo unwinds order) body.entry as (some t) := by
  obtain ⟨g1, _, _, hrun⟩ := C66_follows_graph (B := B) hr hg hfresh h
  exact (C67_same_behavior_partial hv ho hn ht as).1.mp ⟨_, hrun⟩

include B in
/-- The same when the function is left: it is left only where the MIR body ends. -/
theorem C67_activation_follows_mir_to_end {unwinds : Bool} {body : MirBody} {order : List Nat} {fn : Function} {as x s''}
    (hv : body.Valid) (ho : body.Order order) (hn : unwinds = true → ∀ blk ∈ body.blocks, ¬ blk.terminator.PanicsNounwind)
    (ht : body.translate unwinds order = .ok fn) (hr : Reachable prog s) (hg : s.FrameAt i d g) (hfresh : g.Fresh fn)
    (h : s.Lives i d as s') (hd : s'.Does i d [x] true) (hs : step s' = .ok ((), s'')) :
    MirRun false (body.todo unwinds order) body.entry (as ++ [x]) none :=
  (C67_same_behavior_partial hv ho hn ht _).2.mp (C66_follows_graph_to_end (B := B) hr hg hfresh h hd hs)

end

/-! ### A concrete body -/

namespace MirEx
attribute [local instance] x86_64 x86_64_lawful

theorem block_iff {body : MirBody} {k b} : body.Block k b ↔ (body.blocks[b]?.map (·.isCleanup)) = some k := by
  simp only [MirBody.Block, Option.map_eq_some_iff]

def u32 : Ty := .int ⟨.unsigned, 4⟩
def i32 : Ty := .int ⟨.signed, 4⟩
def ptr : ValueExpr := .constant (.pointerWithoutProvenance 8) (.ptr rawVoidPtr)

/-- `fn f(x: u32, y: (u32,)) -> i32`, where the fields of `y` are passed as arguments:
assumes and asserts, calls itself, cleans up, and catches. -/
def body : MirBody where
  locals := [i32, u32, .tuple [(0, u32)] ⟨4, ⟨2⟩, none⟩ none, .bool]
  argCount := 2
  spread := some (2, [u32])
  alwaysLive := [1, 2]
  conv := .rust
  blocks := [
    ⟨[.storageLive 3, .assign (.local 3) (.binOp (.rel .lt) (.load (.local 1)) (.constant (.int 7) u32)), .assume (.copy (.local 3))],
      .switchInt (.copy (.local 1)) u32 [(3, 1)] 2, false⟩,
    ⟨[], .assert (.move (.local 3)) false 2 .continue, false⟩,
    ⟨[.storageDead 3], .call (.fn 0 .rust none) [.copy (.local 1), .move (.field (.local 2) 0)] (.local 0) (some 4) (.cleanup 3), false⟩,
    ⟨[], .resume, true⟩,
    ⟨[], .call (.rsIntrinsic .catchUnwind) [.const (mkFnPtr 0), .const ptr, .const (mkFnPtr 0)] (.local 0) (some 5) .unreachable, false⟩,
    ⟨[], .return, false⟩]

def order : List Nat := [4, 0, 5, 2, 1, 3]

theorem valid : body.Valid where
  stmts := by
    intro blk hb s hs
    simp only [body, List.mem_cons, List.not_mem_nil, or_false] at hb
    rcases hb with rfl | rfl | rfl | rfl | rfl | rfl <;> simp only [List.mem_cons, List.not_mem_nil, or_false] at hs
    · rcases hs with rfl | rfl | rfl <;> simp [MirStmt.Valid, body]
    · subst hs; simp [MirStmt.Valid, body]
  terms := by
    intro blk hb
    simp only [body, List.mem_cons, List.not_mem_nil, or_false] at hb
    rcases hb with rfl | rfl | rfl | rfl | rfl | rfl <;>
      simp [MirTerm.Valid, block_iff, body, u32, MirCallee.Valid, UnwindAction.Valid, RsIntrinsic.Valid, RustCallOk, TargetsOk]
  start := ⟨_, rfl, rfl⟩
  args := by simp [body]
  spread := by simp [body]
  live := by simp [body]

theorem ordered : body.Order order := by
  refine ⟨by decide, fun b => ?_⟩
  simp only [order, List.mem_cons, List.not_mem_nil, or_false, body, List.length_cons, List.length_nil]
  omega

/-- The hypotheses of `C67_translates` are met. -/
example : ∃ f, body.translate true order = .ok f := C67_translates true valid ordered

def fn : Function := match body.translate true order with
  | .ok f => f
  | .error _ => ⟨[], [], 0, .c, [], 0⟩

theorem translated : body.translate true order = .ok fn := by
  obtain ⟨f, hf⟩ := C67_translates true valid ordered
  rw [show fn = f by simp only [fn, hf], hf]

theorem not_nounwind : true = true → ∀ blk ∈ body.blocks, ¬ blk.terminator.PanicsNounwind := by
  intro _ blk hb
  simp only [body, List.mem_cons, List.not_mem_nil, or_false] at hb
  rcases hb with rfl | rfl | rfl | rfl | rfl | rfl <;> simp [MirTerm.PanicsNounwind]

/-- The hypotheses of `C67_signature` are met: the last local is one of the five for `catch_unwind`. -/
example : fn.args = [1, 4] ∧ fn.locals.values.length = 10 := by
  obtain ⟨_, h2, h3, _⟩ := C67_signature valid ordered translated
  rw [h2, h3]
  exact ⟨rfl, rfl⟩

def callInfo : CallInfo := ⟨mkFnPtr 0, .rust, [.byValue (.load (.local 1)), .inPlace (.field (.local 2) 0)], .local 0⟩

/-- What the body does if `x` is not 3 and the call of the function unwinds. -/
def run : List Act := [.stmt (.storageLive 2), .stmt (.assign (.field (.local 2) 0) (.load (.local 4))),
  .stmt (.storageLive 3), .stmt (.assign (.local 3) (.binOp (.rel .lt) (.load (.local 1)) (.constant (.int 7) u32))),
  .op .assume [.load (.local 3)] unitPlace, .switch (.load (.local 1)) 5, .stmt (.storageDead 3), .call callInfo .unwound, .resume]

/-- The hypotheses of `C67_same_behavior_partial` are met, and a complete run of the body is one of the function. -/
example : CfgRun fn.blocks (fn.start, 0) run none := by
  refine (C67_same_behavior_partial valid ordered not_nounwind translated run).2.mpr ?_
  refine .cons .stmt <| .cons .stmt <| .goto (b := 0) rfl <| .cons .stmt <| .cons .stmt <|
    .cons .op <| .cons (.switchFallback rfl) <| .goto (b := 2) rfl <| .cons .stmt <| .cons (.callU (fun h => by cases h)) <|
    .goto (b := 3) rfl <| .last .resume

def prog : Program := ⟨[(0, fn)], 0, [], [], []⟩

theorem checked : body.entry.Checked prog fn ∧ ∀ b t, body.todo true order b = some t → t.Checked prog fn := by
  refine ⟨?_, ?_⟩
  · refine ⟨by decide +kernel, by decide +kernel, trivial⟩
  · intro b t h
    match b, h with
    | 0, h => cases h; exact ⟨by decide +kernel, by decide +kernel, by unfold IntrinsicOk; decide +kernel, ⟨⟨.unsigned, 4⟩, by decide +kernel, by decide +kernel⟩, trivial⟩
    | 1, h => cases h; exact ⟨⟨⟨.unsigned, 1⟩, by decide +kernel, by decide +kernel⟩, by decide +kernel, trivial⟩
    | 2, h => cases h; exact ⟨by decide +kernel, by unfold CallOk; decide +kernel, trivial, trivial⟩
    | 3, h => cases h; trivial
    | 4, h =>
      cases h
      simp only [MirBlock.todo, body, List.foldr, MirTerm.todo, MirCallee.todo, RsIntrinsic.todo, RsIntrinsic.value, MirOperand.translate, catchUnwindTodo,
        Todo.stmts, Todo.Checked, CallOk, IntrinsicOk]
      and_intros <;> first | trivial | decide +kernel
    | 5, h => cases h; trivial
    | n + 6, h => simp [MirBody.todo, body] at h

/-- The hypotheses of `C67_wellformed_partial` are met. -/
example : fn.checkWf prog = .ok () := by
  refine C67_wellformed_partial valid ordered not_nounwind ?_ translated prog ?_ checked.1 checked.2
  · intro _ blk hb hc
    simp only [body, List.mem_cons, List.not_mem_nil, or_false] at hb
    rcases hb with rfl | rfl | rfl | rfl | rfl | rfl <;> simp_all [MirTerm.Panics]
  · rw [(C67_signature valid ordered translated).2.1]
    have h : ∀ ty ∈ [i32, u32, .tuple [(0, u32)] ⟨4, ⟨2⟩, none⟩ none, .bool, u32, .ptr rawVoidPtr, .ptr .fnPtr], LocalTyOk prog ty := by
      simp only [List.mem_cons, List.not_mem_nil, or_false]
      rintro ty (rfl | rfl | rfl | rfl | rfl | rfl | rfl)
      · exact ⟨⟨.sized 4 ⟨2⟩, by decide +kernel, rfl⟩, by decide +kernel⟩
      · exact ⟨⟨.sized 4 ⟨2⟩, by decide +kernel, rfl⟩, by decide +kernel⟩
      · exact ⟨⟨.sized 4 ⟨2⟩, by decide +kernel, rfl⟩, by decide +kernel⟩
      · exact ⟨⟨.sized 1 ⟨0⟩, by decide +kernel, rfl⟩, by decide +kernel⟩
      · exact ⟨⟨.sized 4 ⟨2⟩, by decide +kernel, rfl⟩, by decide +kernel⟩
      · exact ⟨⟨.sized 8 ⟨3⟩, by decide +kernel, rfl⟩, by decide +kernel⟩
      · exact ⟨⟨.sized 8 ⟨3⟩, by decide +kernel, rfl⟩, by decide +kernel⟩
    intro ty hty
    apply h
    revert ty
    simp [body, MirBody.spreadTys, order, MirBody.catches, MirBlock.catches, catchTys]

/-- `drop x; return`, with cleanup. -/
def dropBody : MirBody where
  locals := [unitTy, u32]
  argCount := 1
  spread := none
  alwaysLive := []
  conv := .rust
  blocks := [⟨[], .drop (.glue 1) (.local 1) 1 (.cleanup 2), false⟩, ⟨[], .return, false⟩, ⟨[], .resume, true⟩]

theorem dropValid : dropBody.Valid where
  stmts := by
    intro blk hb s hs
    simp only [dropBody, List.mem_cons, List.not_mem_nil, or_false] at hb
    rcases hb with rfl | rfl | rfl <;> cases hs
  terms := by
    intro blk hb
    simp only [dropBody, List.mem_cons, List.not_mem_nil, or_false] at hb
    rcases hb with rfl | rfl | rfl <;> simp [MirTerm.Valid, block_iff, dropBody, UnwindAction.Valid]
  start := ⟨_, rfl, rfl⟩
  args := by simp [dropBody]
  spread := by simp [dropBody]
  live := by simp [dropBody]

theorem dropOrdered {l : List Nat} (h : l.Nodup) (h' : l = [0, 1, 2] ∨ l = [2, 1, 0]) : dropBody.Order l := by
  refine ⟨h, fun b => ?_⟩
  rcases h' with rfl | rfl <;>
    simp only [List.mem_cons, List.not_mem_nil, or_false, dropBody, List.length_cons, List.length_nil] <;> omega

theorem dropNot : true = true → ∀ blk ∈ dropBody.blocks, ¬ blk.terminator.PanicsNounwind := by
  intro _ blk hb
  simp only [dropBody, List.mem_cons, List.not_mem_nil, or_false] at hb
  rcases hb with rfl | rfl | rfl <;> simp [MirTerm.PanicsNounwind]

/-- The hypotheses of `C67_order_irrelevant` are met. -/
example : ∃ f f', dropBody.translate true [0, 1, 2] = .ok f ∧ dropBody.translate true [2, 1, 0] = .ok f' ∧ ∀ as,
    (CfgRun f.blocks (f.start, 0) as none ↔ CfgRun f'.blocks (f'.start, 0) as none) := by
  have o1 := dropOrdered (l := [0, 1, 2]) (by decide) (.inl rfl)
  have o2 := dropOrdered (l := [2, 1, 0]) (by decide) (.inr rfl)
  obtain ⟨f, hf⟩ := C67_translates true dropValid o1
  obtain ⟨f', hf'⟩ := C67_translates true dropValid o2
  refine ⟨f, f', hf, hf', fun as => (C67_order_irrelevant dropValid o1 o2 dropNot ?_ hf hf' as).2.1⟩
  intro blk hb
  simp only [dropBody, List.mem_cons, List.not_mem_nil, or_false] at hb
  rcases hb with rfl | rfl | rfl <;> rfl

/-- `let x = 3; if x == 3 { return } else { unreachable }` -/
def smallBody : MirBody where
  locals := [unitTy, u32]
  argCount := 0
  spread := none
  alwaysLive := [1]
  conv := .rust
  blocks := [⟨[.assign (.local 1) (.constant (.int 3) u32)], .switchInt (.copy (.local 1)) u32 [(3, 1)] 2, false⟩,
    ⟨[], .return, false⟩, ⟨[], .unreachable, false⟩]

theorem smallValid : smallBody.Valid where
  stmts := by simp [smallBody, MirStmt.Valid]
  terms := by simp [smallBody, MirTerm.Valid, block_iff, TargetsOk, u32]
  start := ⟨_, rfl, rfl⟩
  args := by simp [smallBody]
  spread := by simp [smallBody]
  live := by simp [smallBody]

theorem smallOrdered : smallBody.Order [1, 0, 2] := by
  refine ⟨by decide, fun b => ?_⟩
  simp only [List.mem_cons, List.not_mem_nil, or_false, smallBody, List.length_cons, List.length_nil]
  omega

theorem smallNot : true = true → ∀ blk ∈ smallBody.blocks, ¬ blk.terminator.PanicsNounwind := by
  intro _ blk hb
  simp only [smallBody, List.mem_cons, List.not_mem_nil, or_false] at hb
  rcases hb with rfl | rfl | rfl <;> simp [MirTerm.PanicsNounwind]

def smallFn : Function := match smallBody.translate true [1, 0, 2] with
  | .ok f => f
  | .error _ => ⟨[], [], 0, .c, [], 0⟩

theorem smallTranslated : smallBody.translate true [1, 0, 2] = .ok smallFn := by rfl

def smallProg : Program := ⟨[(0, ActEx.main), (1, smallFn)], 0, [], [], []⟩

/-- There is a state in which the function was just called, and later it is left. -/
theorem called_and_left : ∃ (s s1 s2 : BMach) (g : StackFrame (Nat × Unit) Unit) (as : List Act) (x : Act), Reachable smallProg s ∧
    s.FrameAt 0 1 g ∧ g.Fresh smallFn ∧ s.Lives 0 1 as s1 ∧ s1.Does 0 1 [x] true ∧ step s1 = .ok ((), s2) := by
  obtain ⟨s, s', hr, hs, h1, h2⟩ := exists_steps (M := BasicMem Unit Unit) (prog := smallProg) ActEx.run 1 5
    (fun s s' => (match ActEx.top2 s with
      | some g => decide (g.nextBlock = 3 ∧ g.nextStmt = 0 ∧ g.locals.keys = [0] ∧ g.func.callingConvention = .rust)
      | none => false) = true ∧ s'.threads.map (·.stack.length) = [1]) (by decide +kernel)
  cases ht : ActEx.top2 s with
  | none => rw [ht] at h1; cases h1
  | some g =>
    rw [ht] at h1
    obtain ⟨g1, g2, g3, g4⟩ := of_decide_eq_true h1
    unfold ActEx.top2 at ht
    split at ht
    swap
    · cases ht
    rename_i t hthr
    split at ht
    swap
    · cases ht
    rename_i f f0 hstack
    cases ht
    have hfn : g.func = smallFn := by
      obtain ⟨⟨name, hn⟩, _⟩ := C46_in_block (Program.startsOk_eq (by decide +kernel)) hr (t := t) (f := g) (by rw [hthr]; simp) (by rw [hstack]; simp)
      simp only [smallProg, Map.get?] at hn
      split at hn
      · rw [← Option.some.inj hn] at g4
        exact absurd g4 (show ActEx.main.callingConvention ≠ .rust by decide +kernel)
      · split at hn
        · exact (Option.some.inj hn).symm
        · cases hn
    have hframe : s.FrameAt 0 1 g := ⟨t, by rw [hthr]; rfl, by rw [hstack]; rfl⟩
    have hfresh : g.Fresh smallFn := ⟨hfn, g1, g2, fun l => by rw [g3]; simp [show smallFn.ret = 0 from rfl, show smallFn.args = [] from rfl]⟩
    rcases C66_lives_or_left hr hframe (runSteps_steps hs) with ⟨as, hl⟩ | ⟨as, s1, x, s2, k1, k2, k3, _⟩
    · obtain ⟨g', ⟨t', k1, k2⟩, _⟩ := C66_follows_graph hr hframe hfresh hl
      have := List.mem_of_getElem? k1
      have h3 : t'.stack.length ∈ s'.threads.map (·.stack.length) := List.mem_map.mpr ⟨t', this, rfl⟩
      rw [h2] at h3
      have h4 : 1 < t'.stack.length := by
        have := (List.getElem?_eq_some_iff.mp k2).1
        simpa using this
      simp only [List.mem_singleton] at h3
      omega
    · exact ⟨s, s1, s2, g, as, x, hr, hframe, hfresh, k1, k2, k3⟩

/-- The hypotheses of `C67_activation_follows_mir` and `C67_activation_follows_mir_to_end` are met. -/
example : ∃ as x, (∃ t, MirRun false (smallBody.todo true [1, 0, 2]) smallBody.entry as (some t)) ∧
    MirRun false (smallBody.todo true [1, 0, 2]) smallBody.entry (as ++ [x]) none := by
  obtain ⟨s, s1, s2, g, as, x, hr, hg, hf, hl, hd, hs⟩ := called_and_left
  exact ⟨as, x, C67_activation_follows_mir smallValid smallOrdered smallNot smallTranslated hr hg hf hl,
    C67_activation_follows_mir_to_end smallValid smallOrdered smallNot smallTranslated hr hg hf hl hd hs⟩

end MirEx

/-! ### What is wrong -/

/-- When a drop unwinds, the cleanup block of the drop must run next. The translated function has no such run: a call that drops
has no unwind block. -/
theorem C67_drop_unwind_lost : ∃ (_ : Target) (body : MirBody) (order : List Nat) (f : Function) (as : List Act), body.Valid ∧ body.Order order ∧
    body.translate true order = .ok f ∧ MirRun true (body.todo true order) body.entry as none ∧ ¬ CfgRun f.blocks (f.start, 0) as none := by
  have o1 := MirEx.dropOrdered (l := [0, 1, 2]) (by decide) (.inl rfl)
  obtain ⟨f, hf⟩ := C67_translates (T := x86_64) true MirEx.dropValid o1
  refine ⟨x86_64, MirEx.dropBody, [0, 1, 2], f, [.call ⟨mkFnPtr 1, .rust, [.byValue (.addrOf (.local 1) rawVoidPtr)], unitPlace⟩ .unwound, .resume],
    MirEx.dropValid, o1, hf, ?_, ?_⟩
  · exact .goto (b := 0) rfl <| .cons (.dropU rfl) <| .goto (b := 2) rfl <| .last .resume
  · intro h
    have h := (C67_same_behavior_partial (T := x86_64) MirEx.dropValid o1 MirEx.dropNot hf _).2.mp h
    cases h with
    | cons h _ => cases h
    | goto h h' =>
      cases h
      cases h' with
      | cons h _ => cases h; contradiction

namespace MirEx
/-- A function that must panic without unwinding. -/
def panicBody : MirBody where
  locals := [unitTy]
  argCount := 0
  spread := none
  alwaysLive := []
  conv := .rust
  blocks := [⟨[], .call (.panicFn true) [] (.local 0) none .unreachable, false⟩]

/-- Its translation: block 1 is the start block. -/
def panicFn : Function := ⟨[(0, unitTy)], [], 0, .rust, [(1, ⟨[], .goto 0, .regular⟩), (2, ⟨[], .unreachable, .cleanup⟩),
  (0, ⟨[], .startUnwind unitPtr 2, .regular⟩)], 1⟩

theorem panicValid : panicBody.Valid where
  stmts := by simp [panicBody]
  terms := by simp [panicBody, MirTerm.Valid, MirCallee.Valid, UnwindAction.Valid]
  start := ⟨_, rfl, rfl⟩
  args := by simp [panicBody]
  spread := by simp [panicBody]
  live := by simp [panicBody]

/-- Cleanup code that may panic; a second panic aborts. -/
def cleanupBody : MirBody where
  locals := [unitTy]
  argCount := 0
  spread := none
  alwaysLive := []
  conv := .rust
  blocks := [⟨[], .call (.fn 0 .rust none) [] (.local 0) none (.cleanup 1), false⟩,
    ⟨[], .assert (.const (.constant (.bool true) .bool)) true 2 .terminate, true⟩, ⟨[], .resume, true⟩]

theorem cleanupValid : cleanupBody.Valid where
  stmts := by simp [cleanupBody]
  terms := by simp [cleanupBody, MirTerm.Valid, MirCallee.Valid, UnwindAction.Valid, block_iff, RustCallOk]
  start := ⟨_, rfl, rfl⟩
  args := by simp [cleanupBody]
  spread := by simp [cleanupBody]
  live := by simp [cleanupBody]

end MirEx

section
attribute [local instance] x86_64

/-- A function that panics but must not unwind aborts. The translated function unwinds instead, and runs into undefined
behavior if rustc says that unwinding is unreachable. -/
theorem C67_nounwind_unwinds : ∃ (_ : Target) (body : MirBody) (order : List Nat) (f : Function), body.Valid ∧ body.Order order ∧
    body.translate true order = .ok f ∧ MirRun true (body.todo true order) body.entry [.op .abort [] unitPlace] none ∧
    ¬ CfgRun f.blocks (f.start, 0) [.op .abort [] unitPlace] none ∧ CfgRun f.blocks (f.start, 0) [.startUnwind unitPtr, .unreachable] none := by
  have o1 : MirEx.panicBody.Order [0] := ⟨by decide, by simp [MirEx.panicBody]⟩
  have hno : ∀ {p r} {as : List Act}, CfgRun MirEx.panicFn.blocks p as r → as ≠ [.op .abort [] unitPlace] := by
    intro p r as h
    have hstep : ∀ {p r}, ¬ CfgStep MirEx.panicFn.blocks p (.op .abort [] unitPlace) r := by
      rintro p r h
      cases h with
      | op h =>
        obtain ⟨blk, h1, _, h3⟩ := h
        simp only [MirEx.panicFn, Map.get?] at h1
        split at h1
        · cases h1; cases h3
        · split at h1
          · cases h1; cases h3
          · split at h1
            · cases h1; cases h3
            · cases h1
    induction h with
    | nil => intro h; cases h
    | last h => intro h'; cases h'; exact hstep h
    | cons h _ => intro h'; cases h'; exact hstep h
    | goto _ _ ih => exact ih
  refine ⟨x86_64, MirEx.panicBody, [0], MirEx.panicFn, MirEx.panicValid, o1, rfl, ?_, ?_, ?_⟩
  · exact .goto (b := 0) rfl <| .last .op
  · exact fun h => hno h rfl
  · exact .goto (n := 0) ⟨_, rfl, rfl, rfl⟩ <| .cons (.startUnwind ⟨_, rfl, rfl, rfl⟩) <| .last (.unreachable ⟨_, rfl, rfl, rfl⟩)

/-- The cleanup code of a valid body may panic (a second panic aborts). The translated function is not well-formed: unwinding starts
in a cleanup block. -/
theorem C67_cleanup_panic_ill_formed : ∃ (_ : Target) (body : MirBody) (order : List Nat) (f : Function) (prog : Program), body.Valid ∧ body.Order order ∧
    body.translate true order = .ok f ∧ (∀ ty ∈ f.locals.values, LocalTyOk prog ty) ∧ body.entry.Checked prog f ∧
    (∀ b t, body.todo true order b = some t → t.Checked prog f) ∧ f.checkWf prog = .error .illFormed := by
  have o1 : MirEx.cleanupBody.Order [0, 1, 2] := ⟨by decide, fun b => by
    simp only [List.mem_cons, List.not_mem_nil, or_false, MirEx.cleanupBody, List.length_cons, List.length_nil]; omega⟩
  refine ⟨x86_64, MirEx.cleanupBody, [0, 1, 2], _, ⟨[(0, ⟨[(0, unitTy)], [], 0, .rust, [], 0⟩)], 0, [], [], []⟩, MirEx.cleanupValid, o1, rfl, ?_, ?_, ?_, ?_⟩
  · intro ty hty
    rw [(C67_signature (T := x86_64) (unwinds := true) MirEx.cleanupValid o1 rfl).2.1] at hty
    have : ty = unitTy := by simpa [MirEx.cleanupBody, MirBody.spreadTys, MirBody.catches, MirBlock.catches] using hty
    subst this
    exact @unitTy_ok _ x86_64_lawful _
  · trivial
  · intro b t h
    match b, h with
    | 0, h => cases h; exact ⟨by unfold CallOk; decide +kernel, trivial, trivial⟩
    | 1, h => cases h; exact ⟨⟨⟨.unsigned, 1⟩, by decide +kernel, by decide +kernel⟩, by decide +kernel, by unfold IntrinsicOk; decide +kernel, trivial⟩
    | 2, h => cases h; trivial
    | n + 3, h => simp [MirBody.todo, MirEx.cleanupBody] at h
  · decide +kernel

end

end MiniRust
