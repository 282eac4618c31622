import Verif.WellFormed
import Verif.Lemmas.KnownExpr
/-
What the well-formedness check of a program says about its functions, blocks, statements and terminators.
-/
set_option linter.unusedSectionVars false
namespace MiniRust
section
variable [T : Target] {prog : Program} {func : Function}

theorem checkFunctions_mem : ∀ {fs : List Function} {f}, checkFunctions prog fs = .ok () → f ∈ fs → f.checkWf prog = .ok ()
  | g :: fs, f, h, hf => by
    simp only [checkFunctions, Res.bind_eq_ok] at h
    obtain ⟨⟨⟩, h1, h2⟩ := h
    rcases List.mem_cons.1 hf with rfl | hf
    · exact h1
    · exact checkFunctions_mem h2 hf

theorem Map.mem_values {K V : Type} [DecidableEq K] {m : Map K V} {k : K} {v : V} (h : m.get? k = some v) : v ∈ m.values :=
  List.mem_map.2 ⟨_, Map.get?_mem h, rfl⟩

theorem Program.checkWf_function {name} (h : prog.checkWf = .ok ()) (hf : prog.functions.get? name = some func) :
    func.checkWf prog = .ok () := by
  simp only [Program.checkWf, Res.bind_eq_ok] at h
  obtain ⟨_, _, ⟨⟩, h2, _⟩ := h
  exact checkFunctions_mem h2 (Map.mem_values hf)

theorem checkBlocks_mem : ∀ {bs : List BasicBlock} {b}, checkBlocks prog func bs = .ok () → b ∈ bs →
    checkStatements prog func b.statements = .ok () ∧ b.terminator.checkWf prog func b.kind = .ok ()
  | c :: bs, b, h, hb => by
    simp only [checkBlocks, Res.bind_eq_ok] at h
    obtain ⟨⟨⟩, h1, ⟨⟩, h2, h3⟩ := h
    rcases List.mem_cons.1 hb with rfl | hb
    · exact ⟨h1, h2⟩
    · exact checkBlocks_mem h3 hb

theorem checkStatements_mem : ∀ {ss : List Statement} {st}, checkStatements prog func ss = .ok () → st ∈ ss →
    st.checkWf prog func = .ok ()
  | c :: ss, st, h, hb => by
    simp only [checkStatements, Res.bind_eq_ok] at h
    obtain ⟨⟨⟩, h1, h2⟩ := h
    rcases List.mem_cons.1 hb with rfl | hb
    · exact h1
    · exact checkStatements_mem h2 hb

theorem checkLocals_mem : ∀ {ts : List Ty} {ty}, checkLocals prog ts = .ok () → ty ∈ ts →
    ty.checkWf prog = .ok () ∧ ∃ n a, ty.layout = .ok (.sized n a)
  | c :: ss, ty, h, hb => by
    simp only [checkLocals, Res.bind_eq_ok, ensureWf_eq_ok] at h
    obtain ⟨lay, h0, ⟨⟩, hs, ⟨⟩, h1, h2⟩ := h
    rcases List.mem_cons.1 hb with rfl | hb
    · refine ⟨h1, ?_⟩
      cases lay with
      | sized n a => exact ⟨n, a, h0⟩
      | _ => simp [LayoutStrategy.isSized] at hs
    · exact checkLocals_mem h2 hb

theorem checkArgs_ok {locals : Map LocalName Ty} : ∀ {as live live' : List LocalName}, live.Nodup → checkArgs locals as live = .ok live' →
    live' = live ++ as ∧ live'.Nodup ∧ ∀ a ∈ as, locals.contains a = true
  | [], live, live', hn, h => by
    simp only [checkArgs, Except.ok.injEq] at h
    subst h; simp [hn]
  | a :: as, live, live', hn, h => by
    simp only [checkArgs, Res.bind_eq_ok, ensureWf_eq_ok] at h
    obtain ⟨⟨⟩, h1, h2⟩ := h
    split at h2
    · cases h2
    · rename_i hna
      have hn' : (live ++ [a]).Nodup := by
        rw [List.nodup_append]
        refine ⟨hn, by simp, ?_⟩
        intro x hx y hy
        cases List.mem_singleton.1 hy
        rintro rfl; exact hna hx
      obtain ⟨e, h3, h4⟩ := checkArgs_ok hn' h2
      refine ⟨by rw [e]; simp, h3, fun b hb => ?_⟩
      rcases List.mem_cons.1 hb with rfl | hb
      · exact h1
      · exact h4 b hb

/-- A well-formed function, declaratively. -/
structure FunctionWf (prog : Program) (func : Function) : Prop where
  locals : ∀ l ty, func.locals.get? l = some ty → ty.checkWf prog = .ok () ∧ ∃ n a, ty.layout = .ok (.sized n a)
  args : ∀ a ∈ func.args, ∃ ty, func.locals.get? a = some ty
  argsNodup : func.args.Nodup
  ret : ∃ ty, func.locals.get? func.ret = some ty
  retNotArg : func.ret ∉ func.args
  stmts : ∀ b blk st, func.blocks.get? b = some blk → st ∈ blk.statements → st.checkWf prog func = .ok ()
  terms : ∀ b blk, func.blocks.get? b = some blk → blk.terminator.checkWf prog func blk.kind = .ok ()

theorem Map.contains_eq {K V : Type} [DecidableEq K] {m : Map K V} {k : K} : m.contains k = true ↔ ∃ v, m.get? k = some v := by
  unfold Map.contains
  rw [Option.isSome_iff_exists]

theorem Function.wf (h : func.checkWf prog = .ok ()) : FunctionWf prog func := by
  simp only [Function.checkWf, Res.bind_eq_ok, ensureWf_eq_ok] at h
  obtain ⟨⟨⟩, h1, live, h2, ⟨⟩, h3, h4⟩ := h
  split at h4
  · cases h4
  rename_i hr
  obtain ⟨e, hn, hd⟩ := checkArgs_ok List.nodup_nil h2
  simp only [List.nil_append] at e
  subst e
  exact ⟨fun l ty hl => checkLocals_mem h1 (Map.mem_values hl), fun a ha => Map.contains_eq.1 (hd a ha), hn,
    Map.contains_eq.1 h3, hr, fun b blk st hb hs => checkStatements_mem (checkBlocks_mem h4 (Map.mem_values hb)).1 hs,
    fun b blk hb => (checkBlocks_mem h4 (Map.mem_values hb)).2⟩

theorem Function.checkNextBlock_eq_ok {k b u} : func.checkNextBlock k b = .ok u ↔ ∃ blk, func.blocks.get? b = some blk ∧ blk.kind = k := by
  unfold Function.checkNextBlock
  cases func.blocks.get? b with
  | none => simp [illFormed]
  | some blk => simp

/-- The kinds of the blocks to which unwinding can go from a block. -/
def BbKind.UnwindTo : BbKind → BbKind → Prop
  | .regular, k => k = .cleanup ∨ k = .catch
  | .cleanup, k => k = .terminate
  | .terminate, k => k = .terminate
  | .catch, _ => False

theorem Function.checkUnwindBlock_eq_ok {k b u} : func.checkUnwindBlock k b = .ok u ↔ ∃ blk, func.blocks.get? b = some blk ∧ k.UnwindTo blk.kind := by
  unfold Function.checkUnwindBlock
  cases func.blocks.get? b with
  | none => cases k <;> simp [illFormed]
  | some blk => cases k <;> cases hk : blk.kind <;> simp [BbKind.UnwindTo, illFormed, hk]

theorem checkSwitchCases_mem {kind ity} : ∀ {cs : List (Int × BbName)} {c b}, checkSwitchCases func kind ity cs = .ok () →
    (c, b) ∈ cs → ity.canRepresent c = true ∧ func.checkNextBlock kind b = .ok ()
  | (c', b') :: cs, c, b, h, hc => by
    simp only [checkSwitchCases, Res.bind_eq_ok, ensureWf_eq_ok] at h
    obtain ⟨⟨⟩, h1, ⟨⟩, h2, h3⟩ := h
    rcases List.mem_cons.1 hc with e | hc
    · cases e; exact ⟨h1, h2⟩
    · exact checkSwitchCases_mem h3 hc

end
end MiniRust
