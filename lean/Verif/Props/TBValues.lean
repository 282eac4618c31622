import Verif.Props.TreeBorrows
import Verif.Lemmas.TBValues
/-
The values behind references under Tree Borrows: what a compiler may assume about them.
-/
set_option linter.unusedSectionVars false
namespace MiniRust

/-! ### C64: the values behind references -/

section
variable [T : Target]

/-- The bytes that a load through a reference derived from `q` returns, and the bytes behind `q`. -/
theorem C64_aux_agree {s2 s3 : TBState} {ptr ptr2 : ThinPtr TBProv} {len align2 rd rd2 id q r2}
    (hlen : rd.length = len)
    (hst : ∀ k b, rd[k]? = some b → s2.mem.byteAt id (ptr.addr + (k : Nat)) = some b ∨
      ∃ X', s2.mem.permAt (id, q) (ptr.addr + (k : Nat)) = some X' ∧ X'.isDisabled = true)
    (hload2 : TBStep s2 (.load ptr2 len align2 rd2) s3) (haddr : ptr2.addr = ptr.addr)
    (hp2 : ptr2.prov = some (id, r2)) (hr2 : AncestorOrSelf q r2) : rd2 = rd := by
  cases hload2 with
  | load h2 =>
    obtain ⟨hl2, hb2⟩ := tb_load_byteAt h2 hp2
    refine List.ext_getElem? (fun k => ?_)
    by_cases hk : k < len
    · rw [hb2 k hk, haddr, List.getElem?_eq_getElem (by omega)]
      rcases hst k _ (List.getElem?_eq_getElem (by omega)) with h | ⟨X', hX', hd⟩
      · exact h
      · exfalso
        obtain ⟨X3, _, ht⟩ := tb_load_perm h2 hp2 (by omega) (by omega) hX'
        rw [relationTo_local hr2, disabled_read _ hd] at ht
        cases ht
    · rw [List.getElem?_eq_none (by omega), List.getElem?_eq_none (by omega)]

/-- Loads through a reference (or references derived from it) agree, if nothing was stored through it in between,
no matter what happened through other references: unless the memory is interior mutable, a change by others would have
made the second load UB. -/
theorem C64_reads_agree {s s1 s2 s3 : TBState} {es : List TBEvent} {ptr ptr2 : ThinPtr TBProv}
    {len : Nat} {align align2 rd rd2 id q r r2}
    (hreach : TBReach s) (hload : TBStep s (.load ptr len align rd) s1)
    (hp : ptr.prov = some (id, r)) (hr : AncestorOrSelf q r)
    (hX : ∀ k, k < len → ∃ X, s.mem.permAt (id, q) (ptr.addr + (k : Nat)) = some X ∧ ¬ X.Shareable)
    (htrace : TBTrace s1 es s2) (hno : ∀ e ∈ es, ¬ e.StoresVia id q)
    (hload2 : TBStep s2 (.load ptr2 len align2 rd2) s3) (haddr : ptr2.addr = ptr.addr)
    (hp2 : ptr2.prov = some (id, r2)) (hr2 : AncestorOrSelf q r2) :
    rd2 = rd := by
  have I1 := (hload.inv hreach.inv).1
  cases hload with
  | load h =>
    obtain ⟨hl, hb⟩ := tb_load_byteAt h hp
    refine C64_aux_agree (s2 := s2) (ptr := ptr) hl (fun k b hkb => ?_) hload2 haddr hp2 hr2
    have hk : k < len := by rw [← hl]; exact (List.getElem?_eq_some_iff.1 hkb).1
    obtain ⟨X, hX, hs⟩ := hX k hk
    obtain ⟨X1, hX1, ht⟩ := tb_load_perm h hp (by omega) (by omega) hX
    refine htrace.stable I1 ?_ hX1 (okB_ok (f := fun X : Permission => X.solid) (solid_step _ _ _ (solid_iff.2 hs)) ht) hno
    have := hb k hk
    rw [hkb] at this
    rcases TBStep.byteAt (.load (fs := []) h) this.symm with h' | ⟨_, _, _, _, he, _⟩
    · exact h'
    · cases he

/-- A load returns the bytes that were last stored through the reference, no matter what happened through other
references, unless the memory is in a shared `UnsafeCell`. -/
theorem C64_read_after_write {s s1 s2 s3 : TBState} {es : List TBEvent} {ptr ptr2 : ThinPtr TBProv}
    {bytes align align2 rd2 id q r r2}
    (hreach : TBReach s) (hstore : TBStep s (.store ptr bytes align) s1)
    (hp : ptr.prov = some (id, r)) (hr : AncestorOrSelf q r)
    (hX : ∀ k, k < bytes.length → ∃ X, s.mem.permAt (id, q) (ptr.addr + (k : Nat)) = some X ∧ X ≠ .unprot .cell ∧ X ≠ .prot .cell)
    (htrace : TBTrace s1 es s2) (hno : ∀ e ∈ es, ¬ e.StoresVia id q)
    (hload2 : TBStep s2 (.load ptr2 bytes.length align2 rd2) s3) (haddr : ptr2.addr = ptr.addr)
    (hp2 : ptr2.prov = some (id, r2)) (hr2 : AncestorOrSelf q r2) :
    rd2 = bytes := by
  have I1 := (hstore.inv hreach.inv).1
  cases hstore with
  | store h =>
    refine C64_aux_agree (s2 := s2) (ptr := ptr) rfl (fun k b hkb => ?_) hload2 haddr hp2 hr2
    have hk : k < bytes.length := (List.getElem?_eq_some_iff.1 hkb).1
    obtain ⟨X, hX, hs⟩ := hX k hk
    obtain ⟨X1, hX1, ht⟩ := tb_store_perm h hp (by omega) (by omega) hX
    rw [relationTo_local hr] at ht
    refine htrace.stable I1 ?_ hX1 (okB_ok (f := fun X : Permission => X.solid) (solid_local_write _ hs) ht) hno
    rw [tb_store_byteAt h hp hk]; exact hkb

/-- Loads through a shared reference agree, whatever happened in between, through this reference or any other. -/
theorem C64_shared_reads_agree {s s1 s2 s3 : TBState} {ptr ptr2 : ThinPtr TBProv}
    {len : Nat} {align align2 rd rd2 id q r r2}
    (hreach : TBReach s) (hload : TBStep s (.load ptr len align rd) s1) (hp : ptr.prov = some (id, r))
    (hX : ∀ k, k < len → ∃ X, s.mem.permAt (id, q) (ptr.addr + (k : Nat)) = some X ∧ X.ReadOnly)
    (hrun : TBRun s1 s2)
    (hload2 : TBStep s2 (.load ptr2 len align2 rd2) s3) (haddr : ptr2.addr = ptr.addr)
    (hp2 : ptr2.prov = some (id, r2)) (hr2 : AncestorOrSelf q r2) :
    rd2 = rd := by
  have I1 := (hload.inv hreach.inv).1
  cases hload with
  | load h =>
    obtain ⟨hl, hb⟩ := tb_load_byteAt h hp
    refine C64_aux_agree (s2 := s2) (ptr := ptr) hl (fun k b hkb => ?_) hload2 haddr hp2 hr2
    have hk : k < len := by rw [← hl]; exact (List.getElem?_eq_some_iff.1 hkb).1
    obtain ⟨X, hX, hs⟩ := hX k hk
    obtain ⟨X1, hX1, ht⟩ := tb_load_perm h hp (by omega) (by omega) hX
    refine hrun.readOnly I1 ?_ hX1 (okB_ok (f := fun X : Permission => X.readOnly) (readOnly_step _ _ _ (readOnly_iff.2 hs)) ht)
    have := hb k hk
    rw [hkb] at this
    rcases TBStep.byteAt (.load (fs := []) h) this.symm with h' | ⟨_, _, _, _, he, _⟩
    · exact h'
    · cases he

theorem C64_aux_insert {s1 s2 : TBState} {es : List TBEvent} {ptr : ThinPtr TBProv} {len : Nat} {align rd id q pr2}
    (I1 : TInv s1.mem s1.frames.flatten) (hp : ptr.prov = some (id, q)) (hal : Aligned align ptr.addr)
    (hlen : rd.length = len) (hb : ∀ k, k < len → s1.mem.byteAt id (ptr.addr + (k : Nat)) = rd[k]?)
    (hX1 : ∀ k, k < len → ∃ X, s1.mem.permAt (id, q) (ptr.addr + (k : Nat)) = some X ∧ X.usedRead = true)
    (hq1 : ∀ k, k < len → s1.mem.Quiet id q (ptr.addr + (k : Nat)))
    (htrace : TBTrace s1 es s2) (hno : ∀ e ∈ es, ¬ e.StoresVia id q)
    (hpr2 : s2.mem.protectorOf (id, q) = some pr2) (hy2 : pr2 ≠ .no) (hlive : s2.mem.LiveAlloc id) :
    ∃ m', Memory.load s2.mem ptr len align = .ok (rd, m') := by
  obtain ⟨I2, hle⟩ := htrace.run.inv I1
  have hX2 : ∀ k, k < len → ∃ X, s2.mem.permAt (id, q) (ptr.addr + (k : Nat)) = some X ∧ X.usedRead = true := by
    intro k hk
    obtain ⟨X, hX, hu⟩ := hX1 k hk
    exact protected_used hle hX hu hpr2 hy2 hlive
  have hq2 : ∀ k, k < len → s2.mem.Quiet id q (ptr.addr + (k : Nat)) := by
    intro k hk
    obtain ⟨X, hX, _⟩ := hX1 k hk
    refine htrace.quiet I1 (hq1 k hk) ?_ hlive hno
    obtain ⟨a, off, ha, _, hk⟩ := permAt_eq_some.1 hX
    obtain ⟨ps, pr, hd, _⟩ := Node.perm_eq_some.1 hk
    simp only at ha hd
    exact ⟨a.extra, by simp [TBMem.tree?, ha], by rw [hd]; rfl⟩
  obtain ⟨rd2, m', h2⟩ := load_protected I2 hp (protected_mem I2 hpr2 hy2 hlive) hlive hal hX2 hq2
  have : rd2 = rd := by
    obtain ⟨ms, fs⟩ := s2
    refine C64_aux_agree (s2 := ⟨ms, fs⟩) (ptr := ptr) hlen (fun k b hkb => ?_) (.load h2) rfl hp (List.prefix_refl _)
    have hk : k < len := by rw [← hlen]; exact (List.getElem?_eq_some_iff.1 hkb).1
    obtain ⟨X, hX, hu⟩ := hX1 k hk
    exact htrace.stable I1 (by rw [hb k hk]; exact hkb) hX (usedRead_solid _ hu) hno
  exact ⟨m', by rw [← this]; exact h2⟩

/-- While a reference is protected, a load through it that succeeded once may be repeated at any later time: it
succeeds and returns the same bytes, unless the memory is interior mutable or there was a store through the reference
in between. -/
theorem C64_read_can_be_repeated {s s1 s2 : TBState} {es : List TBEvent} {ptr : ThinPtr TBProv} {len : Nat} {align rd id q pr pr2}
    (hreach : TBReach s) (hload : TBStep s (.load ptr len align rd) s1) (hp : ptr.prov = some (id, q))
    (hpr : s.mem.protectorOf (id, q) = some pr) (hy : pr ≠ .no)
    (hX : ∀ k, k < len → ∃ X, s.mem.permAt (id, q) (ptr.addr + (k : Nat)) = some X ∧ X ≠ .prot .cell)
    (htrace : TBTrace s1 es s2) (hno : ∀ e ∈ es, ¬ e.StoresVia id q)
    (hpr2 : s2.mem.protectorOf (id, q) = some pr2) (hy2 : pr2 ≠ .no) (hlive : s2.mem.LiveAlloc id) :
    ∃ m', Memory.load s2.mem ptr len align = .ok (rd, m') := by
  have I1 := (hload.inv hreach.inv).1
  have hX1 : ∀ k, k < len → ∃ X, s1.mem.permAt (id, q) (ptr.addr + (k : Nat)) = some X ∧ X.usedRead = true := by
    intro k hk
    obtain ⟨X, hX, hc⟩ := hX k hk
    obtain ⟨X1, hX1, hu, _⟩ := C28_aux_use hreach.inv (.inl hload) hp (List.prefix_refl _) hpr hy ⟨by omega, by omega⟩ hX hc
    exact ⟨X1, hX1, hu⟩
  cases hload with
  | load h =>
    obtain ⟨hl, hb⟩ := tb_load_byteAt h hp
    have hal : Aligned align ptr.addr := by
      have h' := h
      rw [tb_load_eq_ok, BasicMem.load_eq_ok] at h'
      exact h'.1
    refine C64_aux_insert I1 hp hal hl (fun k hk => ?_) hX1 (fun k hk => load_quiet h hp hk) htrace hno hpr2 hy2 hlive
    have hkb := hb k hk
    rw [List.getElem?_eq_getElem (by omega)] at hkb ⊢
    rcases TBStep.byteAt (.load (fs := []) h) hkb.symm with h' | ⟨_, _, _, _, he, _⟩
    · exact h'
    · cases he

/-- What a function may assume about a reference it got as an argument: at any time during the call, a load through
the reference succeeds and gives what was there when the function was called, unless the function stored to it, or the
reference is a shared reference to interior mutable memory. -/
theorem C64_argument_can_be_read {s s1 s2 : TBState} {es : List TBEvent} {ptr ptr' : Pointer TBProv} {pty info mask id parent vt align}
    {f f' : TBFrame} {m1 : TBMem} {i start len : Nat} {pr2}
    (hreach : TBReach s) (hf : s.frames[i]? = some f)
    (hstep : Memory.retagPtr s.mem f ptr pty true vt = .ok (ptr', f', m1)) (hs1 : s1 = ⟨m1, s.frames.set i f'⟩)
    (hret : pty.Retags) (hi : pty.safePointee = some info)
    (hm : info.unsafeCells.freezeMask vt info.layout ptr.metadata = .ok mask)
    (hp : ptr.thin.prov = some (id, parent)) (hlen : start + len ≤ mask.length)
    (hfrozen : pty.isShared = true → ∀ k, start ≤ k → k < start + len → mask[k]? = some true)
    (hal : Aligned align (ptr.thin.addr + (start : Nat)))
    (htrace : TBTrace s1 es s2) :
    ∃ child rd, ptr'.thin.prov = some (id, child) ∧ rd.length = len ∧
      (∀ k, k < len → rd[k]? = s.mem.byteAt id (ptr.thin.addr + (start : Nat) + (k : Nat))) ∧
      ((∀ e ∈ es, ¬ e.StoresVia id child) → s2.mem.protectorOf (id, child) = some pr2 → pr2 ≠ .no → s2.mem.LiveAlloc id →
        ∃ m', Memory.load s2.mem ⟨ptr.thin.addr + (start : Nat), some (id, child)⟩ len align = .ok (rd, m')) := by
  have I := hreach.inv
  obtain ⟨child, N⟩ := retag_newRef I hstep hret hi hm hp
  have hst : TBStep s (.retag ptr pty true ptr') s1 := by
    subst hs1
    obtain ⟨m, fs⟩ := s
    exact .retag hf hstep
  have I1 := (hst.inv I).1
  have hX1 : ∀ k, k < len → ∃ X, s1.mem.permAt (id, child) (ptr.thin.addr + (start : Nat) + (k : Nat)) = some X ∧ X.usedRead = true := by
    intro k hk
    have hb : mask[start + k]? = some mask[start + k] := List.getElem?_eq_getElem (by omega)
    refine ⟨_, by rw [hs1, Int.add_assoc]; exact N.inside (start + k) _ hb, ?_⟩
    cases hsh : pty.isShared with
    | false => cases mask[start + k] <;> rfl
    | true =>
      have := hfrozen hsh (start + k) (by omega) (by omega)
      rw [hb] at this
      cases this' : mask[start + k] with
      | true => rfl
      | false => rw [this'] at this; simp at this
  -- the bytes
  have hbyte : ∀ k, k < len → ∃ b, s1.mem.byteAt id (ptr.thin.addr + (start : Nat) + (k : Nat)) = some b := by
    intro k hk
    obtain ⟨X, hX, _⟩ := hX1 k hk
    obtain ⟨a, off, ha, haddr, hk⟩ := permAt_eq_some.1 hX
    obtain ⟨ps, pr, hd, hk⟩ := Node.perm_eq_some.1 hk
    have hlt := (List.getElem?_eq_some_iff.1 hk).1
    have := (I1.tree id a ha).len _ _ _ hd
    simp only [Alloc.size] at this
    exact ⟨_, byteAt_eq_some.2 ⟨a, off, ha, haddr, List.getElem?_eq_getElem (by omega)⟩⟩
  have hsd : SameData s.mem.mem s1.mem.mem := by rw [hs1]; exact BasicBacked.retag _ _ _ _ _ _ _ _ _ hstep
  have hback : ∀ addr b, s1.mem.byteAt id addr = some b → s.mem.byteAt id addr = some b := by
    intro addr b hb
    obtain ⟨a, off, ha, rfl, hk⟩ := byteAt_eq_some.1 hb
    have hlt : id < s.mem.mem.allocations.length := by rw [hsd.1]; exact (List.getElem?_eq_some_iff.1 ha).1
    have ha0 := List.getElem?_eq_getElem hlt
    have := hsd.2 id _ a ha0 ha
    exact byteAt_eq_some.2 ⟨_, off, ha0, by rw [this.2.1], by rw [this.1]; exact hk⟩
  let rd : List (AByte TBProv) := (List.range len).filterMap
    (fun k => s1.mem.byteAt id (ptr.thin.addr + (start : Nat) + (k : Nat)))
  have hrd : ∀ n, n ≤ len → ((List.range n).filterMap
      (fun k => s1.mem.byteAt id (ptr.thin.addr + (start : Nat) + ((k : Nat) : Int)))).length = n ∧
      ∀ k, k < n → ((List.range n).filterMap
      (fun k => s1.mem.byteAt id (ptr.thin.addr + (start : Nat) + ((k : Nat) : Int))))[k]? =
        s1.mem.byteAt id (ptr.thin.addr + (start : Nat) + (k : Nat)) := by
    intro n
    induction n with
    | zero => intro _; simp
    | succ n ih =>
      intro hn
      obtain ⟨h1, h2⟩ := ih (by omega)
      obtain ⟨b, hb⟩ := hbyte n (by omega)
      rw [List.range_succ, List.filterMap_append]
      simp only [List.filterMap_cons, List.filterMap_nil, hb]
      refine ⟨by simp [h1], fun k hk => ?_⟩
      by_cases hkn : k < n
      · rw [List.getElem?_append_left (by rw [h1]; exact hkn)]
        exact h2 k hkn
      · have : k = n := by omega
        subst this
        rw [List.getElem?_append_right (by rw [h1]), h1]
        simpa using hb.symm
  obtain ⟨hrl, hrk⟩ := hrd len (Nat.le_refl _)
  refine ⟨child, rd, N.prov', hrl, fun k hk => ?_, fun hno hpr2 hy2 hlive => ?_⟩
  · obtain ⟨b, hb⟩ := hbyte k hk
    rw [hrk k hk, hb, hback _ _ hb]
  · refine C64_aux_insert (ptr := ⟨ptr.thin.addr + (start : Nat), some (id, child)⟩) I1 rfl hal hrl (fun k hk => (hrk k hk).symm) hX1 (fun k hk => ?_) htrace hno hpr2 hy2 hlive
    refine hst.quiet (fresh_quiet N.fresh _) ?_ ?_ ?_
    · obtain ⟨b, hb⟩ := hbyte k hk
      obtain ⟨a, _, ha, _⟩ := byteAt_eq_some.1 (hback _ _ hb)
      exact (List.getElem?_eq_some_iff.1 ha).1
    · obtain ⟨a, ha, hlv⟩ := hlive
      obtain ⟨b, hb⟩ := hbyte k hk
      obtain ⟨a1, _, ha1, _⟩ := byteAt_eq_some.1 hb
      obtain ⟨a2, ha2, _, _, hl2, _⟩ := (htrace.run.inv I1).2 id a1 ha1
      rw [ha] at ha2; cases ha2
      exact ⟨a1, ha1, hl2 hlv⟩
    · rintro ⟨_, _, _, _, he, _⟩
      cases he

end

section
attribute [local instance] x86_64
open Ex

theorem Ex.not_storing {ptr : ThinPtr TBProv} {len align bytes id q} : ¬ (TBEvent.load ptr len align bytes).StoresVia id q := by
  rintro ⟨_, _, _, _, he, _⟩; cases he

/-- `C64_reads_agree` and `C64_read_can_be_repeated`: the function reads through its reference, somebody else reads the
variable, and the function reads again. -/
example : ∃ rd rd' s1 s2 s3, TBReach (Ex.after Ex.argument) ∧
    TBStep (Ex.after Ex.argument) (.load ⟨17, some (0, [0])⟩ 2 ⟨0⟩ rd) s1 ∧
    (∀ k, k < 2 → ∃ X, (Ex.after Ex.argument).mem.permAt (0, [0]) (17 + (k : Nat)) = some X ∧ ¬ X.Shareable ∧ X ≠ .prot .cell) ∧
    (Ex.after Ex.argument).mem.protectorOf (0, [0]) = some .strong ∧
    TBTrace s1 [.load ⟨16, some (0, [])⟩ 4 ⟨0⟩ rd'] s2 ∧
    (∀ e ∈ [TBEvent.load ⟨16, some (0, [])⟩ 4 ⟨0⟩ rd'], ¬ e.StoresVia 0 [0]) ∧
    s2.mem.protectorOf (0, [0]) = some .strong ∧ s2.mem.LiveAlloc 0 ∧
    TBStep s2 (.load ⟨17, some (0, [0])⟩ 2 ⟨0⟩ rd) s3 ∧ rd = [.uninit, .uninit] := by
  refine ⟨_, _, _, _, _, Ex.after_reach _, .load rfl, fun k hk => ?_, by decide, .snoc .nil (.load rfl), ?_, by decide,
    ⟨_, rfl, rfl⟩, .load rfl, by decide⟩
  · refine ⟨.prot (.reserved true false), ?_, solid_iff.1 rfl, by decide⟩
    match k, hk with
    | 0, _ => exact by decide
    | 1, _ => exact by decide
  · intro e he
    rw [List.mem_singleton] at he
    rw [he]; exact Ex.not_storing

/-- `C64_read_after_write`: after the call ended, a store through the reference, a load by the owner of the variable
(which makes the reference read-only) and a load through the reference. -/
example : ∃ rd' s1 s2 s3, TBReach (Ex.after (Ex.argument ++ [.endCall 0])) ∧
    TBStep (Ex.after (Ex.argument ++ [.endCall 0])) (.store ⟨17, some (0, [0])⟩ [.init 7 none] ⟨0⟩) s1 ∧
    (Ex.after (Ex.argument ++ [.endCall 0])).mem.permAt (0, [0]) 17 = some (.unprot .reserved) ∧
    TBTrace s1 [.load ⟨16, some (0, [])⟩ 4 ⟨0⟩ rd'] s2 ∧
    s2.mem.permAt (0, [0]) 17 = some (.unprot .frozen) ∧
    TBStep s2 (.load ⟨17, some (0, [0])⟩ 1 ⟨0⟩ [.init 7 none]) s3 :=
  ⟨_, _, _, _, Ex.after_reach _, .store rfl, by decide, .snoc .nil (.load rfl), by decide, .load rfl⟩

/-- `C64_shared_reads_agree`: a shared reference, read, and read again after the owner of the variable wrote elsewhere. -/
example : ∃ rd s1 s2 s3,
    TBStep (Ex.after [.alloc .heap 4 ⟨0⟩ 16, .newCall, .retag 0 ⟨16, some (0, [])⟩ Ex.imm4 false]) (.load ⟨16, some (0, [0])⟩ 2 ⟨0⟩ rd) s1 ∧
    (Ex.after [.alloc .heap 4 ⟨0⟩ 16, .newCall, .retag 0 ⟨16, some (0, [])⟩ Ex.imm4 false]).mem.permAt (0, [0]) 16 = some (.unprot .frozen) ∧
    TBTrace s1 [.store ⟨18, some (0, [])⟩ [.init 1 none] ⟨0⟩] s2 ∧
    TBStep s2 (.load ⟨16, some (0, [0])⟩ 2 ⟨0⟩ rd) s3 :=
  ⟨_, _, _, _, .load rfl, by decide, .snoc .nil (.store rfl), .load rfl⟩
/-- Had the owner written to the bytes that are read, the second load would be UB. -/
example : ∃ s, Ex.runAll (Ex.after [.alloc .heap 4 ⟨0⟩ 16, .newCall, .retag 0 ⟨16, some (0, [])⟩ Ex.imm4 false])
    [.load ⟨16, some (0, [0])⟩ 2 ⟨0⟩, .store ⟨17, some (0, [])⟩ [.init 1 none] ⟨0⟩] = .ok s ∧
    Memory.load s.mem ⟨16, some (0, [0])⟩ 2 ⟨0⟩ = .error .ub := ⟨_, rfl, rfl⟩

/-- The exception for `UnsafeCell` is needed: others can change what is behind a shared reference to one. -/
example : ∃ s, Ex.runAll ⟨Memory.new, []⟩ [.alloc .heap 4 ⟨0⟩ 16, .newCall,
      .retag 0 ⟨16, some (0, [])⟩ (.ref .imm ⟨.sized 4 ⟨0⟩, true, .sized [(0, 4)], false, true⟩) true,
      .load ⟨16, some (0, [0])⟩ 1 ⟨0⟩, .store ⟨16, some (0, [])⟩ [.init 1 none] ⟨0⟩] = .ok s ∧
    s.mem.permAt (0, [0]) 16 = some (.prot .cell) ∧
    ∃ m', Memory.load s.mem ⟨16, some (0, [0])⟩ 1 ⟨0⟩ = .ok ([.init 1 none], m') := ⟨_, rfl, rfl, _, rfl⟩

/-- `C64_argument_can_be_read`: the reference is passed to the function, somebody else reads the variable, and then
the function reads through it. -/
example : ∃ ptr' f' m1 rd' s2,
    let s := Ex.after [.alloc .heap 4 ⟨0⟩ 16, .newCall]
    TBReach s ∧ s.frames[0]? = some [] ∧
    Memory.retagPtr s.mem [] (ThinPtr.widen ⟨16, some (0, [])⟩ none) Ex.mut4 true (fun _ => .error .ub) = .ok (ptr', f', m1) ∧
    Ex.mut4.Retags ∧ Ex.mut4.safePointee = some Ex.info4 ∧
    Ex.info4.unsafeCells.freezeMask (P := TBProv) (fun _ => .error .ub) Ex.info4.layout none = .ok [true, true, true, false] ∧
    TBTrace ⟨m1, s.frames.set 0 f'⟩ [.load ⟨16, some (0, [])⟩ 4 ⟨0⟩ rd'] s2 ∧
    s2.mem.protectorOf (0, [0]) = some .strong ∧ s2.mem.LiveAlloc 0 ∧
    ∃ m', Memory.load s2.mem ⟨17, some (0, [0])⟩ 2 ⟨0⟩ = .ok ([.uninit, .uninit], m') :=
  ⟨_, _, _, _, _, Ex.after_reach _, rfl, rfl, ⟨⟨_, rfl⟩, fun _ h => by cases h; rfl⟩, rfl, by decide, .snoc .nil (.load rfl), by decide, ⟨_, rfl, rfl⟩, _, rfl⟩
end

end MiniRust
