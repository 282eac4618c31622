import Verif.Lemmas.TBExit
import Verif.Lemmas.TBRetag
import Verif.Lemmas.TBComm
import Verif.Lemmas.TBErase
/-
Properties C26 to C32, C39 and C40: Tree Borrows.

All theorems are about every target, every reachable state (every history of memory operations from the
empty memory, with calls starting and ending at any time) and every reference.
The specification vocabulary is in `Verif/Spec/TreeBorrows.lean`.
-/
set_option linter.unusedSectionVars false
namespace MiniRust

/-! ### A runner for the examples -/

namespace Ex
/-- Operations to run in examples. -/
inductive TBCmd
  | alloc (kind : AllocKind) (size : Nat) (align : Align) (pick : Int)
  | dealloc (ptr : ThinPtr TBProv) (kind : AllocKind) (size : Nat) (align : Align)
  | store (ptr : ThinPtr TBProv) (bytes : List (AByte TBProv)) (align : Align)
  | load (ptr : ThinPtr TBProv) (len : Nat) (align : Align)
  | retag (i : Nat) (ptr : ThinPtr TBProv) (pty : PtrType) (fnEntry : Bool)
  | newCall
  | endCall (i : Nat)

section
variable [T : Target]
def TBCmd.run (s : TBState) : TBCmd → Res TBState
  | .alloc kind size align pick => do
    let r ← Memory.allocate s.mem kind size align pick
    .ok ⟨r.2, s.frames⟩
  | .dealloc ptr kind size align => do
    let m ← Memory.deallocate s.mem ptr kind size align
    .ok ⟨m, s.frames⟩
  | .store ptr bytes align => do
    let m ← Memory.store s.mem ptr bytes align
    .ok ⟨m, s.frames⟩
  | .load ptr len align => do
    let r ← Memory.load s.mem ptr len align
    .ok ⟨r.2, s.frames⟩
  | .retag i ptr pty entry => do
    let f ← index s.frames i
    let r ← Memory.retagPtr s.mem f (ptr.widen none) pty entry (fun _ => .error .ub)
    .ok ⟨r.2.2, s.frames.set i r.2.1⟩
  | .newCall => .ok ⟨s.mem, s.frames ++ [Memory.newCall TBMem]⟩
  | .endCall i => do
    let f ← index s.frames i
    let m ← Memory.endCall s.mem f
    .ok ⟨m, s.frames.eraseIdx i⟩

theorem TBCmd.run_sound {s s' : TBState} {c : TBCmd} (h : c.run s = .ok s') : ∃ e, TBStep s e s' := by
  cases c with
  | newCall => cases h; exact ⟨_, .newCall⟩
  | _ =>
    simp only [TBCmd.run, Res.bind_eq_ok, index_eq_ok, Except.ok.injEq] at h
    first
    | obtain ⟨f, hf, r, h, rfl⟩ := h
      first
      | exact ⟨_, .retag hf h⟩
      | exact ⟨_, .endCall hf h⟩
    | obtain ⟨r, h, rfl⟩ := h
      first
      | exact ⟨_, .alloc h⟩
      | exact ⟨_, .dealloc h⟩
      | exact ⟨_, .store h⟩
      | exact ⟨_, .load h⟩

def runAll (s : TBState) : List TBCmd → Res TBState
  | [] => .ok s
  | c :: cs => do
    let s ← c.run s
    runAll s cs

theorem runAll_sound {cs : List TBCmd} : ∀ {s s' : TBState}, runAll s cs = .ok s' → TBRun s s' := by
  induction cs with
  | nil => intro s s' h; cases h; exact .refl
  | cons c cs ih =>
    intro s s' h
    simp only [runAll, Res.bind_eq_ok] at h
    obtain ⟨s1, h1, h⟩ := h
    obtain ⟨e, he⟩ := TBCmd.run_sound h1
    exact TBRun.append (.step .refl he) (ih h)

/-- The state after some operations from the empty memory (the empty state if they fail). -/
def after (cs : List TBCmd) : TBState :=
  match runAll ⟨Memory.new, []⟩ cs with
  | .ok s => s
  | .error _ => ⟨Memory.new, []⟩

theorem after_reach (cs : List TBCmd) : TBReach (after cs) := by
  unfold after
  split
  · exact runAll_sound (by assumption)
  · exact .refl

/-- `&mut T` and `&T` for a `T` of 4 bytes whose last byte is inside an `UnsafeCell`. -/
def info4 : PointeeInfo := ⟨.sized 4 ⟨0⟩, true, .sized [(3, 1)], false, true⟩
def mut4 : PtrType := .ref .mut info4
def imm4 : PtrType := .ref .imm info4

/-- A four byte variable at address 16, and a function that has two mutable references to it. -/
def twoRefs : List TBCmd :=
  [.alloc .stack 4 ⟨0⟩ 16, .newCall, .retag 0 ⟨16, some (0, [])⟩ mut4 false, .retag 0 ⟨16, some (0, [])⟩ mut4 false]

end
end Ex

/-! ### C26: a permission only ever loses rights -/

/-- `permLe n p' p`: everything `p'` allows for the next `n` accesses, `p` allows as well. -/
def permLe : Nat → Permission → Permission → Bool
  | 0, _, _ => true
  | n + 1, p', p =>
    [AccessKind.read, .write].all fun k => [NodeRelation.localNode, .foreign].all fun r =>
      match p'.transition k r, p.transition k r with
      | .ok a, .ok b => permLe n a b
      | .ok _, .error _ => false
      | .error _, _ => true

theorem permLe_stable : ∀ p' p : Permission, permLe 3 p' p = true → permLe 4 p' p = true := by decide +kernel
theorem permLe_transition : ∀ (p : Permission) (k : AccessKind) (r : NodeRelation),
    okB (p.transition k r) (fun p' => permLe 3 p' p) = true := by decide +kernel

theorem permLe_step {p' p : Permission} (h : permLe 3 p' p = true) {k r a} (ha : p'.transition k r = .ok a) :
    ∃ b, p.transition k r = .ok b ∧ permLe 3 a b = true := by
  have h4 := permLe_stable p' p h
  rw [permLe] at h4
  simp only [List.all_eq_true] at h4
  have := h4 k (by cases k <;> simp) r (by cases r <;> simp)
  rw [ha] at this
  cases hb : p.transition k r with
  | ok b => rw [hb] at this; exact ⟨b, rfl, this⟩
  | error e => rw [hb] at this; simp at this

theorem permLe_allows {p' p : Permission} {s} (h : permLe 3 p' p = true) (ha : p'.Allows s) : p.Allows s := by
  induction s generalizing p' p with
  | nil => exact ⟨p, rfl⟩
  | cons e s ih =>
    obtain ⟨k, r⟩ := e
    obtain ⟨p'', h1⟩ := ha
    simp only [Permission.run, Res.bind_eq_ok] at h1
    obtain ⟨a, ha, h1⟩ := h1
    obtain ⟨b, hb, hab⟩ := permLe_step h ha
    obtain ⟨q, hq⟩ := ih hab ⟨p'', h1⟩
    exact ⟨q, by simp [Permission.run, hb, hq]⟩

/-- Along every sequence of accesses, the set of sequences of future accesses that are not UB shrinks. -/
theorem C26_allowed_accesses_shrink {p p' : Permission} {past future} (hp : p.run past = .ok p')
    (h : p'.Allows future) : p.Allows future := by
  induction past generalizing p with
  | nil => cases hp; exact h
  | cons e past ih =>
    obtain ⟨k, r⟩ := e
    simp only [Permission.run, Res.bind_eq_ok] at hp
    obtain ⟨p1, h1, hp⟩ := hp
    exact permLe_allows (okB_ok (f := fun p' => permLe 3 p' p) (permLe_transition p k r) h1) (ih hp)

/-- Once an access is forbidden, it is forbidden after any further accesses. -/
theorem C26_forbidden_stays_forbidden {p p' : Permission} {past k r} (hp : p.run past = .ok p')
    (hf : p.transition k r = .error .ub) : p'.transition k r = .error .ub := by
  cases h : p'.transition k r with
  | error e => rw [transition_err h]
  | ok q =>
    obtain ⟨x, hx⟩ := C26_allowed_accesses_shrink (future := [(k, r)]) hp ⟨q, by simp [Permission.run, h]⟩
    simp [Permission.run, hf] at hx

/-- Once disabled, always disabled: a disabled permission allows exactly the foreign accesses. -/
theorem C26_disabled_is_final {p p' : Permission} {past} (hd : p = .unprot .disabled ∨ p = .prot .disabled)
    (hp : p.run past = .ok p') : p' = p ∧ ∀ kr ∈ past, kr.2 = .foreign := by
  induction past generalizing p with
  | nil => cases hp; simp
  | cons e past ih =>
    obtain ⟨k, r⟩ := e
    simp only [Permission.run, Res.bind_eq_ok] at hp
    obtain ⟨p1, h1, hp⟩ := hp
    have : r = .foreign ∧ p1 = p := by
      rcases hd with rfl | rfl <;> cases k <;> cases r <;>
        simp_all [Permission.transition, PermissionUnprot.transition, PermissionProt.transition,
          PermissionUnprot.localRead, PermissionUnprot.localWrite, PermissionUnprot.foreignRead,
          PermissionUnprot.foreignWrite, PermissionProt.localRead, PermissionProt.localWrite,
          PermissionProt.foreignRead, PermissionProt.foreignWrite]
    obtain ⟨rfl, rfl⟩ := this
    obtain ⟨h2, h3⟩ := ih hd hp
    exact ⟨h2, by simpa using h3⟩

/-- The exact effect of the accesses on an unprotected mutable reference: reading elsewhere freezes it once
it was written, writing elsewhere disables it. -/
example : (Permission.unprot .reserved).run [(.write, .localNode), (.read, .foreign)] = .ok (.unprot .frozen) ∧
    (Permission.unprot .frozen).transition .write .localNode = .error .ub ∧
    (Permission.unprot .reserved).run [(.write, .localNode), (.write, .foreign)] = .ok (.unprot .disabled) := by decide

/-! ### C27: a write invalidates every conflicting reference -/

section
variable [T : Target]

/-- After a write through a reference `p`, in every continuation, accesses through every reference `r` that is,
or is derived from, a reference `q` that is not an ancestor of `p` or `p` itself are UB at the written
bytes. The exceptions are interior mutability: bytes of `q` inside an `UnsafeCell`. -/
theorem C27_write_invalidates {s s1 s2 : TBState} {ptr ptr2 : ThinPtr TBProv} {bytes align id p q r X} {addr : Int}
    (hreach : TBReach s) (hw : TBStep s (.store ptr bytes align) s1) (hp : ptr.prov = some (id, p))
    (hin : ptr.addr ≤ addr ∧ addr < ptr.addr + (bytes.length : Nat))
    (hq : ¬ AncestorOrSelf q p) (hX : s.mem.permAt (id, q) addr = some X)
    (hcell : X ≠ .unprot .cell ∧ X ≠ .prot .cell ∧ X ≠ .unprot .reservedIm)
    (hrun : TBRun s1 s2) (hp2 : ptr2.prov = some (id, r)) (hr : AncestorOrSelf q r) :
    (∀ (len : Nat) align, ptr2.addr ≤ addr → addr < ptr2.addr + (len : Nat) →
      Memory.load s2.mem ptr2 len align = .error .ub) ∧
    (∀ bytes2 align, ptr2.addr ≤ addr → addr < ptr2.addr + (bytes2.length : Nat) →
      Memory.store s2.mem ptr2 bytes2 align = .error .ub) := by
  have I := hreach.inv
  obtain ⟨I1, _⟩ := hw.inv I
  obtain ⟨I2, hle⟩ := hrun.inv I1
  cases hw with
  | store hs =>
    obtain ⟨X1, hX1, ht⟩ := tb_store_perm hs hp hin.1 hin.2 hX
    rw [relationTo_foreign hq] at ht
    have hd : X1.isDisabled = true := by
      have key : ∀ X : Permission, X ≠ .unprot .cell → X ≠ .prot .cell → X ≠ .unprot .reservedIm →
          okB (X.transition .write .foreign) (·.isDisabled) = true := by decide +kernel
      exact okB_ok (f := fun X : Permission => X.isDisabled) (key X hcell.1 hcell.2.1 hcell.2.2) ht
    obtain ⟨X2, hX2, hm, _⟩ := hle.permAt hX1
    have hd2 := hm.disabled hd
    constructor
    · intro len al h1 h2
      exact tb_load_forbidden I2 hp2 h1 h2 hX2 (by rw [relationTo_local hr]; exact disabled_local X2 _ hd2)
    · intro bs al h1 h2
      exact tb_store_forbidden I2 hp2 h1 h2 hX2 (by rw [relationTo_local hr]; exact disabled_local X2 _ hd2)

/-- The same for the memory of the reference's own bytes: after a write through `p`, a *read* through
a reference that is not an ancestor or descendant makes `p` read-only (writing through `p` again is UB), unless
the byte is interior mutable for `p`. -/
theorem C27_foreign_read_freezes {s s1 s2 s3 : TBState} {ptr ptr1 ptr2 : ThinPtr TBProv} {bytes align len al rd id p q} {addr : Int} {X}
    (hreach : TBReach s) (hw : TBStep s (.store ptr bytes align) s1) (hp : ptr.prov = some (id, p))
    (hin : ptr.addr ≤ addr ∧ addr < ptr.addr + (bytes.length : Nat))
    (hX : s.mem.permAt (id, p) addr = some X) (hcell : X ≠ .unprot .cell ∧ X ≠ .prot .cell)
    (hl : TBStep s1 (.load ptr1 len al rd) s2) (hp1 : ptr1.prov = some (id, q)) (hq : ¬ AncestorOrSelf p q)
    (hin1 : ptr1.addr ≤ addr ∧ addr < ptr1.addr + (len : Nat))
    (hrun : TBRun s2 s3) (hp2 : ptr2.prov = some (id, p)) :
    ∀ bytes2 align, ptr2.addr ≤ addr → addr < ptr2.addr + (bytes2.length : Nat) →
      Memory.store s3.mem ptr2 bytes2 align = .error .ub := by
  have I := hreach.inv
  obtain ⟨I1, _⟩ := hw.inv I
  obtain ⟨I2, _⟩ := hl.inv I1
  obtain ⟨I3, hle⟩ := hrun.inv I2
  cases hw with
  | store hs =>
    obtain ⟨X1, hX1, ht⟩ := tb_store_perm hs hp hin.1 hin.2 hX
    rw [relationTo_local (List.prefix_refl _)] at ht
    cases hl with
    | load hl =>
      obtain ⟨X2, hX2, ht2⟩ := tb_load_perm hl hp1 hin1.1 hin1.2 hX1
      rw [relationTo_foreign hq] at ht2
      obtain ⟨X3, hX3, hm, _⟩ := hle.permAt hX2
      have key1 : ∀ X : Permission, X ≠ .unprot .cell → X ≠ .prot .cell →
          okB (X.transition .write .localNode) (fun Y => decide (Y = .unprot .unique ∨ Y = .prot .unique)) = true := by
        decide +kernel
      have h1 := okB_ok (f := fun Y => decide (Y = .unprot .unique ∨ Y = .prot .unique)) (key1 X hcell.1 hcell.2) ht
      have h2 : X2 = .unprot .frozen := by
        simp only [decide_eq_true_eq] at h1
        rcases h1 with rfl | rfl
        · cases ht2; rfl
        · simp [Permission.transition, PermissionProt.transition, PermissionProt.foreignRead] at ht2
      subst h2
      have h3 : X3 = .unprot .frozen ∨ X3 = .unprot .disabled := by
        clear hX3 hX2 hX1 ht2
        have gen : ∀ Z X3, PMoves Z X3 → Z = .unprot .frozen → X3 = .unprot .frozen ∨ X3 = .unprot .disabled := by
          intro Z X3 hm hZ
          induction hm with
          | refl => exact .inl hZ
          | @trans B C kind rel _ ht ih =>
            have := ih
            have key : ∀ (kind : AccessKind) (rel : NodeRelation) (X : Permission), (X = .unprot .frozen ∨ X = .unprot .disabled) →
                okB (X.transition kind rel) (fun Y => decide (Y = .unprot .frozen ∨ Y = .unprot .disabled)) = true := by decide +kernel
            simpa using okB_ok (f := fun Y => decide (Y = .unprot .frozen ∨ Y = .unprot .disabled)) (key kind rel _ this) ht
          | unprotect _ ih => rcases ih with h | h <;> cases h
        exact gen _ _ hm rfl
      intro bs al2 g1 g2
      refine tb_store_forbidden I3 hp2 g1 g2 hX3 ?_
      rw [relationTo_local (List.prefix_refl _)]
      rcases h3 with rfl | rfl <;> rfl

end

section
attribute [local instance] x86_64
/-- Two mutable references to the same variable: after a write through the second, the first is unusable. -/
example : ∃ s1, TBReach (Ex.after Ex.twoRefs) ∧
    TBStep (Ex.after Ex.twoRefs) (.store ⟨16, some (0, [1])⟩ [.init 7 none] ⟨0⟩) s1 ∧
    ¬ AncestorOrSelf [0] [1] ∧
    (Ex.after Ex.twoRefs).mem.permAt (0, [0]) 16 = some (.unprot .reserved) ∧
    Memory.load s1.mem ⟨16, some (0, [0])⟩ 1 ⟨0⟩ = .error .ub :=
  ⟨_, Ex.after_reach _, .store rfl, by decide, by decide, by rfl⟩
end

/-! ### C28: protected references cannot be invalidated during the call -/

section
variable [T : Target]

theorem C28_aux_use {s s1 : TBState} {ptr : ThinPtr TBProv} {len align bytes id q r pr X} {addr : Int}
    (I : TInv s.mem s.frames.flatten)
    (hstep : TBStep s (.load ptr len align bytes) s1 ∨ (∃ bs, TBStep s (.store ptr bs align) s1 ∧ len = bs.length))
    (hp : ptr.prov = some (id, r)) (hr : AncestorOrSelf q r)
    (hpr : s.mem.protectorOf (id, q) = some pr) (hy : pr ≠ .no)
    (hin : ptr.addr ≤ addr ∧ addr < ptr.addr + (len : Nat))
    (hX : s.mem.permAt (id, q) addr = some X) (hc : X ≠ .prot .cell) :
    ∃ X1, s1.mem.permAt (id, q) addr = some X1 ∧ X1.usedRead = true ∧
      ((∃ bs, TBStep s (.store ptr bs align) s1 ∧ len = bs.length) → X1.usedWrite = true) := by
  obtain ⟨a, off, ha, rfl, hk⟩ := permAt_eq_some.1 hX
  have hlive : a.live = true := by
    rcases hstep with h | ⟨bs, h, rfl⟩
    · cases h with
      | load h =>
        obtain ⟨a', _, _, ha', hl, _⟩ := tb_load_access h hp (by omega)
        simp only at ha; rw [ha] at ha'; cases ha'; exact hl
    · cases h with
      | store h =>
        obtain ⟨a', _, _, _, ha', hl, _⟩ := tb_store_access h hp (by intro h0; simp [h0] at hin; omega)
        simp only at ha; rw [ha] at ha'; cases ha'; exact hl
  have hprot : ∃ P, X = .prot P := by
    by_cases hS : (id, q) ∈ s.frames.flatten
    · obtain ⟨qs, pr', hd, _⟩ := (I.tree id a ha).prot q hS
      rw [Node.perm_of_data hd] at hk
      simp at hk
      obtain ⟨P, _, rfl⟩ := hk
      exact ⟨P, rfl⟩
    · obtain ⟨a', ps, ha', hd⟩ := protectorOf_eq_some.1 hpr
      simp only at ha ha'
      rw [ha] at ha'; cases ha'
      exact absurd ((I.tree id a ha).unprot hlive q ps pr hd hS).1 hy
  obtain ⟨P, rfl⟩ := hprot
  have hP : P ≠ .cell := fun h => hc (by rw [h])
  rcases hstep with h | ⟨bs, h, rfl⟩
  · cases h with
    | load h =>
      obtain ⟨X1, hX1, ht⟩ := tb_load_perm h hp hin.1 hin.2 hX
      rw [relationTo_local hr] at ht
      refine ⟨X1, hX1, okB_ok (f := fun X : Permission => X.usedRead) (usedRead_intro P .read hP) ht, ?_⟩
      rintro ⟨bs, h', rfl⟩
      cases h' with
      | store h' =>
        obtain ⟨X1', hX1', ht'⟩ := tb_store_perm h' hp hin.1 hin.2 hX
        rw [relationTo_local hr] at ht'
        rw [hX1'] at hX1; cases hX1
        exact okB_ok (f := fun X : Permission => X.usedWrite) (usedWrite_intro P hP) ht'
  · cases h with
    | store h =>
      obtain ⟨X1, hX1, ht⟩ := tb_store_perm h hp hin.1 hin.2 hX
      rw [relationTo_local hr] at ht
      exact ⟨X1, hX1, okB_ok (f := fun X : Permission => X.usedRead) (usedRead_intro P .write hP) ht,
        fun _ => okB_ok (f := fun X : Permission => X.usedWrite) (usedWrite_intro P hP) ht⟩

/-- A byte used through a protected reference: what stays true while it is protected. -/
theorem C28_aux_foreign {s1 s2 : TBState} {id : Nat} {q : Path} {X1 pr2} {addr : Int}
    (I1 : TInv s1.mem s1.frames.flatten) (hX1 : s1.mem.permAt (id, q) addr = some X1)
    (hu : X1.usedRead = true) (hrun : TBRun s1 s2)
    (hpr2 : s2.mem.protectorOf (id, q) = some pr2) (hy2 : pr2 ≠ .no) :
    (∀ (ptr2 : ThinPtr TBProv) p bytes2 align2, ptr2.prov = some (id, p) → ¬ AncestorOrSelf q p →
      ptr2.addr ≤ addr → addr < ptr2.addr + (bytes2.length : Nat) → Memory.store s2.mem ptr2 bytes2 align2 = .error .ub) ∧
    (X1.usedWrite = true → ∀ (ptr2 : ThinPtr TBProv) p (len2 : Nat) align2, ptr2.prov = some (id, p) → ¬ AncestorOrSelf q p →
      ptr2.addr ≤ addr → addr < ptr2.addr + (len2 : Nat) → Memory.load s2.mem ptr2 len2 align2 = .error .ub) ∧
    (pr2 = .strong → ∀ (ptr2 : ThinPtr TBProv) p kind size align, ptr2.prov = some (id, p) →
      Memory.deallocate s2.mem ptr2 kind size align = .error .ub) := by
  obtain ⟨I2, hle⟩ := hrun.inv I1
  obtain ⟨X2, hX2, hm, ht⟩ := hle.permAt hX1
  obtain ⟨a, off, ha, haddr, hk⟩ := permAt_eq_some.1 hX2
  have hknown : ∀ ptr2 : ThinPtr TBProv, ∀ p, ptr2.prov = some (id, p) → s2.mem.mem.KnownId ptr2 := by
    intro ptr2 p hp id' pe hp'
    rw [hp] at hp'; cases hp'
    exact (List.getElem?_eq_some_iff.1 ha).1
  have hyes : pr2.yes = true := by simpa [Protected.yes] using hy2
  by_cases hlive : a.live = true
  · have htm : TMoves X1 X2 := ht a pr2 ha hlive hpr2 hyes
    have hu2 := htm.usedRead hu
    refine ⟨?_, ?_, ?_⟩
    · intro ptr2 p bs al hp hq h1 h2
      exact tb_store_forbidden I2 hp h1 h2 hX2 (by rw [relationTo_foreign hq]; exact usedRead_foreign X2 hu2)
    · intro hw ptr2 p len al hp hq h1 h2
      exact tb_load_forbidden I2 hp h1 h2 hX2 (by rw [relationTo_foreign hq]; exact usedWrite_foreign X2 _ (htm.usedWrite hw))
    · intro hs ptr2 p kind size align hp
      subst hs
      rcases tb_dealloc_cases I2 (hknown ptr2 p hp) (kind := kind) (size := size) (align := align) with h | ⟨m', h⟩
      · exact h
      · exfalso
        rw [tb_deallocate_eq_ok, BasicMem.deallocate_eq_ok] at h
        obtain ⟨id', pe, a', extra, hp', ha', _, _, _, hsz, _, hx, _⟩ := h
        rw [hp] at hp'; cases hp'
        simp only at ha
        rw [ha] at ha'; cases ha'
        unfold TBMem.deallocHandler at hx
        rw [Res.bind_eq_ok] at hx
        obtain ⟨root, hacc, hx⟩ := hx
        obtain ⟨ps, pr, hd, hk'⟩ := Node.perm_eq_some.1 hk
        obtain ⟨a3, ps3, ha3, hd3⟩ := protectorOf_eq_some.1 hpr2
        simp only at ha3 hd3
        rw [ha] at ha3; cases ha3
        rw [hd] at hd3; cases hd3
        obtain ⟨ps', hd', hst⟩ := Node.access_data' hacc hd
        have hlt : off < ps.length := (List.getElem?_eq_some_iff.1 hk').1
        have hlen := I2.len ha hd
        have := hst.2 off
        rw [if_pos (by omega)] at this
        obtain ⟨Y, Y', hY, htY, hY'⟩ := this
        rw [hk'] at hY; cases hY
        have hu3 : Y'.usedRead = true := okB_ok (f := fun X : Permission => X.usedRead) (usedRead_step _ _ _ hu2) htY
        have hc : root.containsStrongProtector = true := by
          rw [Node.containsStrong_iff]
          exact ⟨q, ps', hd', Y', List.mem_of_getElem? hY', usedRead_prevents _ hu3⟩
        rw [hc] at hx
        simp at hx
  · -- the allocation is dead: every access is UB anyway
    refine ⟨?_, ?_, ?_⟩
    · intro ptr2 p bs al hp hq h1 h2
      rcases tb_store_cases I2 (hknown ptr2 p hp) (bytes := bs) (align := al) with h | ⟨m', h⟩
      · exact h
      · obtain ⟨a', _, _, _, ha', hl, _⟩ := tb_store_access h hp (by intro h0; simp [h0] at h2; omega)
        simp only at ha; rw [ha] at ha'; cases ha'; exact absurd hl hlive
    · intro _ ptr2 p len al hp hq h1 h2
      rcases tb_load_cases I2 (hknown ptr2 p hp) (len := len) (align := al) with h | ⟨_, m', h⟩
      · exact h
      · obtain ⟨a', _, _, ha', hl, _⟩ := tb_load_access h hp (by omega)
        simp only at ha; rw [ha] at ha'; cases ha'; exact absurd hl hlive
    · intro _ ptr2 p kind size align hp
      rcases tb_dealloc_cases I2 (hknown ptr2 p hp) (kind := kind) (size := size) (align := align) with h | ⟨m', h⟩
      · exact h
      · rw [tb_deallocate_eq_ok, BasicMem.deallocate_eq_ok] at h
        obtain ⟨id', pe, a', _, hp', ha', hl, _⟩ := h
        rw [hp] at hp'; cases hp'
        simp only at ha; rw [ha] at ha'; cases ha'; exact absurd hl hlive

/-- While a reference is protected, a write through an unrelated reference (not derived from it) to a byte that
was read through it is UB, unless the byte is interior mutable. -/
theorem C28_no_foreign_write_after_read {s s1 s2 : TBState} {ptr : ThinPtr TBProv} {len align rd id q r pr pr2 X} {addr : Int}
    (hreach : TBReach s) (hstep : TBStep s (.load ptr len align rd) s1)
    (hp : ptr.prov = some (id, r)) (hr : AncestorOrSelf q r)
    (hpr : s.mem.protectorOf (id, q) = some pr) (hy : pr ≠ .no)
    (hin : ptr.addr ≤ addr ∧ addr < ptr.addr + (len : Nat))
    (hX : s.mem.permAt (id, q) addr = some X) (hc : X ≠ .prot .cell)
    (hrun : TBRun s1 s2) (hpr2 : s2.mem.protectorOf (id, q) = some pr2) (hy2 : pr2 ≠ .no) :
    ∀ (ptr2 : ThinPtr TBProv) p bytes2 align2, ptr2.prov = some (id, p) → ¬ AncestorOrSelf q p →
      ptr2.addr ≤ addr → addr < ptr2.addr + (bytes2.length : Nat) →
      Memory.store s2.mem ptr2 bytes2 align2 = .error .ub := by
  obtain ⟨X1, hX1, hu, _⟩ := C28_aux_use hreach.inv (.inl hstep) hp hr hpr hy hin hX hc
  exact (C28_aux_foreign (hstep.inv hreach.inv).1 hX1 hu hrun hpr2 hy2).1

/-- While a reference is protected, any access through an unrelated reference to a byte that was written
through it is UB, unless the byte is interior mutable. -/
theorem C28_no_foreign_access_after_write {s s1 s2 : TBState} {ptr : ThinPtr TBProv} {bytes align id q r pr pr2 X} {addr : Int}
    (hreach : TBReach s) (hstep : TBStep s (.store ptr bytes align) s1)
    (hp : ptr.prov = some (id, r)) (hr : AncestorOrSelf q r)
    (hpr : s.mem.protectorOf (id, q) = some pr) (hy : pr ≠ .no)
    (hin : ptr.addr ≤ addr ∧ addr < ptr.addr + (bytes.length : Nat))
    (hX : s.mem.permAt (id, q) addr = some X) (hc : X ≠ .prot .cell)
    (hrun : TBRun s1 s2) (hpr2 : s2.mem.protectorOf (id, q) = some pr2) (hy2 : pr2 ≠ .no)
    {ptr2 : ThinPtr TBProv} {p : Path} (hp2 : ptr2.prov = some (id, p)) (hq : ¬ AncestorOrSelf q p) :
    (∀ (len2 : Nat) align2, ptr2.addr ≤ addr → addr < ptr2.addr + (len2 : Nat) →
      Memory.load s2.mem ptr2 len2 align2 = .error .ub) ∧
    (∀ bytes2 align2, ptr2.addr ≤ addr → addr < ptr2.addr + (bytes2.length : Nat) →
      Memory.store s2.mem ptr2 bytes2 align2 = .error .ub) := by
  obtain ⟨X1, hX1, hu, hw⟩ := C28_aux_use (bytes := []) hreach.inv (.inr ⟨bytes, hstep, rfl⟩) hp hr hpr hy hin hX hc
  obtain ⟨h1, h2, _⟩ := C28_aux_foreign (hstep.inv hreach.inv).1 hX1 hu hrun hpr2 hy2
  exact ⟨fun len2 al g1 g2 => h2 (hw ⟨bytes, hstep, rfl⟩) ptr2 p len2 al hp2 hq g1 g2,
    fun bs al g1 g2 => h1 ptr2 p bs al hp2 hq g1 g2⟩

/-- While a reference with a strong protector exists, deallocating memory of which a byte (that is not interior
mutable) was read or written through it is UB, through any pointer. -/
theorem C28_no_deallocation {s s1 s2 : TBState} {ptr : ThinPtr TBProv} {len align rd id q r pr X} {addr : Int}
    (hreach : TBReach s)
    (hstep : TBStep s (.load ptr len align rd) s1 ∨ ∃ bytes, TBStep s (.store ptr bytes align) s1 ∧ len = bytes.length)
    (hp : ptr.prov = some (id, r)) (hr : AncestorOrSelf q r)
    (hpr : s.mem.protectorOf (id, q) = some pr) (hy : pr ≠ .no)
    (hin : ptr.addr ≤ addr ∧ addr < ptr.addr + (len : Nat))
    (hX : s.mem.permAt (id, q) addr = some X) (hc : X ≠ .prot .cell)
    (hrun : TBRun s1 s2) (hpr2 : s2.mem.protectorOf (id, q) = some .strong) :
    ∀ (ptr2 : ThinPtr TBProv) p kind size align2, ptr2.prov = some (id, p) →
      Memory.deallocate s2.mem ptr2 kind size align2 = .error .ub := by
  obtain ⟨X1, hX1, hu, _⟩ := C28_aux_use hreach.inv hstep hp hr hpr hy hin hX hc
  have I1 : TInv s1.mem s1.frames.flatten := by
    rcases hstep with h | ⟨bs, h, _⟩
    · exact (h.inv hreach.inv).1
    · exact (h.inv hreach.inv).1
  exact (C28_aux_foreign I1 hX1 hu hrun hpr2 (by decide)).2.2 rfl

/-- Being passed to a function counts as a read of the whole pointee: while the call is in progress, writes by
unrelated references to any byte of the pointee, and (except for boxes) its deallocation, are UB. For shared
references this excludes the bytes inside `UnsafeCell`s, that is where the mask is false. -/
theorem C28_argument_protected {s s1 s2 : TBState} {ptr ptr' : Pointer TBProv} {pty info mask id parent vt} {f f' : TBFrame}
    {m1 : TBMem} {i k : Nat} {b : Bool} {pr2}
    (hreach : TBReach s) (hf : s.frames[i]? = some f)
    (hstep : Memory.retagPtr s.mem f ptr pty true vt = .ok (ptr', f', m1)) (hs1 : s1 = ⟨m1, s.frames.set i f'⟩)
    (hret : pty.Retags) (hi : pty.safePointee = some info)
    (hm : info.unsafeCells.freezeMask vt info.layout ptr.metadata = .ok mask)
    (hp : ptr.thin.prov = some (id, parent))
    (hk : mask[k]? = some b) (hb : b = true ∨ pty.isShared = false) (hrun : TBRun s1 s2) :
    ∃ child, ptr'.thin.prov = some (id, child) ∧ (s2.mem.protectorOf (id, child) = some pr2 → pr2 ≠ .no →
      (∀ (ptr2 : ThinPtr TBProv) p bytes2 align2, ptr2.prov = some (id, p) → ¬ AncestorOrSelf child p →
        ptr2.addr ≤ ptr.thin.addr + k → ptr.thin.addr + k < ptr2.addr + (bytes2.length : Nat) →
        Memory.store s2.mem ptr2 bytes2 align2 = .error .ub) ∧
      (pr2 = .strong → ∀ (ptr2 : ThinPtr TBProv) p kind size align2, ptr2.prov = some (id, p) →
        Memory.deallocate s2.mem ptr2 kind size align2 = .error .ub)) := by
  have I := hreach.inv
  obtain ⟨child, N⟩ := retag_newRef I hstep hret hi hm hp
  refine ⟨child, N.prov', fun hpr2 hy2 => ?_⟩
  have hX := N.inside k b hk
  have I1 : TInv s1.mem s1.frames.flatten := by
    subst hs1
    obtain ⟨m, fs⟩ := s
    exact (TBStep.inv (.retag hf hstep) I).1
  have hu : (usedPermission pty.isShared true b).usedRead = true := by
    rcases hb with rfl | hb
    · cases pty.isShared <;> rfl
    · rw [hb]; rfl
  obtain ⟨h1, _, h3⟩ := C28_aux_foreign (s1 := s1) I1 (by rw [hs1]; exact hX) hu hrun hpr2 hy2
  exact ⟨fun ptr2 p bs al hp hq g1 g2 => h1 ptr2 p bs al hp hq g1 g2, h3⟩

end

section
attribute [local instance] x86_64
/-- A function that is given a mutable reference to the variable: the reference is protected, was used, and
writing to the variable by its owner is UB. -/
def Ex.argument : List Ex.TBCmd :=
  [.alloc .heap 4 ⟨0⟩ 16, .newCall, .retag 0 ⟨16, some (0, [])⟩ Ex.mut4 true]

example : (Ex.after Ex.argument).mem.protectorOf (0, [0]) = some .strong ∧
    (Ex.after Ex.argument).mem.permAt (0, [0]) 17 = some (.prot (.reserved true false)) ∧
    ¬ AncestorOrSelf [0] [] ∧
    Memory.store (Ex.after Ex.argument).mem ⟨17, some (0, [])⟩ [.uninit] ⟨0⟩ = .error .ub ∧
    Memory.deallocate (Ex.after Ex.argument).mem ⟨16, some (0, [0])⟩ .heap 4 ⟨0⟩ = .error .ub :=
  ⟨by decide, by decide, by decide, by rfl, by rfl⟩
/-- After the call returned, both are fine again. -/
example : ∃ s, Ex.runAll (Ex.after Ex.argument) [.endCall 0, .store ⟨17, some (0, [])⟩ [.uninit] ⟨0⟩,
    .dealloc ⟨16, some (0, [])⟩ .heap 4 ⟨0⟩] = .ok s := ⟨_, rfl⟩
/-- The hypotheses of `C28_no_foreign_access_after_write` are met. -/
example : ∃ s1, TBReach (Ex.after Ex.argument) ∧
    TBStep (Ex.after Ex.argument) (.store ⟨17, some (0, [0])⟩ [.init 1 none] ⟨0⟩) s1 ∧
    s1.mem.protectorOf (0, [0]) = some .strong ∧
    Memory.load s1.mem ⟨17, some (0, [])⟩ 1 ⟨0⟩ = .error .ub :=
  ⟨_, Ex.after_reach _, .store rfl, by decide, by rfl⟩
end

/-! ### C29: reads commute, repeated accesses change nothing -/

section
variable [T : Target]

/-- Two loads through any two valid pointers can be exchanged: same bytes, same final memory (all trees), and
UB in one order exactly if UB in the other. -/
theorem C29_loads_commute {s : TBState} {p1 p2 : ThinPtr TBProv} (hreach : TBReach s)
    (h1 : s.mem.ValidPtr p1) (h2 : s.mem.ValidPtr p2) (l1 l2 : Nat) (a1 a2 : Align) :
    (do let (b1, m) ← Memory.load s.mem p1 l1 a1
        let (b2, m) ← Memory.load m p2 l2 a2
        .ok (b1, b2, m) : Res (List (AByte TBProv) × List (AByte TBProv) × TBMem)) =
    (do let (b2, m) ← Memory.load s.mem p2 l2 a2
        let (b1, m) ← Memory.load m p1 l1 a1
        .ok (b1, b2, m)) := by
  have I := hreach.inv
  have hk : ∀ {m : TBMem} {S}, TInv m S → ∀ {p : ThinPtr TBProv}, m.ValidPtr p → m.mem.KnownId p := by
    intro m S _ p hv id pe hp
    obtain ⟨a, d, ha, _⟩ := hasNode_iff.1 (hv _ hp)
    exact (List.getElem?_eq_some_iff.1 ha).1
  have key : ∀ {p1 p2 : ThinPtr TBProv} {l1 l2 a1 a2}, s.mem.ValidPtr p1 → s.mem.ValidPtr p2 →
      (do let (b1, m) ← Memory.load s.mem p1 l1 a1
          let (b2, m) ← Memory.load m p2 l2 a2
          .ok (b1, b2, m) : Res (List (AByte TBProv) × List (AByte TBProv) × TBMem)) = .error .ub ∨
      ∃ b1 b2 m1 m2, Memory.load s.mem p1 l1 a1 = .ok (b1, m1) ∧ Memory.load m1 p2 l2 a2 = .ok (b2, m2) := by
    intro p1 p2 l1 l2 a1 a2 h1 h2
    rcases tb_load_cases I (hk I h1) (len := l1) (align := a1) with h | ⟨b1, m1, h⟩
    · left; rw [h]; rfl
    · obtain ⟨I1, hle⟩ := I.load h
      have h2' : m1.ValidPtr p2 := fun pv hpv => hle.hasNode (h2 pv hpv)
      rcases tb_load_cases I1 (hk I1 h2') (len := l2) (align := a2) with h' | ⟨b2, m2, h'⟩
      · left; rw [h, Res.bind_ok]; simp only; rw [h']; rfl
      · exact .inr ⟨b1, b2, m1, m2, h, h'⟩
  rcases key (l1 := l1) (l2 := l2) (a1 := a1) (a2 := a2) h1 h2 with e1 | ⟨b1, b2, m1, m2, e1, e2⟩
  · rw [e1]
    rcases key (l1 := l2) (l2 := l1) (a1 := a2) (a2 := a1) h2 h1 with e2 | ⟨b1, b2, m1, m2, e2, e3⟩
    · cases e3 : Memory.load s.mem p2 l2 a2 with
      | error e => rw [e3] at e2; simpa using e2.symm
      | ok r =>
        rw [e3] at e2
        simp only [Res.bind_ok] at e2 ⊢
        cases e4 : Memory.load r.2 p1 l1 a1 with
        | error e => rw [e4] at e2; simpa using e2.symm
        | ok r' => rw [e4] at e2; simp at e2
    · exfalso
      obtain ⟨m', e4, e5⟩ := tb_load_comm_ok e2 e3
      rw [e4] at e1
      simp [e5] at e1
  · obtain ⟨m', e3, e4⟩ := tb_load_comm_ok e1 e2
    simp [e1, e2, e3, e4]

/-- Loading again gives the same bytes and changes nothing. -/
theorem C29_load_idempotent {m m' : TBMem} {p : ThinPtr TBProv} {len align bytes}
    (h : Memory.load m p len align = .ok (bytes, m')) : Memory.load m' p len align = .ok (bytes, m') := tb_load_idem h

/-- Storing the same again changes nothing. -/
theorem C29_store_idempotent {m m' : TBMem} {p : ThinPtr TBProv} {bytes align}
    (h : Memory.store m p bytes align = .ok m') : Memory.store m' p bytes align = .ok m' := tb_store_idem h

end

section
attribute [local instance] x86_64
/-- Reading through the owner and through one of two mutable references: both succeed. -/
example : (Ex.after Ex.twoRefs).mem.ValidPtr ⟨16, some (0, [])⟩ ∧ (Ex.after Ex.twoRefs).mem.ValidPtr ⟨17, some (0, [1])⟩ ∧
    ∃ s, Ex.runAll (Ex.after Ex.twoRefs) [.load ⟨16, some (0, [])⟩ 4 ⟨0⟩, .load ⟨17, some (0, [1])⟩ 2 ⟨0⟩] = .ok s := by
  refine ⟨?_, ?_, _, rfl⟩ <;> · intro pv h; cases h; exact ⟨_, rfl, by decide⟩
end

/-! ### C30: structural invariant -/

section
variable [T : Target]

/-- Every node of every tree has one permission per byte of its allocation. -/
theorem C30_one_permission_per_byte {s : TBState} (hreach : TBReach s) {id : Nat} {a : Alloc Path Node} {q ps pr}
    (ha : s.mem.mem.allocations[id]? = some a) (hd : a.extra.data q = some (ps, pr)) : ps.length = a.size :=
  hreach.inv.len ha hd

/-- In a live allocation a node is protected exactly if it is in the bookkeeping of a call in progress, and its
permissions are those of a protected node exactly then. -/
theorem C30_protected_iff_in_call {s : TBState} (hreach : TBReach s) {id : Nat} {a : Alloc Path Node} {q ps pr}
    (ha : s.mem.mem.allocations[id]? = some a) (hl : a.live = true) (hd : a.extra.data q = some (ps, pr)) :
    (pr ≠ .no ↔ ∃ f ∈ s.frames, (id, q) ∈ f) ∧ ∀ X ∈ ps, X.matchesProtector pr = true := by
  have It := hreach.inv.tree id a ha
  by_cases hS : (id, q) ∈ s.frames.flatten
  · obtain ⟨qs, pr', hd', hy⟩ := It.prot q hS
    rw [hd] at hd'; cases hd'
    refine ⟨⟨fun _ => List.mem_flatten.1 hS, fun _ h => by simp [h, Protected.yes] at hy⟩, ?_⟩
    intro X hX
    obtain ⟨P, _, rfl⟩ := List.mem_map.1 hX
    simp [Permission.matchesProtector, hy]
  · obtain ⟨rfl, us, rfl⟩ := It.unprot hl q ps pr hd hS
    refine ⟨⟨fun h => absurd rfl h, fun h => absurd (List.mem_flatten.2 h) hS⟩, ?_⟩
    intro X hX
    obtain ⟨P, _, rfl⟩ := List.mem_map.1 hX
    simp [Permission.matchesProtector, Protected.yes]

/-- Each protected reference belongs to one call only, once. -/
theorem C30_protectors_unique {s : TBState} (hreach : TBReach s) : s.frames.flatten.Nodup := hreach.inv.nodup

/-- A reference keeps denoting a node for ever. -/
theorem C30_references_stay_valid {s s' : TBState} {p : ThinPtr TBProv} (hreach : TBReach s) (hrun : TBRun s s')
    (hv : s.mem.ValidPtr p) : s'.mem.ValidPtr p :=
  fun pv hpv => (hrun.inv hreach.inv).2.hasNode (hv pv hpv)

/-- Pointers handed out by allocation and retagging are valid. -/
theorem C30_new_pointers_valid {s s' : TBState} {e} (hreach : TBReach s) (hstep : TBStep s e s') :
    (∀ kind size align p, e = .alloc kind size align p → s'.mem.ValidPtr p) ∧
    (∀ ptr pty entry ptr', e = .retag ptr pty entry ptr' → s.mem.ValidPtr ptr.thin → s'.mem.ValidPtr ptr'.thin) := by
  have hle := (hstep.inv hreach.inv).2
  constructor
  · rintro kind size align p rfl
    cases hstep with
    | alloc h =>
      rw [tb_allocate_eq_ok, BasicMem.allocate_eq_ok] at h
      obtain ⟨_, _, rfl, hm⟩ := h
      intro pv hpv
      cases hpv
      rw [hasNode_iff]
      rw [hm]
      exact ⟨_, _, List.getElem?_concat_length, rfl⟩
  · rintro ptr pty entry ptr' rfl hv
    cases hstep with
    | retag hf h =>
      rcases retag_ok h with ⟨_, rfl, _, rfl⟩ | ⟨st, thin, hs, hr, rfl⟩
      · exact hv
      · rcases reborrow_ok hr with ⟨h0, rfl, _, _⟩ | ⟨id, parent, a, off, perms, root, path, root', hp, ha, _, hlen,
          _, _, hmatch, hlive, hadd, hinit, rfl, _, rfl⟩
        · intro pv hpv; simp only [ThinPtr.widen] at hpv; rw [h0] at hpv; cases hpv
        · intro pv hpv
          cases hpv
          rw [hasNode_iff]
          have hlt := (List.getElem?_eq_some_iff.1 ha).1
          obtain ⟨i, rfl, hnone, hpar, hd⟩ := Node.addNode_ok hadd
          have : ∀ {perms' : List Permission} {n n' : Node} {idx q d}, TBMem.initAccesses (parent ++ [i]) off n idx perms' = .ok n' →
              n.data q = some d → ∃ d', n'.data q = some d' := by
            intro perms'
            induction perms' with
            | nil => intro n n' idx q d h hd; cases h; exact ⟨d, hd⟩
            | cons X perms' ih =>
              intro n n' idx q d h hd
              simp only [TBMem.initAccesses, Res.bind_eq_ok] at h
              obtain ⟨n1, h1, h⟩ := h
              unfold TBMem.initAccess at h1
              split at h1
              · obtain ⟨qs1, hd1, _⟩ := Node.access_data' h1 hd
                exact ih h hd1
              · cases h1; exact ih h hd
          obtain ⟨d', hd'⟩ := this hinit (q := parent ++ [i]) (d := (perms, st.protected_)) (by rw [hd, if_pos rfl])
          exact ⟨{ a with extra := root' }, d', by simp [hlt], hd'⟩

/-- Accesses, deallocation and the dereferenceability check through valid pointers succeed or are UB, nothing else:
no panic. -/
theorem C30_accesses_never_panic {s : TBState} (hreach : TBReach s) {ptr : ThinPtr TBProv} (hv : s.mem.ValidPtr ptr) :
    (∀ len align, Memory.load s.mem ptr len align = .error .ub ∨ ∃ r, Memory.load s.mem ptr len align = .ok r) ∧
    (∀ bytes align, Memory.store s.mem ptr bytes align = .error .ub ∨ ∃ r, Memory.store s.mem ptr bytes align = .ok r) ∧
    (∀ kind size align, Memory.deallocate s.mem ptr kind size align = .error .ub ∨
      ∃ r, Memory.deallocate s.mem ptr kind size align = .ok r) ∧
    (∀ len, Memory.dereferenceable s.mem ptr len = .error .ub ∨ Memory.dereferenceable s.mem ptr len = .ok ()) := by
  have hk : s.mem.mem.KnownId ptr := by
    intro id p hp
    obtain ⟨a, d, ha, _⟩ := hasNode_iff.1 (hv _ hp)
    exact (List.getElem?_eq_some_iff.1 ha).1
  refine ⟨fun len align => ?_, fun bytes align => ?_, fun kind size align => ?_, fun len => ?_⟩
  · rcases tb_load_cases hreach.inv hk (len := len) (align := align) with h | ⟨b, m, h⟩
    · exact .inl h
    · exact .inr ⟨_, h⟩
  · exact tb_store_cases hreach.inv hk
  · exact tb_dealloc_cases hreach.inv hk
  · by_cases hc : len = 0 ∨ s.mem.mem.Fits ptr len
    · obtain ⟨r, hr⟩ := BasicMem.checkPtr_ok hc
      right; simp [Memory.dereferenceable, hr]
    · left; simp [Memory.dereferenceable, BasicMem.checkPtr_ub hk hc]

/-- Retagging a valid pointer succeeds or is UB, if the freeze mask of the pointee can be computed (see C32 for
when) and, for zero-sized pointees, the pointer is not below its allocation (see the next theorem for why).
This is partial: without the last hypothesis the property is false. -/
theorem C30_retag_never_panics_partial {s : TBState} (hreach : TBReach s) {ptr : Pointer TBProv} (hv : s.mem.ValidPtr ptr.thin)
    {f : TBFrame} {pty entry vt}
    (hm : ∀ info, pty.safePointee = some info → ∃ mask, info.unsafeCells.freezeMask vt info.layout ptr.metadata = .ok mask ∧
      (mask = [] → ∀ id p a, ptr.thin.prov = some (id, p) → s.mem.mem.allocations[id]? = some a → a.addr ≤ ptr.thin.addr)) :
    Memory.retagPtr s.mem f ptr pty entry vt = .error .ub ∨ ∃ r, Memory.retagPtr s.mem f ptr pty entry vt = .ok r :=
  retag_cases hreach.inv hv hm

end

section
attribute [local instance] x86_64
/-- The type `&()`. -/
def Ex.refUnit : PtrType := .ref .imm ⟨.sized 0 ⟨0⟩, true, .sized [], true, true⟩
/-- The full claim is false: retagging a reference to a zero-sized type that points below the allocation it has
provenance of panics (`Size::from_bytes` of a negative number is unwrapped,
`/repo/spec/mem/tree_borrows/memory.md:93`). -/
theorem C30_retag_panics_below_allocation :
    ∃ s : TBState, ∃ ptr : Pointer TBProv, TBReach s ∧ s.mem.ValidPtr ptr.thin ∧
      Ex.refUnit.checkWf ⟨[], 0, [], [], []⟩ = .ok () ∧
      Memory.retagPtr s.mem [] ptr Ex.refUnit false (fun _ => .error .ub) = .error .panic := by
  refine ⟨Ex.after [.alloc .stack 4 ⟨0⟩ 16], ⟨⟨15, some (0, [])⟩, none⟩, Ex.after_reach _, ?_, rfl, rfl⟩
  intro pv h; cases h; exact ⟨_, rfl, by decide⟩
/-- In the example with a function argument the protected node is in the frame of the call. -/
example : (Ex.after Ex.argument).frames = [[(0, [0])]] := by decide
end

/-! ### C31: Tree Borrows only adds undefined behaviour -/

section
variable [T : Target]

/-- Every operation that succeeds under Tree Borrows succeeds under the basic memory model, with the same result
up to the borrow information in provenances. -/
theorem C31_step_simulated {m m' : TBMem} {e : MemEvent Path} (h : MemStep m e m') : MemStep m.erase e.erase m'.erase := by
  cases h with
  | alloc h => exact .alloc (allocate_erase h)
  | dealloc h => exact .dealloc (deallocate_erase h)
  | store h => exact .store (store_erase h)
  | load h => exact .load (load_erase h)
  | retag h =>
    rw [(retag_erase h).2]
    exact .retag (f := ()) (f' := ()) (ptr := ⟨⟨0, none⟩, none⟩) (ptr' := ⟨⟨0, none⟩, none⟩) (pty := .fnPtr)
      (entry := false) (vt := fun _ => .error .ub) rfl
  | endCall h =>
    rw [sameData_erase (endCall_sameData h)]
    exact .endCall (f := ()) rfl

/-- Every history that is defined under Tree Borrows is defined under the basic memory model with the same allocator
choices, operation by operation the same bytes and addresses. -/
theorem C31_history_simulated {h : MemHistory Path} {m : TBMem} (hr : MemReach h m) :
    MemReach (h.map MemEvent.erase) m.erase := by
  have key : ∀ {m0 : TBMem} {h m}, MemRun m0 h m → MemRun m0.erase (h.map MemEvent.erase) m.erase := by
    intro m0 h m hr
    induction hr with
    | nil => exact .nil
    | cons _ hs ih => exact .cons ih (C31_step_simulated hs)
  exact key hr

/-- Retagging returns the same pointer up to the borrow information, as in the basic memory model where it does
nothing. -/
theorem C31_retag_same_pointer {m m' : TBMem} {f f' : TBFrame} {ptr ptr' : Pointer TBProv} {pty entry vt}
    (h : Memory.retagPtr m f ptr pty entry vt = .ok (ptr', f', m')) :
    Memory.retagPtr m.erase () ptr.erase pty entry (fun _ => .error .ub) = .ok (ptr'.erase, (), m'.erase) := by
  obtain ⟨h1, h2⟩ := retag_erase h
  rw [h1, h2]; rfl

/-- The dereferenceability check and the leak check agree exactly. -/
theorem C31_checks_agree (m : TBMem) :
    (∀ (ptr : ThinPtr TBProv) len, Memory.dereferenceable m.erase ptr.erase len = Memory.dereferenceable m ptr len) ∧
    Memory.leakCheck m.erase = Memory.leakCheck m := by
  refine ⟨fun ptr len => ?_, leakCheck_erase m⟩
  simp only [Memory.dereferenceable]
  rw [checkPtr_erase]
  cases m.mem.checkPtr ptr len <;> rfl

end

section
attribute [local instance] x86_64
/-- Tree Borrows does add undefined behaviour: the two mutable references. -/
example : ∃ s, Ex.runAll (Ex.after Ex.twoRefs) [.store ⟨16, some (0, [1])⟩ [.init 7 none] ⟨0⟩] = .ok s ∧
    Memory.load s.mem ⟨16, some (0, [0])⟩ 1 ⟨0⟩ = .error .ub ∧
    Memory.load s.mem.erase (ThinPtr.erase ⟨16, some (0, [0])⟩) 1 ⟨0⟩ = .ok ([.init 7 none], s.mem.erase) :=
  ⟨_, rfl, by rfl, by rfl⟩
end

/-! ### C32: the interior-mutability mask of a pointee is exact -/

/-- For a sized pointee accepted by the well-formedness check, the mask has one entry per byte, which is true (frozen)
exactly if the byte is in no `UnsafeCell`. -/
theorem C32_sized_mask_exact {P : Type} {vt : ThinPtr P → Res VTable} {cells : List (Nat × Nat)} {size : Nat} {align : Align} {meta_}
    (hwf : (UnsafeCellStrategy.sized cells).checkWf (.sized size align) = .ok ()) :
    ∃ mask, (UnsafeCellStrategy.sized cells).freezeMask vt (.sized size align) meta_ = .ok mask ∧
      mask.length = size ∧ ∀ k, k < size → (mask[k]? = some true ↔ ¬ InRanges cells k) := by
  obtain ⟨mask, h1, h2, h3⟩ := cellsToFreezeMask_spec hwf
  refine ⟨mask, ?_, h2, fun k hk => ?_⟩
  · unfold UnsafeCellStrategy.freezeMask; exact h1
  · rw [h3 k hk]; simp

/-- For a slice, byte `k` is frozen exactly if it is in no `UnsafeCell` of its element. -/
theorem C32_slice_mask_exact {P : Type} {vt : ThinPtr P → Res VTable} {cells : List (Nat × Nat)} {size : Nat} {align : Align} {count : Nat}
    (hwf : (UnsafeCellStrategy.slice cells).checkWf (.slice size align) = .ok ()) :
    ∃ mask, (UnsafeCellStrategy.slice cells).freezeMask vt (.slice size align) (some (.elementCount count)) = .ok mask ∧
      mask.length = count * size ∧ ∀ k, k < count * size → (mask[k]? = some true ↔ ¬ InRanges cells (k % size)) := by
  obtain ⟨mask, h1, h2, h3⟩ := cellsToFreezeMask_spec hwf
  refine ⟨repeatMask mask count, ?_, ?_, fun k hk => ?_⟩
  · unfold UnsafeCellStrategy.freezeMask; simp [h1]
  · rw [repeatMask_length, h2]
  · rw [repeatMask_getElem? (by rw [h2]; exact hk), h2]
    have : 0 < size := by
      rcases Nat.eq_zero_or_pos size with h | h
      · subst h; omega
      · exact h
    rw [h3 _ (Nat.mod_lt _ this)]; simp

/-- For a trait object the mask is that of the concrete type, described by the vtable. -/
theorem C32_trait_object_mask_exact {P : Type} {vt : ThinPtr P → Res VTable} {t : TraitName} {p : ThinPtr P} {v : VTable}
    (hv : vt p = .ok v) (hwf : (UnsafeCellStrategy.sized v.cells).checkWf (.sized v.size v.align) = .ok ()) :
    ∃ mask, UnsafeCellStrategy.traitObject.freezeMask vt (.traitObject t) (some (.vtablePointer p)) = .ok mask ∧
      mask.length = v.size ∧ ∀ k, k < v.size → (mask[k]? = some true ↔ ¬ InRanges v.cells k) := by
  obtain ⟨mask, h1, h2, h3⟩ := cellsToFreezeMask_spec hwf
  refine ⟨mask, ?_, h2, fun k hk => ?_⟩
  · unfold UnsafeCellStrategy.freezeMask; simp [hv, h1]
  · rw [h3 k hk]; simp

/-- For an unsized tuple the mask is that of the head followed directly by that of the tail. It is exact only if the
tail follows the head without padding; this is partial: see the witness below for the other case. -/
theorem C32_tuple_mask_partial {P : Type} {vt : ThinPtr P → Res VTable} {cells : List (Nat × Nat)} {tailCells : UnsafeCellStrategy}
    {head : TupleHeadLayout} {tail : LayoutStrategy} {meta_ : Option (PtrMeta P)} {tailMask}
    (hwf : (UnsafeCellStrategy.tuple cells tailCells).checkWf (.tuple head tail) = .ok ())
    (ht : tailCells.freezeMask vt tail meta_ = .ok tailMask) :
    ∃ mask, (UnsafeCellStrategy.tuple cells tailCells).freezeMask vt (.tuple head tail) meta_ = .ok mask ∧
      mask.length = head.end + tailMask.length ∧
      (∀ k, k < head.end → (mask[k]? = some true ↔ ¬ InRanges cells k)) ∧
      (∀ k, mask[head.end + k]? = tailMask[k]?) := by
  simp only [UnsafeCellStrategy.checkWf, Res.bind_eq_ok] at hwf
  obtain ⟨_, hwf, _⟩ := hwf
  obtain ⟨mask, h1, h2, h3⟩ := cellsToFreezeMask_spec hwf
  refine ⟨mask ++ tailMask, ?_, by simp [h2], fun k hk => ?_, fun k => ?_⟩
  · unfold UnsafeCellStrategy.freezeMask; simp [h1, ht]
  · rw [List.getElem?_append_left (by omega), h3 k hk]; simp
  · rw [List.getElem?_append_right (by omega)]; congr 1; omega

/-- `(u8, [Cell<u16>])` with two elements: the pointee has 6 bytes (one byte of padding), but the mask has 5, so that
all cells are attributed to the wrong bytes. -/
theorem C32_fails_for_unsized_tuples :
    ∃ (info : PointeeInfo) (mask : List Bool) (size : Nat) (align : Align),
      info.unsafeCells.checkWf info.layout = .ok () ∧
      info.unsafeCells.freezeMask (P := Unit) (fun _ => .error .ub) info.layout (some (.elementCount 2)) = .ok mask ∧
      info.layout.computeSizeAndAlign (P := Unit) (fun _ => .error .ub) (some (.elementCount 2)) = .ok (size, align) ∧
      mask.length < size :=
  ⟨⟨.tuple ⟨1, ⟨0⟩, none⟩ (.slice 2 ⟨1⟩), true, .tuple [] (.slice [(0, 2)]), false, true⟩,
    [true, false, false, false, false], 6, ⟨1⟩, by decide, by decide, by decide, by decide⟩

/-- Cells at bytes 1..3 and 4..8 of a 10 byte type. -/
example : (UnsafeCellStrategy.sized [(1, 2), (4, 4)]).checkWf (.sized 10 ⟨0⟩) = .ok () ∧
    cellsToFreezeMask [(1, 2), (4, 4)] 10 =
      .ok [true, false, false, true, false, false, false, false, true, true] := by decide

/-! ### C39: the end of a call -/

section
variable [T : Target]

/-- Ending any call in progress, in any reachable state, never is UB and never panics, and afterwards none of the
references that were protected by it is protected any more (if their memory still is live). -/
theorem C39_end_call_always_succeeds {s : TBState} (hreach : TBReach s) {i : Nat} {f : TBFrame} (hf : s.frames[i]? = some f) :
    ∃ m', Memory.endCall s.mem f = .ok m' ∧
      ∀ pv ∈ f, ∀ a : Alloc Path Node, m'.mem.allocations[pv.1]? = some a → a.live = true → m'.protectorOf pv = some .no := by
  have I := hreach.inv
  have I' := I.perm (flatten_eraseIdx_perm hf)
  obtain ⟨m', h, I1, hle⟩ := I'.endCall
  refine ⟨m', h, fun pv hpv a ha hl => ?_⟩
  have hnd := I'.nodup
  have hnot : pv ∉ (s.frames.eraseIdx i).flatten := by
    rw [List.nodup_append] at hnd
    exact fun h => hnd.2.2 pv hpv pv h rfl
  have hn : s.mem.HasNode pv := by
    have hlt := I'.known pv (by simp [hpv])
    obtain ⟨qs, pr, hd, _⟩ := (I'.tree pv.1 _ (List.getElem?_eq_getElem hlt)).prot pv.2 (by simp [hpv])
    rw [hasNode_iff]
    exact ⟨_, _, List.getElem?_eq_getElem hlt, hd⟩
  obtain ⟨a', ⟨ps, pr⟩, ha', hd⟩ := hasNode_iff.1 (hle.hasNode hn)
  rw [ha] at ha'; cases ha'
  have := ((I1.tree pv.1 a ha).unprot hl pv.2 ps pr hd hnot).1
  subst this
  exact protectorOf_eq_some.2 ⟨a, ps, ha, hd⟩

/-- Exactly what the end of a call does for one protected reference `q` of a live allocation: for every byte, the
reference keeps its rights but without protection, the references derived from it are unaffected, and for all the
others it is like a last write (if the byte was written through `q`), a last read (if it was only read), or
nothing. Other allocations are unaffected. -/
theorem C39_end_of_protection {m m' : TBMem} {id : Nat} {q : Path} {a : Alloc Path Node}
    (h : Memory.endCall m [(id, q)] = .ok m') (ha : m.mem.allocations[id]? = some a) (hl : a.live = true) :
    (∀ j, j ≠ id → m'.mem.allocations[j]? = m.mem.allocations[j]?) ∧
    (∀ addr X, m.permAt (id, q) addr = some X →
      m'.permAt (id, q) addr = some X.unprotected ∧
      (∀ x Y, m.permAt (id, x) addr = some Y → x ≠ q → AncestorOrSelf q x → m'.permAt (id, x) addr = some Y) ∧
      (∀ x Y, m.permAt (id, x) addr = some Y → ¬ AncestorOrSelf q x →
        match X.exitAccess with
        | none => m'.permAt (id, x) addr = some Y
        | some k => ∃ Y', Y.transition k (relationTo q x) = .ok Y' ∧ m'.permAt (id, x) addr = some Y')) := by
  refine release_effect ?_ ha hl
  simp only [Memory.endCall, TBMem.endCall, Res.bind_eq_ok] at h
  obtain ⟨m1, h1, h2⟩ := h
  cases h2
  exact h1

/-- The protectors of a call are released one after the other. -/
theorem C39_end_call_in_sequence {m : TBMem} {f g : TBFrame} :
    Memory.endCall m (f ++ g) = (Memory.endCall m f >>= fun m1 => Memory.endCall m1 g) := by
  induction f generalizing m with
  | nil => rfl
  | cons pv f ih =>
    simp only [Memory.endCall] at ih
    simp only [Memory.endCall, List.cons_append, TBMem.endCall, ih]
    cases m.releaseProtector pv <;> rfl

/-- If a byte was written through a reference `q` (or one derived from it) while `q` was protected by a call, then the
end of that call counts as a write: in every continuation, accesses to that byte through a reference that is, or is
derived from, a reference `x` unrelated to `q` are UB, even if `x` was created after the write. The exceptions are
interior mutability: bytes inside an `UnsafeCell` for `q` or for `x`. -/
theorem C39_end_of_call_is_a_write {s s1 s2 s3 s4 : TBState} {ptr ptr2 : ThinPtr TBProv} {bytes align f id q w x r pr X Y}
    {addr : Int}
    (hreach : TBReach s) (hw : TBStep s (.store ptr bytes align) s1) (hp : ptr.prov = some (id, w)) (hqw : AncestorOrSelf q w)
    (hpr : s.mem.protectorOf (id, q) = some pr) (hy : pr ≠ .no)
    (hin : ptr.addr ≤ addr ∧ addr < ptr.addr + (bytes.length : Nat))
    (hX : s.mem.permAt (id, q) addr = some X) (hc : X ≠ .prot .cell)
    (hrun : TBRun s1 s2) (hend : TBStep s2 (.endCall f) s3) (hq : (id, q) ∈ f)
    (hqx : ¬ AncestorOrSelf q x) (hxq : ¬ AncestorOrSelf x q) (hY : s2.mem.permAt (id, x) addr = some Y)
    (hcell : Y ≠ .unprot .cell ∧ Y ≠ .prot .cell ∧ Y ≠ .unprot .reservedIm)
    (hrun2 : TBRun s3 s4) (hp2 : ptr2.prov = some (id, r)) (hr : AncestorOrSelf x r) :
    (∀ (len : Nat) align, ptr2.addr ≤ addr → addr < ptr2.addr + (len : Nat) →
      Memory.load s4.mem ptr2 len align = .error .ub) ∧
    (∀ bytes2 align, ptr2.addr ≤ addr → addr < ptr2.addr + (bytes2.length : Nat) →
      Memory.store s4.mem ptr2 bytes2 align = .error .ub) := by
  obtain ⟨X1, hX1, _, hw1⟩ := C28_aux_use (bytes := []) hreach.inv (.inr ⟨bytes, hw, rfl⟩) hp hqw hpr hy hin hX hc
  have hu := hw1 ⟨bytes, hw, rfl⟩
  obtain ⟨I1, _⟩ := hw.inv hreach.inv
  obtain ⟨I2, hle2⟩ := hrun.inv I1
  obtain ⟨I3, hle3⟩ := hend.inv I2
  obtain ⟨I4, hle4⟩ := hrun2.inv I3
  obtain ⟨X2, hX2, _, htX⟩ := hle2.permAt hX1
  obtain ⟨a, off, ha, _, _⟩ := permAt_eq_some.1 hX2
  simp only at ha
  obtain ⟨a4, ha4, _, _, hlive, _⟩ := (hle3.trans hle4) id a ha
  have hknown : s4.mem.mem.KnownId ptr2 := by
    intro id' pe hp'
    rw [hp2] at hp'; cases hp'
    exact (List.getElem?_eq_some_iff.1 ha4).1
  by_cases hl4 : a4.live = true
  · cases hend with
    | endCall hf h =>
      have I2' := I2.perm (flatten_eraseIdx_perm hf)
      obtain ⟨qs, pr2, hd, hy2⟩ := (I2'.tree id a ha).prot q (by simp [hq])
      have hu2 := (htX a pr2 ha (hlive hl4) (protectorOf_eq_some.2 ⟨a, _, ha, hd⟩) hy2).usedWrite hu
      obtain ⟨Z, hZ, hd⟩ := endCall_disables I2' h hq ha (hlive hl4) hX2 hu2 hqx hxq hY
        (by simpa [Permission.plain] using hcell)
      obtain ⟨Z4, hZ4, hm, _⟩ := hle4.permAt hZ
      have hd4 := hm.disabled hd
      exact ⟨fun len al h1 h2 => tb_load_forbidden I4 hp2 h1 h2 hZ4 (by rw [relationTo_local hr]; exact disabled_local Z4 _ hd4),
        fun bs al h1 h2 => tb_store_forbidden I4 hp2 h1 h2 hZ4 (by rw [relationTo_local hr]; exact disabled_local Z4 _ hd4)⟩
  · constructor
    · intro len al h1 h2
      rcases tb_load_cases I4 hknown (len := len) (align := al) with h | ⟨_, m', h⟩
      · exact h
      · obtain ⟨a', _, _, ha', hl, _⟩ := tb_load_access h hp2 (by omega)
        rw [ha4] at ha'; cases ha'; exact absurd hl hl4
    · intro bs al h1 h2
      rcases tb_store_cases I4 hknown (bytes := bs) (align := al) with h | ⟨m', h⟩
      · exact h
      · obtain ⟨a', _, _, _, ha', hl, _⟩ := tb_store_access h hp2 (by intro h0; simp [h0] at h2; omega)
        rw [ha4] at ha'; cases ha'; exact absurd hl hl4

end

section
attribute [local instance] x86_64
/-- A function writes the byte at address 16 through its argument, and then its caller makes a second reference, to
the byte at address 19 only. That reference has rights for address 16 as well, but the end of the call takes
them away. -/
def Ex.info1 : PointeeInfo := ⟨.sized 1 ⟨0⟩, true, .sized [], true, true⟩
def Ex.exitArg : List Ex.TBCmd :=
  [.alloc .heap 4 ⟨0⟩ 16, .newCall, .newCall, .retag 1 ⟨16, some (0, [])⟩ (.ref .mut Ex.info1) true]
def Ex.exitRun : List Ex.TBCmd := [.retag 0 ⟨19, some (0, [])⟩ (.ref .mut Ex.info1) false]
example : ∃ s1 s2 s3, TBReach (Ex.after Ex.exitArg) ∧
    TBStep (Ex.after Ex.exitArg) (.store ⟨16, some (0, [0])⟩ [.init 7 none] ⟨0⟩) s1 ∧
    (Ex.after Ex.exitArg).mem.protectorOf (0, [0]) = some .strong ∧
    (Ex.after Ex.exitArg).mem.permAt (0, [0]) 16 = some (.prot (.reserved true false)) ∧
    Ex.runAll s1 Ex.exitRun = .ok s2 ∧ TBStep s2 (.endCall [(0, [0])]) s3 ∧
    ¬ AncestorOrSelf [0] [1] ∧ ¬ AncestorOrSelf [1] [0] ∧
    s2.mem.permAt (0, [1]) 16 = some (.unprot .reserved) ∧
    s3.mem.permAt (0, [0]) 16 = some (.unprot .unique) ∧ s3.mem.permAt (0, [1]) 16 = some (.unprot .disabled) ∧
    s3.mem.permAt (0, [1]) 19 = some (.unprot .reserved) :=
  ⟨_, _, _, Ex.after_reach _, .store rfl, by decide, by decide, rfl, .endCall (i := 1) rfl rfl, by decide, by decide,
    by decide, by decide, by decide, by decide⟩
example : ∃ s, Ex.runAll (Ex.after Ex.argument) [.store ⟨16, some (0, [0])⟩ [.init 7 none] ⟨0⟩, .endCall 0] = .ok s ∧
    s.mem.protectorOf (0, [0]) = some .no ∧ s.mem.permAt (0, [0]) 16 = some (.unprot .unique) :=
  ⟨_, rfl, by decide, by decide⟩
end

/-! ### C40: retagging -/

section
variable [T : Target]

/-- Retagging a reference with provenance creates a new child of it with the documented permissions: see `NewRef`. -/
theorem C40_retag_creates_reference {s : TBState} (hreach : TBReach s) {f f' : TBFrame} {m' : TBMem} {ptr ptr' : Pointer TBProv}
    {pty entry vt info mask id parent}
    (h : Memory.retagPtr s.mem f ptr pty entry vt = .ok (ptr', f', m')) (hr : pty.Retags)
    (hi : pty.safePointee = some info) (hm : info.unsafeCells.freezeMask vt info.layout ptr.metadata = .ok mask)
    (hp : ptr.thin.prov = some (id, parent)) :
    ∃ child, NewRef s.mem m' ptr ptr' pty entry info mask id parent child :=
  retag_newRef hreach.inv h hr hi hm hp

/-- Raw pointers, function pointers and mutable references to types that are not `Unpin` are not affected. -/
theorem C40_no_retag {m : TBMem} {f : TBFrame} {ptr : Pointer TBProv} {pty entry vt} (hr : ¬ pty.Retags) :
    Memory.retagPtr m f ptr pty entry vt = .ok (ptr, f, m) := by
  simp [Memory.retagPtr, TBMem.retagPtr, settings_no_retag hr]

/-- Retagging does not change the bytes in memory, and creating a reference can only be UB (not succeed) if the memory
it points to is not there: the pointee must be inside a live allocation. -/
theorem C40_retag_requires_live_memory {m m' : TBMem} {f f' : TBFrame} {ptr ptr' : Pointer TBProv} {pty entry vt info mask}
    (h : Memory.retagPtr m f ptr pty entry vt = .ok (ptr', f', m')) (hr : pty.Retags)
    (hi : pty.safePointee = some info) (hm : info.unsafeCells.freezeMask vt info.layout ptr.metadata = .ok mask) :
    Memory.dereferenceable m ptr.thin mask.length = .ok () ∧
    ∀ (id : Nat) (a : Alloc Path Node), m.mem.allocations[id]? = some a → ∃ a', m'.mem.allocations[id]? = some a' ∧ a'.data = a.data := by
  constructor
  · rcases retag_ok h with ⟨hs, _⟩ | ⟨s, thin, hs, hb, rfl⟩
    · obtain ⟨s, hs'⟩ := settings_retags hs hr; cases hs'
    obtain ⟨mask', hm', hin, hout, hpr⟩ := settings_spec hs hi
    rw [hm] at hm'; cases hm'
    unfold TBMem.reborrow at hb
    simp only [Res.bind_eq_ok] at hb
    obtain ⟨c, hc, _⟩ := hb
    rw [hin, List.length_map] at hc
    simp [Memory.dereferenceable, hc]
  · intro id a ha
    have hsd := BasicBacked.retag (M := TBMem) m m' f f' ptr ptr' pty entry vt h
    have hlt := (List.getElem?_eq_some_iff.1 ha).1
    have hlt' : id < m'.mem.allocations.length := by have := hsd.1; simp only [BasicBacked.mem] at this; omega
    have hb := List.getElem?_eq_getElem hlt'
    refine ⟨_, hb, ?_⟩
    have := hsd.2 id a _ ha hb
    simp [this]

end

section
attribute [local instance] x86_64
/-- A shared reference: frozen outside of the cell, cell permission inside of it. -/
example : Ex.imm4.Retags ∧ Ex.info4.unsafeCells.freezeMask (P := TBProv) (fun _ => .error .ub) Ex.info4.layout none =
      .ok [true, true, true, false] ∧
    ∃ s, Ex.runAll (Ex.after Ex.twoRefs) [.retag 0 ⟨16, some (0, [1])⟩ Ex.imm4 true] = .ok s ∧
      s.mem.permAt (0, [1, 0]) 17 = some (.prot (.frozen true)) ∧ s.mem.permAt (0, [1, 0]) 19 = some (.prot .cell) ∧
      s.mem.permAt (0, [0]) 17 = some (.unprot .reserved) :=
  ⟨⟨⟨_, rfl⟩, fun _ h => by cases h⟩, by decide, _, rfl, by decide, by decide, by decide⟩
end

end MiniRust
