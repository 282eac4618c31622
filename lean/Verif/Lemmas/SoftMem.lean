import Verif.Lemmas.ExprRel
/-
Both memory models only fail softly: UB, a panic, or a rejected choice of an address.
-/
set_option linter.unusedSectionVars false
namespace MiniRust
variable [T : Target]

section
variable {PE AE : Type} {m : BasicMem PE AE}

theorem soft_bm_checkPtr {p n} : ResE Soft (m.checkPtr p n) := by unfold BasicMem.checkPtr; soft
macro_rules | `(tactic| soft_step) => `(tactic| apply soft_bm_checkPtr)
theorem soft_bm_allocate {k n a pe ae pick} : ResE Soft (m.allocate k n a pe ae pick) := by
  unfold BasicMem.allocate; soft
macro_rules | `(tactic| soft_step) => `(tactic| apply soft_bm_allocate)
theorem soft_bm_deallocate {p k n a h} (hh : ∀ x y, ResE Soft (h x y)) :
    ResE Soft (m.deallocate p k n a h) := by
  unfold BasicMem.deallocate; soft; exact hh _ _
theorem soft_bm_store {p b a h} (hh : ∀ x y z, ResE Soft (h x y z)) : ResE Soft (m.store p b a h) := by
  unfold BasicMem.store; soft; exact hh _ _ _
theorem soft_bm_load {p n a h} (hh : ∀ x y z, ResE Soft (h x y z)) : ResE Soft (m.load p n a h) := by
  unfold BasicMem.load; soft; exact hh _ _ _
theorem bm_leakCheck : ResE (· = .memoryLeak) m.leakCheck := by
  unfold BasicMem.leakCheck
  generalize m.allocations = l
  induction l with
  | nil => exact .ok
  | cons a as ih =>
    unfold BasicMem.leakLoop
    split
    · split <;> first | exact .error rfl | exact ih
    · exact ih
end

instance : SoftMem (BasicMem Unit Unit) (AllocId × Unit) Unit where
  allocate _ _ _ _ _ := soft_bm_allocate
  deallocate _ _ _ _ _ := soft_bm_deallocate fun _ _ => .ok
  store _ _ _ _ := soft_bm_store fun _ _ _ => .ok
  load _ _ _ _ := soft_bm_load fun _ _ _ => .ok
  deref _ _ _ := .bind soft_bm_checkPtr fun _ => .ok
  retag _ _ _ _ _ _ _ := .ok
  endCall _ _ := .ok
  leak _ := bm_leakCheck

/-! ### Tree Borrows -/

theorem soft_permTransition {p : Permission} {k r} : ResE Soft (p.transition k r) := by
  unfold Permission.transition
  split
  · rename_i p
    refine .bind ?_ fun _ => .ok
    cases p <;> cases k <;> cases r <;> first | exact .ok | exact .error .ub
  · rename_i p
    refine .bind ?_ fun _ => .ok
    cases p <;> cases k <;> cases r <;>
      simp only [PermissionProt.transition, PermissionProt.localRead, PermissionProt.localWrite,
        PermissionProt.foreignRead, PermissionProt.foreignWrite] <;> soft
macro_rules | `(tactic| soft_step) => `(tactic| apply soft_permTransition)

theorem soft_transitionLoop {rel k} : ∀ {n ps off}, ResE Soft (Node.transitionLoop rel k ps off n)
  | 0, _, _ => by unfold Node.transitionLoop; exact .ok
  | n + 1, _, _ => by
    unfold Node.transitionLoop
    exact .bind (.index .panic) fun _ => .bind soft_permTransition fun _ => soft_transitionLoop
macro_rules | `(tactic| soft_step) => `(tactic| apply soft_transitionLoop)

mutual
theorem soft_nodeAccess {k off size} : ∀ (n : Node) path, ResE Soft (n.access path k off size)
  | .mk c p pr, path => by
    unfold Node.access
    exact .bind soft_transitionLoop fun _ => .bind (soft_nodeAccessL c _ _) fun _ => .ok
theorem soft_nodeAccessL {k off size} : ∀ (l : List Node) i path, ResE Soft (Node.accessL l i path k off size)
  | [], _, _ => by unfold Node.accessL; exact .ok
  | c :: cs, _, _ => by
    unfold Node.accessL
    exact .bind (soft_nodeAccess c _) fun _ => .bind (soft_nodeAccessL cs _ _) fun _ => .ok
end
macro_rules | `(tactic| soft_step) => `(tactic| apply soft_nodeAccess)

theorem soft_accessNode {O : Type} {f : Node → Res (Node × O)} (hf : ∀ n, ResE Soft (f n)) :
    ∀ (path : Path) (n : Node), ResE Soft (n.accessNode f path)
  | [], n => by cases n; unfold Node.accessNode; exact hf _
  | i :: path, .mk c p pr => by
    unfold Node.accessNode
    refine .ite (.error .panic) (.bind (.index .panic) fun _ => .bind (soft_accessNode hf path _) fun _ => ?_)
    exact .ok

theorem soft_addNode {n : Node} {p c} : ResE Soft (n.addNode p c) := by
  unfold Node.addNode
  refine .bind (soft_accessNode (fun n => ?_) _ _) fun _ => .ok
  cases n; exact .ok
macro_rules | `(tactic| soft_step) => `(tactic| apply soft_addNode)

theorem soft_releaseLoop {rel} : ∀ {as ps off}, ResE Soft (Node.releaseLoop rel ps off as)
  | [], _, _ => by unfold Node.releaseLoop; exact .ok
  | none :: _, _, _ => by unfold Node.releaseLoop; exact soft_releaseLoop
  | some _ :: _, _, _ => by
    unfold Node.releaseLoop
    exact .bind (.index .panic) fun _ => .bind soft_permTransition fun _ => soft_releaseLoop

mutual
theorem soft_nodeRelease {as} : ∀ (n : Node) path, ResE Soft (n.releaseProtector path as)
  | .mk c p pr, path => by
    unfold Node.releaseProtector
    exact .ite .ok (.bind soft_releaseLoop fun _ => .bind (soft_nodeReleaseL c _ _) fun _ => .ok)
theorem soft_nodeReleaseL {as} : ∀ (l : List Node) i path, ResE Soft (Node.releaseProtectorL l i path as)
  | [], _, _ => by unfold Node.releaseProtectorL; exact .ok
  | c :: cs, _, _ => by
    unfold Node.releaseProtectorL
    exact .bind (soft_nodeRelease c _) fun _ => .bind (soft_nodeReleaseL cs _ _) fun _ => .ok
end
macro_rules | `(tactic| soft_step) => `(tactic| apply soft_nodeRelease)

theorem soft_replicateInt {α : Type} {n} {x : α} : ResE Soft (replicateInt n x) := by
  unfold replicateInt; soft
macro_rules | `(tactic| soft_step) => `(tactic| apply soft_replicateInt)
theorem soft_freezeMaskLoop : ∀ {l m c}, ResE Soft (freezeMaskLoop m c l)
  | [], _, _ => by unfold freezeMaskLoop; exact .ok
  | _ :: _, _, _ => by
    unfold freezeMaskLoop; exact .bind soft_replicateInt fun _ => soft_freezeMaskLoop
macro_rules | `(tactic| soft_step) => `(tactic| apply soft_freezeMaskLoop)
theorem soft_cellsToFreezeMask {c s} : ResE Soft (cellsToFreezeMask c s) := by
  unfold cellsToFreezeMask; soft
macro_rules | `(tactic| soft_step) => `(tactic| apply soft_cellsToFreezeMask)

theorem soft_freezeMask {P : Type} {vt : ThinPtr P → Res VTable} (hvt : ∀ p, ResE Soft (vt p)) :
    ∀ (c : UnsafeCellStrategy) (l : LayoutStrategy) (m : Option (PtrMeta P)), ResE Soft (c.freezeMask vt l m) := by
  intro c l m
  induction c, l, m using UnsafeCellStrategy.freezeMask.induct <;>
    unfold UnsafeCellStrategy.freezeMask <;> soft
  all_goals first | exact hvt _ | (exfalso; simp_all; rename_i h; exact h _ _ _ _ rfl rfl rfl rfl)

theorem soft_reborrowSettings {P : Type} {vt : ThinPtr P → Res VTable} (hvt : ∀ p, ResE Soft (vt p))
    {p : Pointer P} {t e} : ResE Soft (ReborrowSettings.new p t e vt) := by
  unfold ReborrowSettings.new; soft; exact soft_freezeMask hvt _ _ _

theorem soft_initAccesses {cp off} : ∀ {ps root i}, ResE Soft (TBMem.initAccesses cp off root i ps)
  | [], _, _ => by unfold TBMem.initAccesses; exact .ok
  | _ :: _, _, _ => by
    unfold TBMem.initAccesses
    refine .bind ?_ fun _ => soft_initAccesses
    unfold TBMem.initAccess; soft
macro_rules | `(tactic| soft_step) => `(tactic| apply soft_initAccesses)
theorem soft_newPermissions {a o s} : ResE Soft (TBMem.newPermissions a o s) := by
  unfold TBMem.newPermissions; soft
macro_rules | `(tactic| soft_step) => `(tactic| apply soft_newPermissions)
theorem soft_reborrow {m : TBMem} {p s f} : ResE Soft (m.reborrow p s f) := by unfold TBMem.reborrow; soft
macro_rules | `(tactic| soft_step) => `(tactic| apply soft_reborrow)

theorem soft_tryMap {α β : Type} {f : α → Res β} (hf : ∀ a, ResE Soft (f a)) : ∀ l, ResE Soft (tryMap f l)
  | [] => by unfold tryMap; exact .ok
  | a :: as => by
    unfold tryMap; exact .bind (hf a) fun _ => .bind (soft_tryMap hf as) fun _ => .ok

theorem soft_unprotectNode {n} : ResE Soft (TBMem.unprotectNode n) := by
  cases n; unfold TBMem.unprotectNode
  refine .bind (.rassert .panic) fun _ => .bind (soft_tryMap (fun p => ?_) _) fun _ => .ok
  cases p
  · exact .error .panic
  · exact .ok
theorem soft_tb_release {m : TBMem} {p} : ResE Soft (m.releaseProtector p) := by
  unfold TBMem.releaseProtector
  refine .bind (.index .panic) fun _ => .bind (soft_accessNode (fun _ => soft_unprotectNode) _ _) fun _ => ?_
  soft
theorem soft_tb_endCall : ∀ {ps} {m : TBMem}, ResE Soft (m.endCall ps)
  | [], _ => by unfold TBMem.endCall; exact .ok
  | _ :: _, _ => by unfold TBMem.endCall; exact .bind soft_tb_release fun _ => soft_tb_endCall

instance : SoftMem TBMem TBProv TBFrame where
  allocate _ _ _ _ _ := .bind soft_bm_allocate fun _ => .ok
  deallocate _ _ _ _ _ := by
    refine .bind (soft_bm_deallocate fun _ _ => ?_) fun _ => .ok
    unfold TBMem.deallocHandler; soft
  store _ _ _ _ := .bind (soft_bm_store fun _ _ _ => soft_nodeAccess _ _) fun _ => .ok
  load _ _ _ _ := .bind (soft_bm_load fun _ _ _ => soft_nodeAccess _ _) fun _ => .ok
  deref _ _ _ := .bind soft_bm_checkPtr fun _ => .ok
  retag m f p t e vt hvt := by
    show ResE Soft (TBMem.retagPtr _ _ _ _ _ _)
    unfold TBMem.retagPtr
    refine .bind (soft_reborrowSettings hvt) fun _ => ?_
    soft
  endCall _ _ := soft_tb_endCall
  leak _ := bm_leakCheck

end MiniRust
