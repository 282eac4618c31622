import Verif.Lemmas.TreeRelease
/-
The invariant of Tree Borrows trees, and finite facts about the permission state machine.
-/
namespace MiniRust

/-! ### Enumerations of the finite permission types -/

def PermissionUnprot.all : List PermissionUnprot := [.cell, .reserved, .reservedIm, .unique, .frozen, .disabled]
def PermissionProt.all : List PermissionProt :=
  [.cell, .reserved true true, .reserved true false, .reserved false true, .reserved false false, .unique,
   .frozen true, .frozen false, .disabled]
def Permission.all : List Permission := PermissionUnprot.all.map .unprot ++ PermissionProt.all.map .prot

theorem PermissionUnprot.mem_all (p : PermissionUnprot) : p ∈ all := by cases p <;> simp [all]
theorem PermissionProt.mem_all (p : PermissionProt) : p ∈ all := by
  cases p with
  | reserved a b => cases a <;> cases b <;> simp [all]
  | frozen a => cases a <;> simp [all]
  | _ => simp [all]
theorem Permission.mem_all (p : Permission) : p ∈ all := by
  cases p with
  | unprot p => simp [all, PermissionUnprot.mem_all]
  | prot p => simp [all, PermissionProt.mem_all]

instance (P : PermissionUnprot → Prop) [∀ p, Decidable (P p)] : Decidable (∀ p, P p) :=
  decidable_of_iff (∀ p ∈ PermissionUnprot.all, P p)
    ⟨fun h p => h p p.mem_all, fun h p _ => h p⟩
instance (P : PermissionProt → Prop) [∀ p, Decidable (P p)] : Decidable (∀ p, P p) :=
  decidable_of_iff (∀ p ∈ PermissionProt.all, P p)
    ⟨fun h p => h p p.mem_all, fun h p _ => h p⟩
instance (P : Permission → Prop) [∀ p, Decidable (P p)] : Decidable (∀ p, P p) :=
  decidable_of_iff (∀ p ∈ Permission.all, P p)
    ⟨fun h p => h p p.mem_all, fun h p _ => h p⟩
instance (P : AccessKind → Prop) [∀ p, Decidable (P p)] : Decidable (∀ p, P p) :=
  decidable_of_iff (P .read ∧ P .write) ⟨fun h p => by cases p <;> simp [h], fun h => ⟨h _, h _⟩⟩
instance (P : NodeRelation → Prop) [∀ p, Decidable (P p)] : Decidable (∀ p, P p) :=
  decidable_of_iff (P .localNode ∧ P .foreign) ⟨fun h p => by cases p <;> simp [h], fun h => ⟨h _, h _⟩⟩

/-- If the result is a success, it satisfies `f`. -/
def okB {α : Type} (r : Res α) (f : α → Bool) : Bool :=
  match r with
  | .ok a => f a
  | .error _ => true

theorem okB_ok {α : Type} {r : Res α} {f : α → Bool} {a : α} (h : okB r f = true) (hr : r = .ok a) : f a = true := by
  subst hr; exact h

/-! ### Effect of an access on single permissions -/

namespace Node

theorem perm_of_data {n : Node} {q ps pr} (h : n.data q = some (ps, pr)) (k : Nat) : n.perm q k = ps[k]? := by
  simp [perm, h]

theorem perm_eq_some {n : Node} {q k X} : n.perm q k = some X ↔ ∃ ps pr, n.data q = some (ps, pr) ∧ ps[k]? = some X := by
  unfold perm
  cases n.data q with
  | none => simp
  | some d => obtain ⟨ps, pr⟩ := d; simp

theorem access_data {kind off size} {n n' : Node} {p : Path} (h : n.access (some p) kind off size = .ok n') {q ps' pr}
    (hd : n'.data q = some (ps', pr)) : ∃ ps, n.data q = some (ps, pr) ∧
      PStep (relationTo p q) kind off size ps ps' := by
  rcases access_ok h q with h | ⟨ps, pr', ps'', h1, h2, h3⟩
  · rw [h.2] at hd; cases hd
  · rw [h2] at hd; cases hd
    exact ⟨ps, h1, by rw [← relAt_some]; exact h3⟩

theorem access_data' {kind off size} {n n' : Node} {p : Path} (h : n.access (some p) kind off size = .ok n') {q ps pr}
    (hd : n.data q = some (ps, pr)) : ∃ ps', n'.data q = some (ps', pr) ∧
      PStep (relationTo p q) kind off size ps ps' := by
  rcases access_ok h q with h | ⟨ps', pr', ps'', h1, h2, h3⟩
  · rw [h.1] at hd; cases hd
  · rw [h1] at hd; cases hd
    exact ⟨ps'', h2, by rw [← relAt_some]; exact h3⟩

theorem access_perm {kind off size} {n n' : Node} {p : Path} (h : n.access (some p) kind off size = .ok n') {q k X'}
    (hd : n'.perm q k = some X') : ∃ X, n.perm q k = some X ∧
      ((off ≤ k ∧ k < off + size) → X.transition kind (relationTo p q) = .ok X') ∧
      (¬ (off ≤ k ∧ k < off + size) → X' = X) := by
  obtain ⟨ps', pr, hd', hk⟩ := perm_eq_some.1 hd
  obtain ⟨ps, hps, hl, hs⟩ := access_data h hd'
  have hs := hs k
  split at hs
  · rename_i hr
    obtain ⟨X, X'', h1, h2, h3⟩ := hs
    rw [hk] at h3; cases h3
    exact ⟨X, perm_eq_some.2 ⟨ps, pr, hps, h1⟩, fun _ => h2, fun hn => absurd hr hn⟩
  · rename_i hr
    exact ⟨X', perm_eq_some.2 ⟨ps, pr, hps, by rw [← hs, hk]⟩, fun h => absurd h hr, fun _ => rfl⟩

theorem access_perm' {kind off size} {n n' : Node} {p : Path} (h : n.access (some p) kind off size = .ok n') {q k X}
    (hd : n.perm q k = some X) : ∃ X', n'.perm q k = some X' ∧
      ((off ≤ k ∧ k < off + size) → X.transition kind (relationTo p q) = .ok X') ∧
      (¬ (off ≤ k ∧ k < off + size) → X' = X) := by
  obtain ⟨ps, pr, hd', hk⟩ := perm_eq_some.1 hd
  obtain ⟨ps', hps, hl, hs⟩ := access_data' h hd'
  have hs := hs k
  split at hs
  · rename_i hr
    obtain ⟨X, X'', h1, h2, h3⟩ := hs
    rw [hk] at h1; cases h1
    exact ⟨X'', perm_eq_some.2 ⟨ps', pr, hps, h3⟩, fun _ => h2, fun hn => absurd hr hn⟩
  · rename_i hr
    exact ⟨X, perm_eq_some.2 ⟨ps', pr, hps, by rw [hs, hk]⟩, fun h => absurd h hr, fun _ => rfl⟩

end Node

/-- Transitions keep protected permissions protected and unprotected ones unprotected. -/
theorem transition_prot {X : PermissionProt} {kind rel X'} (h : (Permission.prot X).transition kind rel = .ok X') :
    ∃ Y, X' = .prot Y := by
  simp only [Permission.transition, Res.bind_eq_ok] at h
  obtain ⟨y, _, h⟩ := h
  exact ⟨y, by simpa using h.symm⟩
theorem transition_unprot {X : PermissionUnprot} {kind rel X'} (h : (Permission.unprot X).transition kind rel = .ok X') :
    ∃ Y, X' = .unprot Y := by
  simp only [Permission.transition, Res.bind_eq_ok] at h
  obtain ⟨y, _, h⟩ := h
  exact ⟨y, by simpa using h.symm⟩

/-! ### Pairs of a protected node and another node -/

/-- When the protector of a node with permission `X` ends, a node with permission `Y` that sees this
with relation `rel` permits it. -/
def pairOK (X : Permission) (Y : Permission) (rel : NodeRelation) : Bool :=
  match X with
  | .unprot _ => true
  | .prot X =>
    match X.unprotect.2 with
    | some a => (Y.transition a rel).isOk
    | none => true

/-- Relations that a node and one of its ancestors can have to an accessed node. -/
def anc (rx ry : NodeRelation) : Bool := !(decide (rx = .localNode) && decide (ry = .foreign))
/-- Relations that two nodes that are no ancestors of each other can have to an accessed node. -/
def unrel (rx ry : NodeRelation) : Bool := !(decide (rx = .localNode) && decide (ry = .localNode))

theorem pair_access : ∀ (X Y : Permission) (kind : AccessKind) (rx ry rel : NodeRelation),
    (if rel = .localNode then anc rx ry else unrel rx ry) = true → pairOK X Y rel = true →
    okB (X.transition kind rx) (fun X' => okB (Y.transition kind ry) (fun Y' => pairOK X' Y' rel)) = true := by
  decide +kernel

theorem pair_other : ∀ (X Y : Permission) (kind : AccessKind) (rel : NodeRelation), pairOK X Y rel = true →
    okB (Y.transition kind rel) (fun Y' => pairOK X Y' rel) = true := by
  decide +kernel

theorem pair_self : ∀ (X Y : Permission) (kind : AccessKind), pairOK X Y .foreign = true →
    okB (X.transition kind .foreign) (fun X' => pairOK X' Y .foreign) = true := by
  decide +kernel

theorem pair_unprotect : ∀ (X : Permission) (Y : PermissionProt) (rel : NodeRelation),
    pairOK X (.prot Y) rel = true → pairOK X (.unprot Y.unprotect.1) rel = true := by
  decide +kernel

/-- Permissions of new nodes. -/
def freshPerm (X : Permission) : Bool :=
  match X with
  | .unprot _ => true
  | .prot .cell => true
  | .prot (.reserved false false) => true
  | .prot (.frozen false) => true
  | _ => false

theorem fresh_pair_self : ∀ (X Y : Permission) (rel : NodeRelation), freshPerm X = true → pairOK X Y rel = true := by
  decide +kernel

theorem fresh_pair_other : ∀ (X Y : Permission), freshPerm Y = true → pairOK X Y .foreign = true := by
  decide +kernel

/-! ### The tree invariant -/

/-- The invariant of a tree of an allocation of `size` bytes; `S` are the nodes that some call in
progress protects. -/
structure TreeInv (size : Nat) (live : Bool) (n : Node) (S : Path → Prop) : Prop where
  len : ∀ q ps pr, n.data q = some (ps, pr) → ps.length = size
  prot : ∀ q, S q → ∃ (qs : List PermissionProt) (pr : Protected), n.data q = some (qs.map .prot, pr) ∧ pr.yes = true
  unprot : live = true → ∀ q ps pr, n.data q = some (ps, pr) → ¬ S q →
    pr = .no ∧ ∃ us : List PermissionUnprot, ps = us.map .unprot
  pair : live = true → ∀ x y X Y k, S x → ¬ x <+: y → n.perm x k = some X → n.perm y k = some Y →
    pairOK X Y (relationTo x y) = true

theorem list_prot {ps' : List Permission}
    (h : ∀ (k : Nat) X', ps'[k]? = some X' → ∃ Y, X' = .prot Y) : ∃ qs' : List PermissionProt, ps' = qs'.map .prot := by
  induction ps' with
  | nil => exact ⟨[], rfl⟩
  | cons p ps' ih =>
    obtain ⟨Y, rfl⟩ := h 0 p rfl
    obtain ⟨qs', rfl⟩ := ih (fun k X' hk => h (k + 1) X' (by simpa using hk))
    exact ⟨Y :: qs', rfl⟩

theorem list_unprot {ps' : List Permission}
    (h : ∀ (k : Nat) X', ps'[k]? = some X' → ∃ Y, X' = .unprot Y) : ∃ qs' : List PermissionUnprot, ps' = qs'.map .unprot := by
  induction ps' with
  | nil => exact ⟨[], rfl⟩
  | cons p ps' ih =>
    obtain ⟨Y, rfl⟩ := h 0 p rfl
    obtain ⟨qs', rfl⟩ := ih (fun k X' hk => h (k + 1) X' (by simpa using hk))
    exact ⟨Y :: qs', rfl⟩

theorem PStep.prot {rel kind off size} {qs : List PermissionProt} {ps'}
    (h : PStep rel kind off size (qs.map .prot) ps') : ∃ qs' : List PermissionProt, ps' = qs'.map .prot := by
  obtain ⟨hl, hk⟩ := h
  refine list_prot (fun k X' hX => ?_)
  have := hk k
  split at this
  · obtain ⟨p, p', h1, h2, h3⟩ := this
    rw [hX] at h3; cases h3
    simp only [List.getElem?_map, Option.map_eq_some_iff] at h1
    obtain ⟨a, _, rfl⟩ := h1
    exact transition_prot h2
  · rw [hX] at this
    have := this.symm
    simp only [List.getElem?_map, Option.map_eq_some_iff] at this
    obtain ⟨a, _, rfl⟩ := this
    exact ⟨a, rfl⟩

theorem PStep.unprot {rel kind off size} {us : List PermissionUnprot} {ps'}
    (h : PStep rel kind off size (us.map .unprot) ps') : ∃ us' : List PermissionUnprot, ps' = us'.map .unprot := by
  obtain ⟨hl, hk⟩ := h
  refine list_unprot (fun k X' hX => ?_)
  have := hk k
  split at this
  · obtain ⟨p, p', h1, h2, h3⟩ := this
    rw [hX] at h3; cases h3
    simp only [List.getElem?_map, Option.map_eq_some_iff] at h1
    obtain ⟨a, _, rfl⟩ := h1
    exact transition_unprot h2
  · rw [hX] at this
    have := this.symm
    simp only [List.getElem?_map, Option.map_eq_some_iff] at this
    obtain ⟨a, _, rfl⟩ := this
    exact ⟨a, rfl⟩

theorem RStep.prot {rel accs} {qs : List PermissionProt} {ps'}
    (h : RStep rel accs (qs.map .prot) ps') : ∃ qs' : List PermissionProt, ps' = qs'.map .prot := by
  obtain ⟨hl, hk⟩ := h
  refine list_prot (fun k X' hX => ?_)
  have := hk k
  split at this
  · obtain ⟨p, p', h1, h2, h3⟩ := this
    rw [hX] at h3; cases h3
    simp only [List.getElem?_map, Option.map_eq_some_iff] at h1
    obtain ⟨a, _, rfl⟩ := h1
    exact transition_prot h2
  · rw [hX] at this
    have := this.symm
    simp only [List.getElem?_map, Option.map_eq_some_iff] at this
    obtain ⟨a, _, rfl⟩ := this
    exact ⟨a, rfl⟩

theorem RStep.unprot {rel accs} {us : List PermissionUnprot} {ps'}
    (h : RStep rel accs (us.map .unprot) ps') : ∃ us' : List PermissionUnprot, ps' = us'.map .unprot := by
  obtain ⟨hl, hk⟩ := h
  refine list_unprot (fun k X' hX => ?_)
  have := hk k
  split at this
  · obtain ⟨p, p', h1, h2, h3⟩ := this
    rw [hX] at h3; cases h3
    simp only [List.getElem?_map, Option.map_eq_some_iff] at h1
    obtain ⟨a, _, rfl⟩ := h1
    exact transition_unprot h2
  · rw [hX] at this
    have := this.symm
    simp only [List.getElem?_map, Option.map_eq_some_iff] at this
    obtain ⟨a, _, rfl⟩ := this
    exact ⟨a, rfl⟩

theorem prefix_comparable {x y p : Path} (hx : x <+: p) (hy : y <+: p) : x <+: y ∨ y <+: x := by
  rcases Nat.le_total x.length y.length with h | h
  · exact .inl (List.prefix_of_prefix_length_le hx hy h)
  · exact .inr (List.prefix_of_prefix_length_le hy hx h)

theorem relationTo_local {p q : Path} (h : q <+: p) : relationTo p q = .localNode := if_pos h
theorem relationTo_foreign {p q : Path} (h : ¬ q <+: p) : relationTo p q = .foreign := if_neg h

/-- Which relations are possible for two nodes of which the first is not an ancestor of the second. -/
theorem relations {x y : Path} (hxy : ¬ x <+: y) (p : Path) :
    (if relationTo x y = .localNode then anc (relationTo p x) (relationTo p y)
      else unrel (relationTo p x) (relationTo p y)) = true := by
  by_cases hyx : y <+: x
  · rw [relationTo_local hyx]
    simp only [if_pos]
    by_cases hx : x <+: p
    · rw [relationTo_local hx, relationTo_local (hyx.trans hx)]; rfl
    · rw [relationTo_foreign hx]; rfl
  · rw [relationTo_foreign hyx]
    rw [if_neg (by decide)]
    by_cases hx : x <+: p
    · by_cases hy : y <+: p
      · rcases prefix_comparable hx hy with h | h
        · exact absurd h hxy
        · exact absurd h hyx
      · rw [relationTo_foreign hy]; simp [unrel]
    · rw [relationTo_foreign hx]; rfl

theorem TreeInv.access {size n n' S p kind off len} (I : TreeInv size true n S)
    (h : n.access (some p) kind off len = .ok n') : TreeInv size true n' S where
  len q ps pr hd := by
    obtain ⟨ps0, h0, hs⟩ := Node.access_data h hd
    rw [hs.1]; exact I.len q ps0 pr h0
  prot q hq := by
    obtain ⟨qs, pr, hd, hpr⟩ := I.prot q hq
    obtain ⟨ps', hd', hs⟩ := Node.access_data' h hd
    obtain ⟨qs', rfl⟩ := hs.prot
    exact ⟨qs', pr, hd', hpr⟩
  unprot _ q ps pr hd hq := by
    obtain ⟨ps0, h0, hs⟩ := Node.access_data h hd
    obtain ⟨hpr, us, rfl⟩ := I.unprot rfl q ps0 pr h0 hq
    exact ⟨hpr, hs.unprot⟩
  pair _ x y X Y k hx hxy hX hY := by
    obtain ⟨X0, hX0, h1, h2⟩ := Node.access_perm h hX
    obtain ⟨Y0, hY0, h3, h4⟩ := Node.access_perm h hY
    have h0 := I.pair rfl x y X0 Y0 k hx hxy hX0 hY0
    by_cases hr : off ≤ k ∧ k < off + len
    · have t := pair_access X0 Y0 kind _ _ _ (relations hxy p) h0
      simpa only [okB, h1 hr, h3 hr] using t
    · rw [h2 hr, h4 hr]; exact h0

theorem TreeInv.add {size live n n' S parent path ps pr} (I : TreeInv size live n S)
    (h : n.addNode parent (.mk [] ps pr) = .ok (n', path)) (hl : ps.length = size)
    (hm : ∀ p ∈ ps, p.matchesProtector pr = true) (hf : ∀ p ∈ ps, freshPerm p = true) :
    TreeInv size live n' (fun q => S q ∨ (q = path ∧ pr.yes = true)) := by
  obtain ⟨i, rfl, hnone, hpar, hd⟩ := Node.addNode_ok h
  have hfresh : ∀ q, q ≠ parent ++ [i] → (n.data q).isSome → ¬ (parent ++ [i] <+: q) := by
    rintro q _ hs ⟨t, rfl⟩
    have := Node.data_prefix hs
    rw [hnone] at this
    cases this
  have hnotS : ¬ S (parent ++ [i]) := by
    intro hS
    obtain ⟨qs, pr', hd', _⟩ := I.prot _ hS
    rw [hnone] at hd'; cases hd'
  constructor
  · intro q ps' pr' hd'
    rw [hd] at hd'
    split at hd'
    · cases hd'; exact hl
    · exact I.len q ps' pr' hd'
  · rintro q (hq | ⟨rfl, hpr⟩)
    · obtain ⟨qs, pr', h1, h2⟩ := I.prot q hq
      refine ⟨qs, pr', ?_, h2⟩
      rw [hd, if_neg]
      · exact h1
      · rintro rfl; exact hnotS hq
    · have : ∃ qs : List PermissionProt, ps = qs.map .prot := by
        refine list_prot (fun k X hX => ?_)
        have := hm X (List.mem_of_getElem? hX)
        simp only [Permission.matchesProtector, hpr, if_true] at this
        cases X with
        | prot Y => exact ⟨Y, rfl⟩
        | unprot Y => simp at this
      obtain ⟨qs, rfl⟩ := this
      exact ⟨qs, pr, by rw [hd, if_pos rfl], hpr⟩
  · intro hlive q ps' pr' hd' hq
    rw [hd] at hd'
    split at hd'
    · rename_i heq
      subst heq
      cases hd'
      have hno : ¬ pr.yes = true := fun h => hq (.inr ⟨rfl, h⟩)
      refine ⟨?_, ?_⟩
      · simpa [Protected.yes] using hno
      · refine list_unprot (fun k X hX => ?_)
        have := hm X (List.mem_of_getElem? hX)
        simp only [Permission.matchesProtector, hno] at this
        cases X with
        | unprot Y => exact ⟨Y, rfl⟩
        | prot Y => simp at this
    · exact I.unprot hlive q ps' pr' hd' (fun h => hq (.inl h))
  · intro hlive x y X Y k hx hxy hX hY
    obtain ⟨psx, prx, hdx, hkx⟩ := Node.perm_eq_some.1 hX
    obtain ⟨psy, pry, hdy, hky⟩ := Node.perm_eq_some.1 hY
    rw [hd] at hdx hdy
    split at hdx
    · cases hdx
      exact fresh_pair_self _ _ _ (hf _ (List.mem_of_getElem? hkx))
    · rename_i hxne
      have hSx : S x := by
        rcases hx with hx | ⟨hx, _⟩
        · exact hx
        · exact absurd hx hxne
      split at hdy
      · rename_i hye
        cases hdy
        rw [relationTo_foreign]
        · exact fresh_pair_other _ _ (hf _ (List.mem_of_getElem? hky))
        · rw [hye]
          exact hfresh x hxne (by rw [hdx]; rfl)
      · exact I.pair hlive x y X Y k hSx hxy (Node.perm_eq_some.2 ⟨_, _, hdx, hkx⟩) (Node.perm_eq_some.2 ⟨_, _, hdy, hky⟩)

/-- Releasing the protector of a protected node succeeds and preserves the invariant. -/
theorem TreeInv.release {size live n S p} (I : TreeInv size live n S) (hp : S p) :
    ∃ n1 accs, n.accessNode TBMem.unprotectNode p = .ok (n1, accs) ∧
      (live = false → TreeInv size live n1 (fun q => S q ∧ q ≠ p)) ∧
      (live = true → ∃ n2, n1.releaseProtector (some p) accs = .ok n2 ∧
        TreeInv size live n2 (fun q => S q ∧ q ≠ p)) := by
  obtain ⟨qs0, pr0, hd0, hpr0⟩ := I.prot p hp
  obtain ⟨n1, h1⟩ := accessNode_unprotect_total hd0 hpr0
  obtain ⟨qs, pr, hdp, hpr, haccs, hd1⟩ := accessNode_unprotect h1
  rw [hd0] at hdp
  have hqs : qs0 = qs := by
    have := (Prod.mk.inj (Option.some.inj hdp)).1
    have inj : ∀ (l l' : List PermissionProt), l.map Permission.prot = l'.map .prot → l = l' := by
      intro l
      induction l with
      | nil => intro l' h; cases l' with | nil => rfl | cons => simp at h
      | cons a l ih => intro l' h; cases l' with
        | nil => simp at h
        | cons b l' => simp at h; rw [h.1, ih l' (by simpa using h.2)]
    exact inj _ _ this
  have hprr : pr0 = pr := (Prod.mk.inj (Option.some.inj hdp)).2
  subst hqs hprr
  refine ⟨n1, _, h1, ?_, ?_⟩
  · intro hlive
    subst hlive
    constructor
    · intro q ps' pr' hd'
      rw [hd1] at hd'
      split at hd'
      · cases hd'
        have := I.len _ _ _ hd0
        simpa using this
      · exact I.len _ _ _ hd'
    · rintro q ⟨hq, hne⟩
      obtain ⟨qs, pr, h1, h2⟩ := I.prot q hq
      exact ⟨qs, pr, by rw [hd1, if_neg hne]; exact h1, h2⟩
    · intro h; cases h
    · intro h; cases h
  · intro hlive
    subst hlive
    have hlen0 : qs0.length = size := by
      have := I.len _ _ _ hd0
      simpa using this
    -- the accesses at each offset
    have hacc : ∀ (k : Nat) a, (qs0.map (fun q => q.unprotect.2))[k]? = some (some a) →
        ∃ P, n.perm p k = some (.prot P) ∧ P.unprotect.2 = some a := by
      intro k a hk
      simp only [List.getElem?_map, Option.map_eq_some_iff] at hk
      obtain ⟨P, hP, ha⟩ := hk
      exact ⟨P, Node.perm_eq_some.2 ⟨_, _, hd0, by simp [hP]⟩, ha⟩
    have hbelow : ∀ q, Node.Below (some p) q ↔ p <+: q := by
      intro q
      constructor
      · rintro ⟨p', hp', h⟩; cases hp'; exact h
      · intro h; exact ⟨p, rfl, h⟩
    obtain ⟨n2, h2⟩ := Node.releaseProtector_total (accs := qs0.map (fun q => q.unprotect.2)) n1 (some p)
      (fun q ps pr hd hb k a hk => by
        rw [hbelow] at hb
        have hqp : q ≠ p := by rintro rfl; exact hb (List.prefix_refl _)
        rw [hd1, if_neg hqp] at hd
        obtain ⟨P, hP, ha⟩ := hacc k a hk
        have hklt : k < ps.length := by
          rw [I.len _ _ _ hd]
          have := (List.getElem?_eq_some_iff.1 hk).1
          simp at this
          omega
        have hY : ps[k]? = some ps[k] := List.getElem?_eq_getElem hklt
        have := I.pair rfl p q _ _ k hp hb hP (Node.perm_eq_some.2 ⟨_, _, hd, hY⟩)
        simp only [pairOK, ha] at this
        rw [Node.relAt_some]
        cases ht : ps[k].transition a (relationTo p q) with
        | ok p' => exact ⟨_, p', hY, ht⟩
        | error e => rw [ht] at this; cases this)
    refine ⟨n2, h2, ?_⟩
    -- backwards from data of `n2`
    have back : ∀ q ps' pr', n2.data q = some (ps', pr') → ∃ ps pr, n1.data q = some (ps, pr) ∧
        (q = p → ps' = ps ∧ pr' = .no) ∧ (q ≠ p → pr' = pr) ∧ (p <+: q → ps' = ps) ∧
        (¬ p <+: q → RStep (relationTo p q) (qs0.map (fun q => q.unprotect.2)) ps ps') := by
      intro q ps' pr' hd'
      rcases Node.releaseProtector_ok h2 q with h | ⟨ps, pr, ps'', pr'', e1, e2, e3, e4, e5, e6⟩
      · rw [h.2] at hd'; cases hd'
      · rw [e2] at hd'; cases hd'
        refine ⟨ps, pr, e1, fun h => e3 (by rw [h]), fun h => e4 (fun h' => h (Option.some.inj h').symm), ?_, ?_⟩
        · intro h; exact e5 ((hbelow q).2 h)
        · intro h; rw [← Node.relAt_some]; exact e6 (fun h' => h ((hbelow q).1 h'))
    have backPerm : ∀ q k X', n2.perm q k = some X' → ∃ X, n1.perm q k = some X ∧
        (p <+: q → X' = X) ∧ (¬ p <+: q → match (qs0.map (fun q => q.unprotect.2))[k]? with
          | some (some a) => X.transition a (relationTo p q) = .ok X'
          | _ => X' = X) := by
      intro q k X' hX
      obtain ⟨ps', pr', hd', hk⟩ := Node.perm_eq_some.1 hX
      obtain ⟨ps, pr, e1, e2, e3, e4, e5⟩ := back q ps' pr' hd'
      by_cases hb : p <+: q
      · exact ⟨X', Node.perm_eq_some.2 ⟨ps, pr, e1, by rw [← e4 hb, hk]⟩, fun _ => rfl, fun h => absurd hb h⟩
      · obtain ⟨_, hs⟩ := e5 hb
        have hs := hs k
        split at hs
        · rename_i a ha
          obtain ⟨X, X'', s1, s2, s3⟩ := hs
          rw [hk] at s3; cases s3
          refine ⟨X, Node.perm_eq_some.2 ⟨ps, pr, e1, s1⟩, fun h => absurd h hb, fun _ => ?_⟩
          rw [ha]; exact s2
        · rename_i hne
          refine ⟨X', Node.perm_eq_some.2 ⟨ps, pr, e1, by rw [← hs, hk]⟩, fun h => absurd h hb, fun _ => ?_⟩
          split
          · rename_i a ha; exact absurd ha (hne a)
          · rfl
    constructor
    · intro q ps' pr' hd'
      obtain ⟨ps, pr, e1, e2, e3, e4, e5⟩ := back q ps' pr' hd'
      have hlps : ps.length = size := by
        rw [hd1] at e1
        split at e1
        · cases e1; simpa using hlen0
        · exact I.len _ _ _ e1
      by_cases hb : p <+: q
      · rw [e4 hb]; exact hlps
      · rw [(e5 hb).1]; exact hlps
    · rintro q ⟨hq, hne⟩
      obtain ⟨qs, pr, g1, g2⟩ := I.prot q hq
      rcases Node.releaseProtector_ok h2 q with h | ⟨ps, pr1, ps', pr', e1, e2, e3, e4, e5, e6⟩
      · rw [hd1, if_neg hne, g1] at h; cases h.1
      · rw [hd1, if_neg hne, g1] at e1; cases e1
        have hpr' : pr' = pr := e4 (fun h => hne (Option.some.inj h).symm)
        subst hpr'
        by_cases hb : Node.Below (some p) q
        · rw [e5 hb] at e2; exact ⟨qs, pr', e2, g2⟩
        · obtain ⟨qs', rfl⟩ := (e6 hb).prot
          exact ⟨qs', pr', e2, g2⟩
    · intro _ q ps' pr' hd' hq
      obtain ⟨ps, pr, e1, e2, e3, e4, e5⟩ := back q ps' pr' hd'
      by_cases hqp : q = p
      · subst hqp
        rw [hd1, if_pos rfl] at e1
        obtain ⟨rfl, rfl⟩ := e2 rfl
        cases e1
        exact ⟨rfl, qs0.map (fun q => q.unprotect.1), by simp [Function.comp_def]⟩
      · rw [hd1, if_neg hqp] at e1
        obtain ⟨g1, us, rfl⟩ := I.unprot rfl q ps pr e1 (fun h => hq ⟨h, hqp⟩)
        refine ⟨by rw [e3 hqp, g1], ?_⟩
        by_cases hb : p <+: q
        · exact ⟨us, e4 hb⟩
        · exact (e5 hb).unprot
    · rintro _ x y X' Y' k ⟨hx, hxp⟩ hxy hX' hY'
      obtain ⟨X, hX, hX1, hX2⟩ := backPerm x k X' hX'
      obtain ⟨Y1, hY1, hYb, hYn⟩ := backPerm y k Y' hY'
      have hXn : n.perm x k = some X := by
        obtain ⟨ps, pr, a, b⟩ := Node.perm_eq_some.1 hX
        rw [hd1, if_neg hxp] at a
        exact Node.perm_eq_some.2 ⟨ps, pr, a, b⟩
      -- in `n1` the pair is fine
      have h0 : pairOK X Y1 (relationTo x y) = true := by
        obtain ⟨ps, pr, a, b⟩ := Node.perm_eq_some.1 hY1
        rw [hd1] at a
        split at a
        · rename_i hyp
          subst hyp
          cases a
          simp only [List.getElem?_map, Option.map_eq_some_iff] at b
          obtain ⟨Q, hQ, rfl⟩ := b
          apply pair_unprotect
          exact I.pair rfl x y X (.prot Q) k hx hxy hXn (Node.perm_eq_some.2 ⟨_, _, hd0, by simp [hQ]⟩)
        · exact I.pair rfl x y X Y1 k hx hxy hXn (Node.perm_eq_some.2 ⟨_, _, a, b⟩)
      by_cases hbx : p <+: x
      · rw [hX1 hbx]
        by_cases hby : p <+: y
        · rw [hYb hby]; exact h0
        · have hYn := hYn hby
          split at hYn
          · rename_i a ha
            have hrel : relationTo p y = relationTo x y := by
              by_cases hyx : y <+: x
              · rw [relationTo_local hyx]
                rcases prefix_comparable hbx hyx with h | h
                · exact absurd h hby
                · exact relationTo_local h
              · rw [relationTo_foreign hyx]
                exact relationTo_foreign (fun h => hyx (h.trans hbx))
            rw [hrel] at hYn
            have t := pair_other X Y1 a _ h0
            simpa only [okB, hYn] using t
          · rw [hYn]; exact h0
      · have hX2 := hX2 hbx
        by_cases hby : p <+: y
        · rw [hYb hby]
          split at hX2
          · rename_i a ha
            have hyx : ¬ y <+: x := fun h => hbx (hby.trans h)
            have hxp' : ¬ x <+: p := fun h => hxy (h.trans hby)
            rw [relationTo_foreign hyx] at h0 ⊢
            rw [relationTo_foreign hxp'] at hX2
            have t := pair_self X Y1 a h0
            simpa only [okB, hX2] using t
          · rw [hX2]; exact h0
        · have hYn := hYn hby
          split at hX2
          · rename_i a ha
            rw [ha] at hYn
            have t := pair_access X Y1 a _ _ _ (relations hxy p) h0
            simp only at hYn
            simpa only [okB, hX2, hYn] using t
          · rename_i hne
            split at hYn
            · rename_i a ha; exact absurd ha (hne a)
            · rw [hX2, hYn]; exact h0

end MiniRust
