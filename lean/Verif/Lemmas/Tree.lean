import Verif.Spec.TreeBorrows
import Verif.Lemmas.Basic
import Verif.Lemmas.Memory
/-
Lemmas about Tree Borrows trees: what each operation does to the data at each path.
-/
namespace MiniRust

/-! ### Permission lists -/

/-- `ps'` results from `ps` by the transition at the offsets in `[off, off + n)`. -/
def PStep (rel : NodeRelation) (kind : AccessKind) (off n : Nat) (ps ps' : List Permission) : Prop :=
  ps'.length = ps.length ∧ ∀ k,
    if off ≤ k ∧ k < off + n then
      ∃ p p', ps[k]? = some p ∧ p.transition kind rel = .ok p' ∧ ps'[k]? = some p'
    else ps'[k]? = ps[k]?

theorem transitionLoop_ok {rel kind} {n : Nat} : ∀ {ps ps' : List Permission} {off},
    Node.transitionLoop rel kind ps off n = .ok ps' → PStep rel kind off n ps ps' := by
  induction n with
  | zero =>
    intro ps ps' off h
    simp only [Node.transitionLoop, Except.ok.injEq] at h
    subst h
    refine ⟨rfl, fun k => ?_⟩
    rw [if_neg (by omega)]
  | succ n ih =>
    intro ps ps' off h
    simp only [Node.transitionLoop, Res.bind_eq_ok, index_eq_ok] at h
    obtain ⟨p, hp, p', hp', h⟩ := h
    obtain ⟨hl, hk⟩ := ih h
    have hlt := (List.getElem?_eq_some_iff.1 hp).1
    refine ⟨by simpa using hl, fun k => ?_⟩
    have hk := hk k
    by_cases hko : k = off
    · subst hko
      rw [if_neg (by omega)] at hk
      rw [if_pos (by omega)]
      refine ⟨p, p', hp, hp', ?_⟩
      rw [hk]; simp [hlt]
    · split
      · rw [if_pos (by omega)] at hk
        rwa [List.getElem?_set_ne (by omega)] at hk
      · rw [if_neg (by omega)] at hk
        rwa [List.getElem?_set_ne (by omega)] at hk

theorem transition_err {p : Permission} {kind rel e} (h : p.transition kind rel = .error e) : e = .ub := by
  cases p with
  | unprot p => cases p <;> cases kind <;> cases rel <;> simp_all [Permission.transition,
      PermissionUnprot.transition, PermissionUnprot.localRead, PermissionUnprot.localWrite,
      PermissionUnprot.foreignRead, PermissionUnprot.foreignWrite]
  | prot p =>
    cases p with
    | reserved a b => cases a <;> cases b <;> cases kind <;> cases rel <;> simp_all [Permission.transition,
        PermissionProt.transition, PermissionProt.localRead, PermissionProt.localWrite,
        PermissionProt.foreignRead, PermissionProt.foreignWrite]
    | frozen a => cases a <;> cases kind <;> cases rel <;> simp_all [Permission.transition,
        PermissionProt.transition, PermissionProt.localRead, PermissionProt.localWrite,
        PermissionProt.foreignRead, PermissionProt.foreignWrite]
    | _ => cases kind <;> cases rel <;> simp_all [Permission.transition,
        PermissionProt.transition, PermissionProt.localRead, PermissionProt.localWrite,
        PermissionProt.foreignRead, PermissionProt.foreignWrite]

theorem transitionLoop_total {rel kind} {n : Nat} : ∀ {ps : List Permission} {off},
    (∀ k, off ≤ k → k < off + n → ∃ p p', ps[k]? = some p ∧ p.transition kind rel = .ok p') →
    ∃ ps', Node.transitionLoop rel kind ps off n = .ok ps' := by
  induction n with
  | zero => intro ps off _; exact ⟨ps, rfl⟩
  | succ n ih =>
    intro ps off h
    obtain ⟨p, p', hp, hp'⟩ := h off (by omega) (by omega)
    obtain ⟨ps', hps'⟩ := ih (ps := ps.set off p') (off := off + 1) (fun k h1 h2 => by
      rw [List.getElem?_set_ne (by omega)]
      exact h k (by omega) (by omega))
    exact ⟨ps', by simp [Node.transitionLoop, index, hp, hp', hps']⟩

theorem transitionLoop_err {rel kind} {n : Nat} : ∀ {ps : List Permission} {off e},
    off + n ≤ ps.length → Node.transitionLoop rel kind ps off n = .error e → e = .ub := by
  induction n with
  | zero => intro ps off e _ h; simp [Node.transitionLoop] at h
  | succ n ih =>
    intro ps off e hl h
    simp only [Node.transitionLoop, Res.bind_eq_error, index_eq_error] at h
    rcases h with h | ⟨p, hp, h⟩
    · omega
    · rcases h with h | ⟨p', hp', h⟩
      · exact transition_err h
      · exact ih (by simp; omega) h

/-! ### Trees as functions from paths to data -/

namespace Node

@[simp] theorem get?_nil (n : Node) : n.get? [] = some n := by cases n; rfl
@[simp] theorem get?_cons (cs ps pr i q) :
    (mk cs ps pr).get? (i :: q) = (cs[i]?).bind (fun c => c.get? q) := rfl
@[simp] theorem data_nil (n : Node) : n.data [] = some (n.permissions, n.protected_) := by simp [data]
theorem data_cons (cs ps pr i q) :
    (mk cs ps pr).data (i :: q) = (cs[i]?).bind (fun c => c.data q) := by
  simp only [data, get?_cons]
  cases cs[i]? <;> rfl

theorem data_isSome (n : Node) (q) : (n.data q).isSome = (n.get? q).isSome := by simp [data]

mutual
/-- A tree is determined by its data. -/
theorem ext_data : (n n' : Node) → (∀ q, n.data q = n'.data q) → n = n'
  | mk cs ps pr, mk cs' ps' pr', h => by
    have h0 := h []
    simp only [data_nil, permissions, protected_, Option.some.injEq, Prod.mk.injEq] at h0
    have hc : cs = cs' := ext_dataL cs cs' (fun i q => by
      have := h (i :: q)
      rwa [data_cons, data_cons] at this)
    rw [hc, h0.1, h0.2]
theorem ext_dataL : (cs cs' : List Node) →
    (∀ (i : Nat) (q : Path), (cs[i]?).bind (fun c => c.data q) = (cs'[i]?).bind (fun c => c.data q)) → cs = cs'
  | [], [], _ => rfl
  | [], c :: cs', h => by have := h 0 []; simp at this
  | c :: cs, [], h => by have := h 0 []; simp at this
  | c :: cs, c' :: cs', h => by
    have h1 : c = c' := ext_data c c' (fun q => by simpa using h 0 q)
    have h2 : cs = cs' := ext_dataL cs cs' (fun i q => by simpa using h (i + 1) q)
    rw [h1, h2]
end

/-- Prefixes of existing paths exist. -/
theorem data_prefix {n : Node} {q r : Path} (h : (n.data (q ++ r)).isSome) : (n.data q).isSome := by
  induction q generalizing n with
  | nil => simp
  | cons i q ih =>
    obtain ⟨cs, ps, pr⟩ := n
    rw [List.cons_append, data_cons] at h
    rw [data_cons]
    cases hc : cs[i]? with
    | none => simp [hc] at h
    | some c => simp only [hc, Option.bind_some] at h ⊢; exact ih h

/-! ### `access` -/

/-- The relation seen by the node at `q` for an access with the given path argument. -/
def relAt : Option Path → Path → NodeRelation
  | path, [] => relation path
  | path, i :: q => relAt (subPath path i) q

theorem relAt_none (q : Path) : relAt none q = .foreign := by
  induction q with
  | nil => rfl
  | cons i q ih => exact ih

theorem relAt_some (p q : Path) : relAt (some p) q = relationTo p q := by
  induction q generalizing p with
  | nil => simp [relAt, relation, relationTo, AncestorOrSelf]
  | cons i q ih =>
    cases p with
    | nil => simp [relAt, subPath, relAt_none, relationTo, AncestorOrSelf]
    | cons j p =>
      simp only [relAt, subPath]
      split
      · rename_i h
        subst h
        rw [ih]
        have he : AncestorOrSelf (j :: q) (j :: p) ↔ AncestorOrSelf q p := by
          simp [AncestorOrSelf, List.cons_prefix_cons]
        unfold relationTo
        by_cases hq : AncestorOrSelf q p
        · rw [if_pos hq, if_pos (he.2 hq)]
        · rw [if_neg hq, if_neg (fun h => hq (he.1 h))]
      · rename_i h
        rw [relAt_none]
        simp only [relationTo, AncestorOrSelf, List.cons_prefix_cons]
        rw [if_neg]
        rintro ⟨rfl, _⟩
        exact h rfl

theorem accessL_ok {kind off size} {path : Option Path} : ∀ {cs cs' : List Node} {i},
    accessL cs i path kind off size = .ok cs' → cs'.length = cs.length ∧
      ∀ (j : Nat) (c : Node), cs[j]? = some c → ∃ c', cs'[j]? = some c' ∧ c.access (subPath path (i + j)) kind off size = .ok c' := by
  intro cs
  induction cs with
  | nil => intro cs' i h; simp only [accessL, Except.ok.injEq] at h; subst h; simp
  | cons c cs ih =>
    intro cs' i h
    simp only [accessL, Res.bind_eq_ok] at h
    obtain ⟨c', hc', r', hr', h⟩ := h
    simp only [Except.ok.injEq] at h
    subst h
    obtain ⟨hl, hj⟩ := ih hr'
    refine ⟨by simp [hl], fun j d hd => ?_⟩
    cases j with
    | zero =>
      simp only [List.getElem?_cons_zero, Option.some.injEq] at hd
      subst hd
      exact ⟨c', rfl, hc'⟩
    | succ j =>
      simp only [List.getElem?_cons_succ] at hd
      obtain ⟨d', hd', h⟩ := hj j d hd
      exact ⟨d', by simpa using hd', by rw [← h]; congr 2; omega⟩

/-- The effect of a successful access at each path. -/
theorem access_ok {kind off size} {n n' : Node} {path : Option Path} (h : n.access path kind off size = .ok n') (q : Path) :
    (n.data q = none ∧ n'.data q = none) ∨
    ∃ ps pr ps', n.data q = some (ps, pr) ∧ n'.data q = some (ps', pr) ∧
      PStep (relAt path q) kind off size ps ps' := by
  induction q generalizing n n' path with
  | nil =>
    obtain ⟨cs, ps, pr⟩ := n
    simp only [access, Res.bind_eq_ok] at h
    obtain ⟨ps', hps, cs', hcs, h⟩ := h
    simp only [Except.ok.injEq] at h
    subst h
    exact .inr ⟨ps, pr, ps', by simp [permissions, protected_], by simp [permissions, protected_], transitionLoop_ok hps⟩
  | cons i q ih =>
    obtain ⟨cs, ps, pr⟩ := n
    simp only [access, Res.bind_eq_ok] at h
    obtain ⟨ps', hps, cs', hcs, h⟩ := h
    simp only [Except.ok.injEq] at h
    subst h
    obtain ⟨hl, hj⟩ := accessL_ok hcs
    rw [data_cons, data_cons]
    cases hc : cs[i]? with
    | none =>
      have : cs'[i]? = none := by
        rw [List.getElem?_eq_none_iff] at hc ⊢; omega
      simp [this]
    | some c =>
      obtain ⟨c', hc', h⟩ := hj i c hc
      rw [Nat.zero_add] at h
      simp only [hc', Option.bind_some]
      exact ih h

mutual
theorem access_total {kind off size} : (n : Node) → (path : Option Path) →
    (∀ q ps pr, n.data q = some (ps, pr) → ∀ k, off ≤ k → k < off + size →
      ∃ p p', ps[k]? = some p ∧ p.transition kind (relAt path q) = .ok p') →
    ∃ n', n.access path kind off size = .ok n'
  | mk cs ps pr, path, h => by
    obtain ⟨ps', hps⟩ := transitionLoop_total (rel := relation path) (h [] ps pr (by simp [permissions, protected_]))
    obtain ⟨cs', hcs⟩ := accessL_total (kind := kind) (off := off) (size := size) cs 0 path (fun j c hc q ps pr hd => by
      have := h (j :: q) ps pr (by rw [data_cons, hc]; exact hd)
      rw [Nat.zero_add]
      exact this)
    exact ⟨_, by simp only [access, hps, hcs, Res.bind_ok]; rfl⟩
theorem accessL_total {kind off size} : (cs : List Node) → (i : Nat) → (path : Option Path) →
    (∀ (j : Nat) (c : Node), cs[j]? = some c → ∀ q ps pr, c.data q = some (ps, pr) → ∀ k, off ≤ k → k < off + size →
      ∃ p p', ps[k]? = some p ∧ p.transition kind (relAt (subPath path (i + j)) q) = .ok p') →
    ∃ cs', accessL cs i path kind off size = .ok cs'
  | [], i, path, _ => ⟨[], by simp [accessL]⟩
  | c :: cs, i, path, h => by
    obtain ⟨c', hc⟩ := access_total c (subPath path i) (h 0 c rfl)
    obtain ⟨cs', hcs⟩ := accessL_total cs (i + 1) path (fun j d hd => by
      have := h (j + 1) d (by simpa using hd)
      have he : i + (j + 1) = i + 1 + j := by omega
      rw [he] at this
      exact this)
    exact ⟨c' :: cs', by simp [accessL, hc, hcs]⟩
end

mutual
theorem access_err {kind off size} : (n : Node) → (path : Option Path) → (e : Err) →
    (∀ q ps pr, n.data q = some (ps, pr) → off + size ≤ ps.length) →
    n.access path kind off size = .error e → e = .ub
  | mk cs ps pr, path, e, hw, h => by
    simp only [access, Res.bind_eq_error] at h
    rcases h with h | ⟨ps', _, h⟩
    · exact transitionLoop_err (hw [] ps pr (by simp [permissions, protected_])) h
    · rcases h with h | ⟨cs', _, h⟩
      · exact accessL_err cs 0 path e (fun j c hc q ps pr hd => hw (j :: q) ps pr (by rw [data_cons, hc]; exact hd)) h
      · simp at h
theorem accessL_err {kind off size} : (cs : List Node) → (i : Nat) → (path : Option Path) → (e : Err) →
    (∀ (j : Nat) (c : Node), cs[j]? = some c → ∀ q ps pr, c.data q = some (ps, pr) → off + size ≤ ps.length) →
    accessL cs i path kind off size = .error e → e = .ub
  | [], i, path, e, _, h => by simp [accessL] at h
  | c :: cs, i, path, e, hw, h => by
    simp only [accessL, Res.bind_eq_error] at h
    rcases h with h | ⟨c', _, h⟩
    · exact access_err c _ e (hw 0 c rfl) h
    · rcases h with h | ⟨cs', _, h⟩
      · exact accessL_err cs _ path e (fun j d hd => hw (j + 1) d (by simpa using hd)) h
      · simp at h
end

/-! ### `access_node` and `add_node` -/

theorem accessNode_ok {O : Type} {f : Node → Res (Node × O)} {n n' : Node} {p : Path} {o : O}
    (h : n.accessNode f p = .ok (n', o)) :
    ∃ s s', n.get? p = some s ∧ f s = .ok (s', o) ∧ n'.get? p = some s' ∧
      (∀ q, ¬ p <+: q → n'.data q = n.data q) ∧ (∀ q, n'.data (p ++ q) = s'.data q) := by
  induction p generalizing n n' with
  | nil =>
    unfold accessNode at h
    exact ⟨n, n', by simp, h, by simp, fun q hq => absurd (List.nil_prefix) hq, fun q => rfl⟩
  | cons i p ih =>
    obtain ⟨cs, ps, pr⟩ := n
    unfold accessNode at h
    split at h
    · simp at h
    simp only [Res.bind_eq_ok, index_eq_ok] at h
    obtain ⟨c, hc, ⟨c', o'⟩, hc', h⟩ := h
    simp only [Except.ok.injEq, Prod.mk.injEq] at h
    obtain ⟨rfl, rfl⟩ := h
    have hlt := (List.getElem?_eq_some_iff.1 hc).1
    obtain ⟨s, s', h1, h2, h3, h4, h5⟩ := ih hc'
    refine ⟨s, s', by simp [hc, h1], h2, by simp [hlt, h3], ?_, ?_⟩
    · intro q hq
      cases q with
      | nil => simp [permissions, protected_]
      | cons j q =>
        rw [data_cons, data_cons]
        by_cases hij : i = j
        · subst hij
          rw [List.getElem?_set_self hlt, hc]
          simp only [Option.bind_some]
          apply h4
          intro hpre
          exact hq (List.cons_prefix_cons.2 ⟨rfl, hpre⟩)
        · rw [List.getElem?_set_ne hij]
    · intro q
      rw [List.cons_append, data_cons, List.getElem?_set_self hlt]
      exact h5 q

theorem accessNode_total {O : Type} {f : Node → Res (Node × O)} {n s s' : Node} {p : Path} {o : O}
    (hg : n.get? p = some s) (hf : f s = .ok (s', o)) : ∃ n', n.accessNode f p = .ok (n', o) := by
  induction p generalizing n with
  | nil => simp at hg; subst hg; exact ⟨s', by unfold accessNode; exact hf⟩
  | cons i p ih =>
    obtain ⟨cs, ps, pr⟩ := n
    rw [get?_cons] at hg
    cases hc : cs[i]? with
    | none => simp [hc] at hg
    | some c =>
      simp only [hc, Option.bind_some] at hg
      obtain ⟨c', hc'⟩ := ih hg
      have hlt := (List.getElem?_eq_some_iff.1 hc).1
      refine ⟨mk (cs.set i c') ps pr, ?_⟩
      unfold accessNode
      rw [if_neg (by omega)]
      simp [index, hc, hc']

/-- `access_node` only fails with the error of the closure when the path exists. -/
theorem accessNode_err {O : Type} {f : Node → Res (Node × O)} {n s : Node} {p : Path} {e : Err}
    (hg : n.get? p = some s) (h : n.accessNode f p = .error e) : f s = .error e := by
  cases hf : f s with
  | ok r =>
    obtain ⟨n', hn'⟩ := accessNode_total hg (s' := r.1) (o := r.2) hf
    rw [hn'] at h; cases h
  | error e' =>
    induction p generalizing n with
    | nil =>
      simp at hg; subst hg
      unfold accessNode at h
      rw [← hf, h]
    | cons i p ih =>
      obtain ⟨cs, ps, pr⟩ := n
      rw [get?_cons] at hg
      cases hc : cs[i]? with
      | none => simp [hc] at hg
      | some c =>
        simp only [hc, Option.bind_some] at hg
        have hlt := (List.getElem?_eq_some_iff.1 hc).1
        unfold accessNode at h
        rw [if_neg (by omega)] at h
        simp only [index, hc, unwrap_some, Res.bind_ok, Res.bind_eq_error] at h
        rcases h with h | ⟨a, _, h⟩
        · exact ih hg h
        · simp at h

/-- The effect of adding a leaf. -/
theorem addNode_ok {n n' : Node} {parent path : Path} {ps : List Permission} {pr : Protected}
    (h : n.addNode parent (mk [] ps pr) = .ok (n', path)) :
    ∃ i, path = parent ++ [i] ∧ n.data path = none ∧ (n.data parent).isSome ∧
      ∀ q, n'.data q = if q = path then some (ps, pr) else n.data q := by
  simp only [addNode, Res.bind_eq_ok] at h
  obtain ⟨⟨n1, i⟩, h1, h⟩ := h
  simp only [Except.ok.injEq, Prod.mk.injEq] at h
  obtain ⟨rfl, rfl⟩ := h
  obtain ⟨s, s', hs, hf, hs', hother, hbelow⟩ := accessNode_ok h1
  obtain ⟨cs, sps, spr⟩ := s
  simp only [Except.ok.injEq, Prod.mk.injEq] at hf
  obtain ⟨rfl, rfl⟩ := hf
  have hsplit : ∀ q, n.data (parent ++ q) = (mk cs sps spr).data q := by
    intro q
    have : ∀ (m : Node) (p r : Path) (t : Node), m.get? p = some t → m.data (p ++ r) = t.data r := by
      intro m p
      induction p generalizing m with
      | nil => intro r t ht; simp at ht; subst ht; rfl
      | cons i p ih =>
        intro r t ht
        obtain ⟨a, b, c⟩ := m
        rw [get?_cons] at ht
        rw [List.cons_append, data_cons]
        cases hc : a[i]? with
        | none => simp [hc] at ht
        | some x => simp only [hc, Option.bind_some] at ht ⊢; exact ih x r t ht
    exact this n parent q _ hs
  refine ⟨cs.length, rfl, ?_, ?_, ?_⟩
  · rw [hsplit, data_cons, List.getElem?_eq_none (by omega)]; rfl
  · rw [data_isSome, hs]; rfl
  · intro q
    by_cases hpre : parent <+: q
    · obtain ⟨r, rfl⟩ := hpre
      rw [hbelow, hsplit]
      cases r with
      | nil => simp [permissions, protected_]
      | cons i r =>
        rw [data_cons, data_cons]
        by_cases hi : i < cs.length
        · rw [List.getElem?_append_left hi, if_neg]
          intro he
          rw [List.append_cancel_left_eq] at he
          simp at he; omega
        · rw [List.getElem?_append_right (by omega)]
          rw [List.getElem?_eq_none (l := cs) (by omega)]
          by_cases hil : i = cs.length
          · subst hil
            simp only [Nat.sub_self, List.getElem?_cons_zero, Option.bind_some]
            cases r with
            | nil => simp [permissions, protected_]
            | cons j r => rw [data_cons]; simp
          · rw [List.getElem?_eq_none (by simp; omega)]
            rw [if_neg]
            · intro he
              rw [List.append_cancel_left_eq] at he
              simp at he; omega
    · rw [hother q hpre, if_neg]
      rintro rfl
      exact hpre (List.prefix_append _ _)

theorem addNode_total {n : Node} {parent : Path} {c : Node} (h : (n.data parent).isSome) :
    ∃ n' path, n.addNode parent c = .ok (n', path) := by
  rw [data_isSome, Option.isSome_iff_exists] at h
  obtain ⟨s, hs⟩ := h
  obtain ⟨cs, ps, pr⟩ := s
  obtain ⟨n', hn'⟩ := accessNode_total (f := fun
    | mk children permissions protected_ =>
      .ok (mk (children ++ [c]) permissions protected_, children.length)) hs rfl
  refine ⟨n', parent ++ [cs.length], ?_⟩
  unfold addNode
  rw [Res.bind_eq_ok]
  exact ⟨_, hn', rfl⟩

end Node
end MiniRust
