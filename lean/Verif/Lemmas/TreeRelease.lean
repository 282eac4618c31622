import Verif.Lemmas.Tree
/-
Lemmas about the release of protectors on Tree Borrows trees.
-/
namespace MiniRust

/-- `ps'` results from `ps` by the given access at each offset that has one. -/
def RStep (rel : NodeRelation) (accs : List (Option AccessKind)) (ps ps' : List Permission) : Prop :=
  ps'.length = ps.length ∧ ∀ k : Nat,
    match accs[k]? with
    | some (some a) => ∃ p p', ps[k]? = some p ∧ p.transition a rel = .ok p' ∧ ps'[k]? = some p'
    | _ => ps'[k]? = ps[k]?

theorem releaseLoop_ok_aux {rel} {accs : List (Option AccessKind)} : ∀ {ps ps' : List Permission} {off},
    Node.releaseLoop rel ps off accs = .ok ps' →
    ps'.length = ps.length ∧ (∀ k, k < off → ps'[k]? = ps[k]?) ∧ ∀ k,
      match accs[k]? with
      | some (some a) => ∃ p p', ps[off + k]? = some p ∧ p.transition a rel = .ok p' ∧ ps'[off + k]? = some p'
      | _ => ps'[off + k]? = ps[off + k]? := by
  induction accs with
  | nil =>
    intro ps ps' off h
    simp only [Node.releaseLoop, Except.ok.injEq] at h
    subst h
    exact ⟨rfl, fun _ _ => rfl, fun k => by simp⟩
  | cons acc accs ih =>
    intro ps ps' off h
    cases acc with
    | none =>
      simp only [Node.releaseLoop] at h
      obtain ⟨h1, h2, h3⟩ := ih h
      refine ⟨h1, fun k hk => h2 k (by omega), fun k => ?_⟩
      cases k with
      | zero => simpa using h2 off (by omega)
      | succ k =>
        have := h3 k
        rw [List.getElem?_cons_succ]
        have he : off + 1 + k = off + (k + 1) := by omega
        rwa [he] at this
    | some a =>
      simp only [Node.releaseLoop, Res.bind_eq_ok, index_eq_ok] at h
      obtain ⟨p, hp, p', hp', h⟩ := h
      have hlt := (List.getElem?_eq_some_iff.1 hp).1
      obtain ⟨h1, h2, h3⟩ := ih h
      refine ⟨by simpa using h1, fun k hk => by rw [h2 k (by omega), List.getElem?_set_ne (by omega)], fun k => ?_⟩
      cases k with
      | zero =>
        refine ⟨p, p', by simpa using hp, hp', ?_⟩
        rw [Nat.add_zero, h2 off (by omega), List.getElem?_set_self hlt]
      | succ k =>
        have := h3 k
        rw [List.getElem?_cons_succ]
        have he : off + 1 + k = off + (k + 1) := by omega
        rw [he] at this
        rwa [List.getElem?_set_ne (by omega)] at this

theorem releaseLoop_ok {rel} {accs : List (Option AccessKind)} {ps ps' : List Permission}
    (h : Node.releaseLoop rel ps 0 accs = .ok ps') : RStep rel accs ps ps' := by
  obtain ⟨h1, _, h3⟩ := releaseLoop_ok_aux h
  refine ⟨h1, fun k => ?_⟩
  have := h3 k
  rwa [Nat.zero_add] at this

theorem releaseLoop_total {rel} {accs : List (Option AccessKind)} : ∀ {ps : List Permission} {off},
    (∀ (k : Nat) a, accs[k]? = some (some a) → ∃ p p', ps[off + k]? = some p ∧ p.transition a rel = .ok p') →
    ∃ ps', Node.releaseLoop rel ps off accs = .ok ps' := by
  induction accs with
  | nil => intro ps off _; exact ⟨ps, rfl⟩
  | cons acc accs ih =>
    intro ps off h
    cases acc with
    | none =>
      obtain ⟨ps', hps⟩ := ih (ps := ps) (off := off + 1) (fun k a hk => by
        have := h (k + 1) a (by simpa using hk)
        have he : off + 1 + k = off + (k + 1) := by omega
        rwa [he])
      exact ⟨ps', by simpa [Node.releaseLoop] using hps⟩
    | some a =>
      obtain ⟨p, p', hp, hp'⟩ := h 0 a rfl
      obtain ⟨ps', hps⟩ := ih (ps := ps.set off p') (off := off + 1) (fun k a hk => by
        have := h (k + 1) a (by simpa using hk)
        rw [List.getElem?_set_ne (by omega)]
        have he : off + 1 + k = off + (k + 1) := by omega
        rwa [he])
      refine ⟨ps', ?_⟩
      rw [Nat.add_zero] at hp
      simp [Node.releaseLoop, index, hp, hp', hps]

namespace Node

theorem releaseProtectorL_ok {accs} {path : Option Path} : ∀ {cs cs' : List Node} {i},
    releaseProtectorL cs i path accs = .ok cs' → cs'.length = cs.length ∧
      ∀ (j : Nat) (c : Node), cs[j]? = some c →
        ∃ c', cs'[j]? = some c' ∧ c.releaseProtector (subPath path (i + j)) accs = .ok c' := by
  intro cs
  induction cs with
  | nil => intro cs' i h; simp only [releaseProtectorL, Except.ok.injEq] at h; subst h; simp
  | cons c cs ih =>
    intro cs' i h
    simp only [releaseProtectorL, Res.bind_eq_ok] at h
    obtain ⟨c', hc', r', hr', h⟩ := h
    simp only [Except.ok.injEq] at h
    subst h
    obtain ⟨hl, hj⟩ := ih hr'
    refine ⟨by simp [hl], fun j d hd => ?_⟩
    cases j with
    | zero =>
      simp only [List.getElem?_cons_zero, Option.some.injEq] at hd
      subst hd
      exact ⟨c', rfl, hc'⟩
    | succ j =>
      simp only [List.getElem?_cons_succ] at hd
      obtain ⟨d', hd', h⟩ := hj j d hd
      exact ⟨d', by simpa using hd', by rw [← h]; congr 2; omega⟩

/-- The node at `q` is the target of `path` or below it. -/
def Below (path : Option Path) (q : Path) : Prop := ∃ p, path = some p ∧ p <+: q

theorem subPath_eq_some {path : Option Path} {i : Nat} {q : Path} :
    subPath path i = some q ↔ path = some (i :: q) := by
  unfold subPath
  split
  · rename_i h t
    split
    · simp_all
    · simp_all
  · rename_i h
    constructor
    · simp
    · rintro rfl; exact absurd rfl (h i q)

theorem below_cons {path : Option Path} {i : Nat} {q : Path} (h : path ≠ some []) :
    Below path (i :: q) ↔ Below (subPath path i) q := by
  constructor
  · rintro ⟨p, rfl, hp⟩
    cases p with
    | nil => simp at h
    | cons j p =>
      rw [List.cons_prefix_cons] at hp
      obtain ⟨rfl, hp⟩ := hp
      exact ⟨p, by rw [subPath_eq_some], hp⟩
  · rintro ⟨p, hp, hq⟩
    rw [subPath_eq_some] at hp
    exact ⟨_, hp, by rw [List.cons_prefix_cons]; exact ⟨rfl, hq⟩⟩

/-- The effect of `release_protector` at each path. -/
theorem releaseProtector_ok {accs} {n n' : Node} {path : Option Path}
    (h : n.releaseProtector path accs = .ok n') (q : Path) :
    (n.data q = none ∧ n'.data q = none) ∨
    ∃ ps pr ps' pr', n.data q = some (ps, pr) ∧ n'.data q = some (ps', pr') ∧
      (path = some q → ps' = ps ∧ pr' = .no) ∧ (path ≠ some q → pr' = pr) ∧
      (Below path q → ps' = ps) ∧ (¬ Below path q → RStep (relAt path q) accs ps ps') := by
  induction q generalizing n n' path with
  | nil =>
    obtain ⟨cs, ps, pr⟩ := n
    unfold releaseProtector at h
    right
    split at h
    · rename_i hp
      simp only [Except.ok.injEq] at h
      subst h
      refine ⟨ps, pr, ps, .no, by simp [permissions, protected_], by simp [permissions, protected_], ?_, ?_, ?_, ?_⟩
      · simp
      · intro hn; exact absurd hp hn
      · simp
      · intro hn; exact absurd ⟨[], hp, List.nil_prefix⟩ hn
    · rename_i hp
      simp only [Res.bind_eq_ok] at h
      obtain ⟨ps', hps, cs', hcs, h⟩ := h
      simp only [Except.ok.injEq] at h
      subst h
      refine ⟨ps, pr, ps', pr, by simp [permissions, protected_], by simp [permissions, protected_], ?_, ?_, ?_, ?_⟩
      · intro hn; exact absurd hn hp
      · simp
      · rintro ⟨p, hp', hq⟩
        rw [List.prefix_nil] at hq
        subst hq
        exact absurd hp' hp
      · intro _
        exact releaseLoop_ok hps
  | cons i q ih =>
    obtain ⟨cs, ps, pr⟩ := n
    unfold releaseProtector at h
    split at h
    · rename_i hp
      simp only [Except.ok.injEq] at h
      subst h
      rw [data_cons, data_cons]
      cases hc : cs[i]? with
      | none => simp
      | some c =>
        simp only [Option.bind_some]
        cases hd : c.data q with
        | none => simp
        | some d =>
          right
          refine ⟨d.1, d.2, d.1, d.2, rfl, rfl, ?_, ?_, ?_, ?_⟩
          · rw [hp]; simp
          · simp
          · simp
          · intro hn; exact absurd ⟨[], hp, List.nil_prefix⟩ hn
    · rename_i hp
      simp only [Res.bind_eq_ok] at h
      obtain ⟨ps', hps, cs', hcs, h⟩ := h
      simp only [Except.ok.injEq] at h
      subst h
      obtain ⟨hl, hj⟩ := releaseProtectorL_ok hcs
      rw [data_cons, data_cons]
      cases hc : cs[i]? with
      | none =>
        have : cs'[i]? = none := by
          rw [List.getElem?_eq_none_iff] at hc ⊢; omega
        simp [this]
      | some c =>
        obtain ⟨c', hc', h⟩ := hj i c hc
        rw [Nat.zero_add] at h
        simp only [hc', Option.bind_some]
        rcases ih h with h' | ⟨ps, pr, ps', pr', h1, h2, h3, h4, h5, h6⟩
        · exact .inl h'
        · right
          refine ⟨ps, pr, ps', pr', h1, h2, ?_, ?_, ?_, ?_⟩
          · intro he; exact h3 (subPath_eq_some.2 he)
          · intro he; exact h4 (fun h => he (subPath_eq_some.1 h))
          · intro hb; exact h5 ((below_cons hp).1 hb)
          · intro hb; exact h6 (fun h => hb ((below_cons hp).2 h))

mutual
theorem releaseProtector_total {accs} : (n : Node) → (path : Option Path) →
    (∀ q ps pr, n.data q = some (ps, pr) → ¬ Below path q → ∀ (k : Nat) a, accs[k]? = some (some a) →
      ∃ p p', ps[k]? = some p ∧ p.transition a (relAt path q) = .ok p') →
    ∃ n', n.releaseProtector path accs = .ok n'
  | mk cs ps pr, path, h => by
    unfold releaseProtector
    split
    · exact ⟨_, rfl⟩
    rename_i hp
    have hroot : ¬ Below path [] := by
      rintro ⟨p, hp', hq⟩
      rw [List.prefix_nil] at hq
      subst hq
      exact hp hp'
    obtain ⟨ps', hps⟩ := releaseLoop_total (rel := relation path) (accs := accs) (ps := ps) (off := 0) (fun k a hk => by
      rw [Nat.zero_add]
      exact h [] ps pr (by simp [permissions, protected_]) hroot k a hk)
    obtain ⟨cs', hcs⟩ := releaseProtectorL_total (accs := accs) cs 0 path (fun j c hc q ps pr hd hb => by
      rw [Nat.zero_add] at hb ⊢
      exact h (j :: q) ps pr (by rw [data_cons, hc]; exact hd) (fun hb' => hb ((below_cons hp).1 hb')))
    exact ⟨mk cs' ps' pr, by simp [hps, hcs]⟩
theorem releaseProtectorL_total {accs} : (cs : List Node) → (i : Nat) → (path : Option Path) →
    (∀ (j : Nat) (c : Node), cs[j]? = some c → ∀ q ps pr, c.data q = some (ps, pr) →
      ¬ Below (subPath path (i + j)) q → ∀ (k : Nat) a, accs[k]? = some (some a) →
      ∃ p p', ps[k]? = some p ∧ p.transition a (relAt (subPath path (i + j)) q) = .ok p') →
    ∃ cs', releaseProtectorL cs i path accs = .ok cs'
  | [], i, path, _ => ⟨[], by simp [releaseProtectorL]⟩
  | c :: cs, i, path, h => by
    obtain ⟨c', hc⟩ := releaseProtector_total c (subPath path i) (h 0 c rfl)
    obtain ⟨cs', hcs⟩ := releaseProtectorL_total cs (i + 1) path (fun j d hd => by
      have := h (j + 1) d (by simpa using hd)
      have he : i + (j + 1) = i + 1 + j := by omega
      rw [he] at this
      exact this)
    exact ⟨c' :: cs', by simp [releaseProtectorL, hc, hcs]⟩
end

theorem get?_append {n s : Node} {p : Path} (h : n.get? p = some s) (q : Path) :
    n.data (p ++ q) = s.data q := by
  induction p generalizing n with
  | nil => simp at h; subst h; rfl
  | cons i p ih =>
    obtain ⟨a, b, c⟩ := n
    rw [get?_cons] at h
    rw [List.cons_append, data_cons]
    cases hc : a[i]? with
    | none => simp [hc] at h
    | some x => simp only [hc, Option.bind_some] at h ⊢; exact ih h

end Node

/-! ### `unprotectNode` -/

theorem tryMap_unprotect {ps : List Permission} {r} (h : tryMap (fun (x : Permission) => x.unprotect) ps = .ok r) :
    ∃ qs : List PermissionProt, ps = qs.map .prot ∧
      r = qs.map (fun q => (.unprot q.unprotect.1, q.unprotect.2)) := by
  induction ps generalizing r with
  | nil => simp [tryMap] at h; subst h; exact ⟨[], rfl, rfl⟩
  | cons p ps ih =>
    simp only [tryMap, Res.bind_eq_ok] at h
    obtain ⟨x, hx, xs, hxs, h⟩ := h
    simp only [Except.ok.injEq] at h
    subst h
    obtain ⟨qs, rfl, rfl⟩ := ih hxs
    cases p with
    | unprot p => simp [Permission.unprotect] at hx
    | prot p =>
      simp only [Permission.unprotect, Except.ok.injEq] at hx
      subst hx
      exact ⟨p :: qs, rfl, rfl⟩

theorem tryMap_unprotect_total (qs : List PermissionProt) :
    tryMap (fun (x : Permission) => x.unprotect) (qs.map .prot) =
      .ok (qs.map (fun q => (.unprot q.unprotect.1, q.unprotect.2))) := by
  induction qs with
  | nil => rfl
  | cons q qs ih => simp only [List.map_cons, tryMap, ih]; rfl

/-- The effect of unprotecting the node at `p`. -/
theorem accessNode_unprotect {n n' : Node} {p : Path} {accs}
    (h : n.accessNode TBMem.unprotectNode p = .ok (n', accs)) :
    ∃ (qs : List PermissionProt) (pr : Protected), n.data p = some (qs.map .prot, pr) ∧ pr.yes = true ∧
      accs = qs.map (fun q => q.unprotect.2) ∧
      ∀ q, n'.data q = if q = p then some (qs.map (fun q => .unprot q.unprotect.1), pr) else n.data q := by
  obtain ⟨s, s', hs, hf, hs', hother, hbelow⟩ := Node.accessNode_ok h
  obtain ⟨cs, ps, pr⟩ := s
  simp only [TBMem.unprotectNode, Res.bind_eq_ok, rassert_eq_ok] at hf
  obtain ⟨_, hpr, r, hr, hf⟩ := hf
  simp only [Except.ok.injEq, Prod.mk.injEq] at hf
  obtain ⟨rfl, rfl⟩ := hf
  obtain ⟨qs, rfl, rfl⟩ := tryMap_unprotect hr
  refine ⟨qs, pr, ?_, hpr, by simp, ?_⟩
  · simp [Node.data, hs, Node.permissions, Node.protected_]
  · intro q
    by_cases hpre : p <+: q
    · obtain ⟨t, rfl⟩ := hpre
      rw [hbelow, Node.get?_append hs]
      cases t with
      | nil => simp [Node.permissions, Node.protected_, Function.comp_def]
      | cons i t => rw [if_neg (by simp)]; rw [Node.data_cons, Node.data_cons]
    · rw [hother q hpre, if_neg]
      rintro rfl
      exact hpre (List.prefix_refl _)

theorem accessNode_unprotect_total {n : Node} {p : Path} {qs : List PermissionProt} {pr}
    (h : n.data p = some (qs.map .prot, pr)) (hpr : pr.yes = true) :
    ∃ n', n.accessNode TBMem.unprotectNode p = .ok (n', qs.map (fun q => q.unprotect.2)) := by
  simp only [Node.data, Option.map_eq_some_iff] at h
  obtain ⟨⟨cs, ps, pr'⟩, hs, h⟩ := h
  simp only [Node.permissions, Node.protected_, Prod.mk.injEq] at h
  obtain ⟨rfl, rfl⟩ := h
  refine Node.accessNode_total (s' := .mk cs (qs.map (fun q => .unprot q.unprotect.1)) pr') hs ?_
  simp only [TBMem.unprotectNode, tryMap_unprotect_total, hpr]
  simp [rassert, Function.comp_def]

namespace Node
mutual
theorem containsStrong_iff : (n : Node) → (n.containsStrongProtector = true ↔
    ∃ q ps, n.data q = some (ps, .strong) ∧ ∃ p ∈ ps, p.preventsDeallocation = true)
  | mk cs ps pr => by
    simp only [containsStrongProtector, Bool.or_eq_true, Bool.and_eq_true, decide_eq_true_eq, List.any_eq_true,
      containsStrongL_iff cs]
    constructor
    · rintro (⟨rfl, x, hx, hp⟩ | ⟨i, c, hc, q, ps, hd, h⟩)
      · exact ⟨[], ps, by simp [permissions, protected_], x, hx, hp⟩
      · exact ⟨i :: q, ps, by rw [data_cons, hc]; exact hd, h⟩
    · rintro ⟨q, ps', hd, h⟩
      cases q with
      | nil =>
        simp only [data_nil, permissions, protected_, Option.some.injEq, Prod.mk.injEq] at hd
        obtain ⟨rfl, rfl⟩ := hd
        exact .inl ⟨rfl, h⟩
      | cons i q =>
        rw [data_cons] at hd
        cases hc : cs[i]? with
        | none => simp [hc] at hd
        | some c => exact .inr ⟨i, c, hc, q, ps', by simpa [hc] using hd, h⟩
theorem containsStrongL_iff : (cs : List Node) → (containsStrongProtectorL cs = true ↔
    ∃ (i : Nat) (c : Node), cs[i]? = some c ∧
      ∃ q ps, c.data q = some (ps, .strong) ∧ ∃ p ∈ ps, p.preventsDeallocation = true)
  | [] => by simp [containsStrongProtectorL]
  | c :: cs => by
    simp only [containsStrongProtectorL, Bool.or_eq_true, containsStrong_iff c, containsStrongL_iff cs]
    constructor
    · rintro (h | ⟨i, d, hd, h⟩)
      · exact ⟨0, c, rfl, h⟩
      · exact ⟨i + 1, d, by simpa using hd, h⟩
    · rintro ⟨i, d, hd, h⟩
      cases i with
      | zero => simp at hd; subst hd; exact .inl h
      | succ i => exact .inr ⟨i, d, by simpa using hd, h⟩
end
end Node
end MiniRust
