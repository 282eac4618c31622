import Verif.Spec.Refine
/-
Decoding, encoding and checking values is monotone in definedness, across memory models.
-/
set_option linter.unusedSectionVars false
set_option linter.unnecessarySimpa false
namespace MiniRust

/-! ### Refinement of results -/

/-- The right result is the left one, unless the left one is excused. -/
def Refines {α β : Type} (R : α → β → Prop) (x : Res α) (y : Res β) : Prop :=
  match x with
  | .ok a => ∃ b, y = .ok b ∧ R a b
  | .error e => e.Excused ∨ y = .error e

namespace Refines
variable {α β γ δ : Type} {R : α → β → Prop} {S : γ → δ → Prop}

theorem ok {a : α} {b : β} (h : R a b) : Refines R (.ok a) (.ok b) := ⟨b, rfl, h⟩

theorem pure {a : α} {b : β} (h : R a b) : Refines R (Pure.pure a : Res α) (Pure.pure b) := ⟨b, rfl, h⟩

theorem bind {x : Res α} {y : Res β} {f : α → Res γ} {g : β → Res δ} (h : Refines R x y)
    (hf : ∀ a b, R a b → Refines S (f a) (g b)) : Refines S (x >>= f) (y >>= g) := by
  cases x with
  | ok a => obtain ⟨b, rfl, hr⟩ := h; exact hf a b hr
  | error e =>
    rcases h with h | rfl
    · exact .inl h
    · exact .inr rfl

theorem ub {y : Res β} : Refines R (.error .ub) y := .inl (.inl rfl)
theorem panic {y : Res β} : Refines R (.error .panic) y := .inl (.inr (.inl rfl))
theorem noBehavior {y : Res β} : Refines R (.error .noBehavior) y := .inl (.inr (.inr (.inl rfl)))
theorem errNone {y : Res β} : Refines R (.error .none) y := .inl (.inr (.inr (.inr rfl)))
theorem err {e : Err} : Refines R (.error e) (.error e) := .inr rfl

theorem same {R : α → α → Prop} {x : Res α} (h : ∀ a, R a a) : Refines R x x := by
  cases x with
  | ok a => exact ok (h a)
  | error e => exact err

theorem eq {x : Res α} : Refines Eq x x := same fun _ => rfl

theorem mono {R' : α → β → Prop} {x : Res α} {y : Res β} (h : Refines R x y) (hr : ∀ a b, R a b → R' a b) :
    Refines R' x y := by
  cases x with
  | ok a => obtain ⟨b, rfl, h⟩ := h; exact ok (hr a b h)
  | error e => exact h

theorem rassert {b c : Bool} (h : b = true → c = true) :
    Refines (fun _ _ => True) (MiniRust.rassert b) (MiniRust.rassert c) := by
  cases b with
  | false => exact .inl (.inr (.inl rfl))
  | true => rw [h rfl]; exact ok trivial

theorem ensureUb {b c : Bool} (h : b = true → c = true) :
    Refines (fun _ _ => True) (MiniRust.ensureUb b) (MiniRust.ensureUb c) := by
  cases b with
  | false => exact .inl (.inl rfl)
  | true => rw [h rfl]; exact ok trivial

theorem ensureIsOk {x : Res α} {y : Res β} (h : Refines R x y) :
    Refines (fun _ _ => True) (do MiniRust.ensureUb (← MiniRust.isOk x)) (do MiniRust.ensureUb (← MiniRust.isOk y)) := by
  cases x with
  | ok a => obtain ⟨b, rfl, _⟩ := h; exact ok trivial
  | error e =>
    rcases h with h | rfl
    · rcases h with rfl | rfl | rfl | rfl <;> first | exact .ub | exact .panic | exact .noBehavior
    · cases e <;> first | exact .ub | exact err

theorem rassertIsOk {x : Res α} {y : Res β} (h : Refines R x y) :
    Refines (fun _ _ => True) (do MiniRust.rassert (← MiniRust.isOk x)) (do MiniRust.rassert (← MiniRust.isOk y)) := by
  cases x with
  | ok a => obtain ⟨b, rfl, _⟩ := h; exact ok trivial
  | error e =>
    rcases h with h | rfl
    · rcases h with rfl | rfl | rfl | rfl <;> first | exact .panic | exact .noBehavior
    · cases e <;> first | exact .panic | exact err

theorem unwrap {x : Option α} {y : Option β} (h : ∀ a, x = some a → ∃ b, y = some b ∧ R a b) :
    Refines R (MiniRust.unwrap x) (MiniRust.unwrap y) := by
  cases x with
  | none => exact .panic
  | some a => obtain ⟨b, rfl, hr⟩ := h a rfl; exact ok hr

end Refines

/-! ### Lists and maps -/

section
variable {α β : Type} {R : α → β → Prop}

theorem forall₂_get {l : List α} {l' : List β} (h : List.Forall₂ R l l') {i : Nat} {a : α} (ha : l[i]? = some a) :
    ∃ b, l'[i]? = some b ∧ R a b := by
  induction h generalizing i with
  | nil => simp at ha
  | cons hr _ ih =>
    cases i with
    | zero => simp only [List.getElem?_cons_zero, Option.some.injEq] at ha; subst ha; exact ⟨_, rfl, hr⟩
    | succ i => simp only [List.getElem?_cons_succ] at ha ⊢; exact ih ha

theorem forall₂_get' {l : List α} {l' : List β} (h : List.Forall₂ R l l') {i : Nat} (ha : l[i]? = none) :
    l'[i]? = none := by
  rw [List.getElem?_eq_none_iff] at *
  rw [← h.length_eq]; exact ha

theorem forall₂_append {l₁ l₂ : List α} {l₁' l₂' : List β} (h₁ : List.Forall₂ R l₁ l₁') (h₂ : List.Forall₂ R l₂ l₂') :
    List.Forall₂ R (l₁ ++ l₂) (l₁' ++ l₂') := List.rel_append h₁ h₂

theorem forall₂_replicate {a : α} {b : β} (h : R a b) (n : Nat) :
    List.Forall₂ R (List.replicate n a) (List.replicate n b) := by
  induction n with
  | zero => exact .nil
  | succ n ih => exact .cons h ih

theorem forall₂_set {l : List α} {l' : List β} (h : List.Forall₂ R l l') {a : α} {b : β} (hr : R a b) (i : Nat) :
    List.Forall₂ R (l.set i a) (l'.set i b) := by
  induction h generalizing i with
  | nil => exact .nil
  | cons hr' h' ih =>
    cases i with
    | zero => exact .cons hr h'
    | succ i => exact .cons hr' (ih i)

theorem Refines.index {l : List α} {l' : List β} (h : List.Forall₂ R l l') (i : Nat) :
    Refines R (MiniRust.index l i) (MiniRust.index l' i) := .unwrap fun _ ha => forall₂_get h ha

theorem Refines.subslice {l : List α} {l' : List β} (h : List.Forall₂ R l l') (o n : Nat) :
    Refines (List.Forall₂ R) (MiniRust.subslice l o n) (MiniRust.subslice l' o n) := by
  unfold MiniRust.subslice
  rw [h.length_eq]
  split
  · exact .ok (List.forall₂_take _ (List.forall₂_drop _ h))
  · exact .panic

theorem Refines.writeSubslice {l src : List α} {l' src' : List β} (h : List.Forall₂ R l l')
    (hs : List.Forall₂ R src src') (o : Nat) :
    Refines (List.Forall₂ R) (MiniRust.writeSubslice l o src) (MiniRust.writeSubslice l' o src') := by
  unfold MiniRust.writeSubslice
  rw [h.length_eq, hs.length_eq]
  split
  · exact .ok (forall₂_append (forall₂_append (List.forall₂_take _ h) hs) (List.forall₂_drop _ h))
  · exact .panic

variable {K : Type} [DecidableEq K]

theorem mapGet_rel {m : Map K α} {n : Map K β} (h : List.Forall₂ (fun x y => x.1 = y.1 ∧ R x.2 y.2) m n) (k : K) :
    (m.get? k = none ∧ n.get? k = none) ∨ ∃ a b, m.get? k = some a ∧ n.get? k = some b ∧ R a b := by
  induction h with
  | nil => exact .inl ⟨rfl, rfl⟩
  | @cons x y _ _ hxy _ ih =>
    obtain ⟨k1, a⟩ := x
    obtain ⟨k2, b⟩ := y
    obtain ⟨h1, h2⟩ := hxy
    simp only at h1 h2
    subst h1
    unfold Map.get?
    split
    · exact .inr ⟨a, b, rfl, rfl, h2⟩
    · exact ih

theorem Refines.mapGet {m : Map K α} {n : Map K β} (h : List.Forall₂ (fun x y => x.1 = y.1 ∧ R x.2 y.2) m n) (k : K) :
    Refines R (m.get k) (n.get k) := by
  unfold Map.get
  rcases mapGet_rel h k with ⟨h1, _⟩ | ⟨a, b, h1, h2, hr⟩
  · rw [h1]; exact .panic
  · rw [h1, h2]; exact .ok hr

theorem mapInsert_rel {m : Map K α} {n : Map K β} (h : List.Forall₂ (fun x y => x.1 = y.1 ∧ R x.2 y.2) m n) (k : K)
    {a : α} {b : β} (hr : R a b) :
    List.Forall₂ (fun x y => x.1 = y.1 ∧ R x.2 y.2) (m.insert k a) (n.insert k b) := by
  induction h with
  | nil => exact .cons ⟨rfl, hr⟩ .nil
  | @cons x y _ _ hxy hrest ih =>
    obtain ⟨k1, a'⟩ := x
    obtain ⟨k2, b'⟩ := y
    obtain ⟨h1, h2⟩ := hxy
    simp only at h1 h2
    subst h1
    unfold Map.insert
    split
    · exact .cons ⟨rfl, hr⟩ hrest
    · exact .cons ⟨rfl, h2⟩ ih

theorem mapErase_rel {m : Map K α} {n : Map K β} (h : List.Forall₂ (fun x y => x.1 = y.1 ∧ R x.2 y.2) m n) (k : K) :
    List.Forall₂ (fun x y => x.1 = y.1 ∧ R x.2 y.2) (m.erase k) (n.erase k) := by
  induction h with
  | nil => exact .nil
  | @cons x y _ _ hxy hrest ih =>
    obtain ⟨k1, a'⟩ := x
    obtain ⟨k2, b'⟩ := y
    obtain ⟨h1, h2⟩ := hxy
    simp only at h1 h2
    subst h1
    unfold Map.erase
    split
    · exact hrest
    · exact .cons ⟨rfl, h2⟩ ih
end

/-! ### Bytes and pointers -/

section Repr
variable {PE QE : Type} [DecidableEq PE] [DecidableEq QE] [Plain QE]

omit [DecidableEq PE] [DecidableEq QE] in
theorem ProvBelow.some {p : AllocId × PE} {q : Option (AllocId × QE)} (h : ProvBelow (some p) q) :
    q = some (dropExtra p) := by
  rcases h with h | h
  · cases h
  · exact h.symm

theorem bytesData_below {a : List (AByte (AllocId × PE))} {b : List (AByte (AllocId × QE))} (h : BytesBelow a b) :
    Refines Eq (bytesData a) (bytesData b) := by
  induction h with
  | nil => exact .ok rfl
  | @cons x y _ _ hxy _ ih =>
    cases x with
    | uninit => exact .errNone
    | init d f =>
      cases y with
      | uninit => exact hxy.elim
      | init d' f' =>
        obtain ⟨rfl, _⟩ := hxy
        simp only [bytesData, AByte.data]
        generalize bytesData _ = r at ih
        generalize bytesData _ = r' at ih
        cases r with
        | ok ds => obtain ⟨_, rfl, rfl⟩ := ih; exact .ok rfl
        | error e =>
          rcases ih with ih | rfl
          · exact .inl ih
          · exact .err

theorem foldProv_below {a : List (AByte (AllocId × PE))} {b : List (AByte (AllocId × QE))} (h : BytesBelow a b)
    {idx : Nat} {p q} (hp : ProvBelow p q) : ProvBelow (foldProv a idx p) (foldProv b idx q) := by
  induction h generalizing idx p q with
  | nil => exact hp
  | @cons x y _ _ hxy _ ih =>
    simp only [foldProv]
    apply ih
    cases x with
    | uninit => exact .inl rfl
    | init d f =>
      cases y with
      | uninit => exact hxy.elim
      | init d' f' =>
        obtain ⟨rfl, hf⟩ := hxy
        cases f with
        | none => exact .inl rfl
        | some f =>
          rcases hf with hf | hf
          · cases hf
          · simp only [Option.map_some] at hf
            subst hf
            simp only [AByte.frag]
            by_cases hc : f.position = idx ∧ some f.prov = p
            · obtain ⟨h1, rfl⟩ := hc
              rw [hp.some]
              simp only [h1, and_self, if_true]
              exact .inr rfl
            · rw [if_neg hc]; exact .inl rfl

variable [T : Target]

theorem decodeInt_below (i : IntType) {a : List (AByte (AllocId × PE))} {b : List (AByte (AllocId × QE))}
    (h : BytesBelow a b) : Refines Eq (decodeInt i a) (decodeInt i b) := by
  unfold decodeInt
  rw [h.length_eq]
  refine .bind .eq fun _ _ _ => .bind (bytesData_below h) fun _ _ h => ?_
  subst h; exact .ok rfl

theorem decodeBool_below {a : List (AByte (AllocId × PE))} {b : List (AByte (AllocId × QE))}
    (h : BytesBelow a b) : Refines Eq (decodeBool a) (decodeBool b) := by
  unfold decodeBool
  split
  · cases h with
    | @cons _ y _ _ hxy hr =>
      cases hr
      cases y with
      | uninit => exact hxy.elim
      | init d f => obtain ⟨rfl, _⟩ := hxy; exact .ok rfl
  · cases h with
    | @cons _ y _ _ hxy hr =>
      cases hr
      cases y with
      | uninit => exact hxy.elim
      | init d f => obtain ⟨rfl, _⟩ := hxy; exact .ok rfl
  · exact .errNone
  · exact .panic

theorem decodePtr_below {a : List (AByte (AllocId × PE))} {b : List (AByte (AllocId × QE))}
    (h : BytesBelow a b) : Refines ThinBelow (decodePtr a) (decodePtr b) := by
  unfold decodePtr
  rw [h.length_eq]
  refine .bind .eq fun _ _ _ => .bind (bytesData_below h) fun d d' hd => ?_
  subst hd
  refine .bind (.index h 0) fun x y hxy => .ok ⟨rfl, foldProv_below h ?_⟩
  cases x with
  | uninit => exact .inl rfl
  | init d f =>
    cases y with
    | uninit => exact hxy.elim
    | init d' f' =>
      rcases hxy.2 with rfl | rfl
      · exact .inl rfl
      · refine .inr ?_
        cases f <;> rfl

omit [DecidableEq PE] in
theorem encodeInt_refines (i : IntType) (n : Int) :
    Refines BytesBelow (encodeInt i n : Res (List (AByte (AllocId × PE)))) (encodeInt i n : Res (List (AByte (AllocId × QE)))) := by
  unfold encodeInt
  refine .bind .eq fun d d' hd => ?_
  subst hd
  refine .ok ?_
  show List.Forall₂ _ _ _
  rw [List.forall₂_map_left_iff, List.forall₂_map_right_iff, List.forall₂_same]
  exact fun x _ => ⟨rfl, .inl rfl⟩

omit [DecidableEq PE] in
theorem encodePtr_below {p : ThinPtr (AllocId × PE)} {q : ThinPtr (AllocId × QE)} (h : ThinBelow p q) :
    Refines BytesBelow (encodePtr p) (encodePtr q) := by
  unfold encodePtr
  rw [h.1]
  refine .bind .eq fun d d' hd => ?_
  subst hd
  refine .ok ?_
  show List.Forall₂ _ _ _
  rw [List.forall₂_iff_get]
  refine ⟨by simp, fun i h1 h2 => ?_⟩
  simp only [List.get_eq_getElem, List.getElem_mapIdx]
  refine ⟨rfl, ?_⟩
  rcases h.2 with h | h
  · rw [h]; exact .inl rfl
  · rw [← h]
    refine .inr ?_
    cases p.prov <;> rfl

/-! ### Metadata -/

omit [DecidableEq PE] in
theorem decodeMetaValue_below (k : MetaKind) {v : Value (AllocId × PE)} {w : Value (AllocId × QE)}
    (h : ValueBelow v w) : Refines MetaBelow (k.decodeValue v) (k.decodeValue w) := by
  unfold MetaKind.decodeValue
  split
  · cases w <;> simp only [ValueBelow] at h
    rename_i ws
    cases ws with
    | nil => exact .ok trivial
    | cons => exact (by simpa [ValuesBelow] using h)
  · cases w <;> simp only [ValueBelow] at h
    subst h
    exact .ok rfl
  · cases w <;> simp only [ValueBelow] at h
    rename_i q
    obtain ⟨qt, qm⟩ := q
    obtain ⟨h1, h2⟩ := h
    cases qm with
    | none => exact .ok h1
    | some => exact h2.elim
  · exact .panic

omit [DecidableEq PE] in
theorem encodeAsValue_below (k : MetaKind) {m : Option (PtrMeta (AllocId × PE))} {n : Option (PtrMeta (AllocId × QE))}
    (h : MetaBelow m n) : Refines ValueBelow (k.encodeAsValue m) (k.encodeAsValue n) := by
  unfold MetaKind.encodeAsValue
  split
  · cases n with
    | none => exact .ok (by simp [unitValue, ValueBelow, ValuesBelow])
    | some n => cases n <;> exact h.elim
  · cases n with
    | none => exact h.elim
    | some n =>
      cases n with
      | elementCount => exact .ok (by simpa only [ValueBelow, MetaBelow] using h)
      | vtablePointer => exact h.elim
  · cases n with
    | none => exact h.elim
    | some n =>
      cases n with
      | elementCount => exact h.elim
      | vtablePointer => exact .ok (by simpa [ValueBelow, PtrBelow, ThinPtr.widen, MetaBelow] using h)
  · exact .panic

theorem decodeMeta_below (k : MetaKind) {a : List (AByte (AllocId × PE))} {b : List (AByte (AllocId × QE))}
    (h : BytesBelow a b) : Refines ValueBelow (decodeMeta k a) (decodeMeta k b) := by
  cases k with
  | none => exact .panic
  | elementCount =>
    refine .bind (decodeInt_below _ h) fun x y hxy => ?_
    subst hxy; exact .ok (by simp [ValueBelow])
  | vtablePointer t =>
    refine .bind (decodePtr_below h) fun x y hxy => ?_
    exact .ok (by simpa [ValueBelow, PtrBelow, ThinPtr.widen, MetaBelow] using hxy)

omit [DecidableEq PE] in
theorem encodeMeta_below (k : MetaKind) {v : Value (AllocId × PE)} {w : Value (AllocId × QE)}
    (h : ValueBelow v w) : Refines BytesBelow (encodeMeta k v) (encodeMeta k w) := by
  unfold encodeMeta
  split
  · cases w <;> simp only [ValueBelow] at h
    subst h
    exact encodeInt_refines _ _
  · cases w <;> simp only [ValueBelow] at h
    rename_i q
    obtain ⟨qt, qm⟩ := q
    obtain ⟨h1, h2⟩ := h
    cases qm with
    | none => exact encodePtr_below h1
    | some => exact h2.elim
  · exact .panic

omit [DecidableEq PE] T in
theorem MetaBelow.isSome {m : Option (PtrMeta (AllocId × PE))} {n : Option (PtrMeta (AllocId × QE))}
    (h : MetaBelow m n) : m.isSome = n.isSome := by
  rcases m with _ | (_ | _) <;> rcases n with _ | (_ | _) <;> first | rfl | exact h.elim

theorem decodePtrTy_below (p : PtrType) {a : List (AByte (AllocId × PE))} {b : List (AByte (AllocId × QE))}
    (h : BytesBelow a b) : Refines ValueBelow (decodePtrTy p a) (decodePtrTy p b) := by
  unfold decodePtrTy
  refine .bind .eq fun x _ hx => ?_
  subst hx
  cases x with
  | none =>
    refine .bind (decodePtr_below h) fun x y hxy => ?_
    exact .ok (by simpa [ValueBelow, PtrBelow, ThinPtr.widen, MetaBelow] using hxy)
  | some x =>
    simp only
    rw [h.length_eq]
    refine .bind .eq fun _ _ _ => .bind (.subslice h _ _) fun _ _ h1 => .bind (decodePtr_below h1) fun _ _ h2 =>
      .bind (.subslice h _ _) fun _ _ h3 => .bind (decodeMeta_below _ h3) fun _ _ h4 =>
      .bind (decodeMetaValue_below _ h4) fun m n h5 => .bind (.rassert ?_) fun _ _ _ => .ok ?_
    · rw [h5.isSome]; exact id
    · exact ⟨h2, h5⟩

omit [DecidableEq PE] in
theorem encodePtrTy_below (p : PtrType) {v : Value (AllocId × PE)} {w : Value (AllocId × QE)}
    (h : ValueBelow v w) : Refines BytesBelow (encodePtrTy p v) (encodePtrTy p w) := by
  unfold encodePtrTy
  cases v <;> first | exact .panic | skip
  cases w <;> simp only [ValueBelow] at h
  rename_i x y
  refine .bind .eq fun o _ ho => ?_
  subst ho
  cases o with
  | none =>
    refine .bind (.rassert ?_) fun _ _ _ => encodePtr_below h.1
    rw [Option.isNone_iff_eq_none, Option.isNone_iff_eq_none]
    intro hn
    have := h.2.isSome
    rw [hn] at this
    cases hy : y.metadata with
    | none => rfl
    | some => rw [hy] at this; cases this
  | some o =>
    exact .bind (encodeAsValue_below _ h.2) fun _ _ h1 => .bind (encodePtr_below h.1) fun _ _ h2 =>
      .bind (.writeSubslice (forall₂_replicate trivial _) h2 _) fun _ _ h3 =>
      .bind (encodeMeta_below _ h1) fun _ _ h4 => .writeSubslice h3 h4 _

/-! ### Discriminants -/

/-- Both absent, or both present and related. -/
def OptRefines {α β : Type} (R : α → β → Prop) : Option α → Option β → Prop
  | none, none => True
  | some a, some b => R a b
  | _, _ => False

/-- The same discriminant, unless there is none on the left. -/
def DiscRefines {S S' : Type} (RS : S → S' → Prop) (x : Res (Option Int × S)) (y : Res (Option Int × S')) : Prop :=
  match x with
  | .ok (none, _) => True
  | .ok (some d, s) => ∃ s', y = .ok (some d, s') ∧ RS s s'
  | .error e => e.Excused ∨ y = .error e

section
variable {S S' : Type} {RS : S → S' → Prop}
  {acc : S → Nat → Nat → Res (List (AByte (AllocId × PE)) × S)}
  {acc' : S' → Nat → Nat → Res (List (AByte (AllocId × QE)) × S')}
  (hacc : ∀ s s' o n, RS s s' → Refines (fun x y => BytesBelow x.1 y.1 ∧ RS x.2 y.2) (acc s o n) (acc' s' o n))
include hacc

mutual
theorem decodeDiscriminant_below : ∀ (d : Discriminator) (s : S) (s' : S'), RS s s' →
    DiscRefines RS (decodeDiscriminant acc d s) (decodeDiscriminant acc' d s')
  | .known d, s, s', h => ⟨s', rfl, h⟩
  | .invalid, s, s', h => trivial
  | .branch o vt fb cs, s, s', h => by
    simp only [decodeDiscriminant]
    have h1 := hacc s s' o vt.size h
    cases hx : acc s o vt.size with
    | error e =>
      rw [hx] at h1
      rcases h1 with h1 | h1
      · exact .inl h1
      · rw [h1]; exact .inr rfl
    | ok x =>
      rw [hx] at h1
      obtain ⟨⟨b', s2'⟩, h1, hb, hs⟩ := h1
      rw [h1]
      obtain ⟨b, s2⟩ := x
      simp only
      have h2 := decodeInt_below vt hb
      cases hd : decodeInt vt b with
      | error e =>
        rw [hd] at h2
        rcases h2 with h2 | h2
        · rcases h2 with rfl | rfl | rfl | rfl
          · exact .inl (.inl rfl)
          · exact .inl (.inr (.inl rfl))
          · exact .inl (.inr (.inr (.inl rfl)))
          · exact trivial
        · rw [h2]
          cases e <;> first | exact trivial | exact .inr rfl
      | ok v =>
        rw [hd] at h2
        obtain ⟨_, h2, rfl⟩ := h2
        rw [h2]
        simp only
        have h3 := decodeDiscriminantChildren_below cs v s2 s2' hs
        generalize decodeDiscriminantChildren acc cs v s2 = c at h3
        generalize decodeDiscriminantChildren acc' cs v s2' = c' at h3
        cases c <;> cases c' <;> first | exact h3.elim | exact h3 | skip
        exact decodeDiscriminant_below fb s2 s2' hs
theorem decodeDiscriminantChildren_below : ∀ (cs : List ((Int × Int) × Discriminator)) (v : Int) (s : S) (s' : S'),
    RS s s' → OptRefines (DiscRefines RS) (decodeDiscriminantChildren acc cs v s)
      (decodeDiscriminantChildren acc' cs v s')
  | [], v, s, s', h => trivial
  | ((a, b), d) :: rest, v, s, s', h => by
    simp only [decodeDiscriminantChildren]
    by_cases hc : a ≤ v ∧ v < b
    · rw [if_pos hc, if_pos hc]; exact decodeDiscriminant_below d s s' h
    · rw [if_neg hc, if_neg hc]; exact decodeDiscriminantChildren_below rest v s s' h
end
end

theorem encodeDiscriminant_refines {S S' : Type} {RS : S → S' → Prop}
    {acc : S → Nat → List (AByte (AllocId × PE)) → Res S} {acc' : S' → Nat → List (AByte (AllocId × QE)) → Res S'}
    (hacc : ∀ s s' o b b', RS s s' → BytesBelow b b' → Refines RS (acc s o b) (acc' s' o b')) :
    ∀ (t : Tagger) (s : S) (s' : S'), RS s s' → Refines RS (encodeDiscriminant acc t s) (encodeDiscriminant acc' t s')
  | [], s, s', h => .ok h
  | (o, (vt, v)) :: rest, s, s', h =>
    .bind (encodeInt_refines vt v) fun _ _ hb => .bind (hacc s s' o _ _ h hb) fun _ _ h' =>
      encodeDiscriminant_refines hacc rest _ _ h'

/-! ### Decoding and encoding -/

omit [DecidableEq PE] T in
theorem decodeChunks_below {a : List (AByte (AllocId × PE))} {b : List (AByte (AllocId × QE))} (h : BytesBelow a b) :
    ∀ cs, Refines (List.Forall₂ BytesBelow) (decodeChunks a cs) (decodeChunks b cs)
  | [] => .ok .nil
  | (o, n) :: rest => .bind (.subslice h o n) fun _ _ h1 => .bind (decodeChunks_below h rest) fun _ _ h2 =>
      .ok (.cons h1 h2)

omit [DecidableEq PE] T in
theorem encodeChunks_below : ∀ (cs : List (Nat × Nat)) {d : List (List (AByte (AllocId × PE)))}
    {d' : List (List (AByte (AllocId × QE)))} {a b}, List.Forall₂ BytesBelow d d' → BytesBelow a b →
    Refines BytesBelow (encodeChunks cs d a) (encodeChunks cs d' b)
  | [], d, d', a, b, _, h => .ok h
  | (o, n) :: rest, [], d', a, b, hd, h => by cases hd; exact .ok h
  | (o, n) :: rest, x :: d, d', a, b, hd, h => by
    cases hd with
    | cons h1 h2 =>
      simp only [encodeChunks]
      rw [List.Forall₂.length_eq h1]
      exact .bind .eq fun _ _ _ => .bind (.writeSubslice h h1 o) fun _ _ h3 => encodeChunks_below rest h2 h3

omit [DecidableEq PE] T in
theorem decodeElems_below {dec : List (AByte (AllocId × PE)) → Res (Value (AllocId × PE))}
    {dec' : List (AByte (AllocId × QE)) → Res (Value (AllocId × QE))}
    (hd : ∀ a b, BytesBelow a b → Refines ValueBelow (dec a) (dec' b)) (size : Nat) :
    ∀ (n : Nat) {a : List (AByte (AllocId × PE))} {b : List (AByte (AllocId × QE))}, BytesBelow a b →
      Refines ValuesBelow (decodeElems dec size n a) (decodeElems dec' size n b)
  | 0, _, _, _ => .ok (by simp [ValuesBelow])
  | n + 1, a, b, h => .bind (.subslice h 0 size) fun _ _ h1 => .bind (hd _ _ h1) fun _ _ h2 =>
      .bind (decodeElems_below hd size n (List.forall₂_drop size h)) fun _ _ h3 => .ok (by
        simp only [ValuesBelow]; exact ⟨h2, h3⟩)

omit [DecidableEq PE] T in
theorem ValuesBelow.length_eq : ∀ {vs : List (Value (AllocId × PE))} {ws : List (Value (AllocId × QE))},
    ValuesBelow vs ws → vs.length = ws.length
  | [], [], _ => rfl
  | [], _ :: _, h => by simp [ValuesBelow] at h
  | _ :: _, [], h => by simp [ValuesBelow] at h
  | v :: vs, w :: ws, h => by
    simp only [ValuesBelow] at h
    simp [ValuesBelow.length_eq h.2]

omit [DecidableEq PE] T in
theorem encodeElems_below {enc : Value (AllocId × PE) → Res (List (AByte (AllocId × PE)))}
    {enc' : Value (AllocId × QE) → Res (List (AByte (AllocId × QE)))}
    (he : ∀ v w, ValueBelow v w → Refines BytesBelow (enc v) (enc' w)) (size : Nat) :
    ∀ {vs : List (Value (AllocId × PE))} {ws : List (Value (AllocId × QE))}, ValuesBelow vs ws →
      Refines BytesBelow (encodeElems enc size vs) (encodeElems enc' size ws)
  | [], [], _ => .ok .nil
  | [], _ :: _, h => by simp [ValuesBelow] at h
  | _ :: _, [], h => by simp [ValuesBelow] at h
  | v :: vs, w :: ws, h => by
    simp only [ValuesBelow] at h
    refine .bind (he v w h.1) fun a b hab => ?_
    rw [List.Forall₂.length_eq hab]
    exact .bind .eq fun _ _ _ => .bind (encodeElems_below he size h.2) fun _ _ h2 => .ok (forall₂_append hab h2)

mutual
theorem decode_below : ∀ (ty : Ty) {a : List (AByte (AllocId × PE))} {b : List (AByte (AllocId × QE))},
    BytesBelow a b → Refines ValueBelow (decode ty a) (decode ty b)
  | .int i, a, b, h => .bind (decodeInt_below i h) fun _ _ h => .ok (by simpa only [ValueBelow] using h)
  | .bool, a, b, h => .bind (decodeBool_below h) fun _ _ h => .ok (by simpa only [ValueBelow] using h)
  | .ptr p, a, b, h => by simp only [decode]; exact decodePtrTy_below p h
  | .tuple _ _ (some _), a, b, h => by simp only [decode]; exact .panic
  | .tuple fields head none, a, b, h => by
    simp only [decode]
    rw [List.Forall₂.length_eq h]
    exact .bind .eq fun _ _ _ => .bind (decodeFields_below fields h) fun _ _ h =>
      .ok (by simpa only [ValueBelow] using h)
  | .array elem count, a, b, h => by
    simp only [decode]
    rw [List.Forall₂.length_eq h]
    refine .bind .eq fun x _ hx => ?_
    subst hx
    refine .bind .eq fun y _ hy => ?_
    subst hy
    exact .bind .eq fun _ _ _ => .bind (decodeElems_below (fun a b h => decode_below elem h) x _ h) fun _ _ h =>
      .ok (by simpa only [ValueBelow] using h)
  | .union _ chunks size _, a, b, h => by
    simp only [decode]
    rw [List.Forall₂.length_eq h]
    exact .bind .eq fun _ _ _ => .bind (decodeChunks_below h chunks) fun _ _ h =>
      .ok (by simpa only [ValueBelow] using h)
  | .enum variants _ discriminator size _, a, b, h => by
    simp only [decode]
    rw [List.Forall₂.length_eq h]
    refine .bind .eq fun _ _ _ => ?_
    have h1 := decodeDiscriminant_below (acc := sliceAccessor a) (acc' := sliceAccessor b) (RS := fun _ _ => True)
      (fun _ _ o n _ => .bind (.subslice h o n) fun _ _ h => .ok ⟨h, trivial⟩) discriminator () () trivial
    generalize decodeDiscriminant (sliceAccessor a) discriminator () = r at h1
    generalize decodeDiscriminant (sliceAccessor b) discriminator () = r' at h1
    match r, h1 with
    | .error e, h1 =>
      rcases h1 with h1 | rfl
      · exact .inl h1
      · exact .err
    | .ok (none, _), _ => exact .errNone
    | .ok (some d, _), h1 =>
      obtain ⟨_, rfl, _⟩ := h1
      show Refines ValueBelow (do .ok (.variant d (← decodeVariant variants d a)))
        (do .ok (.variant d (← decodeVariant variants d b)))
      exact .bind (decodeVariant_below variants d h) fun _ _ h => .ok (by simpa only [ValueBelow, true_and] using h)
  | .slice _, a, b, h => by simp only [decode]; exact .panic
  | .traitObject _, a, b, h => by simp only [decode]; exact .panic
theorem decodeFields_below : ∀ (fs : List (Nat × Ty)) {a : List (AByte (AllocId × PE))} {b : List (AByte (AllocId × QE))},
    BytesBelow a b → Refines ValuesBelow (decodeFields fs a) (decodeFields fs b)
  | [], _, _, _ => .ok (by simp [ValuesBelow])
  | (off, ty) :: rest, a, b, h => by
    simp only [decodeFields]
    refine .bind .eq fun x _ hx => ?_
    subst hx
    exact .bind (.subslice h off _) fun _ _ h1 => .bind (decode_below ty h1) fun _ _ h2 =>
      .bind (decodeFields_below rest h) fun _ _ h3 => .ok (by simp only [ValuesBelow]; exact ⟨h2, h3⟩)
theorem decodeVariant_below : ∀ (vs : List (Int × (Ty × Tagger))) (d : Int) {a : List (AByte (AllocId × PE))}
    {b : List (AByte (AllocId × QE))}, BytesBelow a b → Refines ValueBelow (decodeVariant vs d a) (decodeVariant vs d b)
  | [], _, _, _, _ => .panic
  | (d', (ty, _)) :: rest, d, a, b, h => by
    simp only [decodeVariant]
    by_cases hd : d' = d
    · rw [if_pos hd, if_pos hd]; exact decode_below ty h
    · rw [if_neg hd, if_neg hd]; exact decodeVariant_below rest d h
end

mutual
theorem encode_below : ∀ (ty : Ty) {v : Value (AllocId × PE)} {w : Value (AllocId × QE)},
    ValueBelow v w → Refines BytesBelow (encode ty v) (encode ty w)
  | .int i, v, w, h => by
    cases v <;> first | exact .panic | skip
    cases w <;> simp only [ValueBelow] at h
    subst h
    exact encodeInt_refines i _
  | .bool, v, w, h => by
    cases v <;> first | exact .panic | skip
    cases w <;> simp only [ValueBelow] at h
    subst h
    exact .ok (.cons ⟨rfl, .inl rfl⟩ .nil)
  | .ptr p, v, w, h => by simp only [encode]; exact encodePtrTy_below p h
  | .tuple _ _ (some _), v, w, h => by simp only [encode]; exact .panic
  | .tuple fields head none, v, w, h => by
    cases v <;> first | exact .panic | skip
    cases w <;> simp only [ValueBelow] at h
    simp only [encode]
    rw [h.length_eq]
    exact .bind .eq fun _ _ _ => encodeFields_below fields h (forall₂_replicate trivial _)
  | .array elem count, v, w, h => by
    cases v <;> first | exact .panic | skip
    cases w <;> simp only [ValueBelow] at h
    rename_i vs ws
    simp only [encode]
    rw [h.length_eq]
    refine .bind .eq fun _ _ _ => ?_
    match vs, ws, h with
    | [], [], _ => exact .ok .nil
    | [], _ :: _, h => simp [ValuesBelow] at h
    | _ :: _, [], h => simp [ValuesBelow] at h
    | v :: vs, w :: ws, h =>
      refine .bind .eq fun x _ hx => ?_
      subst hx
      exact encodeElems_below (fun v w h => encode_below elem h) x h
  | .union _ chunks size _, v, w, h => by
    cases v <;> first | exact .panic | skip
    cases w <;> simp only [ValueBelow] at h
    simp only [encode]
    rw [List.Forall₂.length_eq h]
    exact .bind .eq fun _ _ _ => encodeChunks_below chunks h (forall₂_replicate trivial _)
  | .enum variants _ _ _ _, v, w, h => by
    cases v <;> first | exact .panic | skip
    cases w <;> simp only [ValueBelow] at h
    obtain ⟨rfl, h⟩ := h
    exact encodeVariant_below variants _ h
  | .slice _, v, w, h => by simp only [encode]; exact .panic
  | .traitObject _, v, w, h => by simp only [encode]; exact .panic
theorem encodeFields_below : ∀ (fs : List (Nat × Ty)) {vs : List (Value (AllocId × PE))} {ws : List (Value (AllocId × QE))}
    {a b}, ValuesBelow vs ws → BytesBelow a b → Refines BytesBelow (encodeFields fs vs a) (encodeFields fs ws b)
  | [], _, _, _, _, _, h => by simp only [encodeFields]; exact .ok h
  | (off, ty) :: rest, [], [], _, _, _, h => by simp only [encodeFields]; exact .ok h
  | (off, ty) :: rest, [], _ :: _, _, _, hv, h => by simp [ValuesBelow] at hv
  | (off, ty) :: rest, _ :: _, [], _, _, hv, h => by simp [ValuesBelow] at hv
  | (off, ty) :: rest, v :: vs, w :: ws, _, _, hv, h => by
    simp only [ValuesBelow] at hv
    simp only [encodeFields]
    exact .bind (encode_below ty hv.1) fun _ _ h1 => .bind (.writeSubslice h h1 off) fun _ _ h2 =>
      encodeFields_below rest hv.2 h2
theorem encodeVariant_below : ∀ (vs : List (Int × (Ty × Tagger))) (d : Int) {v : Value (AllocId × PE)}
    {w : Value (AllocId × QE)}, ValueBelow v w → Refines BytesBelow (encodeVariant vs d v) (encodeVariant vs d w)
  | [], _, _, _, _ => .panic
  | (d', (ty, tagger)) :: rest, d, v, w, h => by
    simp only [encodeVariant]
    by_cases hd : d' = d
    · rw [if_pos hd, if_pos hd]
      exact .bind (encode_below ty h) fun _ _ h1 =>
        encodeDiscriminant_refines (fun _ _ o _ _ hs hb => .writeSubslice hs hb o) tagger _ _ h1
    · rw [if_neg hd, if_neg hd]; exact encodeVariant_below rest d h
end

/-! ### Validity -/

/-- Environments that agree on related pointers. -/
structure EnvBelow (e : ValEnv (AllocId × PE)) (e' : ValEnv (AllocId × QE)) : Prop where
  from_ : ∀ p q, ThinBelow p q → Refines Eq (e.vtableFromPtr p) (e'.vtableFromPtr q)
  lookup : ∀ p q, ThinBelow p q → Refines Eq (e.vtableLookup p) (e'.vtableLookup q)
  deref : ∀ p q n, ThinBelow p q → Refines Eq (e.dereferenceable p n) (e'.dereferenceable q n)

section
variable {e : ValEnv (AllocId × PE)} {e' : ValEnv (AllocId × QE)} (he : EnvBelow e e')
include he

omit [DecidableEq PE] T in
theorem computeSizeAndAlign_below : ∀ (l : LayoutStrategy) {m n}, MetaBelow m n →
    Refines Eq (l.computeSizeAndAlign e.vtableLookup m) (l.computeSizeAndAlign e'.vtableLookup n)
  | .sized size align, m, n, h => by
    rcases m with _ | m
    · rcases n with _ | (_ | _) <;> first | exact h.elim | skip
      exact .eq
    · exact .panic
  | .slice size align, m, n, h => by
    rcases m with _ | (_ | _) <;> first | exact .panic | skip
    rcases n with _ | (_ | _) <;> first | exact h.elim | skip
    simp only [MetaBelow] at h
    subst h
    exact .eq
  | .traitObject t, m, n, h => by
    rcases m with _ | (_ | _) <;> first | exact .panic | skip
    rcases n with _ | (_ | _) <;> first | exact h.elim | skip
    refine .bind (he.lookup _ _ h) fun _ _ h => ?_
    subst h
    exact .ok rfl
  | .tuple head tail, m, n, h => by
    rcases m with _ | m
    · exact .panic
    · rcases n with _ | n
      · cases m <;> exact h.elim
      · refine .bind (computeSizeAndAlign_below tail h) fun _ _ h => ?_
        subst h
        exact .ok rfl

omit [DecidableEq PE] T in
theorem computeSize_below (l : LayoutStrategy) {m n} (h : MetaBelow m n) :
    Refines Eq (e.computeSize l m) (e'.computeSize l n) :=
  .bind (computeSizeAndAlign_below he l h) fun _ _ h => .ok (by rw [h])

omit [DecidableEq PE] T in
theorem computeAlign_below (l : LayoutStrategy) {m n} (h : MetaBelow m n) :
    Refines Eq (e.computeAlign l m) (e'.computeAlign l n) :=
  .bind (computeSizeAndAlign_below he l h) fun _ _ h => .ok (by rw [h])

omit [DecidableEq PE] in
theorem checkPtrMetadata_below (k : MetaKind) {m n} (h : MetaBelow m n) :
    Refines (fun _ _ => True) (checkPtrMetadata e m k) (checkPtrMetadata e' n k) := by
  rcases m with _ | (_ | _) <;> rcases n with _ | (_ | _) <;> first | exact h.elim | skip
  · cases k <;> first | exact .ub | exact .ok trivial
  · simp only [MetaBelow] at h
    subst h
    cases k <;> first | exact .ub | skip
    exact .same fun _ => trivial
  · cases k <;> first | exact .ub | skip
    have h' : ThinBelow _ _ := h
    simp only [checkPtrMetadata, checkVTablePtr]
    rw [h'.1]
    refine .bind .eq fun _ _ _ => .bind (he.from_ _ _ h') fun _ _ h => ?_
    subst h
    exact .same fun _ => trivial

omit [DecidableEq PE] in
theorem checkPtr_below (p : PtrType) {x y} (h : PtrBelow x y) :
    Refines (fun _ _ => True) (checkPtr e x p) (checkPtr e' y p) := by
  unfold checkPtr
  rw [h.1.1]
  refine .bind .eq fun _ _ _ => .bind (checkPtrMetadata_below he _ h.2) fun _ _ _ => ?_
  cases p.safePointee with
  | some pointee =>
    refine .bind (computeSize_below he _ h.2) fun s _ hs => ?_
    subst hs
    refine .bind (computeAlign_below he _ h.2) fun a _ ha => ?_
    subst ha
    exact .bind .eq fun _ _ _ => .bind .eq fun _ _ _ => .bind .eq fun _ _ _ => .bind .eq fun _ _ _ =>
      .ensureIsOk (he.deref _ _ _ h.1)
  | none =>
    cases p <;> first | exact .ok trivial | skip
    refine .bind (he.from_ _ _ h.1) fun _ _ h => ?_
    subst h
    exact .same fun _ => trivial

omit [DecidableEq PE] T in
theorem checkChunks_below : ∀ {a : List (List (AByte (AllocId × PE)))} {b : List (List (AByte (AllocId × QE)))} (cs : List (Nat × Nat)),
    List.Forall₂ BytesBelow a b → Refines (fun _ _ => True) (checkChunks a cs) (checkChunks b cs)
  | [], _, cs, h => by cases h; simp only [checkChunks]; exact .ok trivial
  | x :: a, _, [], h => by cases h; simp only [checkChunks]; exact .ok trivial
  | x :: a, _, (o, n) :: cs, h => by
    cases h with
    | cons h1 h2 =>
      simp only [checkChunks]
      rw [List.Forall₂.length_eq h1]
      exact .bind .eq fun _ _ _ => checkChunks_below cs h2

omit [DecidableEq PE] T in
theorem checkElems_below {c : Value (AllocId × PE) → Res Unit} {c' : Value (AllocId × QE) → Res Unit}
    (hc : ∀ v w, ValueBelow v w → Refines (fun _ _ => True) (c v) (c' w)) :
    ∀ {vs : List (Value (AllocId × PE))} {ws : List (Value (AllocId × QE))}, ValuesBelow vs ws →
      Refines (fun _ _ => True) (checkElems c vs) (checkElems c' ws)
  | [], [], _ => .ok trivial
  | [], _ :: _, h => by simp [ValuesBelow] at h
  | _ :: _, [], h => by simp [ValuesBelow] at h
  | v :: vs, w :: ws, h => by
    simp only [ValuesBelow] at h
    exact .bind (hc v w h.1) fun _ _ _ => checkElems_below hc h.2

mutual
theorem checkValue_below : ∀ (ty : Ty) {v w}, ValueBelow v w →
    Refines (fun _ _ => True) (checkValue e ty v) (checkValue e' ty w)
  | .int i, v, w, h => by
    cases v <;> first | exact .panic | skip
    cases w <;> simp only [ValueBelow] at h
    subst h
    exact .same fun _ => trivial
  | .bool, v, w, h => by
    cases v <;> first | exact .panic | skip
    cases w <;> simp only [ValueBelow] at h
    exact .ok trivial
  | .ptr p, v, w, h => by
    cases v <;> first | exact .panic | skip
    cases w <;> simp only [ValueBelow] at h
    exact checkPtr_below he p h
  | .tuple fields head u, v, w, h => by
    cases v <;> first | exact .panic | skip
    cases w <;> simp only [ValueBelow] at h
    simp only [checkValue]
    rw [h.length_eq]
    exact .bind .eq fun _ _ _ => .bind .eq fun _ _ _ => checkFields_below fields h
  | .array elem count, v, w, h => by
    cases v <;> first | exact .panic | skip
    cases w <;> simp only [ValueBelow] at h
    simp only [checkValue]
    rw [h.length_eq]
    exact .bind .eq fun _ _ _ => checkElems_below he (fun v w h => checkValue_below elem h) h
  | .union _ chunks size _, v, w, h => by
    cases v <;> first | exact .panic | skip
    cases w <;> simp only [ValueBelow] at h
    simp only [checkValue]
    rw [List.Forall₂.length_eq h]
    exact .bind .eq fun _ _ _ => checkChunks_below he chunks h
  | .enum variants _ _ _ _, v, w, h => by
    cases v <;> first | exact .panic | skip
    cases w <;> simp only [ValueBelow] at h
    obtain ⟨rfl, h⟩ := h
    exact checkVariant_below variants _ h
  | .slice _, v, w, h => by simp only [checkValue]; exact .panic
  | .traitObject _, v, w, h => by simp only [checkValue]; exact .panic
theorem checkFields_below : ∀ (fs : List (Nat × Ty)) {vs ws}, ValuesBelow vs ws →
    Refines (fun _ _ => True) (checkFields e fs vs) (checkFields e' fs ws)
  | [], _, _, _ => by simp only [checkFields]; exact .ok trivial
  | (off, ty) :: rest, [], [], _ => by simp only [checkFields]; exact .ok trivial
  | (off, ty) :: rest, [], _ :: _, h => by simp [ValuesBelow] at h
  | (off, ty) :: rest, _ :: _, [], h => by simp [ValuesBelow] at h
  | (off, ty) :: rest, v :: vs, w :: ws, h => by
    simp only [ValuesBelow] at h
    exact .bind (checkValue_below ty h.1) fun _ _ _ => checkFields_below rest h.2
theorem checkVariant_below : ∀ (vs : List (Int × (Ty × Tagger))) (d : Int) {v w}, ValueBelow v w →
    Refines (fun _ _ => True) (checkVariant e vs d v) (checkVariant e' vs d w)
  | [], _, _, _, _ => .ub
  | (d', (ty, _)) :: rest, d, v, w, h => by
    simp only [checkVariant]
    by_cases hd : d' = d
    · rw [if_pos hd, if_pos hd]; exact checkValue_below ty h
    · rw [if_neg hd, if_neg hd]; exact checkVariant_below rest d h
end

theorem decodeThen_below (ty : Ty) {α β : Type} {R : α → β → Prop} {a : List (AByte (AllocId × PE))}
    {b : List (AByte (AllocId × QE))} (h : BytesBelow a b) {r r'} (hr : decode ty a = r) (hr' : decode ty b = r')
    {f : Value (AllocId × PE) → Res α} {g : Value (AllocId × QE) → Res β}
    (hok : ∀ v w, r = .ok v → r' = .ok w → ValueBelow v w → Refines R (f v) (g w)) {x y} (hx : ∀ v, r = .ok v → x = f v)
    (hx' : ∀ e, r = .error e → x = if e = .none then ub else .error e) 
    (hy : ∀ v, r' = .ok v → y = g v)
    (hy' : ∀ e, r' = .error e → y = if e = .none then ub else .error e) : Refines R x y := by
  have h1 := decode_below ty h
  rw [hr, hr'] at h1
  cases r with
  | ok v =>
    obtain ⟨w, rfl, hv⟩ := h1
    rw [hx _ rfl, hy _ rfl]
    exact hok _ _ rfl rfl hv
  | error e =>
    rw [hx' _ rfl]
    rcases h1 with h1 | rfl
    · rcases h1 with rfl | rfl | rfl | rfl <;> simp <;> first | exact .ub | exact .panic | exact .noBehavior
    · rw [hy' _ rfl]; split
      · exact .ub
      · exact .err

theorem transmute_below (ty1 ty2 : Ty) {v w} (h : ValueBelow v w) :
    Refines ValueBelow (transmute e v ty1 ty2) (transmute e' w ty1 ty2) := by
  unfold transmute
  refine .bind .eq fun x _ hx => ?_
  subst hx
  refine .bind .eq fun y _ hy => ?_
  subst hy
  refine .bind .eq fun _ _ _ => .bind (encode_below ty1 h) fun a b h1 => ?_
  refine decodeThen_below he ty2 h1 rfl rfl (f := fun v => do checkValue e ty2 v; .ok v)
    (g := fun v => do checkValue e' ty2 v; .ok v)
    (fun v w _ _ hv => .bind (checkValue_below he ty2 hv) fun _ _ _ => .ok hv) ?_ ?_ ?_ ?_
  · intro v hv; rw [hv]
  · intro x hx; rw [hx]; cases x <;> rfl
  · intro v hv; rw [hv]
  · intro x hx; rw [hx]; cases x <;> rfl
end

end Repr
end MiniRust
