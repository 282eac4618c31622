import Verif.Prelude
/-
Auxiliary lemmas about the prelude: `Except` plumbing, list slices, alignment.
-/
namespace MiniRust

/-! ### `Res` plumbing -/

@[simp] theorem Res.bind_ok {α β : Type} (a : α) (f : α → Res β) :
    (Except.ok a : Res α) >>= f = f a := rfl
@[simp] theorem Res.bind_error {α β : Type} (e : Err) (f : α → Res β) :
    (Except.error e : Res α) >>= f = .error e := rfl
@[simp] theorem Res.map_ok {α β : Type} (a : α) (f : α → β) :
    f <$> (Except.ok a : Res α) = .ok (f a) := rfl
@[simp] theorem Res.map_error {α β : Type} (e : Err) (f : α → β) :
    f <$> (Except.error e : Res α) = .error e := rfl
@[simp] theorem Res.pure_ok {α : Type} (a : α) : (pure a : Res α) = .ok a := rfl
@[simp] theorem Res.throw_error {α : Type} (e : Err) : (throw e : Res α) = .error e := rfl

theorem Res.bind_eq_ok {α β : Type} {x : Res α} {f : α → Res β} {b : β} :
    x >>= f = .ok b ↔ ∃ a, x = .ok a ∧ f a = .ok b := by
  cases x <;> simp

theorem Res.bind_eq_error {α β : Type} {x : Res α} {f : α → Res β} {e : Err} :
    x >>= f = .error e ↔ x = .error e ∨ ∃ a, x = .ok a ∧ f a = .error e := by
  cases x <;> simp

@[simp] theorem rassert_eq_ok {b : Bool} {u : Unit} : rassert b = .ok u ↔ b = true := by
  unfold rassert; split <;> simp_all
@[simp] theorem ensureUb_eq_ok {b : Bool} {u : Unit} : ensureUb b = .ok u ↔ b = true := by
  unfold ensureUb; split <;> simp_all
@[simp] theorem ensureWf_eq_ok {b : Bool} {u : Unit} : ensureWf b = .ok u ↔ b = true := by
  unfold ensureWf; split <;> simp_all
@[simp] theorem rassert_true : rassert true = .ok () := rfl
@[simp] theorem rassert_false : rassert false = .error .panic := rfl
@[simp] theorem ensureUb_true : ensureUb true = .ok () := rfl
@[simp] theorem ensureUb_false : ensureUb false = .error .ub := rfl
@[simp] theorem ensureWf_true : ensureWf true = .ok () := rfl
@[simp] theorem ensureWf_false : ensureWf false = .error .illFormed := rfl
@[simp] theorem unwrap_some {α : Type} (a : α) : unwrap (some a) = .ok a := rfl
@[simp] theorem unwrap_none {α : Type} : unwrap (none : Option α) = .error .panic := rfl
@[simp] theorem unwrap_eq_ok {α : Type} {o : Option α} {a : α} : unwrap o = .ok a ↔ o = some a := by
  cases o <;> simp
@[simp] theorem unwrap_eq_error {α : Type} {o : Option α} {e : Err} :
    unwrap o = .error e ↔ o = none ∧ e = .panic := by
  cases o <;> simp [eq_comm]

/-! ### Slices -/

theorem subslice_eq_ok {α : Type} {l r : List α} {off len : Nat} :
    subslice l off len = .ok r ↔ off + len ≤ l.length ∧ r = (l.drop off).take len := by
  unfold subslice; split
  · simp_all [eq_comm]
  · rename_i h; simp; omega

theorem subslice_length {α : Type} {l r : List α} {off len : Nat}
    (h : subslice l off len = .ok r) : r.length = len := by
  rw [subslice_eq_ok] at h
  obtain ⟨h1, rfl⟩ := h
  simp; omega

theorem subslice_getElem? {α : Type} {l r : List α} {off len : Nat}
    (h : subslice l off len = .ok r) (i : Nat) :
    r[i]? = if i < len then l[off + i]? else none := by
  rw [subslice_eq_ok] at h
  obtain ⟨h1, rfl⟩ := h
  rw [List.getElem?_take]
  split <;> simp

theorem subslice_isOk {α : Type} {l : List α} {off len : Nat} (h : off + len ≤ l.length) :
    subslice l off len = .ok ((l.drop off).take len) := by
  simp [subslice, h]

theorem writeSubslice_isOk {α : Type} {l src : List α} {off : Nat} (h : off + src.length ≤ l.length) :
    writeSubslice l off src = .ok (l.take off ++ src ++ l.drop (off + src.length)) := by
  simp [writeSubslice, h]

theorem writeSubslice_eq_ok {α : Type} {l r src : List α} {off : Nat} :
    writeSubslice l off src = .ok r ↔
      off + src.length ≤ l.length ∧ r = l.take off ++ src ++ l.drop (off + src.length) := by
  unfold writeSubslice; split
  · simp_all [eq_comm]
  · rename_i h; simp; omega

theorem writeSubslice_length {α : Type} {l r src : List α} {off : Nat}
    (h : writeSubslice l off src = .ok r) : r.length = l.length := by
  rw [writeSubslice_eq_ok] at h
  obtain ⟨h1, rfl⟩ := h
  simp; omega

theorem writeSubslice_getElem? {α : Type} {l r src : List α} {off : Nat}
    (h : writeSubslice l off src = .ok r) (i : Nat) :
    r[i]? = if off ≤ i ∧ i < off + src.length then src[i - off]? else l[i]? := by
  rw [writeSubslice_eq_ok] at h
  obtain ⟨h1, rfl⟩ := h
  have hlen : (l.take off).length = off := by simp; omega
  split
  · rename_i hi
    rw [List.append_assoc, List.getElem?_append_right (by omega), hlen,
      List.getElem?_append_left (by omega)]
  · rename_i hi
    by_cases hlt : i < off
    · rw [List.append_assoc, List.getElem?_append_left (by omega)]
      simp [hlt]
    · have hge : off + src.length ≤ i := by omega
      rw [List.getElem?_append_right (by simp; omega)]
      simp only [List.length_append, hlen, List.getElem?_drop]
      congr 1; omega

/-- Reading back the range just written. -/
theorem subslice_writeSubslice_same {α : Type} {l r src : List α} {off : Nat}
    (h : writeSubslice l off src = .ok r) : subslice r off src.length = .ok src := by
  have hlen := writeSubslice_length h
  rw [subslice_eq_ok]
  have h1 := (writeSubslice_eq_ok.1 h).1
  refine ⟨by omega, ?_⟩
  apply List.ext_getElem?
  intro i
  rw [List.getElem?_take]
  split
  · rw [List.getElem?_drop, writeSubslice_getElem? h, if_pos (by omega)]
    congr 1; omega
  · rw [List.getElem?_eq_none (by omega)]

/-- Two lists with equal entries on a range have equal slices of that range. -/
theorem subslice_congr {α : Type} {l l' : List α} {off len : Nat}
    (hlen : l.length = l'.length)
    (h : ∀ i, off ≤ i → i < off + len → l[i]? = l'[i]?) :
    subslice l off len = subslice l' off len := by
  unfold subslice
  rw [hlen]
  split
  · congr 1
    apply List.ext_getElem?
    intro i
    rw [List.getElem?_take, List.getElem?_take]
    split
    · rw [List.getElem?_drop, List.getElem?_drop]
      exact h _ (by omega) (by omega)
    · rfl
  · rfl

/-! ### Alignment -/

theorem Align.bytes_pos (a : Align) : 0 < a.bytes := Nat.two_pow_pos _

theorem le_alignTo (n : Nat) (a : Align) : n ≤ alignTo n a := by
  have := a.bytes_pos
  unfold alignTo
  have h := Nat.div_add_mod (n + a.bytes - 1) a.bytes
  have h2 := Nat.mod_lt (n + a.bytes - 1) this
  rw [Nat.mul_comm] at h
  omega

theorem alignTo_lt (n : Nat) (a : Align) : alignTo n a < n + a.bytes := by
  have := a.bytes_pos
  unfold alignTo
  have h := Nat.div_add_mod (n + a.bytes - 1) a.bytes
  rw [Nat.mul_comm] at h
  omega

theorem alignTo_dvd (n : Nat) (a : Align) : a.bytes ∣ alignTo n a := ⟨_, Nat.mul_comm _ _⟩

theorem alignTo_of_dvd {n : Nat} {a : Align} (h : a.bytes ∣ n) : alignTo n a = n := by
  obtain ⟨k, rfl⟩ := h
  have hp := a.bytes_pos
  have h1 := le_alignTo (a.bytes * k) a
  have h2 := alignTo_lt (a.bytes * k) a
  obtain ⟨j, hj⟩ := alignTo_dvd (a.bytes * k) a
  rw [hj] at h1 h2 ⊢
  have h3 : k ≤ j := Nat.le_of_mul_le_mul_left h1 hp
  have h4 : a.bytes * j < a.bytes * (k + 1) := by rw [Nat.mul_succ]; omega
  have h5 : j < k + 1 := Nat.lt_of_mul_lt_mul_left h4
  have : j = k := by omega
  rw [this]

/-! ### Maps -/
namespace Map
variable {K V : Type} [DecidableEq K]

theorem get?_mem {m : Map K V} {k : K} {v : V} (h : get? m k = some v) : (k, v) ∈ m := by
  induction m with
  | nil => simp [get?] at h
  | cons e m ih =>
    obtain ⟨k', v'⟩ := e
    simp only [get?] at h
    split at h
    · cases h; subst_vars; exact List.mem_cons_self
    · exact List.mem_cons_of_mem _ (ih h)

theorem get?_insert (m : Map K V) (k : K) (v : V) (q : K) :
    get? (insert m k v) q = if k = q then some v else get? m q := by
  induction m with
  | nil => simp [insert, get?]
  | cons e m ih =>
    obtain ⟨k', v'⟩ := e
    simp only [insert]
    split
    · subst_vars
      simp only [get?]; split <;> rfl
    · simp only [get?, ih]
      split
      · split
        · subst_vars; contradiction
        · rfl
      · rfl

theorem get?_erase_of_ne (m : Map K V) (k q : K) (h : k ≠ q) :
    get? (erase m k) q = get? m q := by
  induction m with
  | nil => rfl
  | cons e m ih =>
    obtain ⟨k', v'⟩ := e
    simp only [erase]
    split
    · subst_vars; simp [get?, h]
    · simp only [get?, ih]
end Map

end MiniRust
