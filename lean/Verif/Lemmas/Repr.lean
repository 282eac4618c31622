import Verif.Lemmas.Ptr
import Verif.Spec.Representation
/-
The representation laws for `Good` types: totality, sizes, monotonicity and round trips.
-/
set_option linter.unusedSectionVars false
namespace MiniRust
variable {P : Type} [DecidableEq P]

/-- Induction over discriminators. -/
theorem Discriminator.induct {motive : Discriminator → Prop}
    (known : ∀ d, motive (.known d)) (invalid : motive .invalid)
    (branch : ∀ o vt f cs, motive f → (∀ c ∈ cs, motive c.2) → motive (.branch o vt f cs)) :
    ∀ d, motive d
  | .known d => known d
  | .invalid => invalid
  | .branch o vt f cs =>
    branch o vt f cs (Discriminator.induct known invalid branch f) (children cs)
where
  children : (cs : List ((Int × Int) × Discriminator)) → ∀ c ∈ cs, motive c.2
    | [] => fun _ h => by cases h
    | (k, d) :: cs => fun c h => by
      have hd := Discriminator.induct known invalid branch d
      have hcs := children cs
      rcases List.mem_cons.1 h with rfl | h
      · exact hd
      · exact hcs c h

/-- The child of a branch selected by a value. -/
def pickChild : List ((Int × Int) × Discriminator) → Int → Option Discriminator
  | [], _ => none
  | ((start, stop), d) :: rest, val => if start ≤ val ∧ val < stop then some d else pickChild rest val

theorem pickChild_mem {cs : List ((Int × Int) × Discriminator)} {v : Int} {d : Discriminator}
    (h : pickChild cs v = some d) : ∃ c ∈ cs, c.2 = d ∧ c.1.1 ≤ v ∧ v < c.1.2 := by
  induction cs with
  | nil => cases h
  | cons c cs ih =>
    obtain ⟨⟨a, b⟩, d'⟩ := c
    simp only [pickChild] at h
    split at h
    · rename_i hc; cases h; exact ⟨_, List.mem_cons_self, rfl, hc⟩
    · obtain ⟨c, hc, h1⟩ := ih h; exact ⟨c, List.mem_cons_of_mem _ hc, h1⟩

theorem decodeDiscriminantChildren_eq [Target] {S : Type}
    (acc : S → Nat → Nat → Res (List (AByte P) × S)) (cs : List ((Int × Int) × Discriminator))
    (v : Int) (s : S) :
    decodeDiscriminantChildren acc cs v s = (pickChild cs v).map fun d => decodeDiscriminant acc d s := by
  induction cs with
  | nil => rfl
  | cons c cs ih =>
    obtain ⟨⟨a, b⟩, d⟩ := c
    simp only [decodeDiscriminantChildren, pickChild]
    split <;> simp_all

/-- One step of `decode_discriminant` on a byte string. -/
theorem discriminantOf_branch [Target] (o : Nat) (vt : IntType) (f : Discriminator)
    (cs : List ((Int × Int) × Discriminator)) (bytes : List (AByte P)) :
    discriminantOf (.branch o vt f cs) bytes =
      match subslice bytes o vt.size with
      | .error e => .error e
      | .ok bs =>
        match decodeInt vt bs with
        | .error .none => .ok none
        | .error e => .error e
        | .ok val => discriminantOf ((pickChild cs val).getD f) bytes := by
  unfold discriminantOf
  simp only [decodeDiscriminant, sliceAccessor]
  cases subslice bytes o vt.size with
  | error e => rfl
  | ok bs =>
    simp only [Res.bind_ok]
    cases decodeInt vt bs with
    | error e => cases e <;> rfl
    | ok val =>
      simp only [decodeDiscriminantChildren_eq]
      cases pickChild cs val <;> rfl

theorem discriminantOf_eq [Target] (disc : Discriminator) (bytes : List (AByte P)) :
    decodeDiscriminant (sliceAccessor bytes) disc () = (discriminantOf disc bytes >>= fun d => .ok (d, ())) := by
  unfold discriminantOf
  cases decodeDiscriminant (sliceAccessor bytes) disc () <;> rfl

theorem decode_enum_eq [Target] {vs : Variants} {dt : IntType} {disc : Discriminator} {s : Nat} {a : Align}
    {bytes : List (AByte P)} (hl : bytes.length = s) :
    decode (.enum vs dt disc s a) bytes = (discriminantOf disc bytes >>= fun o =>
      match o with
      | none => .error .none
      | some d => decodeVariant vs d bytes >>= fun v => .ok (.variant d v)) := by
  simp only [decode, hl, beq_self_eq_true, rassert_true, Res.bind_ok, discriminantOf_eq]
  cases discriminantOf disc bytes with
  | error e => rfl
  | ok o => cases o <;> rfl

theorem checkChildren_ok {size : Nat} {has : Int → Bool} {vt : IntType} {keys : List (Int × Int)}
    {cs : List ((Int × Int) × Discriminator)} {n : Nat}
    (h : Discriminator.checkChildren size has vt keys cs n = .ok ()) :
    ∀ c ∈ cs, c.2.checkWf size has = .ok () := by
  induction cs generalizing n with
  | nil => intro c hc; cases hc
  | cons c cs ih =>
    obtain ⟨⟨a, b⟩, d⟩ := c
    simp only [Discriminator.checkChildren, Res.bind_eq_ok, ensureWf_eq_ok] at h
    obtain ⟨_, _, _, _, _, _, _, _, _, h1, h2⟩ := h
    intro c hc
    rcases List.mem_cons.1 hc with rfl | hc
    · exact h1
    · exact ih h2 c hc

section
variable [T : Target]

/-- A well-formed discriminator never panics on bytes of the right length, and only answers
existing variants. -/
theorem discriminantOf_total {size : Nat} {has : Int → Bool} {bytes : List (AByte P)}
    (hl : bytes.length = size) (disc : Discriminator) (h : disc.checkWf size has = .ok ()) :
    discriminantOf disc bytes = .ok none ∨ ∃ d, has d = true ∧ discriminantOf disc bytes = .ok (some d) := by
  induction disc using Discriminator.induct with
  | known d =>
    right
    simp only [Discriminator.checkWf, ensureWf_eq_ok] at h
    exact ⟨d, h, rfl⟩
  | invalid => left; rfl
  | branch o vt f cs ihf ihc =>
    simp only [Discriminator.checkWf, Res.bind_eq_ok, ensureWf_eq_ok, decide_eq_true_eq] at h
    obtain ⟨_, _, _, h2, _, h3, h4⟩ := h
    rw [discriminantOf_branch]
    have hsub := subslice_isOk (l := bytes) (off := o) (len := vt.size) (by omega)
    rw [hsub]
    simp only
    rcases decodeInt_total (subslice_length hsub) with ⟨n, hn⟩ | hn
    · rw [hn]
      simp only
      cases hp : pickChild cs n with
      | none => exact ihf h3
      | some d =>
        obtain ⟨c, hc, rfl, _⟩ := pickChild_mem hp
        exact ihc c hc (checkChildren_ok h4 c hc)
    · rw [hn]; left; rfl

theorem discriminantOf_mono {a b : List (AByte P)} (hab : BLe a b) (disc : Discriminator) {d : Int}
    (h : discriminantOf disc a = .ok (some d)) : discriminantOf disc b = .ok (some d) := by
  induction disc using Discriminator.induct with
  | known d => exact h
  | invalid => exact h
  | branch o vt f cs ihf ihc =>
    rw [discriminantOf_branch] at h ⊢
    cases hs : subslice a o vt.size with
    | error e => simp [hs] at h
    | ok bs =>
      obtain ⟨bs', hs', hle⟩ := hab.subslice hs
      rw [hs] at h; rw [hs']
      simp only at h ⊢
      cases hd : decodeInt vt bs with
      | error e => rw [hd] at h; cases e <;> simp at h
      | ok n =>
        rw [hd] at h
        rw [decodeInt_mono hle hd]
        simp only at h ⊢
        cases hp : pickChild cs n with
        | none => rw [hp] at h; exact ihf h
        | some d =>
          rw [hp] at h
          obtain ⟨c, hc, rfl, _⟩ := pickChild_mem hp
          exact ihc c hc h

theorem discriminantOf_congr {a b : List (AByte P)} (hl : a.length = b.length) (disc : Discriminator)
    (h : ∀ i, disc.Reads i → a[i]? = b[i]?) : discriminantOf disc a = discriminantOf disc b := by
  induction disc using Discriminator.induct with
  | known d => rfl
  | invalid => rfl
  | branch o vt f cs ihf ihc =>
    rw [discriminantOf_branch, discriminantOf_branch]
    rw [subslice_congr hl fun i h1 h2 => h i (.here h1 h2)]
    cases subslice b o vt.size with
    | error e => rfl
    | ok bs =>
      simp only
      cases decodeInt vt bs with
      | error e => cases e <;> rfl
      | ok n =>
        simp only
        cases hp : pickChild cs n with
        | none => exact ihf fun i hi => h i (.fallback hi)
        | some d =>
          obtain ⟨c, hc, rfl, _⟩ := pickChild_mem hp
          exact ihc c hc fun i hi => h i (.child hc hi)

/-! ### Variants -/

theorem decodeVariant_eq (vs : Variants) (d : Int) (bytes : List (AByte P)) :
    decodeVariant vs d bytes = match Map.get? vs d with
      | none => panic
      | some v => decode v.1 bytes := by
  induction vs with
  | nil => rfl
  | cons v vs ih =>
    obtain ⟨d', ty, tg⟩ := v
    simp only [decodeVariant, Map.get?]
    split <;> simp_all

theorem encodeVariant_eq (vs : Variants) (d : Int) (data : Value P) :
    encodeVariant vs d data = match Map.get? vs d with
      | none => panic
      | some v => encode v.1 data >>= fun bytes => encodeDiscriminant writeSubslice v.2 bytes := by
  induction vs with
  | nil => rfl
  | cons v vs ih =>
    obtain ⟨d', ty, tg⟩ := v
    simp only [encodeVariant, Map.get?]
    split <;> simp_all

theorem checkVariant_eq (env : ValEnv P) (vs : Variants) (d : Int) (data : Value P) :
    checkVariant env vs d data = match Map.get? vs d with
      | none => ub
      | some v => checkValue env v.1 data := by
  induction vs with
  | nil => rfl
  | cons v vs ih =>
    obtain ⟨d', ty, tg⟩ := v
    simp only [checkVariant, Map.get?]
    split <;> simp_all

/-! ### Tags -/

theorem encodeDiscriminant_length {tg : Tagger} {a b : List (AByte P)}
    (h : encodeDiscriminant writeSubslice tg a = .ok b) : b.length = a.length := by
  induction tg generalizing a with
  | nil => simp [encodeDiscriminant] at h; rw [h]
  | cons e tg ih =>
    obtain ⟨o, vt, val⟩ := e
    simp only [encodeDiscriminant, Res.bind_eq_ok] at h
    obtain ⟨bs, h1, a', h2, h3⟩ := h
    rw [ih h3, writeSubslice_length h2]

theorem encodeDiscriminant_ok {tg : Tagger} {a : List (AByte P)} (htg : TaggerGood a.length tg) :
    ∃ b, encodeDiscriminant writeSubslice tg a = .ok b := by
  induction tg generalizing a with
  | nil => exact ⟨a, rfl⟩
  | cons e tg ih =>
    obtain ⟨o, vt, val⟩ := e
    obtain ⟨_, h1, h2⟩ := htg _ List.mem_cons_self
    simp only at h1 h2
    obtain ⟨ds, hds, he⟩ := encodeInt_ok (P := P) h1
    have hlen := encodeInt_length he
    have hw := writeSubslice_isOk (l := a) (off := o) (src := ds.map fun b => AByte.init b none)
      (by rw [hlen]; exact h2)
    simp only [encodeDiscriminant, he, Res.bind_ok, hw]
    apply ih
    rw [writeSubslice_length hw]
    exact fun e he => htg e (List.mem_cons_of_mem _ he)

theorem encodeDiscriminant_frame {tg : Tagger} {a b : List (AByte P)}
    (h : encodeDiscriminant writeSubslice tg a = .ok b) (i : Nat)
    (hi : ∀ e ∈ tg, ¬ (e.1 ≤ i ∧ i < e.1 + e.2.1.size)) : b[i]? = a[i]? := by
  induction tg generalizing a with
  | nil => simp [encodeDiscriminant] at h; rw [h]
  | cons e tg ih =>
    obtain ⟨o, vt, val⟩ := e
    simp only [encodeDiscriminant, Res.bind_eq_ok] at h
    obtain ⟨bs, h1, a', h2, h3⟩ := h
    rw [ih h3 (fun e he => hi e (List.mem_cons_of_mem _ he)), writeSubslice_getElem? h2,
      encodeInt_length h1, if_neg (hi _ List.mem_cons_self)]

theorem encodeDiscriminant_mono {tg : Tagger} {a b x y : List (AByte P)} (hab : BLe a b)
    (hx : encodeDiscriminant writeSubslice tg a = .ok x)
    (hy : encodeDiscriminant writeSubslice tg b = .ok y) : BLe x y := by
  induction tg generalizing a b with
  | nil => simp [encodeDiscriminant] at hx hy; subst hx; subst hy; exact hab
  | cons e tg ih =>
    obtain ⟨o, vt, val⟩ := e
    simp only [encodeDiscriminant, Res.bind_eq_ok] at hx hy
    obtain ⟨bs, h1, a', h2, h3⟩ := hx
    obtain ⟨bs', g1, b', g2, g3⟩ := hy
    rw [h1] at g1; cases g1
    obtain ⟨y', e1, e2⟩ := hab.write (BLe.refl bs) h2
    rw [g2] at e1; cases e1
    exact ih e2 h3 g3

theorem encodeDiscriminant_below {tg : Tagger} {a b : List (AByte P)} (hab : BLe a b)
    (h : ∀ e ∈ tg, ∃ tag, subslice b e.1 e.2.1.size = .ok tag ∧ decodeInt e.2.1 tag = .ok e.2.2) :
    ∃ y, encodeDiscriminant writeSubslice tg a = .ok y ∧ BLe y b := by
  induction tg generalizing a with
  | nil => exact ⟨a, rfl, hab⟩
  | cons e tg ih =>
    obtain ⟨tag, h1, h2⟩ := h _ List.mem_cons_self
    obtain ⟨o, vt, val⟩ := e
    simp only at h1 h2
    obtain ⟨bs, h3, h4⟩ := encodeInt_decodeInt h2
    obtain ⟨a', h5, h6⟩ := hab.write_below h1 h4
    obtain ⟨y, h7, h8⟩ := ih h6 fun e he => h e (List.mem_cons_of_mem _ he)
    exact ⟨y, by simp only [encodeDiscriminant, h3, Res.bind_ok, h5, h7], h8⟩

end
end MiniRust
