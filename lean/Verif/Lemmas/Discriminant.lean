import Verif.Lemmas.Places
import Verif.Props.SelfAssign
/-
Reading and writing discriminants through an accessor, compared with doing so on bytes.
-/
namespace MiniRust
variable {P S : Type} [DecidableEq P] [T : Target]

theorem decodeChildren_pick {acc : S → Nat → Nat → Res (List (AByte P) × S)} (cs : List ((Int × Int) × Discriminator))
    (v : Int) (s : S) : decodeDiscriminantChildren acc cs v s = (pickChild cs v).map (fun d => decodeDiscriminant acc d s) := by
  induction cs with
  | nil => rfl
  | cons c cs ih =>
    obtain ⟨⟨a, b⟩, d⟩ := c
    simp only [decodeDiscriminantChildren, pickChild]
    split
    · rfl
    · exact ih

/-- An accessor that reads from `bytes` computes the discriminant of `bytes`. -/
theorem decodeDiscriminant_sound {acc : S → Nat → Nat → Res (List (AByte P) × S)} {I : S → Prop} {bytes : List (AByte P)}
    {size : Nat} {has : Int → Bool} (hacc : ∀ s i n b s', I s → i + n ≤ size → acc s i n = .ok (b, s') → I s' ∧ subslice bytes i n = .ok b)
    (disc : Discriminator) (h : disc.checkWf size has = .ok ()) {s s' : S} {r} (hs : I s)
    (hd : decodeDiscriminant acc disc s = .ok (r, s')) : discriminantOf disc bytes = .ok r := by
  induction disc using Discriminator.induct generalizing s with
  | known d => simp only [decodeDiscriminant] at hd; cases hd; rfl
  | invalid => simp only [decodeDiscriminant] at hd; cases hd; rfl
  | branch o vt f cs ihf ihc =>
    simp only [Discriminator.checkWf, Res.bind_eq_ok, ensureWf_eq_ok, decide_eq_true_eq] at h
    obtain ⟨_, _, _, h2, _, h3, h4⟩ := h
    rw [discriminantOf_branch]
    simp only [decodeDiscriminant] at hd
    cases ha : acc s o vt.size with
    | error e => rw [ha] at hd; cases hd
    | ok q =>
      obtain ⟨b, s1⟩ := q
      obtain ⟨hs1, hsub⟩ := hacc _ _ _ _ _ hs h2 ha
      rw [ha] at hd
      rw [hsub]
      simp only at hd ⊢
      cases hi : decodeInt vt b with
      | error e => rw [hi] at hd; cases e <;> simp at hd ⊢; exact hd.1.symm ▸ rfl
      | ok n =>
        rw [hi] at hd
        simp only [decodeChildren_pick] at hd ⊢
        cases hp : pickChild cs n with
        | none => rw [hp] at hd; exact ihf h3 hs1 hd
        | some d =>
          rw [hp] at hd
          obtain ⟨c, hc, rfl, _⟩ := pickChild_mem hp
          exact ihc c hc (checkChildren_ok h4 c hc) hs1 hd

/-- If the accessor succeeds, so does decoding the discriminant. -/
theorem decodeDiscriminant_complete {acc : S → Nat → Nat → Res (List (AByte P) × S)} {I : S → Prop} {bytes : List (AByte P)}
    {size : Nat} {has : Int → Bool} (hacc : ∀ s i n, I s → i + n ≤ size → ∃ b s', acc s i n = .ok (b, s') ∧ I s' ∧ subslice bytes i n = .ok b)
    (disc : Discriminator) (h : disc.checkWf size has = .ok ()) {s : S} {r} (hs : I s)
    (hd : discriminantOf disc bytes = .ok r) : ∃ s', decodeDiscriminant acc disc s = .ok (r, s') := by
  induction disc using Discriminator.induct generalizing s with
  | known d => cases hd; exact ⟨s, by simp only [decodeDiscriminant]⟩
  | invalid => cases hd; exact ⟨s, by simp only [decodeDiscriminant]⟩
  | branch o vt f cs ihf ihc =>
    simp only [Discriminator.checkWf, Res.bind_eq_ok, ensureWf_eq_ok, decide_eq_true_eq] at h
    obtain ⟨_, _, _, h2, _, h3, h4⟩ := h
    rw [discriminantOf_branch] at hd
    obtain ⟨b, s1, ha, hs1, hsub⟩ := hacc _ _ _ hs h2
    simp only [decodeDiscriminant, ha]
    rw [hsub] at hd
    simp only at hd
    cases hi : decodeInt vt b with
    | error e => rw [hi] at hd; cases e <;> simp at hd ⊢; exact hd
    | ok n =>
      rw [hi] at hd
      simp only [decodeChildren_pick] at hd ⊢
      cases hp : pickChild cs n with
      | none => rw [hp] at hd; exact ihf h3 hs1 hd
      | some d =>
        rw [hp] at hd
        obtain ⟨c, hc, rfl, _⟩ := pickChild_mem hp
        exact ihc c hc (checkChildren_ok h4 c hc) hs1 hd

/-- An accessor that writes into `bytes` writes the tag into `bytes`. -/
theorem encodeDiscriminant_sound {acc : S → Nat → List (AByte P) → Res S} {I : S → List (AByte P) → Prop} {size : Nat} {tg : Tagger}
    (hacc : ∀ s b i bs s', I s b → i + bs.length ≤ size → acc s i bs = .ok s' → ∃ b', I s' b' ∧ writeSubslice b i bs = .ok b')
    (hg : TaggerGood size tg) {s s' : S} {b} (hs : I s b) (h : encodeDiscriminant acc tg s = .ok s') :
    ∃ b', I s' b' ∧ encodeDiscriminant writeSubslice tg b = .ok b' := by
  induction tg generalizing s b with
  | nil => simp only [encodeDiscriminant] at h; cases h; exact ⟨b, hs, rfl⟩
  | cons e tg ih =>
    obtain ⟨o, vt, val⟩ := e
    simp only [encodeDiscriminant, Res.bind_eq_ok] at h
    obtain ⟨bs, h1, s1, h2, h3⟩ := h
    have hl := encodeInt_length h1
    obtain ⟨_, _, hz⟩ := hg _ List.mem_cons_self
    obtain ⟨b1, hs1, hw⟩ := hacc _ _ _ _ _ hs (by simp only at hz; omega) h2
    obtain ⟨b', hb', he⟩ := ih (fun e he => hg e (List.mem_cons_of_mem _ he)) hs1 h3
    refine ⟨b', hb', ?_⟩
    simp only [encodeDiscriminant, h1, hw, Res.bind_ok, he]

/-- The same accessor succeeds if its writes do. -/
theorem encodeDiscriminant_complete {acc : S → Nat → List (AByte P) → Res S} {I : S → Prop} {size : Nat} {tg : Tagger}
    (hacc : ∀ s i bs, I s → i + bs.length ≤ size → ∃ s', acc s i bs = .ok s' ∧ I s')
    (hg : TaggerGood size tg) {s : S} (hs : I s) : ∃ s', encodeDiscriminant acc tg s = .ok s' := by
  induction tg generalizing s with
  | nil => exact ⟨s, rfl⟩
  | cons e tg ih =>
    obtain ⟨o, vt, val⟩ := e
    obtain ⟨_, h1, hz⟩ := hg _ List.mem_cons_self
    simp only at h1 hz
    obtain ⟨ds, _, he⟩ := encodeInt_ok (P := P) h1
    obtain ⟨s1, h2, hs1⟩ := hacc s o _ hs (by rw [encodeInt_length he]; exact hz)
    obtain ⟨s', h3⟩ := ih (fun e he => hg e (List.mem_cons_of_mem _ he)) hs1
    refine ⟨s', ?_⟩
    simp only [encodeDiscriminant, he, Res.bind_ok, h2, h3]

/-- Bytes that hold the data of a variant hold that variant once its tag is written. -/
theorem decode_set_variant [LawfulTarget T] {env : ValEnv P} {vs : Variants} {dt disc size al} (hg : (Ty.enum vs dt disc size al).Good)
    (hco : (Ty.enum vs dt disc size al).Coherent env) {d : Int} {t tg} (hd : Map.get? vs d = some (t, tg)) {b b' : List (AByte P)} {v}
    (hl : b.length = size) (hv : decode t b = .ok v) (hc : checkValue env t v = .ok ())
    (hb : encodeDiscriminant writeSubslice tg b = .ok b') :
    decode (.enum vs dt disc size al) b' = .ok (.variant d v) ∧ discriminantOf disc b' = .ok (some d) := by
  cases hg with
  | enum hvg hs ht hdt hdisc =>
    have hmem := Map.get?_mem hd
    have hcoh := hco vs dt disc size al .refl
    have hcot : t.Coherent env := hco.sub fun x hx => .variant hmem hx
    have hsz := hs _ hmem
    simp only at hsz
    obtain ⟨b0, e0, hle⟩ := encode_decode_good env (hvg _ hmem) hcot (by rw [hsz]; exact hl) hv
    have hl0 : b0.length = size := by rw [hle.length, hl]
    obtain ⟨b0', e0'⟩ := encodeDiscriminant_ok (tg := tg) (a := b0) (by rw [hl0]; exact ht _ hmem)
    have hle' := encodeDiscriminant_mono hle e0' hb
    have henc : encodeVariant vs d v = .ok b0' := by
      rw [encodeVariant_eq, hd]
      simp only [e0, Res.bind_ok, e0']
    have hdc := discriminantOf_mono hle' disc (hcoh.disc_complete _ hmem v hc b0' henc)
    have hl' : b'.length = size := by rw [encodeDiscriminant_length hb, hl]
    refine ⟨?_, hdc⟩
    rw [decode_enum_eq hl', hdc]
    simp only [Res.bind_ok]
    rw [decodeVariant_eq, hd]
    simp only
    rw [decode_congr_good (hvg _ hmem) (b := b) (by rw [hsz]; exact hl') (by rw [hsz]; exact hl), hv]
    · rfl
    · intro i hi
      apply encodeDiscriminant_frame hb
      rintro e he ⟨h3, h4⟩
      exact hcoh.tag_not_data _ hmem e he i h3 h4 hi

end MiniRust
