import Verif.Chunks
import Verif.Lemmas.ReprLaws2
import Verif.Spec.Chunks
/-
What `mark_used_bytes` marks, and what the scan for chunks returns.
-/
set_option linter.unusedSectionVars false
namespace MiniRust

/-- `f` sets exactly the markers in `D` and changes no other. -/
def Marks (f : List Bool → Res (List Bool)) (D : Nat → Prop) : Prop :=
  ∀ l l', f l = .ok l' → l'.length = l.length ∧ ∀ k, l'[k]? = some true ↔ l[k]? = some true ∨ D k

/-- `f` does not panic on `n` markers or more. -/
def Fits (f : List Bool → Res (List Bool)) (n : Nat) : Prop := ∀ l, n ≤ l.length → ∃ l', f l = .ok l'

theorem Marks.congr {f D E} (h : Marks f D) (hde : ∀ k, D k ↔ E k) : Marks f E :=
  fun l l' hl => ⟨(h l l' hl).1, fun k => by rw [(h l l' hl).2 k, hde]⟩

theorem marks_nil : Marks (fun l => .ok l) (fun _ => False) := by
  intro l l' h
  simp only [Except.ok.injEq] at h
  subst h
  simp

theorem Marks.seq {f g D E} (hf : Marks f D) (hg : Marks g E) :
    Marks (fun l => f l >>= g) (fun k => D k ∨ E k) := by
  intro l l' h
  simp only [Res.bind_eq_ok] at h
  obtain ⟨m, h1, h2⟩ := h
  obtain ⟨a1, a2⟩ := hf _ _ h1
  obtain ⟨b1, b2⟩ := hg _ _ h2
  exact ⟨by omega, fun k => by rw [b2, a2, or_assoc]⟩

theorem Fits.seq {f g D n} (hf : Fits f n) (hm : Marks f D) (hg : Fits g n) :
    Fits (fun l => f l >>= g) n := by
  intro l hl
  obtain ⟨m, h1⟩ := hf l hl
  obtain ⟨m', h2⟩ := hg m (by rw [(hm _ _ h1).1]; exact hl)
  exact ⟨m', by simp only [h1, Res.bind_ok, h2]⟩

theorem Fits.mono {f n n'} (h : Fits f n) (hn : n ≤ n') : Fits f n' := fun l hl => h l (by omega)

theorem fits_nil {n} : Fits (fun l => .ok l) n := fun l _ => ⟨l, rfl⟩

theorem Marks.from {f D} (hf : Marks f D) (off : Nat) :
    Marks (markFrom off f) (fun k => off ≤ k ∧ D (k - off)) := by
  intro l l' h
  unfold markFrom at h
  split at h
  case isFalse => cases h
  case isTrue ho =>
  simp only [Res.bind_eq_ok, Except.ok.injEq] at h
  obtain ⟨t, h1, rfl⟩ := h
  obtain ⟨a1, a2⟩ := hf _ _ h1
  have ht : (l.take off).length = off := by simp; omega
  refine ⟨by simp [a1]; omega, fun k => ?_⟩
  by_cases hk : off ≤ k
  · rw [List.getElem?_append_right (by omega), ht, a2, List.getElem?_drop]
    simp [hk]
  · rw [List.getElem?_append_left (by omega), List.getElem?_take, if_pos (by omega)]
    simp [hk]

theorem Fits.from {f n} (hf : Fits f n) (off : Nat) : Fits (markFrom off f) (off + n) := by
  intro l hl
  obtain ⟨t, h1⟩ := hf (l.drop off) (by simp; omega)
  exact ⟨_, by rw [markFrom, if_pos (by omega), h1]; rfl⟩

theorem markLoop_spec : ∀ (n i : Nat) (l l' : List Bool), markLoop n i l = .ok l' →
    l'.length = l.length ∧ ∀ k, l'[k]? = some true ↔ l[k]? = some true ∨ (i ≤ k ∧ k < i + n)
  | 0, i, l, l', h => by
    simp only [markLoop, Except.ok.injEq] at h
    subst h
    exact ⟨rfl, fun k => ⟨.inl, fun h => h.elim id fun h => by omega⟩⟩
  | n + 1, i, l, l', h => by
    unfold markLoop at h
    split at h
    case isFalse => cases h
    case isTrue hi =>
    obtain ⟨h1, h2⟩ := markLoop_spec n (i + 1) _ _ h
    refine ⟨by simpa using h1, fun k => ?_⟩
    rw [h2 k, List.getElem?_set]
    by_cases hik : i = k
    · subst hik
      simp [hi]
    · simp only [if_neg hik]
      constructor
      · rintro (h | h)
        · exact .inl h
        · exact .inr ⟨by omega, by omega⟩
      · rintro (h | h)
        · exact .inl h
        · exact .inr ⟨by omega, by omega⟩

theorem markSize_marks (n : Nat) : Marks (markSize n) (fun k => k < n) := fun l l' h => by
  obtain ⟨h1, h2⟩ := markLoop_spec n 0 l l' h
  exact ⟨h1, fun k => by simpa using h2 k⟩

theorem markLoop_ok : ∀ (n i : Nat) (l : List Bool), i + n ≤ l.length → ∃ l', markLoop n i l = .ok l'
  | 0, _, l, _ => ⟨l, rfl⟩
  | n + 1, i, l, h => by
    unfold markLoop
    rw [if_pos (by omega)]
    exact markLoop_ok n (i + 1) _ (by simp; omega)

theorem markSize_fits (n : Nat) : Fits (markSize n) n := fun l h => markLoop_ok n 0 l (by omega)

theorem range_marks (off n : Nat) : Marks (markFrom off (markSize n)) (fun k => off ≤ k ∧ k < off + n) :=
  ((markSize_marks n).from off).congr fun k => by constructor <;> rintro ⟨h1, h2⟩ <;> exact ⟨h1, by omega⟩

/-! ### Loops over lists -/

/-- A loop that runs `f x` for each `x` of a list. -/
theorem marks_list {α : Type} {f : α → List Bool → Res (List Bool)} {loop : List α → List Bool → Res (List Bool)}
    (h0 : ∀ l, loop [] l = .ok l) (h1 : ∀ x xs l, loop (x :: xs) l = (f x l >>= loop xs)) {D : α → Nat → Prop} :
    ∀ xs : List α, (∀ x ∈ xs, Marks (f x) (D x)) → Marks (loop xs) (fun k => ∃ x ∈ xs, D x k)
  | [], _ => by
    have : loop [] = fun l => .ok l := funext h0
    rw [this]
    exact marks_nil.congr (by simp)
  | x :: xs, h => by
    have : loop (x :: xs) = fun l => f x l >>= loop xs := funext (h1 x xs)
    rw [this]
    exact ((h x (by simp)).seq (marks_list h0 h1 xs fun y hy => h y (by simp [hy]))).congr (by simp)

theorem fits_list {α : Type} {f : α → List Bool → Res (List Bool)} {loop : List α → List Bool → Res (List Bool)}
    (h0 : ∀ l, loop [] l = .ok l) (h1 : ∀ x xs l, loop (x :: xs) l = (f x l >>= loop xs)) {D : α → Nat → Prop} {n : Nat} :
    ∀ xs : List α, (∀ x ∈ xs, Marks (f x) (D x)) → (∀ x ∈ xs, Fits (f x) n) → Fits (loop xs) n
  | [], _, _ => by
    have : loop [] = fun l => .ok l := funext h0
    rw [this]
    exact fits_nil
  | x :: xs, h, h' => by
    have : loop (x :: xs) = fun l => f x l >>= loop xs := funext (h1 x xs)
    rw [this]
    exact (h' x (by simp)).seq (h x (by simp))
      (fits_list h0 h1 xs (fun y hy => h y (by simp [hy])) fun y hy => h' y (by simp [hy]))

theorem markChunks_marks (cs : List (Nat × Nat)) : Marks (markChunks cs) (InRanges cs) :=
  (marks_list (f := fun c => markFrom c.1 (markSize c.2)) (fun _ => rfl) (fun _ _ _ => rfl)
    (D := fun c k => c.1 ≤ k ∧ k < c.1 + c.2) cs fun c _ => range_marks c.1 c.2).congr fun _ => Iff.rfl

theorem markChunks_fits {n : Nat} (cs : List (Nat × Nat)) (h : ∀ c ∈ cs, c.1 + c.2 ≤ n) : Fits (markChunks cs) n :=
  fits_list (f := fun c => markFrom c.1 (markSize c.2)) (fun _ => rfl) (fun _ _ _ => rfl) cs
    (fun c _ => range_marks c.1 c.2) fun c hc => ((markSize_fits c.2).from c.1).mono (h c hc)

theorem markTagger_marks (t : Tagger) :
    Marks (markTagger t) (fun k => ∃ e ∈ t, e.1 ≤ k ∧ k < e.1 + e.2.1.size) :=
  marks_list (f := fun e => markFrom e.1 (markSize e.2.1.size)) (fun _ => rfl) (fun _ _ _ => rfl)
    (D := fun e k => e.1 ≤ k ∧ k < e.1 + e.2.1.size) t fun c _ => range_marks c.1 _

theorem markTagger_fits {n : Nat} (t : Tagger) (h : ∀ e ∈ t, e.1 + e.2.1.size ≤ n) : Fits (markTagger t) n :=
  fits_list (f := fun e => markFrom e.1 (markSize e.2.1.size)) (fun _ => rfl) (fun _ _ _ => rfl) t
    (fun c _ => range_marks c.1 _) fun c hc => ((markSize_fits _).from c.1).mono (h c hc)

theorem markDiscriminator_marks (d : Discriminator) : Marks (markDiscriminator d) d.Reads := by
  induction d using Discriminator.induct with
  | known d => exact marks_nil.congr fun k => ⟨False.elim, fun h => nomatch h⟩
  | invalid => exact marks_nil.congr fun k => ⟨False.elim, fun h => nomatch h⟩
  | branch o vt f cs ihf ihc =>
    have hcs : Marks (markChildren cs) (fun k => ∃ c ∈ cs, c.2.Reads k) :=
      marks_list (f := fun c => markDiscriminator c.2) (fun l => by simp [markChildren])
        (fun _ _ _ => by simp [markChildren]) cs ihc
    have : markDiscriminator (.branch o vt f cs) = fun l => markFrom o (markSize vt.size) l >>= fun l =>
        markDiscriminator f l >>= markChildren cs := by
      funext l; simp only [markDiscriminator]
    rw [this]
    refine ((range_marks o vt.size).seq (ihf.seq hcs)).congr fun k => ?_
    constructor
    · rintro (⟨h1, h2⟩ | h | ⟨c, hc, h⟩)
      · exact .here h1 h2
      · exact .fallback h
      · exact .child hc h
    · intro h
      cases h with
      | here h1 h2 => exact .inl ⟨h1, h2⟩
      | fallback h => exact .inr (.inl h)
      | child hc h => exact .inr (.inr ⟨_, hc, h⟩)

theorem markDiscriminator_fits {size : Nat} {has : Int → Bool} (d : Discriminator) (h : d.checkWf size has = .ok ()) :
    Fits (markDiscriminator d) size := by
  induction d using Discriminator.induct with
  | known d => exact fun l _ => ⟨l, by simp [markDiscriminator]⟩
  | invalid => exact fun l _ => ⟨l, by simp [markDiscriminator]⟩
  | branch o vt f cs ihf ihc =>
    simp only [Discriminator.checkWf, Res.bind_eq_ok, ensureWf_eq_ok, decide_eq_true_eq] at h
    obtain ⟨_, _, _, h2, _, h3, h4⟩ := h
    have hcs : Fits (markChildren cs) size :=
      fits_list (f := fun c => markDiscriminator c.2) (fun l => by simp [markChildren])
        (fun _ _ _ => by simp [markChildren]) cs (fun c _ => markDiscriminator_marks c.2)
        fun c hc => ihc c hc (checkChildren_ok h4 c hc)
    have : markDiscriminator (.branch o vt f cs) = fun l => markFrom o (markSize vt.size) l >>= fun l =>
        markDiscriminator f l >>= markChildren cs := by
      funext l; simp only [markDiscriminator]
    rw [this]
    exact (((markSize_fits vt.size).from o).mono h2).seq (range_marks o vt.size)
      ((ihf h3).seq (markDiscriminator_marks f) hcs)

/-! ### Types -/
section
variable [T : Target]

/-- The bytes `mark_used_bytes` marks: like `UsesByte`, but only the first word of a pointer. -/
inductive MarkedByte : Ty → Nat → Prop
  | int {it i} : i < it.size → MarkedByte (.int it) i
  | bool : MarkedByte .bool 0
  | ptr {p i} : i < T.ptrSize → MarkedByte (.ptr p) i
  | field {fs h t off ty i} : (off, ty) ∈ fs → MarkedByte ty i → MarkedByte (.tuple fs h t) (off + i)
  | elem {e count n i} {k : Nat} : e.size = .ok n → (k : Int) < count → MarkedByte e i →
      MarkedByte (.array e count) (k * n + i)
  | chunk {fs cs s a off n i} : (off, n) ∈ cs → off ≤ i → i < off + n →
      MarkedByte (.union fs cs s a) i
  | variant {vs dt disc s a v i} : v ∈ vs → MarkedByte v.2.1 i → MarkedByte (.enum vs dt disc s a) i
  | tag {vs dt disc s a v e i} : v ∈ vs → e ∈ v.2.2 → e.1 ≤ i → i < e.1 + e.2.1.size →
      MarkedByte (.enum vs dt disc s a) i
  | disc {vs dt disc s a i} : Discriminator.Reads disc i → MarkedByte (.enum vs dt disc s a) i

theorem MarkedByte.uses {ty : Ty} {k : Nat} (h : MarkedByte ty k) : UsesByte ty k := by
  induction h with
  | int h => exact .int h
  | bool => exact .bool
  | @ptr p i h =>
    by_cases hp : p.metaKind = .none
    · exact .thin hp h
    · exact .wide hp (by omega)
  | field h _ ih => exact .field h ih
  | elem h1 h2 _ ih => exact .elem h1 h2 ih
  | chunk h1 h2 h3 => exact .chunk h1 h2 h3
  | variant h _ ih => exact .variant h ih
  | tag h1 h2 h3 h4 => exact .tag h1 h2 h3 h4
  | disc h => exact .disc h

theorem UsesByte.marked {ty : Ty} {k : Nat} (h : UsesByte ty k) (ht : OnlyThin ty) : MarkedByte ty k := by
  induction h with
  | int h => exact .int h
  | bool => exact .bool
  | thin hp h => exact .ptr h
  | @wide p i hp h => exact absurd (ht p .refl) hp
  | field h _ ih => exact .field h (ih fun p hp => ht p (.field h hp))
  | elem h1 h2 _ ih => exact .elem h1 h2 (ih fun p hp => ht p (.elem hp))
  | chunk h1 h2 h3 => exact .chunk h1 h2 h3
  | variant h _ ih => exact .variant h (ih fun p hp => ht p (.variant h hp))
  | tag h1 h2 h3 h4 => exact .tag h1 h2 h3 h4
  | disc h => exact .disc h

theorem markElems_marks {size : Res Nat} {f : List Bool → Res (List Bool)} {D : Nat → Prop} (hf : Marks f D) :
    ∀ n i, Marks (markElems size f n i)
      (fun k => ∃ j s, i ≤ j ∧ j < i + n ∧ size = .ok s ∧ j * s ≤ k ∧ D (k - j * s))
  | 0, i => marks_nil.congr fun k => ⟨False.elim, fun ⟨j, s, h1, h2, _⟩ => by omega⟩
  | n + 1, i => by
    intro l l' h
    simp only [markElems, Res.bind_eq_ok] at h
    obtain ⟨s, hs, m, h1, h2⟩ := h
    obtain ⟨a1, a2⟩ := hf.from (i * s) _ _ h1
    obtain ⟨b1, b2⟩ := markElems_marks hf n (i + 1) _ _ h2
    refine ⟨by omega, fun k => ?_⟩
    rw [b2, a2, or_assoc]
    apply or_congr Iff.rfl
    constructor
    · rintro (⟨h, h'⟩ | ⟨j, s', h3, h4, h5⟩)
      · exact ⟨i, s, by omega, by omega, hs, h, h'⟩
      · exact ⟨j, s', by omega, by omega, h5⟩
    · rintro ⟨j, s', h3, h4, h5, h6, h7⟩
      rw [hs] at h5
      cases h5
      by_cases hj : j = i
      · subst hj; exact .inl ⟨h6, h7⟩
      · exact .inr ⟨j, s, by omega, by omega, hs, h6, h7⟩

theorem markElems_fits {s : Nat} {f : List Bool → Res (List Bool)} {D : Nat → Prop} (hm : Marks f D) (hf : Fits f s) :
    ∀ n i, Fits (markElems (.ok s) f n i) (s * (i + n))
  | 0, _ => fun l _ => ⟨l, rfl⟩
  | n + 1, i => by
    have heq : markElems (.ok s) f (n + 1) i = fun l => markFrom (i * s) f l >>= markElems (.ok s) f n (i + 1) := by
      funext l; simp only [markElems, Res.bind_ok]
    rw [heq]
    have h1 : i * s + s ≤ s * (i + (n + 1)) := by
      have : s * (i + (n + 1)) = i * s + s + s * n := by ring
      omega
    have h2 : s * (i + 1 + n) = s * (i + (n + 1)) := by congr 1; omega
    exact ((hf.from (i * s)).mono h1).seq (hm.from _) (h2 ▸ markElems_fits hm hf n (i + 1))

theorem markFields_marks_of {fs : List (Nat × Ty)} (ih : ∀ f ∈ fs, Marks (markUsedBytes f.2) (MarkedByte f.2)) :
    Marks (markFields fs) (fun k => ∃ f ∈ fs, f.1 ≤ k ∧ MarkedByte f.2 (k - f.1)) :=
  marks_list (f := fun f => markFrom f.1 (markUsedBytes f.2)) (fun l => by simp [markFields])
    (fun f fs l => by obtain ⟨o, t⟩ := f; simp [markFields]) fs fun f hf => (ih f hf).from f.1

theorem markVariants_marks_of {vs : Variants} (ih : ∀ v ∈ vs, Marks (markUsedBytes v.2.1) (MarkedByte v.2.1)) :
    Marks (markVariants vs) (fun k => ∃ v ∈ vs, MarkedByte v.2.1 k ∨ ∃ e ∈ v.2.2, e.1 ≤ k ∧ k < e.1 + e.2.1.size) :=
  marks_list (f := fun v l => markUsedBytes v.2.1 l >>= markTagger v.2.2) (fun l => by simp [markVariants])
    (fun v vs l => by
      obtain ⟨d, t, g⟩ := v
      simp only [markVariants]
      cases markUsedBytes t l <;> rfl) vs fun v hv => (ih v hv).seq (markTagger_marks v.2.2)

theorem markUsedBytes_marks (ty : Ty) : Marks (markUsedBytes ty) (MarkedByte ty) := by
  induction ty using Ty.induct with
  | int i =>
    refine ((markSize_marks i.size).congr fun k => ?_ : Marks (markSize i.size) _)
    exact ⟨.int, fun h => by cases h; assumption⟩
  | bool =>
    refine ((markSize_marks 1).congr fun k => ?_ : Marks (markSize 1) _)
    constructor
    · intro h
      obtain rfl : k = 0 := by omega
      exact .bool
    · intro h; cases h; omega
  | ptr p =>
    refine ((markSize_marks T.ptrSize).congr fun k => ?_ : Marks (markSize T.ptrSize) _)
    exact ⟨.ptr, fun h => by cases h; assumption⟩
  | tuple fs h tail ih _ =>
    cases tail with
    | some t => intro l l' hl; simp [markUsedBytes] at hl
    | none =>
      have : markUsedBytes (.tuple fs h none) = markFields fs := by funext l; simp [markUsedBytes]
      rw [this]
      refine (markFields_marks_of ih).congr fun k => ?_
      constructor
      · rintro ⟨⟨o, t⟩, hf, h1, h2⟩
        have : k = o + (k - o) := by simp only at h1; omega
        rw [this]
        exact .field hf h2
      · intro h
        cases h with
        | field hf h => exact ⟨_, hf, by simp, by simpa using h⟩
  | array e n ih =>
    have : markUsedBytes (.array e n) = markElems e.size (markUsedBytes e) n.toNat 0 := by
      funext l; simp only [markUsedBytes]
    rw [this]
    refine (markElems_marks ih n.toNat 0).congr fun k => ?_
    constructor
    · rintro ⟨j, s, _, h2, h3, h4, h5⟩
      have : k = j * s + (k - j * s) := by omega
      rw [this]
      exact .elem h3 (by omega) h5
    · intro h
      cases h with
      | @elem _ _ n i j h1 h2 h3 => exact ⟨j, n, by omega, by omega, h1, by omega, by simpa using h3⟩
  | slice e _ => intro l l' hl; simp [markUsedBytes] at hl
  | union fs c s a _ =>
    have : markUsedBytes (.union fs c s a) = markChunks c := by funext l; simp [markUsedBytes]
    rw [this]
    refine (markChunks_marks c).congr fun k => ?_
    constructor
    · rintro ⟨⟨o, n⟩, h1, h2, h3⟩
      exact .chunk h1 h2 h3
    · intro h
      cases h with
      | chunk h1 h2 h3 => exact ⟨_, h1, h2, h3⟩
  | enum vs dt d s a ih =>
    have : markUsedBytes (.enum vs dt d s a) = fun l => markVariants vs l >>= markDiscriminator d := by
      funext l; simp only [markUsedBytes]
    rw [this]
    refine ((markVariants_marks_of ih).seq (markDiscriminator_marks d)).congr fun k => ?_
    constructor
    · rintro (⟨v, hv, h | ⟨e, he, h1, h2⟩⟩ | h)
      · exact .variant hv h
      · exact .tag hv he h1 h2
      · exact .disc h
    · intro h
      cases h with
      | variant hv h => exact .inl ⟨_, hv, .inl h⟩
      | tag hv he h1 h2 => exact .inl ⟨_, hv, .inr ⟨_, he, h1, h2⟩⟩
      | disc h => exact .inr h
  | traitObject t => intro l l' hl; simp [markUsedBytes] at hl

theorem markFields_marks (fs : List (Nat × Ty)) :
    Marks (markFields fs) (fun k => ∃ f ∈ fs, f.1 ≤ k ∧ MarkedByte f.2 (k - f.1)) :=
  markFields_marks_of fun f _ => markUsedBytes_marks f.2

theorem markFields_fits_of {fs : List (Nat × Ty)} {n : Nat} (ih : ∀ f ∈ fs, Fits (markUsedBytes f.2) f.2.sz)
    (hn : ∀ f ∈ fs, f.1 + f.2.sz ≤ n) : Fits (markFields fs) n :=
  fits_list (f := fun f => markFrom f.1 (markUsedBytes f.2)) (fun l => by simp [markFields])
    (fun f fs l => by obtain ⟨o, t⟩ := f; simp [markFields]) fs
    (fun f _ => (markUsedBytes_marks f.2).from f.1) fun f hf => ((ih f hf).from f.1).mono (hn f hf)

theorem markUsedBytes_fits {ty : Ty} (hg : ty.Good) : Fits (markUsedBytes ty) ty.sz := by
  induction hg with
  | @int i _ => exact (markSize_fits i.size : Fits (markSize i.size) i.size)
  | bool => exact (markSize_fits 1 : Fits (markSize 1) 1)
  | @ptr p =>
    refine (markSize_fits T.ptrSize : Fits (markSize T.ptrSize) T.ptrSize).mono ?_
    simp only [Ty.sz]; split <;> omega
  | @tuple fs h _ _ hn ih =>
    have : markUsedBytes (.tuple fs h none) = markFields fs := by funext l; simp [markUsedBytes]
    rw [this]
    exact markFields_fits_of ih hn
  | @array e n hn hg ih =>
    have : markUsedBytes (.array e n) = markElems (.ok e.sz) (markUsedBytes e) n.toNat 0 := by
      funext l; simp only [markUsedBytes, hg.size]
    rw [this]
    simpa [Ty.sz] using markElems_fits (markUsedBytes_marks e) ih n.toNat 0
  | @union fs c s a _ _ _ hc _ =>
    have : markUsedBytes (.union fs c s a) = markChunks c := by funext l; simp [markUsedBytes]
    rw [this]
    exact markChunks_fits c hc
  | @enum vs dt d s a _ hs ht _ hd ih =>
    have : markUsedBytes (.enum vs dt d s a) = fun l => markVariants vs l >>= markDiscriminator d := by
      funext l; simp only [markUsedBytes]
    rw [this]
    have hvs : Fits (markVariants vs) s :=
      fits_list (f := fun v l => markUsedBytes v.2.1 l >>= markTagger v.2.2) (fun l => by simp [markVariants])
        (fun v vs l => by
          obtain ⟨d, t, g⟩ := v
          simp only [markVariants]
          cases markUsedBytes t l <;> rfl) vs
        (fun v _ => (markUsedBytes_marks v.2.1).seq (markTagger_marks v.2.2))
        fun v hv => ((hs v hv) ▸ ih v hv).seq (markUsedBytes_marks v.2.1)
          (markTagger_fits v.2.2 fun e he => (ht v hv e he).2.2)
    exact hvs.seq (markVariants_marks_of fun v _ => markUsedBytes_marks v.2.1) (markDiscriminator_fits d hd)

end

/-! ### The scan -/

theorem Separated.mono {cs : List (Nat × Nat)} {lo lo' hi : Nat} (h : Separated cs lo hi) (hl : lo' ≤ lo) :
    Separated cs lo' hi := by
  cases cs with
  | nil => trivial
  | cons c cs => obtain ⟨h1, h2⟩ := h; exact ⟨by omega, h2⟩

theorem inRanges_cons {c : Nat × Nat} {cs : List (Nat × Nat)} {k : Nat} :
    InRanges (c :: cs) k ↔ (c.1 ≤ k ∧ k < c.1 + c.2) ∨ InRanges cs k := by
  simp [InRanges]

theorem getElem?_cons_true {b : Bool} {l : List Bool} {i k : Nat} (h : i ≤ k) :
    (b :: l)[k - i]? = some true ↔ (k = i ∧ b = true) ∨ (i + 1 ≤ k ∧ l[k - (i + 1)]? = some true) := by
  by_cases hk : k = i
  · subst hk; simp
  · have : k - i = (k - (i + 1)) + 1 := by omega
    rw [this, List.getElem?_cons_succ]
    simp [hk, show i + 1 ≤ k by omega]

/-- The scan returns the maximal runs of `true`; a run that started at `s` is still open. -/
theorem scanChunks_spec : ∀ (l : List Bool) (i : Nat),
    (Separated (scanChunks (l ++ [false]) i none) i (i + l.length) ∧
      ∀ k, InRanges (scanChunks (l ++ [false]) i none) k ↔ i ≤ k ∧ l[k - i]? = some true) ∧
    ∀ s, s < i → Separated (scanChunks (l ++ [false]) i (some s)) s (i + l.length) ∧
      ∀ k, InRanges (scanChunks (l ++ [false]) i (some s)) k ↔
        (s ≤ k ∧ k < i) ∨ (i ≤ k ∧ l[k - i]? = some true)
  | [], i => by
    refine ⟨⟨trivial, fun k => by simp [scanChunks, InRanges]⟩, fun s hs => ⟨?_, fun k => ?_⟩⟩
    · exact ⟨Nat.le_refl _, by omega, by simp only [List.length_nil]; omega, trivial⟩
    · simp only [List.nil_append, scanChunks, inRanges_cons]
      simp only [InRanges, List.not_mem_nil, false_and, exists_false, or_false, List.getElem?_nil, reduceCtorEq, and_false]
      omega
  | b :: l, i => by
    obtain ⟨⟨h1, h2⟩, h3⟩ := scanChunks_spec l (i + 1)
    have hlen : i + 1 + l.length = i + (b :: l).length := by simp; omega
    cases b with
    | true =>
      refine ⟨?_, fun s hs => ?_⟩
      · obtain ⟨g1, g2⟩ := h3 i (by omega)
        simp only [List.cons_append, scanChunks]
        refine ⟨hlen ▸ g1, fun k => ?_⟩
        rw [g2]
        constructor
        · rintro (h | ⟨h, h'⟩)
          · exact ⟨by omega, (getElem?_cons_true (by omega)).2 (.inl ⟨by omega, rfl⟩)⟩
          · exact ⟨by omega, (getElem?_cons_true (by omega)).2 (.inr ⟨h, h'⟩)⟩
        · rintro ⟨h, h'⟩
          rcases (getElem?_cons_true h).1 h' with ⟨h, _⟩ | h
          · exact .inl ⟨by omega, by omega⟩
          · exact .inr h
      · obtain ⟨g1, g2⟩ := h3 s (by omega)
        simp only [List.cons_append, scanChunks]
        refine ⟨hlen ▸ g1, fun k => ?_⟩
        rw [g2]
        constructor
        · rintro (h | ⟨h, h'⟩)
          · by_cases hk : k = i
            · exact .inr ⟨by omega, (getElem?_cons_true (by omega)).2 (.inl ⟨hk, rfl⟩)⟩
            · exact .inl ⟨by omega, by omega⟩
          · exact .inr ⟨by omega, (getElem?_cons_true (by omega)).2 (.inr ⟨h, h'⟩)⟩
        · rintro (h | ⟨h, h'⟩)
          · exact .inl ⟨by omega, by omega⟩
          · rcases (getElem?_cons_true h).1 h' with ⟨h, _⟩ | h
            · exact .inl ⟨by omega, by omega⟩
            · exact .inr h
    | false =>
      have hn : ∀ k, InRanges (scanChunks (l ++ [false]) (i + 1) none) k ↔ i ≤ k ∧ (false :: l)[k - i]? = some true := by
        intro k
        rw [h2]
        constructor
        · rintro ⟨h, h'⟩
          exact ⟨by omega, (getElem?_cons_true (by omega)).2 (.inr ⟨h, h'⟩)⟩
        · rintro ⟨h, h'⟩
          rcases (getElem?_cons_true h).1 h' with ⟨_, h⟩ | h
          · cases h
          · exact h
      refine ⟨?_, fun s hs => ?_⟩
      · simp only [List.cons_append, scanChunks]
        exact ⟨hlen ▸ h1.mono (by omega), hn⟩
      · simp only [List.cons_append, scanChunks]
        have he : s + (i - s) = i := by omega
        refine ⟨⟨Nat.le_refl _, by omega, by rw [← hlen]; omega, ?_⟩, fun k => ?_⟩
        · rw [he]; exact hlen ▸ h1
        · rw [inRanges_cons, hn, he]

section
variable [T : Target]

theorem calcChunks_spec {fields : List (Nat × Ty)} {size : Nat} {cs : List (Nat × Nat)}
    (h : calcChunks fields size = .ok cs) :
    Separated cs 0 size ∧ ∀ k, InRanges cs k ↔ ∃ f ∈ fields, f.1 ≤ k ∧ MarkedByte f.2 (k - f.1) := by
  simp only [calcChunks, Res.bind_eq_ok, Except.ok.injEq] at h
  obtain ⟨m, h1, rfl⟩ := h
  obtain ⟨a1, a2⟩ := markFields_marks fields _ _ h1
  obtain ⟨⟨b1, b2⟩, _⟩ := scanChunks_spec m 0
  simp only [List.length_replicate] at a1
  refine ⟨by simpa [a1] using b1, fun k => ?_⟩
  rw [b2]
  simp only [Nat.zero_le, true_and, Nat.sub_zero]
  rw [a2]
  constructor
  · rintro (h | h)
    · rw [List.getElem?_replicate] at h
      split at h <;> cases h
    · exact h
  · exact .inr

theorem separated_checkRanges : ∀ {cs : List (Nat × Nat)} {lo lo' hi : Nat}, Separated cs lo hi → lo' ≤ lo → lo' ≤ hi →
    ∃ e, checkRanges cs lo' = .ok e ∧ e ≤ hi
  | [], _, lo', _, _, _, hh => ⟨lo', rfl, hh⟩
  | (o, n) :: cs, lo, lo', hi, ⟨h1, _, h3, h4⟩, hl, _ => by
    obtain ⟨e, he, hle⟩ := separated_checkRanges h4 (Nat.le_succ (o + n)) h3
    refine ⟨e, ?_, hle⟩
    simp only [checkRanges]
    rw [show ensureWf (decide (o ≥ lo')) = .ok () by simp [ensureWf]; omega]
    exact he

end

/-! ### Copying a union -/

variable {P : Type} [DecidableEq P]

theorem decodeChunks_slices {bytes : List (AByte P)} : ∀ {cs : List (Nat × Nat)}, (∀ c ∈ cs, c.1 + c.2 ≤ bytes.length) →
    decodeChunks bytes cs = .ok (cs.map fun c => (bytes.drop c.1).take c.2)
  | [], _ => rfl
  | c :: cs, h => by
    simp only [decodeChunks, List.map_cons]
    rw [subslice_isOk (h c (by simp)), Res.bind_ok, decodeChunks_slices fun d hd => h d (by simp [hd])]
    rfl

theorem encodeChunks_spec {bytes : List (AByte P)} : ∀ {cs : List (Nat × Nat)} {acc : List (AByte P)},
    (∀ c ∈ cs, c.1 + c.2 ≤ bytes.length) → acc.length = bytes.length →
    ∃ r, encodeChunks cs (cs.map fun c => (bytes.drop c.1).take c.2) acc = .ok r ∧ r.length = bytes.length ∧
      ∀ k, r[k]? = if InRanges cs k then bytes[k]? else acc[k]?
  | [], acc, _, hl => ⟨acc, rfl, hl, fun k => by simp [InRanges]⟩
  | (o, n) :: cs, acc, h, hl => by
    have hc := h (o, n) (by simp)
    simp only at hc
    have hlen : ((bytes.drop o).take n).length = n := by simp; omega
    obtain ⟨w, hw⟩ : ∃ w, writeSubslice acc o ((bytes.drop o).take n) = .ok w :=
      ⟨_, writeSubslice_isOk (by rw [hlen, hl]; exact hc)⟩
    obtain ⟨r, h1, h2, h3⟩ := encodeChunks_spec (cs := cs) (fun d hd => h d (by simp [hd]))
      ((writeSubslice_length hw).trans hl)
    refine ⟨r, ?_, h2, fun k => ?_⟩
    · simp only [encodeChunks, List.map_cons, hlen, beq_self_eq_true, rassert_true, Res.bind_ok, hw]
      exact h1
    · rw [h3, writeSubslice_getElem? hw, hlen]
      by_cases hk : InRanges cs k
      · rw [if_pos hk, if_pos (inRanges_cons.2 (.inr hk))]
      · rw [if_neg hk]
        by_cases hk' : o ≤ k ∧ k < o + n
        · rw [if_pos hk', if_pos (inRanges_cons.2 (.inl hk')), List.getElem?_take, if_pos (by omega), List.getElem?_drop]
          congr 1; omega
        · rw [if_neg hk', if_neg (by rw [inRanges_cons]; simp only [not_or]; exact ⟨hk', hk⟩)]

end MiniRust
