import Verif.Lemmas.BuilderSound
/-
Structured programs can be built.
-/
namespace MiniRust
namespace FnBuilder

/-- The name is that of a finished block or of the current one. -/
def Used (b : FnBuilder) (n : BbName) : Prop := b.blocks.get? n ≠ none ∨ ∃ cb, b.cur = some cb ∧ cb.name = n

structure Inv (b : FnBuilder) : Prop where
  used : ∀ n, Used b n → n < b.nextBlock
  cur : ∀ cb, b.cur = some cb → b.blocks.get? cb.name = none

structure Keep (b b' : FnBuilder) : Prop where
  next : b.nextBlock ≤ b'.nextBlock
  used : ∀ n, Used b' n → Used b n ∨ b.nextBlock ≤ n

theorem Keep.refl (b : FnBuilder) : Keep b b := ⟨Nat.le_refl _, fun _ h => .inl h⟩

theorem Keep.trans {a b c : FnBuilder} (h : Keep a b) (h' : Keep b c) : Keep a c :=
  ⟨Nat.le_trans h.next h'.next, fun n hn => (h'.used n hn).elim (h.used n) fun hb => .inr (Nat.le_trans h.next hb)⟩

theorem Keep.fresh {b b' : FnBuilder} (h : Keep b b') {n : BbName} (hn : ¬ Used b n) (hl : n < b.nextBlock) : ¬ Used b' n :=
  fun hu => (h.used n hu).elim hn fun h => absurd hl (Nat.not_lt.mpr h)

theorem inv_next {b : FnBuilder} (h : Inv b) {N : Nat} (hN : b.nextBlock ≤ N) : Inv { b with nextBlock := N } :=
  ⟨fun n hn => Nat.lt_of_lt_of_le (h.used n hn) hN, h.cur⟩

theorem keep_next (b : FnBuilder) {N : Nat} (hN : b.nextBlock ≤ N) : Keep b { b with nextBlock := N } :=
  ⟨hN, fun _ h => .inl h⟩

theorem Inv.fresh {b : FnBuilder} (h : Inv b) {n : Nat} (hn : b.nextBlock ≤ n) : ¬ Used b n :=
  fun hu => absurd (h.used n hu) (Nat.not_lt.mpr hn)

theorem finish_total {b : FnBuilder} {cb : CurBlock} (hc : b.cur = some cb) (hI : Inv b) (t : Terminator) :
    ∃ b', b.finishBlock t = .ok b' ∧ b'.cur = none ∧ Inv b' ∧ Keep b b' ∧ b'.nextBlock = b.nextBlock := by
  have hn := hI.cur cb hc
  have hu : ∀ n, Used { b with cur := none, blocks := b.blocks.insert cb.name ⟨cb.statements, t, cb.kind⟩ } n → Used b n := by
    rintro n (h | ⟨_, h, _⟩)
    · simp only [Map.get?_insert] at h
      split at h
      · rename_i e; exact .inr ⟨cb, hc, e⟩
      · exact .inl h
    · cases h
  exact ⟨_, finishBlock_eq_ok.mpr ⟨cb, hc, hn, rfl⟩, rfl, ⟨fun n h => hI.used n (hu n h), fun _ h => by cases h⟩,
    ⟨Nat.le_refl _, fun n h => .inl (hu n h)⟩, rfl⟩

theorem set_total {b : FnBuilder} {n : BbName} (hc : b.cur = none) (hI : Inv b) (hn : ¬ Used b n) (hl : n < b.nextBlock)
    (k : BbKind) : ∃ b', b.setCurBlock n k = .ok b' ∧ b'.cur = some ⟨[], n, k⟩ ∧ Inv b' ∧
      (∀ m, Used b' m → Used b m ∨ m = n) ∧ b'.nextBlock = b.nextBlock := by
  have hb : b.blocks.get? n = none := Classical.byContradiction fun h => hn (.inl h)
  have hu : ∀ m, Used { b with cur := some ⟨[], n, k⟩ } m → Used b m ∨ m = n := by
    rintro m (h | ⟨cb, h, rfl⟩)
    · exact .inl (.inl h)
    · cases h; exact .inr rfl
  refine ⟨_, setCurBlock_eq_ok.mpr ⟨hc, hb, rfl⟩, rfl, ⟨fun m hm => ?_, fun cb h => ?_⟩, hu, rfl⟩
  · obtain h | rfl := hu m hm
    · exact hI.used m h
    · exact hl
  · cases h; exact hb

theorem Keep.set {a b b' : FnBuilder} {n : BbName} (h : Keep a b) (hn : a.nextBlock ≤ n)
    (hu : ∀ m, Used b' m → Used b m ∨ m = n) (hN : b'.nextBlock = b.nextBlock) : Keep a b' :=
  ⟨by rw [hN]; exact h.next, fun m hm => (hu m hm).elim (h.used m) fun e => .inr (by rw [e]; exact hn)⟩

theorem next_total {b : FnBuilder} {cb : CurBlock} (hc : b.cur = some cb) (hI : Inv b) (t : BbName → Terminator) :
    ∃ b', b.finishWithNextBlock t = .ok b' ∧ b'.cur.isSome = true ∧ Inv b' ∧ Keep b b' := by
  have hle : b.nextBlock ≤ b.nextBlock + 1 := Nat.le_succ _
  obtain ⟨b1, h1, c1, i1, k1, n1⟩ := finish_total (b := { b with nextBlock := b.nextBlock + 1 }) hc (inv_next hI hle) (t b.nextBlock)
  have hlt : b.nextBlock < b1.nextBlock := by rw [n1]; exact Nat.lt_succ_self _
  have hfresh : ¬ Used b1 b.nextBlock := k1.fresh (hI.fresh (Nat.le_refl _)) (Nat.lt_succ_self _)
  obtain ⟨b2, h2, c2, i2, u2, n2⟩ := set_total c1 i1 hfresh hlt cb.kind
  refine ⟨b2, ?_, by rw [c2]; rfl, i2, ((keep_next b hle).trans k1).set (Nat.le_refl _) u2 n2⟩
  simp only [finishWithNextBlock, curBlock, Res.bind_eq_ok, unwrap_eq_ok, declareBlock]
  exact ⟨cb, hc, b1, h1, h2⟩

theorem call_total {b : FnBuilder} {cb : CurBlock} (hc : b.cur = some cb) (hI : Inv b) {r g a c u} :
    ∃ b' n, ({ b with nextBlock := b.nextBlock + 1 } : FnBuilder).handleCall r g a c (some b.nextBlock) u = .ok b' ∧
      b'.cur = some ⟨[], n, cb.kind⟩ ∧ Inv b' ∧ Keep b b' := by
  have hle : b.nextBlock ≤ b.nextBlock + 1 := Nat.le_succ _
  obtain ⟨b1, h1, c1, i1, k1, n1⟩ := finish_total (b := { b with nextBlock := b.nextBlock + 1 }) hc (inv_next hI hle)
    (.call g c a r (some b.nextBlock) u)
  have hlt : b.nextBlock < b1.nextBlock := by rw [n1]; exact Nat.lt_succ_self _
  have hfresh : ¬ Used b1 b.nextBlock := k1.fresh (hI.fresh (Nat.le_refl _)) (Nat.lt_succ_self _)
  obtain ⟨b2, h2, c2, i2, u2, n2⟩ := set_total c1 i1 hfresh hlt cb.kind
  refine ⟨b2, _, ?_, c2, i2, ((keep_next b hle).trans k1).set (Nat.le_refl _) u2 n2⟩
  simp only [handleCall, curBlock, Res.bind_eq_ok, unwrap_eq_ok]
  exact ⟨cb, hc, b1, h1, h2⟩

variable [T : Target]

def Piece.Total (P : Piece) : Prop := P.flow.isSome = true → ∀ b cb, b.cur = some cb → Inv b →
  ∃ b', P.g b = .ok b' ∧ Inv b' ∧ Keep b b'

theorem handler_total {b : FnBuilder} {k : BbKind} {P : Piece} (hS : P.Sound) (hT : P.Total) (hf : P.flow = some false)
    (hI : Inv b) : ∃ u b', b.handlerBlock k P.g = .ok (u, b') ∧ b'.cur = b.cur ∧ Inv b' ∧ Keep b b' := by
  have hle : b.nextBlock ≤ b.nextBlock + 1 := Nat.le_succ _
  have hu0 : ∀ n, Used { b with cur := none, nextBlock := b.nextBlock + 1 } n → Used b n := by
    rintro n (h | ⟨_, h, _⟩)
    · exact .inl h
    · cases h
  have i0 : Inv { b with cur := none, nextBlock := b.nextBlock + 1 } :=
    ⟨fun n hn => Nat.lt_of_lt_of_le (hI.used n (hu0 n hn)) hle, fun _ h => by cases h⟩
  obtain ⟨b1, h1, c1, i1, u1, n1⟩ := set_total (b := { b with cur := none, nextBlock := b.nextBlock + 1 }) rfl i0
    (fun h => hI.fresh (Nat.le_refl _) (hu0 _ h)) (Nat.lt_succ_self _) k
  obtain ⟨b2, h2, i2, k2⟩ := hT (by rw [hf]; rfl) b1 _ c1 i1
  have c2 : b2.cur = none := by
    have := (hS b1 b2 _ c1 h2).1
    rw [hf] at this
    cases h : b2.cur <;> simp_all
  have n2 : b.nextBlock < b2.nextBlock := Nat.lt_of_lt_of_le (by rw [n1]; exact Nat.lt_succ_self _) k2.next
  have hu : ∀ n, Used { b2 with cur := b.cur } n → Used b n ∨ Used b2 n := by
    rintro n (h | ⟨cb, h, rfl⟩)
    · exact .inr (.inl h)
    · exact .inl (.inr ⟨cb, h, rfl⟩)
  refine ⟨b.nextBlock, { b2 with cur := b.cur }, ?_, rfl, ⟨fun n hn => ?_, fun cb hcb => ?_⟩, ⟨Nat.le_of_lt n2, fun n hn => ?_⟩⟩
  · simp only [handlerBlock, declareBlock, Res.bind_eq_ok]
    exact ⟨b1, h1, b2, h2, by simp [c2]⟩
  · obtain h | h := hu n hn
    · exact Nat.lt_trans (hI.used n h) n2
    · exact i2.used n h
  · have hlt := hI.used cb.name (.inr ⟨cb, hcb, rfl⟩)
    have : ¬ Used b1 cb.name := by
      intro h
      obtain h | h := u1 _ h
      · obtain h | ⟨_, h, _⟩ := h
        · exact h (hI.cur cb hcb)
        · cases h
      · exact absurd hlt (by rw [h]; exact Nat.lt_irrefl _)
    have := k2.fresh this (by rw [n1]; exact Nat.lt_of_lt_of_le hlt hle)
    exact Classical.byContradiction fun h => this (.inl h)
  · obtain h | h := hu n hn
    · exact .inl h
    · obtain h | h := k2.used n h
      · obtain h | h := u1 n h
        · exact .inl (hu0 n h)
        · exact .inr (Nat.le_of_eq h.symm)
      · refine .inr (Nat.le_trans hle (Nat.le_trans ?_ h))
        rw [n1]

omit T in
theorem declareCases_total : ∀ {cases : List (Int × Piece)} {b : FnBuilder} {m : Map Int BbName}
    {br : List ((FnBuilder → Res FnBuilder) × BbName)}, (cases.map (·.1)).Nodup → (∀ i ∈ cases.map (·.1), m.get? i = none) →
    ∃ m', b.declareCases m br (cases.map fun e => (e.1, e.2.g)) = .ok ({ b with nextBlock := b.nextBlock + cases.length }, m',
      br ++ (cases.zipIdx b.nextBlock).map fun e => (e.1.2.g, e.2))
  | [], b, m, br, _, _ => ⟨m, by simp [declareCases]⟩
  | (i, P) :: cases, b, m, br, hnd, hm => by
    simp only [List.map_cons, List.nodup_cons] at hnd
    have hi : m.get? i = none := hm i (by simp)
    obtain ⟨m', h⟩ := declareCases_total (cases := cases) (b := { b with nextBlock := b.nextBlock + 1 }) (m := m.insert i b.nextBlock)
      (br := br ++ [(P.g, b.nextBlock)]) hnd.2 (by
        intro j hj
        rw [Map.get?_insert, if_neg]
        · exact hm j (by simp only [List.map_cons, List.mem_cons]; exact .inr hj)
        · rintro rfl; exact hnd.1 hj)
    refine ⟨m', ?_⟩
    have hins : m.tryInsert i b.nextBlock = .ok (m.insert i b.nextBlock) := Map.tryInsert_eq_ok.mpr ⟨hi, rfl⟩
    simp only [List.map_cons, declareCases, declareBlock, hins, Res.bind_ok, h, List.zipIdx_cons, List.append_assoc,
      List.singleton_append, List.length_cons, Nat.add_assoc, Nat.add_comm 1]

theorem branches_total {k : BbKind} {B : FnBuilder} : ∀ {l : List (Piece × BbName)} {b : FnBuilder} {after : Option BbName},
    b.cur = none → Inv b → Keep B b → (l.map (·.2)).Nodup →
    (∀ e ∈ l, e.1.Sound ∧ e.1.Total ∧ e.1.flow.isSome = true ∧ ¬ Used b e.2 ∧ e.2 < b.nextBlock ∧ B.nextBlock ≤ e.2) →
    (∀ a, after = some a → ¬ Used b a ∧ a < b.nextBlock ∧ B.nextBlock ≤ a ∧ a ∉ l.map (·.2)) →
    ∃ b' after', buildBranches k b after (l.map fun e => (e.1.g, e.2)) = .ok (b', after') ∧ b'.cur = none ∧ Inv b' ∧ Keep B b' ∧
      ∀ a, after' = some a → ¬ Used b' a ∧ a < b'.nextBlock ∧ B.nextBlock ≤ a
  | [], b, after, hc, hI, hK, _, _, ha => ⟨b, after, rfl, hc, hI, hK, fun a h => ⟨(ha a h).1, (ha a h).2.1, (ha a h).2.2.1⟩⟩
  | (P, n) :: l, b, after, hc, hI, hK, hnd, hl, ha => by
    obtain ⟨hS, hT, hfl, hn, hlt, hB⟩ := hl (P, n) List.mem_cons_self
    simp only [List.map_cons, List.nodup_cons] at hnd
    obtain ⟨b1, h1, c1, i1, u1, n1⟩ := set_total hc hI hn hlt k
    obtain ⟨b2, h2, i2, k2⟩ := hT hfl b1 _ c1 i1
    have K1 : Keep B b1 := hK.set hB u1 n1
    have fresh2 : ∀ m, ¬ Used b m → m < b.nextBlock → m ≠ n → ¬ Used b2 m ∧ m < b2.nextBlock := by
      intro m hm hml hne
      have : ¬ Used b1 m := fun h => (u1 m h).elim hm hne
      have hml1 : m < b1.nextBlock := by rw [n1]; exact hml
      exact ⟨k2.fresh this hml1, Nat.lt_of_lt_of_le hml1 k2.next⟩
    have go : ∀ {b3 : FnBuilder} {jump : Option BbName}, b3.cur = none → Inv b3 → Keep b2 b3 →
        (∀ a, jump = some a → ¬ Used b3 a ∧ a < b3.nextBlock ∧ B.nextBlock ≤ a ∧ a ∉ l.map (·.2)) →
        ∃ b' after', buildBranches k b3 jump (l.map fun e => (e.1.g, e.2)) = .ok (b', after') ∧ b'.cur = none ∧ Inv b' ∧ Keep B b' ∧
          ∀ a, after' = some a → ¬ Used b' a ∧ a < b'.nextBlock ∧ B.nextBlock ≤ a := by
      intro b3 jump c3 i3 k3 hj
      refine branches_total c3 i3 (K1.trans (k2.trans k3)) hnd.2 (fun e he => ?_) hj
      obtain ⟨hS, hT, hfl, hn', hlt', hB'⟩ := hl e (List.mem_cons_of_mem _ he)
      obtain ⟨q1, q2⟩ := fresh2 e.2 hn' hlt' (fun h => hnd.1 (h ▸ List.mem_map_of_mem he))
      exact ⟨hS, hT, hfl, k3.fresh q1 q2, Nat.lt_of_lt_of_le q2 k3.next, hB'⟩
    have start : ∀ {r}, (if b2.cur.isSome then
        match after with
        | some jumpTo => do
          let b ← b2.goto jumpTo
          buildBranches k b after (l.map fun e => (e.1.g, e.2))
        | none => do
          let (jumpTo, b) := b2.declareBlock
          let b ← b.goto jumpTo
          buildBranches k b (some jumpTo) (l.map fun e => (e.1.g, e.2))
        else buildBranches k b2 after (l.map fun e => (e.1.g, e.2))) = .ok r →
        buildBranches k b after (((P, n) :: l).map fun e => (e.1.g, e.2)) = .ok r := fun h => by
      simp only [List.map_cons, buildBranches, Res.bind_eq_ok]
      exact ⟨b1, h1, b2, h2, h⟩
    suffices H : ∃ b' after', (if b2.cur.isSome then
        match after with
        | some jumpTo => do
          let b ← b2.goto jumpTo
          buildBranches k b after (l.map fun e => (e.1.g, e.2))
        | none => do
          let (jumpTo, b) := b2.declareBlock
          let b ← b.goto jumpTo
          buildBranches k b (some jumpTo) (l.map fun e => (e.1.g, e.2))
        else buildBranches k b2 after (l.map fun e => (e.1.g, e.2))) = .ok (b', after') ∧ b'.cur = none ∧ Inv b' ∧ Keep B b' ∧
          ∀ a, after' = some a → ¬ Used b' a ∧ a < b'.nextBlock ∧ B.nextBlock ≤ a by
      obtain ⟨b', after', h, hrest⟩ := H
      exact ⟨b', after', start h, hrest⟩
    cases hcur : b2.cur with
    | none =>
      simp only [Option.isSome_none, Bool.false_eq_true, if_false]
      refine go hcur i2 (.refl _) fun a h => ?_
      obtain ⟨q1, q2, q3, q4⟩ := ha a h
      simp only [List.map_cons, List.mem_cons, not_or] at q4
      obtain ⟨r1, r2⟩ := fresh2 a q1 q2 q4.1
      exact ⟨r1, r2, q3, q4.2⟩
    | some cb2 =>
      simp only [Option.isSome_some, if_true]
      cases after with
      | some a =>
        obtain ⟨q1, q2, q3, q4⟩ := ha a rfl
        simp only [List.map_cons, List.mem_cons, not_or] at q4
        obtain ⟨r1, r2⟩ := fresh2 a q1 q2 q4.1
        obtain ⟨b3, h3, c3, i3, k3, n3⟩ := finish_total hcur i2 (.goto a)
        simp only [goto, h3, Res.bind_ok]
        refine go c3 i3 k3 fun a' h => ?_
        cases h
        exact ⟨k3.fresh r1 r2, Nat.lt_of_lt_of_le r2 k3.next, q3, q4.2⟩
      | none =>
        have hle : b2.nextBlock ≤ b2.nextBlock + 1 := Nat.le_succ _
        obtain ⟨b3, h3, c3, i3, k3, n3⟩ := finish_total (b := { b2 with nextBlock := b2.nextBlock + 1 }) hcur (inv_next i2 hle)
          (.goto b2.nextBlock)
        have h3' : (do
            let (jumpTo, b) := b2.declareBlock
            let b ← b.goto jumpTo
            buildBranches k b (some jumpTo) (l.map fun e => (e.1.g, e.2))) =
            buildBranches k b3 (some b2.nextBlock) (l.map fun e => (e.1.g, e.2)) := by
          simp only [declareBlock, goto, h3, Res.bind_ok]
        simp only [h3']
        refine go c3 i3 ((keep_next b2 hle).trans k3) fun a' h => ?_
        cases h
        refine ⟨k3.fresh (i2.fresh (Nat.le_refl _)) (Nat.lt_succ_self _), by rw [n3]; exact Nat.lt_succ_self _,
          Nat.le_trans K1.next k2.next, fun hin => ?_⟩
        obtain ⟨e, he, heq⟩ := List.mem_map.mp hin
        have := (hl e (List.mem_cons_of_mem _ he)).2.2.2.2.1
        have h' : b.nextBlock ≤ b2.nextBlock := by rw [← n1]; exact k2.next
        rw [heq] at this
        exact absurd this (Nat.not_lt.mpr h')

theorem switch_total {b : FnBuilder} {v : ValueExpr} {cases : List (Int × Piece)} {F : Piece} {cb : CurBlock}
    (hc : b.cur = some cb) (hI : Inv b) (hnd : (cases.map (·.1)).Nodup)
    (hS : ∀ e ∈ cases, e.2.Sound ∧ e.2.Total ∧ e.2.flow.isSome = true) (hF : F.Sound ∧ F.Total ∧ F.flow.isSome = true) :
    ∃ b', b.switchInt v (cases.map fun e => (e.1, e.2.g)) F.g = .ok b' ∧ Inv b' ∧ Keep b b' := by
  obtain ⟨m, h1⟩ := declareCases_total (cases := cases) (b := b) (m := []) (br := []) hnd (fun _ _ => rfl)
  have hle : b.nextBlock ≤ b.nextBlock + cases.length + 1 := by omega
  obtain ⟨b2, h2, c2, i2, k2, n2⟩ := finish_total (b := { b with nextBlock := b.nextBlock + cases.length + 1 }) hc
    (inv_next hI hle) (.switch v m (b.nextBlock + cases.length))
  have hlist : (cases.zipIdx b.nextBlock).map (fun e => (e.1.2.g, e.2)) ++ [(F.g, b.nextBlock + cases.length)] =
      ((cases.zipIdx b.nextBlock).map (fun e => (e.1.2, e.2)) ++ [(F, b.nextBlock + cases.length)]).map fun e => (e.1.g, e.2) := by
    simp
  have hnames : ((cases.zipIdx b.nextBlock).map (fun e => (e.1.2, e.2)) ++ [(F, b.nextBlock + cases.length)]).map (·.2) =
      List.range' b.nextBlock (cases.length + 1) := by
    have : (cases.zipIdx b.nextBlock).map Prod.snd = List.range' b.nextBlock cases.length := by simp
    simp only [List.map_append, List.map_map, Function.comp_def, List.map_cons, List.map_nil, List.range'_concat, Nat.one_mul]
    rw [this]
  have hfr : ∀ n, b.nextBlock ≤ n → n < b.nextBlock + cases.length + 1 → ¬ Used b2 n := fun n h h' =>
    k2.fresh (fun hu => hI.fresh h hu) h'
  obtain ⟨b3, after, h3, c3, i3, k3, ha⟩ := branches_total (k := cb.kind) (B := b)
    (l := (cases.zipIdx b.nextBlock).map (fun e => (e.1.2, e.2)) ++ [(F, b.nextBlock + cases.length)]) (after := none)
    c2 i2 ((keep_next b hle).trans k2) (by rw [hnames]; exact List.nodup_range') (by
      intro e he
      have hmem : e.2 ∈ List.range' b.nextBlock (cases.length + 1) := by
        rw [← hnames]; exact List.mem_map_of_mem he
      simp only [List.mem_range'_1] at hmem
      have hPs : e.1.Sound ∧ e.1.Total ∧ e.1.flow.isSome = true := by
        simp only [List.mem_append, List.mem_map, List.mem_singleton] at he
        obtain ⟨e', he', rfl⟩ | rfl := he
        · exact hS _ (by
            obtain ⟨h1, h2, h3⟩ := List.mem_zipIdx he'
            rw [h3]; exact List.getElem_mem _)
        · exact hF
      exact ⟨hPs.1, hPs.2.1, hPs.2.2, hfr _ hmem.1 (by omega), by rw [n2]; show _ < b.nextBlock + cases.length + 1; omega, hmem.1⟩)
    (fun _ h => by cases h)
  rw [← hlist] at h3
  have heq : b.switchInt v (cases.map fun e => (e.1, e.2.g)) F.g = (match after with
      | some after => b3.setCurBlock after cb.kind
      | none => .ok b3) := by
    have hcb : b.curBlock = .ok cb := by simp [curBlock, hc]
    simp only [switchInt, hcb, Res.bind_ok, h1, declareBlock, List.nil_append, h2, h3]
    cases after <;> rfl
  cases after with
  | none => exact ⟨b3, heq, i3, k3⟩
  | some a =>
    obtain ⟨q1, q2, q3⟩ := ha a rfl
    obtain ⟨b4, h4, _, i4, u4, n4⟩ := set_total c3 i3 q1 q2 cb.kind
    exact ⟨b4, by rw [heq]; exact h4, i4, k3.set q3 u4 n4⟩

theorem catch_total {c : Code} {cont : BbName} (hT : c.piece.Total) : (catchPiece c cont).Total := by
  intro hf b cb hc hI
  have hf' : c.flow.isSome = true := by cases h : c.flow <;> simp_all [catchPiece]
  obtain ⟨b1, h1, i1, k1⟩ := hT hf' b cb hc hI
  simp only [Code.piece] at h1
  simp only [catchPiece, h1, Res.bind_ok]
  cases hcur : b1.cur with
  | none => exact ⟨b1, rfl, i1, k1⟩
  | some cb1 =>
    obtain ⟨b2, h2, _, i2, k2, _⟩ := finish_total hcur i1 (.stopUnwind cont)
    exact ⟨b2, h2, i2, k1.trans k2⟩

theorem body_total {c : Code} {cond : BbName} (hT : c.piece.Total) : (bodyPiece c cond).Total := by
  intro hf b cb hc hI
  have hf' : c.flow.isSome = true := by cases h : c.flow <;> simp_all [bodyPiece]
  obtain ⟨b1, h1, i1, k1⟩ := hT hf' b cb hc hI
  simp only [Code.piece] at h1
  simp only [bodyPiece, h1, Res.bind_ok]
  cases hcur : b1.cur with
  | none => exact ⟨b1, rfl, i1, k1⟩
  | some cb1 =>
    obtain ⟨b2, h2, _, i2, k2, _⟩ := finish_total hcur i1 (.goto cond)
    exact ⟨b2, h2, i2, k1.trans k2⟩

theorem skip_total : skipPiece.Total := fun _ b _ _ hI => ⟨b, rfl, hI, .refl _⟩

end FnBuilder

open FnBuilder
variable [T : Target]

omit T in
theorem Code.isNil_eq {c : Code} (h : c.isNil = true) : c = .nil := by
  cases c <;> simp_all [Code.isNil]

theorem end_total {t : Terminator} {rest : Code} {b : FnBuilder} {cb : CurBlock} (hr : rest.isNil = true)
    (hc : b.cur = some cb) (hI : FnBuilder.Inv b) :
    ∃ b', (do let b ← b.finishBlock t; rest.build b) = .ok b' ∧ FnBuilder.Inv b' ∧ Keep b b' := by
  cases Code.isNil_eq hr
  obtain ⟨b1, h1, _, i1, k1, _⟩ := finish_total hc hI t
  exact ⟨b1, by simp [h1, Code.build], i1, k1⟩

theorem rest_total {rest : Code} {b b1 : FnBuilder} (hT : rest.piece.Total) (hr : rest.flow.isSome = true)
    (hc : b1.cur.isSome = true) (hI : FnBuilder.Inv b1) (hK : Keep b b1) :
    ∃ b', rest.build b1 = .ok b' ∧ FnBuilder.Inv b' ∧ Keep b b' := by
  obtain ⟨cb, hcb⟩ := Option.isSome_iff_exists.mp hc
  obtain ⟨b2, h2, i2, k2⟩ := hT hr b1 cb hcb hI
  exact ⟨b2, h2, i2, hK.trans k2⟩

mutual
theorem Code.total : (c : Code) → c.piece.Total
  | .nil => fun _ b _ _ hI => ⟨b, by simp [Code.piece, Code.build], hI, .refl _⟩
  | .stmt s rest => by
    intro hf b cb hc hI
    simp only [Code.piece, Code.flow] at hf
    have hu : ∀ n, Used { b with cur := some { cb with statements := cb.statements ++ [s] } } n → Used b n := by
      rintro n (h | ⟨_, h, rfl⟩)
      · exact .inl h
      · cases h; exact .inr ⟨cb, hc, rfl⟩
    have hI1 : FnBuilder.Inv { b with cur := some { cb with statements := cb.statements ++ [s] } } :=
      ⟨fun n hn => hI.used n (hu n hn), fun cb' h => by cases h; exact hI.cur cb hc⟩
    obtain ⟨b', h, hI', hK⟩ := rest_total (b := b) (Code.total rest) hf rfl hI1 ⟨Nat.le_refl _, fun n hn => .inl (hu n hn)⟩
    refine ⟨b', ?_, hI', hK⟩
    simp only [Code.piece, Code.build, statement_eq_ok.mpr ⟨cb, hc, rfl⟩, Res.bind_ok, h]
  | .op o a r rest => by
    intro hf b cb hc hI
    simp only [Code.piece, Code.flow] at hf
    obtain ⟨b1, h1, c1, i1, k1⟩ := next_total hc hI fun next => .intrinsic o a r (some next)
    obtain ⟨b', h, hI', hK⟩ := rest_total (Code.total rest) hf c1 i1 k1
    exact ⟨b', by simp only [Code.piece, Code.build, intrinsic, h1, Res.bind_ok, h], hI', hK⟩
  | .halt o a r rest => by
    intro hf b cb hc hI
    simp only [Code.piece, Code.flow] at hf
    split at hf
    · simp only [Code.piece, Code.build]; exact end_total (by assumption) hc hI
    · cases hf
  | .unreachable rest => by
    intro hf b cb hc hI
    simp only [Code.piece, Code.flow] at hf
    split at hf
    · simp only [Code.piece, Code.build]; exact end_total (by assumption) hc hI
    · cases hf
  | .ret rest => by
    intro hf b cb hc hI
    simp only [Code.piece, Code.flow] at hf
    split at hf
    · simp only [Code.piece, Code.build]; exact end_total (by assumption) hc hI
    · cases hf
  | .resume rest => by
    intro hf b cb hc hI
    simp only [Code.piece, Code.flow] at hf
    split at hf
    · simp only [Code.piece, Code.build]; exact end_total (by assumption) hc hI
    · cases hf
  | .callNoret r g a rest => by
    intro hf b cb hc hI
    simp only [Code.piece, Code.flow] at hf
    split at hf
    · rename_i hnil
      obtain ⟨b', h, hI', hK⟩ := end_total (t := .call g .rust a r none none) hnil hc hI
      refine ⟨b', ?_, hI', hK⟩
      rw [← h]
      simp only [Code.piece, Code.build, callNoret, handleCall, curBlock, hc, unwrap, Res.bind_ok]
      cases h : b.finishBlock (.call g .rust a r none none) <;> rfl
    · cases hf
  | .callNounwind r g a rest => by
    intro hf b cb hc hI
    simp only [Code.piece, Code.flow] at hf
    obtain ⟨b1, n, h1, c1, i1, k1⟩ := call_total hc hI (r := r) (g := g) (a := a) (c := .rust) (u := none)
    obtain ⟨b', h, hI', hK⟩ := rest_total (Code.total rest) hf (by rw [c1]; rfl) i1 k1
    exact ⟨b', by simp only [Code.piece, Code.build, callNounwind, declareBlock, h1, Res.bind_ok, h], hI', hK⟩
  | .call c k handler rest => by
    intro hf b cb hc hI
    simp only [Code.piece, Code.flow] at hf
    split at hf
    · rename_i hh
      obtain ⟨u, b0, h0, c0, i0, k0⟩ := handler_total (k := k) (P := handler.piece) (Code.sound handler) (Code.total handler) hh hI
      simp only [Code.piece] at h0
      rw [hc] at c0
      obtain ⟨b1, n, h1, c1, i1, k1⟩ := call_total c0 i0 (r := c.ret) (g := c.callee) (a := c.args) (c := c.conv) (u := some u)
      obtain ⟨b', h, hI', hK⟩ := rest_total (Code.total rest) hf (by rw [c1]; rfl) i1 (k0.trans k1)
      exact ⟨b', by simp only [Code.piece, Code.build, h0, callWithConv, declareBlock, h1, Res.bind_ok, h], hI', hK⟩
    · cases hf
  | .tryCall c handler rest => by
    intro hf b cb hc hI
    simp only [Code.piece, Code.flow] at hf
    split at hf
    · rename_i hh
      have hle : b.nextBlock ≤ b.nextBlock + 1 := Nat.le_succ _
      obtain ⟨x, hx⟩ := Option.isSome_iff_exists.mp hh
      obtain ⟨u, b0, h0, c0, i0, k0⟩ := handler_total (b := { b with nextBlock := b.nextBlock + 1 }) (k := .catch)
        (P := catchPiece handler b.nextBlock) (catch_sound (Code.sound handler)) (catch_total (Code.total handler))
        (by simp [catchPiece, hx]) (inv_next hI hle)
      simp only [catchPiece] at h0
      rw [show ({ b with nextBlock := b.nextBlock + 1 } : FnBuilder).cur = some cb from hc] at c0
      obtain ⟨b1, n, h1, c1, i1, k1⟩ := call_total c0 i0 (r := c.ret) (g := c.callee) (a := c.args) (c := c.conv) (u := some u)
      obtain ⟨b2, h2, c2, i2, k2, n2⟩ := finish_total c1 i1 (.goto b.nextBlock)
      have K2 : Keep { b with nextBlock := b.nextBlock + 1 } b2 := k0.trans (k1.trans k2)
      obtain ⟨b3, h3, c3, i3, u3, n3⟩ := set_total c2 i2 (K2.fresh (n := b.nextBlock) (fun h => hI.fresh (Nat.le_refl _) h) (Nat.lt_succ_self _))
        (Nat.lt_of_lt_of_le (Nat.lt_succ_self _) K2.next) .regular
      obtain ⟨b', h, hI', hK⟩ := rest_total (b := b) (Code.total rest) hf (by rw [c3]; rfl) i3
        (((keep_next b hle).trans K2).set (Nat.le_refl _) u3 n3)
      exact ⟨b', by simp only [Code.piece, Code.build, h0, callWithConv, declareBlock, h1, goto, h2, h3, Res.bind_ok, h], hI', hK⟩
    · cases hf
  | .startUnwind e k handler rest => by
    intro hf b cb hc hI
    simp only [Code.piece, Code.flow] at hf
    split at hf
    · rename_i hh
      obtain ⟨u, b0, h0, c0, i0, k0⟩ := handler_total (k := k) (P := handler.piece) (Code.sound handler) (Code.total handler) hh.1 hI
      simp only [Code.piece] at h0
      rw [hc] at c0
      obtain ⟨b', h, hI', hK⟩ := end_total (t := .startUnwind e u) hh.2 c0 i0
      refine ⟨b', ?_, hI', k0.trans hK⟩
      simp only [Code.piece, Code.build, h0, startUnwind, Res.bind_ok]
      exact h
    · cases hf
  | .tryUnwind e handler rest => by
    intro hf b cb hc hI
    simp only [Code.piece, Code.flow] at hf
    split at hf
    · rename_i hh
      have hle : b.nextBlock ≤ b.nextBlock + 1 := Nat.le_succ _
      obtain ⟨x, hx⟩ := Option.isSome_iff_exists.mp hh
      obtain ⟨u, b0, h0, c0, i0, k0⟩ := handler_total (b := { b with nextBlock := b.nextBlock + 1 }) (k := .catch)
        (P := catchPiece handler b.nextBlock) (catch_sound (Code.sound handler)) (catch_total (Code.total handler))
        (by simp [catchPiece, hx]) (inv_next hI hle)
      simp only [catchPiece] at h0
      rw [show ({ b with nextBlock := b.nextBlock + 1 } : FnBuilder).cur = some cb from hc] at c0
      obtain ⟨b2, h2, c2, i2, k2, n2⟩ := finish_total c0 i0 (.startUnwind e u)
      have K2 : Keep { b with nextBlock := b.nextBlock + 1 } b2 := k0.trans k2
      obtain ⟨b3, h3, c3, i3, u3, n3⟩ := set_total c2 i2 (K2.fresh (n := b.nextBlock) (fun h => hI.fresh (Nat.le_refl _) h) (Nat.lt_succ_self _))
        (Nat.lt_of_lt_of_le (Nat.lt_succ_self _) K2.next) .regular
      obtain ⟨b', h, hI', hK⟩ := rest_total (b := b) (Code.total rest) hf (by rw [c3]; rfl) i3
        (((keep_next b hle).trans K2).set (Nat.le_refl _) u3 n3)
      exact ⟨b', by simp only [Code.piece, Code.build, h0, startUnwind, declareBlock, h2, h3, Res.bind_ok, h], hI', hK⟩
    · cases hf
  | .stop rest => by
    intro hf
    simp [Code.piece, Code.flow] at hf
  | .switch v cases fallback rest => by
    intro hf b cb hc hI
    simp only [Code.piece, Code.flow] at hf
    cases hfa : cases.flow with
    | none => rw [hfa] at hf; cases hf
    | some fa =>
      cases hff : fallback.flow with
      | none => rw [hfa, hff] at hf; cases hf
      | some ff =>
        rw [hfa, hff] at hf
        simp only at hf
        split at hf
        · rename_i hnd
          rw [Cases.values_eq] at hnd
          have hfl := (Cases.flow_eq cases).1.mp (by rw [hfa]; rfl)
          obtain ⟨b1, h1, i1, k1⟩ := switch_total (v := v) (cases := cases.toList.map fun e => (e.1, e.2.piece))
            (F := fallback.piece) hc hI (by simpa [Function.comp_def] using hnd)
            (by
              intro e he
              obtain ⟨e', he', rfl⟩ := List.mem_map.mp he
              exact ⟨Cases.sound cases e' he', Cases.total cases e' he', hfl e' he'⟩)
            ⟨Code.sound fallback, Code.total fallback, by simp only [Code.piece, hff]; rfl⟩
          have hcur := (switch_spec (cases := cases.toList.map fun e => (e.1, e.2.piece)) (F := fallback.piece) hc h1
            (by
              intro e he
              obtain ⟨e', he', rfl⟩ := List.mem_map.mp he
              exact Cases.sound cases e' he') (Code.sound fallback)).2.2.2.1
          simp only [List.map_map, Function.comp_def, Code.piece, List.any_map] at h1 hcur
          rw [← (Cases.flow_eq cases).2 fa hfa, hff] at hcur
          have hcur' : b1.cur.isSome = (fa || ff) := by rw [hcur]; cases ff <;> simp
          simp only [Code.piece, Code.build, Cases.builders_eq, h1, Res.bind_ok]
          split at hf
          · rename_i hx
            exact rest_total (Code.total rest) hf (by rw [hcur', hx]) i1 k1
          · split at hf
            · rename_i hnil
              cases Code.isNil_eq hnil
              exact ⟨b1, by simp [Code.build], i1, k1⟩
            · cases hf
        · cases hf
  | .while_ c body rest => by
    intro hf b cb hc hI
    simp only [Code.piece, Code.flow] at hf
    split at hf
    · rename_i hh
      have hle : b.nextBlock ≤ b.nextBlock + 1 := Nat.le_succ _
      obtain ⟨x, hx⟩ := Option.isSome_iff_exists.mp hh
      obtain ⟨b1, h1, c1, i1, k1, n1⟩ := finish_total (b := { b with nextBlock := b.nextBlock + 1 }) hc (inv_next hI hle)
        (.goto b.nextBlock)
      obtain ⟨b2, h2, c2, i2, u2, n2⟩ := set_total c1 i1 (k1.fresh (n := b.nextBlock) (fun h => hI.fresh (Nat.le_refl _) h) (Nat.lt_succ_self _))
        (Nat.lt_of_lt_of_le (Nat.lt_succ_self _) k1.next) cb.kind
      have K2 : Keep b b2 := ((keep_next b hle).trans k1).set (Nat.le_refl _) u2 n2
      have hSb : ∀ e ∈ [((1 : Int), bodyPiece body b.nextBlock)], e.2.Sound ∧ e.2.Total ∧ e.2.flow.isSome = true := by
        intro e he
        cases List.mem_singleton.mp he
        exact ⟨body_sound (Code.sound body), body_total (Code.total body), by simp [bodyPiece, hx]⟩
      obtain ⟨b3, h3, i3, k3⟩ := switch_total (v := boolToInt c) (cases := [(1, bodyPiece body b.nextBlock)])
        (F := skipPiece) c2 i2 (by simp) hSb ⟨skip_sound, skip_total, rfl⟩
      have hcur := (switch_spec c2 h3 (fun e he => (hSb e he).1) skip_sound).2.2.2.1
      obtain ⟨b', h, hI', hK⟩ := rest_total (b := b) (Code.total rest) hf (by rw [hcur]; simp [skipPiece]) i3 (K2.trans k3)
      refine ⟨b', ?_, hI', hK⟩
      simp only [Code.piece, Code.build, Res.bind_eq_ok, while_, declareBlock, curBlock, unwrap_eq_ok, goto, if_]
      exact ⟨b3, ⟨cb, hc, b1, h1, b2, h2, h3⟩, h⟩
    · cases hf
theorem Cases.total : (cs : Cases) → ∀ e ∈ cs.toList, e.2.piece.Total
  | .nil => by simp [Cases.toList]
  | .cons i b rest => by
    simp only [Cases.toList, List.forall_mem_cons]
    exact ⟨Code.total b, Cases.total rest⟩
end

end MiniRust
