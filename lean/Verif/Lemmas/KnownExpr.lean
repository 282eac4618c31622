import Verif.Lemmas.Known
/-
Expressions only yield provenance the machine already holds.
-/
set_option linter.unusedSectionVars false
namespace MiniRust
variable {M PE AE F : Type} [T : Target] [DecidableEq PE] [Memory M (AllocId × PE) F] [B : BasicBacked M PE AE F]
variable {K : Nat → AllocId → Prop} {N0 : Nat} {s s' s1 s2 : Machine M (AllocId × PE) F} {α β : Type}

theorem Map.get_eq_ok {κ α : Type} [DecidableEq κ] {m : Map κ α} {k : κ} {a : α} : m.get k = .ok a ↔ m.get? k = some a := by
  unfold Map.get unwrap; cases m.get? k <;> simp

theorem Known.getGlobal (h : Known K N0 s) {x p} (e : s.globalPtrs.get x = .ok p) : PK K (cnt s) p :=
  h.globals _ (Map.get?_mem (Map.get_eq_ok.1 e))
theorem Known.getFn (h : Known K N0 s) {x p} (e : s.fnPtrs.get x = .ok p) : PK K (cnt s) p :=
  h.fns _ (Map.get?_mem (Map.get_eq_ok.1 e))
theorem Known.getVtable (h : Known K N0 s) {x p} (e : s.vtablePtrs.get x = .ok p) : PK K (cnt s) p :=
  h.vtables _ (Map.get?_mem (Map.get_eq_ok.1 e))

theorem known_evalConstant (h : Known K N0 s) {c v} (e : s.evalConstant c = .ok v) : VK K (cnt s) v := by
  cases c with
  | int i => cases e; exact .int
  | bool i => cases e; exact .bool
  | globalPointer r =>
    simp only [Machine.evalConstant, Res.bind_eq_ok, Except.ok.injEq] at e
    obtain ⟨p, hp, rfl⟩ := e
    exact .widen (h.getGlobal hp).offset
  | fnPointer r =>
    simp only [Machine.evalConstant, Res.bind_eq_ok, Except.ok.injEq] at e
    obtain ⟨p, hp, rfl⟩ := e
    exact .widen (h.getFn hp)
  | vtablePointer r =>
    simp only [Machine.evalConstant, Res.bind_eq_ok, Except.ok.injEq] at e
    obtain ⟨p, hp, rfl⟩ := e
    exact .widen (h.getVtable hp)
  | pointerWithoutProvenance a => cases e; exact .widen .none

theorem known_decodeValue {n : Nat} {k : MetaKind} {v : Value (AllocId × PE)} {m} (hv : VK K n v) (e : k.decodeValue v = .ok m) :
    ∀ q, m = some (.vtablePointer q) → PK K n q := by
  rintro q rfl
  unfold MetaKind.decodeValue at e
  split at e <;> cases e
  exact hv.thin

theorem known_encodeAsValue {n : Nat} {k : MetaKind} {v : Value (AllocId × PE)} {m : Option (PtrMeta (AllocId × PE))}
    (hm : ∀ q, m = some (.vtablePointer q) → PK K n q) (e : k.encodeAsValue m = .ok v) : VK K n v := by
  unfold MetaKind.encodeAsValue at e
  split at e <;> cases e
  · exact .unit
  · exact .int
  · exact .widen (hm _ rfl)

theorem known_transmute {n : Nat} {env : ValEnv (AllocId × PE)} {v w : Value (AllocId × PE)} {t1 t2} (hv : VK K n v)
    (e : transmute env v t1 t2 = .ok w) : VK K n w := by
  unfold transmute at e
  simp only [Res.bind_eq_ok] at e
  obtain ⟨_, _, _, _, _, _, bs, hb, e⟩ := e
  split at e
  · rename_i raw hr
    simp only [Res.bind_eq_ok, Except.ok.injEq] at e
    obtain ⟨_, _, rfl⟩ := e
    exact fun q hq => hv q (encode_prov t1 hb (decode_prov t2 hr hq))
  · cases e
  · cases e

theorem known_evalUnOp (h : Known K N0 s) {op} {v r : Value (AllocId × PE) × Ty} (hv : VK K (cnt s) v.1)
    (e : s.evalUnOp op v = .ok r) : VK K (cnt s) r.1 := by
  obtain ⟨v, ty⟩ := v
  cases op with
  | int op =>
    simp only [Machine.evalUnOp, Machine.evalUnOpInt] at e
    split at e
    · simp only [Res.bind_eq_ok, Except.ok.injEq] at e
      obtain ⟨_, _, _, _, rfl⟩ := e
      exact .int
    · cases e
  | cast op =>
    simp only [Machine.evalUnOp, Machine.evalCastOp] at e
    split at e
    · split at e <;> cases e
      exact .int
    · simp only [Res.bind_eq_ok] at e
      obtain ⟨_, _, _, _, e⟩ := e
      split at e
      · cases e
      · simp only [Res.bind_eq_ok, Except.ok.injEq] at e
        obtain ⟨w, hw, rfl⟩ := e
        exact known_transmute hv hw
  | getThinPointer =>
    simp only [Machine.evalUnOp] at e
    split at e <;> cases e
    exact VK.ptr (by have h := VK.thin hv; exact h) (fun _ h => by cases h)
  | getMetadata =>
    simp only [Machine.evalUnOp, Machine.evalGetMetadata] at e
    split at e
    · rename_i x p pt hx
      cases hx
      simp only [Res.bind_eq_ok, Except.ok.injEq] at e
      obtain ⟨m, hm, _, _, _, _, rfl⟩ := e
      exact known_encodeAsValue (VK.meta hv) hm
    · cases e
  | computeSize ty =>
    simp only [Machine.evalUnOp, Res.bind_eq_ok, Except.ok.injEq] at e
    obtain ⟨_, _, _, _, _, _, rfl⟩ := e
    exact .int
  | computeAlign ty =>
    simp only [Machine.evalUnOp, Res.bind_eq_ok, Except.ok.injEq] at e
    obtain ⟨_, _, _, _, _, _, rfl⟩ := e
    exact .int
  | vtableMethodLookup m =>
    simp only [Machine.evalUnOp, Machine.evalVTableMethodLookup] at e
    split at e
    · simp only [Res.bind_eq_ok, Except.ok.injEq] at e
      obtain ⟨_, _, _, _, p, hp, rfl⟩ := e
      exact .widen (h.getFn hp)
    · cases e

theorem known_evalBinOp {op} {l r x : Value (AllocId × PE) × Ty} {n : Nat} (hl : VK K n l.1) (hr : VK K n r.1)
    (e : s.evalBinOp op l r = .ok x) : VK K n x.1 := by
  obtain ⟨l, lt⟩ := l
  obtain ⟨r, rt⟩ := r
  cases op with
  | int op =>
    simp only [Machine.evalBinOp] at e
    split at e
    · simp only [Res.bind_eq_ok, Except.ok.injEq] at e
      obtain ⟨_, _, rfl⟩ := e
      exact .int
    · cases e
  | intWithOverflow op =>
    simp only [Machine.evalBinOp] at e
    split at e
    · simp only [Res.bind_eq_ok, Except.ok.injEq] at e
      obtain ⟨_, _, rfl⟩ := e
      exact .tuple (by intro v hv; simp at hv; rcases hv with rfl | rfl; exact .int; exact .bool)
    · cases e
  | rel op =>
    simp only [Machine.evalBinOp, Res.bind_eq_ok, Except.ok.injEq] at e
    obtain ⟨_, _, rfl⟩ := e
    cases op <;> first | exact .bool | exact .int
  | ptrOffset ib =>
    simp only [Machine.evalBinOp, Machine.evalPtrOffset] at e
    split at e
    · split at e
      · simp only [Res.bind_eq_ok, Except.ok.injEq] at e
        obtain ⟨p, hp, rfl⟩ := e
        exact .widen (PK.congr (VK.thin hl) (ptrOffsetInbounds_prov hp))
      · cases e
        exact .widen (PK.offset (VK.thin hl))
    · cases e
  | ptrOffsetFrom ib nn =>
    simp only [Machine.evalBinOp, Machine.evalPtrOffsetFrom] at e
    split at e
    · simp only [Res.bind_eq_ok] at e
      obtain ⟨_, _, e⟩ := e
      split at e <;> cases e
      exact .int
    · cases e
  | constructWidePointer pt =>
    simp only [Machine.evalBinOp, Machine.evalConstructWidePointer] at e
    split at e
    · simp only [Res.bind_eq_ok, Except.ok.injEq] at e
      obtain ⟨m, hm, _, _, rfl⟩ := e
      exact VK.ptr (by have h := VK.thin hl; exact h) (known_decodeValue hr hm)
    · cases e

theorem known_unionValue {n : Nat} {ut size off et} {v w : Value (AllocId × PE)} (hv : VK K n v)
    (e : unionValue ut size off et v = .ok w) : VK K n w := by
  simp only [unionValue, Res.bind_eq_ok] at e
  obtain ⟨bs, hb, d, hd, e⟩ := e
  have : decode ut d = .ok w := by
    unfold unwrapDecode at e
    split at e
    · cases e
    · exact e
  intro q hq
  rcases ProvInBytes.write hd (decode_prov ut this hq) with h | h
  · exact absurd h not_provInBytes_replicate
  · exact hv q (encode_prov et hb h)

theorem Known.curFrame (h : Known K N0 s) {fr} (e : s.curFrame = .ok fr) : FK K (cnt s) fr := by
  obtain ⟨t, rest, h1, h2⟩ := curFrame_eq_ok.1 e
  exact (h.threads t (List.mem_of_getElem? h1)).stack fr (by rw [h2]; simp)

theorem known_localPlace (h : Known K N0 s) {l} {r : Place (AllocId × PE) × Ty} (e : s.localPlace l = .ok r) :
    PlK K (cnt s) r.1 := by
  simp only [Machine.localPlace, Res.bind_eq_ok] at e
  obtain ⟨fr, hf, ty, _, e⟩ := e
  split at e
  · cases e
  · rename_i p hp
    cases e
    exact VK.widen ((h.curFrame hf).locals _ (Map.get?_mem hp))

theorem known_derefPlace {n : Nat} {ty} {v : Value (AllocId × PE) × Ty} {r} (hv : VK K n v.1)
    (e : s.derefPlace ty v = .ok r) : PlK K n r.1 := by
  unfold Machine.derefPlace at e
  split at e
  · simp only [Res.bind_eq_ok, Except.ok.injEq] at e
    obtain ⟨_, _, _, _, _, _, rfl⟩ := e
    exact hv
  · cases e

theorem known_fieldPlace {n : Nat} {i} {v : Place (AllocId × PE) × Ty} {r} (hv : PlK K n v.1)
    (e : s.fieldPlace i v = .ok r) : PlK K n r.1 := by
  unfold Machine.fieldPlace at e
  simp only [Res.bind_eq_ok, Except.ok.injEq, Prod.exists] at e
  obtain ⟨_, _, _, _, _, _, _, _, _, p, hp, _, _, rfl⟩ := e
  refine VK.ptr (PK.congr hv.thin (ptrOffsetInbounds_prov hp)) fun q hq => ?_
  simp only [ThinPtr.widen] at hq
  split at hq
  · exact hv.meta q hq
  · cases hq

theorem known_indexPlace {n : Nat} {i} {v : Place (AllocId × PE) × Ty} {r} (hv : PlK K n v.1)
    (e : s.indexPlace v i = .ok r) : PlK K n r.1 := by
  unfold Machine.indexPlace at e
  split at e
  · simp only [Res.bind_eq_ok, Prod.exists] at e
    obtain ⟨_, _, _, e⟩ := e
    split at e
    · cases e
    · simp only [Res.bind_eq_ok, Except.ok.injEq] at e
      obtain ⟨_, _, _, _, _, _, _, _, _, _, p, hp, rfl⟩ := e
      exact VK.widen (PK.congr hv.thin (ptrOffsetInbounds_prov hp))
  · cases e

theorem known_downcastPlace {n : Nat} {i} {v : Place (AllocId × PE) × Ty} {r} (hv : PlK K n v.1)
    (e : downcastPlace v i = .ok r) : PlK K n r.1 := by
  unfold downcastPlace at e
  split at e
  · simp only [Res.bind_eq_ok, Except.ok.injEq, Prod.exists] at e
    obtain ⟨_, _, _, rfl⟩ := e
    exact hv
  · cases e

mutual
theorem Kt.evalValue (hK : Caps K N0) : ∀ (e : ValueExpr) (s : Machine M (AllocId × PE) F),
    Kt K N0 s (evalValue e) (fun v n => VK K n v.1)
  | .constant c ty, s => by
    unfold MiniRust.evalValue
    exact .bindRead fun hs v hv => .pure fun _ => known_evalConstant hs hv
  | .tuple es ty, s => by
    unfold MiniRust.evalValue
    refine .bind hK (Kt.evalValues hK es s) fun vs s1 _ hv => .pure fun _ => VK.tuple ?_
    intro v hv'
    obtain ⟨x, hx, rfl⟩ := List.mem_map.1 hv'
    exact hv x hx
  | .union field e ut, s => by
    unfold MiniRust.evalValue
    split
    · refine .bindLift fun ⟨off, et⟩ _ => .bind hK (Kt.evalValue hK e s) fun ⟨v, _⟩ s1 _ hv => ?_
      exact .bindLift fun w hw => .pure fun _ => known_unionValue hv hw
    · exact .throw
  | .variant d e ty, s => by
    unfold MiniRust.evalValue
    exact .bind hK (Kt.evalValue hK e s) fun ⟨v, _⟩ s1 _ hv => .pure fun _ => VK.variant hv
  | .getDiscriminant p, s => by
    unfold MiniRust.evalValue
    exact .bind hK (Kt.evalPlace hK p s) fun ⟨v, _⟩ s1 _ hv => .getDiscriminant hK hv
  | .load p, s => by
    unfold MiniRust.evalValue
    exact .bind hK (Kt.evalPlace hK p s) fun ⟨v, _⟩ s1 _ hv => .bind hK (.placeLoad hK hv) fun w s2 _ hw =>
      .pure fun _ => hw
  | .addrOf p pt, s => by
    unfold MiniRust.evalValue
    exact .bind hK (Kt.evalPlace hK p s) fun ⟨v, _⟩ s1 _ hv => .addrOf hK hv
  | .unOp op e, s => by
    unfold MiniRust.evalValue
    exact .bind hK (Kt.evalValue hK e s) fun v s1 _ hv => .read fun hs r hr => known_evalUnOp hs hv hr
  | .binOp op l r, s => by
    unfold MiniRust.evalValue
    exact .bind hK (Kt.evalValue hK l s) fun v s1 _ hv => .bind hK (Kt.evalValue hK r s1) fun w s2 g hw =>
      .read fun hs r hr => known_evalBinOp (hv.mono hK g.le) hw hr
theorem Kt.evalValues (hK : Caps K N0) : ∀ (es : List ValueExpr) (s : Machine M (AllocId × PE) F),
    Kt K N0 s (evalValues es) (fun vs n => ∀ v ∈ vs, VK K n v.1)
  | [], s => by
    unfold MiniRust.evalValues
    exact .pure fun _ _ h => by cases h
  | e :: es, s => by
    unfold MiniRust.evalValues
    refine .bind hK (Kt.evalValue hK e s) fun v s1 _ hv => .bind hK (Kt.evalValues hK es s1) fun vs s2 g hvs => .pure fun _ => ?_
    intro w hw
    rcases List.mem_cons.1 hw with rfl | hw
    · exact hv.mono hK g.le
    · exact hvs w hw
theorem Kt.evalPlace (hK : Caps K N0) : ∀ (e : PlaceExpr) (s : Machine M (AllocId × PE) F),
    Kt K N0 s (evalPlace e) (fun p n => PlK K n p.1)
  | .local l, s => by
    unfold MiniRust.evalPlace
    exact .read fun hs r hr => known_localPlace hs hr
  | .deref e ty, s => by
    unfold MiniRust.evalPlace
    exact .bind hK (Kt.evalValue hK e s) fun v s1 _ hv => .read fun hs r hr => known_derefPlace hv hr
  | .field p i, s => by
    unfold MiniRust.evalPlace
    exact .bind hK (Kt.evalPlace hK p s) fun v s1 _ hv => .read fun hs r hr => known_fieldPlace hv hr
  | .index p e, s => by
    unfold MiniRust.evalPlace
    exact .bind hK (Kt.evalPlace hK p s) fun v s1 _ hv => .bind hK (Kt.evalValue hK e s1) fun ⟨w, _⟩ s2 g _ =>
      .read fun hs r hr => known_indexPlace (VK.mono hK g.le hv) hr
  | .downcast p d, s => by
    unfold MiniRust.evalPlace
    exact .bind hK (Kt.evalPlace hK p s) fun v s1 _ hv => .lift fun _ r hr => known_downcastPlace hv hr
end

end MiniRust
