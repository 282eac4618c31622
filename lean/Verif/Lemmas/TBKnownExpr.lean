import Verif.Lemmas.TBKnownMem
/-
Expressions, in the logic for machines that run under Tree Borrows.
-/
set_option linter.unusedSectionVars false
namespace MiniRust
namespace TB
variable [T : Target]
variable {pd pd' pd1 pd2 : List TBFrame} {s s' s1 s2 : Mach} {α β : Type}

theorem Wf.getGlobal (h : Wf pd s) {x p} (e : s.globalPtrs.get x = .ok p) : PK s.mem.memory p :=
  h.globals _ (Map.get?_mem (Map.get_eq_ok.1 e))
theorem Wf.getFn (h : Wf pd s) {x p} (e : s.fnPtrs.get x = .ok p) : PK s.mem.memory p :=
  h.fns _ (Map.get?_mem (Map.get_eq_ok.1 e))
theorem Wf.getVtable (h : Wf pd s) {x p} (e : s.vtablePtrs.get x = .ok p) : PK s.mem.memory p :=
  h.vtables _ (Map.get?_mem (Map.get_eq_ok.1 e))

theorem known_evalConstant (h : Wf pd s) {c v} (e : s.evalConstant c = .ok v) : VK s.mem.memory v := by
  cases c with
  | int i => cases e; exact .int
  | bool i => cases e; exact .bool
  | globalPointer r =>
    simp only [Machine.evalConstant, Res.bind_eq_ok, Except.ok.injEq] at e
    obtain ⟨p, hp, rfl⟩ := e
    exact .widen (h.getGlobal hp).offset
  | fnPointer r =>
    simp only [Machine.evalConstant, Res.bind_eq_ok, Except.ok.injEq] at e
    obtain ⟨p, hp, rfl⟩ := e
    exact .widen (h.getFn hp)
  | vtablePointer r =>
    simp only [Machine.evalConstant, Res.bind_eq_ok, Except.ok.injEq] at e
    obtain ⟨p, hp, rfl⟩ := e
    exact .widen (h.getVtable hp)
  | pointerWithoutProvenance a => cases e; exact .widen .none

theorem known_decodeValue {mm : TBMem} {k : MetaKind} {v : Value TBProv} {m} (hv : VK mm v) (e : k.decodeValue v = .ok m) :
    ∀ q, m = some (.vtablePointer q) → PK mm q := by
  rintro q rfl
  unfold MetaKind.decodeValue at e
  split at e <;> cases e
  exact hv.thin

theorem known_encodeAsValue {mm : TBMem} {k : MetaKind} {v : Value TBProv} {m : Option (PtrMeta TBProv)}
    (hm : ∀ q, m = some (.vtablePointer q) → PK mm q) (e : k.encodeAsValue m = .ok v) : VK mm v := by
  unfold MetaKind.encodeAsValue at e
  split at e <;> cases e
  · exact .unit
  · exact .int
  · exact .widen (hm _ rfl)

theorem known_transmute {mm : TBMem} {env : ValEnv TBProv} {v w : Value TBProv} {t1 t2} (hv : VK mm v)
    (e : transmute env v t1 t2 = .ok w) : VK mm w := by
  unfold transmute at e
  simp only [Res.bind_eq_ok] at e
  obtain ⟨_, _, _, _, _, _, bs, hb, e⟩ := e
  split at e
  · rename_i raw hr
    simp only [Res.bind_eq_ok, Except.ok.injEq] at e
    obtain ⟨_, _, rfl⟩ := e
    exact fun q hq => hv q (encode_prov t1 hb (decode_prov t2 hr hq))
  · cases e
  · cases e

theorem known_evalUnOp (h : Wf pd s) {op} {v r : Value TBProv × Ty} (hv : VK s.mem.memory v.1)
    (e : s.evalUnOp op v = .ok r) : VK s.mem.memory r.1 := by
  obtain ⟨v, ty⟩ := v
  cases op with
  | int op =>
    simp only [Machine.evalUnOp, Machine.evalUnOpInt] at e
    split at e
    · simp only [Res.bind_eq_ok, Except.ok.injEq] at e
      obtain ⟨_, _, _, _, rfl⟩ := e
      exact .int
    · cases e
  | cast op =>
    simp only [Machine.evalUnOp, Machine.evalCastOp] at e
    split at e
    · split at e <;> cases e
      exact .int
    · simp only [Res.bind_eq_ok] at e
      obtain ⟨_, _, _, _, e⟩ := e
      split at e
      · cases e
      · simp only [Res.bind_eq_ok, Except.ok.injEq] at e
        obtain ⟨w, hw, rfl⟩ := e
        exact known_transmute hv hw
  | getThinPointer =>
    simp only [Machine.evalUnOp] at e
    split at e <;> cases e
    exact VK.ptr (by have h := VK.thin hv; exact h) (fun _ h => by cases h)
  | getMetadata =>
    simp only [Machine.evalUnOp, Machine.evalGetMetadata] at e
    split at e
    · rename_i x p pt hx
      cases hx
      simp only [Res.bind_eq_ok, Except.ok.injEq] at e
      obtain ⟨m, hm, _, _, _, _, rfl⟩ := e
      exact known_encodeAsValue (VK.meta hv) hm
    · cases e
  | computeSize ty =>
    simp only [Machine.evalUnOp, Res.bind_eq_ok, Except.ok.injEq] at e
    obtain ⟨_, _, _, _, _, _, rfl⟩ := e
    exact .int
  | computeAlign ty =>
    simp only [Machine.evalUnOp, Res.bind_eq_ok, Except.ok.injEq] at e
    obtain ⟨_, _, _, _, _, _, rfl⟩ := e
    exact .int
  | vtableMethodLookup m =>
    simp only [Machine.evalUnOp, Machine.evalVTableMethodLookup] at e
    split at e
    · simp only [Res.bind_eq_ok, Except.ok.injEq] at e
      obtain ⟨_, _, _, _, p, hp, rfl⟩ := e
      exact .widen (h.getFn hp)
    · cases e

theorem known_evalBinOp {op} {l r x : Value TBProv × Ty} {mm : TBMem} (hl : VK mm l.1) (hr : VK mm r.1)
    (e : s.evalBinOp op l r = .ok x) : VK mm x.1 := by
  obtain ⟨l, lt⟩ := l
  obtain ⟨r, rt⟩ := r
  cases op with
  | int op =>
    simp only [Machine.evalBinOp] at e
    split at e
    · simp only [Res.bind_eq_ok, Except.ok.injEq] at e
      obtain ⟨_, _, rfl⟩ := e
      exact .int
    · cases e
  | intWithOverflow op =>
    simp only [Machine.evalBinOp] at e
    split at e
    · simp only [Res.bind_eq_ok, Except.ok.injEq] at e
      obtain ⟨_, _, rfl⟩ := e
      exact .tuple (by intro v hv; simp at hv; rcases hv with rfl | rfl; exact .int; exact .bool)
    · cases e
  | rel op =>
    simp only [Machine.evalBinOp, Res.bind_eq_ok, Except.ok.injEq] at e
    obtain ⟨_, _, rfl⟩ := e
    cases op <;> first | exact .bool | exact .int
  | ptrOffset ib =>
    simp only [Machine.evalBinOp, Machine.evalPtrOffset] at e
    split at e
    · split at e
      · simp only [Res.bind_eq_ok, Except.ok.injEq] at e
        obtain ⟨p, hp, rfl⟩ := e
        exact .widen (PK.congr (VK.thin hl) (ptrOffsetInbounds_prov hp))
      · cases e
        exact .widen (PK.offset (VK.thin hl))
    · cases e
  | ptrOffsetFrom ib nn =>
    simp only [Machine.evalBinOp, Machine.evalPtrOffsetFrom] at e
    split at e
    · simp only [Res.bind_eq_ok] at e
      obtain ⟨_, _, e⟩ := e
      split at e <;> cases e
      exact .int
    · cases e
  | constructWidePointer pt =>
    simp only [Machine.evalBinOp, Machine.evalConstructWidePointer] at e
    split at e
    · simp only [Res.bind_eq_ok, Except.ok.injEq] at e
      obtain ⟨m, hm, _, _, rfl⟩ := e
      exact VK.ptr (by have h := VK.thin hl; exact h) (known_decodeValue hr hm)
    · cases e

theorem known_unionValue {mm : TBMem} {ut size off et} {v w : Value TBProv} (hv : VK mm v)
    (e : unionValue ut size off et v = .ok w) : VK mm w := by
  simp only [unionValue, Res.bind_eq_ok] at e
  obtain ⟨bs, hb, d, hd, e⟩ := e
  have : decode ut d = .ok w := by
    unfold unwrapDecode at e
    split at e
    · cases e
    · exact e
  intro q hq
  rcases ProvInBytes.write hd (decode_prov ut this hq) with h | h
  · exact absurd h not_provInBytes_replicate
  · exact hv q (encode_prov et hb h)

theorem Wf.curFrame (h : Wf pd s) {fr} (e : s.curFrame = .ok fr) : FK s.mem.memory fr := by
  obtain ⟨t, rest, h1, h2⟩ := curFrame_eq_ok.1 e
  exact (h.threads t (List.mem_of_getElem? h1)).stack fr (by rw [h2]; simp)

theorem known_localPlace (h : Wf pd s) {l} {r : Place TBProv × Ty} (e : s.localPlace l = .ok r) :
    PlK s.mem.memory r.1 := by
  simp only [Machine.localPlace, Res.bind_eq_ok] at e
  obtain ⟨fr, hf, ty, _, e⟩ := e
  split at e
  · cases e
  · rename_i p hp
    cases e
    exact VK.widen ((h.curFrame hf).locals _ (Map.get?_mem hp))

theorem known_derefPlace {mm : TBMem} {ty} {v : Value TBProv × Ty} {r} (hv : VK mm v.1)
    (e : s.derefPlace ty v = .ok r) : PlK mm r.1 := by
  unfold Machine.derefPlace at e
  split at e
  · simp only [Res.bind_eq_ok, Except.ok.injEq] at e
    obtain ⟨_, _, _, _, _, _, rfl⟩ := e
    exact hv
  · cases e

theorem known_fieldPlace {mm : TBMem} {i} {v : Place TBProv × Ty} {r} (hv : PlK mm v.1)
    (e : s.fieldPlace i v = .ok r) : PlK mm r.1 := by
  unfold Machine.fieldPlace at e
  simp only [Res.bind_eq_ok, Except.ok.injEq, Prod.exists] at e
  obtain ⟨_, _, _, _, _, _, _, _, _, p, hp, _, _, rfl⟩ := e
  refine VK.ptr (PK.congr hv.thin (ptrOffsetInbounds_prov hp)) fun q hq => ?_
  simp only [ThinPtr.widen] at hq
  split at hq
  · exact hv.meta q hq
  · cases hq

theorem known_indexPlace {mm : TBMem} {i} {v : Place TBProv × Ty} {r} (hv : PlK mm v.1)
    (e : s.indexPlace v i = .ok r) : PlK mm r.1 := by
  unfold Machine.indexPlace at e
  split at e
  · simp only [Res.bind_eq_ok, Prod.exists] at e
    obtain ⟨_, _, _, e⟩ := e
    split at e
    · cases e
    · simp only [Res.bind_eq_ok, Except.ok.injEq] at e
      obtain ⟨_, _, _, _, _, _, _, _, _, _, p, hp, rfl⟩ := e
      exact VK.widen (PK.congr hv.thin (ptrOffsetInbounds_prov hp))
  · cases e

theorem known_downcastPlace {mm : TBMem} {i} {v : Place TBProv × Ty} {r} (hv : PlK mm v.1)
    (e : downcastPlace v i = .ok r) : PlK mm r.1 := by
  unfold downcastPlace at e
  split at e
  · simp only [Res.bind_eq_ok, Except.ok.injEq, Prod.exists] at e
    obtain ⟨_, _, _, rfl⟩ := e
    exact hv
  · cases e

mutual
theorem Kt.evalValue : ∀ (e : ValueExpr) (s : Mach),
    Kt pd pd s (fun _ => evalValue e) (fun v s' => VK s'.mem.memory v.1)
  | .constant c ty, s => by
    unfold MiniRust.evalValue
    exact .bindRead fun hs v hv => .pure fun _ => known_evalConstant hs hv
  | .tuple es ty, s => by
    unfold MiniRust.evalValue
    refine .bind (Kt.evalValues es s) fun vs s1 _ hv => .pure fun _ => VK.tuple ?_
    intro v hv'
    obtain ⟨x, hx, rfl⟩ := List.mem_map.1 hv'
    exact hv x hx
  | .union field e ut, s => by
    unfold MiniRust.evalValue
    cases ut with
    | union size fields chunks align =>
      refine .bindLift fun ⟨off, et⟩ _ => .bind (Kt.evalValue e s) fun ⟨v, _⟩ s1 _ hv => ?_
      exact .bindLift fun w hw => .pure fun _ => known_unionValue hv hw
    | _ => exact .throw
  | .variant d e ty, s => by
    unfold MiniRust.evalValue
    exact .bind (Kt.evalValue e s) fun ⟨v, _⟩ s1 _ hv => .pure fun _ => VK.variant hv
  | .getDiscriminant p, s => by
    unfold MiniRust.evalValue
    exact .bind (Kt.evalPlace p s) fun ⟨v, _⟩ s1 _ hv => .getDiscriminant hv
  | .load p, s => by
    unfold MiniRust.evalValue
    exact .bind (Kt.evalPlace p s) fun ⟨v, _⟩ s1 _ hv => .bind (.placeLoad hv) fun w s2 _ hw =>
      .pure fun _ => hw
  | .addrOf p pt, s => by
    unfold MiniRust.evalValue
    exact .bind (Kt.evalPlace p s) fun ⟨v, _⟩ s1 _ hv => .addrOf hv
  | .unOp op e, s => by
    unfold MiniRust.evalValue
    exact .bind (Kt.evalValue e s) fun v s1 _ hv => .read fun hs r hr => known_evalUnOp hs hv hr
  | .binOp op l r, s => by
    unfold MiniRust.evalValue
    exact .bind (Kt.evalValue l s) fun v s1 _ hv => .bind (Kt.evalValue r s1) fun w s2 g hw =>
      .read fun hs r hr => known_evalBinOp (hv.mono g.le) hw hr
theorem Kt.evalValues : ∀ (es : List ValueExpr) (s : Mach),
    Kt pd pd s (fun _ => evalValues es) (fun vs s' => ∀ v ∈ vs, VK s'.mem.memory v.1)
  | [], s => by
    unfold MiniRust.evalValues
    exact .pure fun _ _ h => by cases h
  | e :: es, s => by
    unfold MiniRust.evalValues
    refine .bind (Kt.evalValue e s) fun v s1 _ hv => .bind (Kt.evalValues es s1) fun vs s2 g hvs => .pure fun _ => ?_
    intro w hw
    rcases List.mem_cons.1 hw with rfl | hw
    · exact hv.mono g.le
    · exact hvs w hw
theorem Kt.evalPlace : ∀ (e : PlaceExpr) (s : Mach),
    Kt pd pd s (fun _ => evalPlace e) (fun p s' => PlK s'.mem.memory p.1)
  | .local l, s => by
    unfold MiniRust.evalPlace
    exact .read fun hs r hr => known_localPlace hs hr
  | .deref e ty, s => by
    unfold MiniRust.evalPlace
    exact .bind (Kt.evalValue e s) fun v s1 _ hv => .read fun hs r hr => known_derefPlace hv hr
  | .field p i, s => by
    unfold MiniRust.evalPlace
    exact .bind (Kt.evalPlace p s) fun v s1 _ hv => .read fun hs r hr => known_fieldPlace hv hr
  | .index p e, s => by
    unfold MiniRust.evalPlace
    exact .bind (Kt.evalPlace p s) fun v s1 _ hv => .bind (Kt.evalValue e s1) fun ⟨w, _⟩ s2 g _ =>
      .read fun hs r hr => known_indexPlace (VK.mono g.le hv) hr
  | .downcast p d, s => by
    unfold MiniRust.evalPlace
    exact .bind (Kt.evalPlace p s) fun v s1 _ hv => .lift fun _ r hr => known_downcastPlace hv hr
end

end TB
end MiniRust
