import Verif.Spec.Pretty
/-
The pretty printer: the table of composite types, and the texts.
-/
namespace MiniRust

/-! ### The table -/

/-- The table after types have been looked up. -/
def addAll (cts : List Ty) (ts : List Ty) : List Ty := ts.foldl (fun acc t => if t ∈ acc then acc else acc ++ [t]) cts

@[simp] theorem addAll_nil (cts : List Ty) : addAll cts [] = cts := rfl
theorem addAll_append (cts a b : List Ty) : addAll cts (a ++ b) = addAll (addAll cts a) b := List.foldl_append
theorem addAll_cons (cts : List Ty) (t : Ty) (ts : List Ty) : addAll cts (t :: ts) = addAll (if t ∈ cts then cts else cts ++ [t]) ts := rfl

theorem prefix_addAll : ∀ (ts cts : List Ty), cts <+: addAll cts ts
  | [], _ => List.prefix_rfl
  | t :: ts, cts => by
    rw [addAll_cons]
    refine List.IsPrefix.trans ?_ (prefix_addAll ts _)
    split
    · exact List.prefix_rfl
    · exact List.prefix_append _ _

theorem mem_addAll {u : Ty} : ∀ {ts cts : List Ty}, u ∈ addAll cts ts ↔ u ∈ cts ∨ u ∈ ts
  | [], cts => by simp
  | t :: ts, cts => by
    rw [addAll_cons, mem_addAll]
    split
    · rename_i h
      rw [List.mem_cons]
      constructor
      · rintro (h1 | h1)
        · exact .inl h1
        · exact .inr (.inr h1)
      · rintro (h1 | rfl | h1)
        · exact .inl h1
        · exact .inl h
        · exact .inr h1
    · simp [or_assoc]

theorem addAll_nodup : ∀ {ts cts : List Ty}, cts.Nodup → (addAll cts ts).Nodup
  | [], _, h => h
  | t :: ts, cts, h => by
    rw [addAll_cons]
    apply addAll_nodup
    split
    · exact h
    · rename_i h1
      rw [List.nodup_append]
      refine ⟨h, List.nodup_singleton t, ?_⟩
      rintro a ha b hb rfl
      rw [List.mem_singleton] at hb
      subst hb
      exact h1 ha

theorem idxOf_prefix {t : Ty} {a b : List Ty} (h : a <+: b) (ht : t ∈ a) : b.idxOf t = a.idxOf t := by
  obtain ⟨r, rfl⟩ := h
  exact List.idxOf_append_of_mem ht

/-! ### Functions that look up types -/

/-- The function looks up these types, and gives this text for the final table. -/
def Fmt {α : Type} (p : PM α) (L : List Ty) (R : List Ty → α) : Prop :=
  ∀ cts final, addAll cts L <+: final → p cts = .ok (R final, addAll cts L)

/-- The function panics. -/
def Panics {α : Type} (p : PM α) : Prop := ∀ cts, p cts = .error .panic

theorem Fmt.pure {α : Type} (a : α) : Fmt (Pure.pure a : PM α) [] fun _ => a := fun _ _ _ => rfl

theorem Fmt.bind {α β : Type} {p : PM α} {L : List Ty} {R : List Ty → α} {q : α → PM β} {L' : List Ty} {R' : α → List Ty → β}
    (h : Fmt p L R) (h' : ∀ a, Fmt (q a) L' (R' a)) : Fmt (p >>= q) (L ++ L') fun n => R' (R n) n := by
  intro cts final hf
  rw [addAll_append] at hf ⊢
  have h1 := h cts final ((prefix_addAll _ _).trans hf)
  show (p cts >>= fun x => q x.1 x.2) = _
  rw [h1]
  exact h' _ _ _ hf

theorem Fmt.of_eq {α : Type} {p : PM α} {L L' : List Ty} {R R' : List Ty → α} (h : Fmt p L R) (hL : L = L') (hR : ∀ n, R n = R' n) : Fmt p L' R' := by
  subst hL
  intro cts final hf
  rw [h cts final hf, hR]

theorem Panics.bind_left {α β : Type} {p : PM α} {q : α → PM β} (h : Panics p) : Panics (p >>= q) := by
  intro cts
  show (p cts >>= fun x => q x.1 x.2) = _
  rw [h cts]; rfl

theorem Panics.bind_right {α β : Type} {p : PM α} {L : List Ty} {R : List Ty → α} {q : α → PM β} (h : Fmt p L R) (h' : ∀ a, Panics (q a)) :
    Panics (p >>= q) := by
  intro cts
  show (p cts >>= fun x => q x.1 x.2) = _
  rw [h cts _ List.prefix_rfl]
  exact h' _ _

theorem Panics.panic {α : Type} : Panics (PM.panic : PM α) := fun _ => rfl

theorem getComptypeIndex_fmt (t : Ty) : Fmt (getComptypeIndex t) [t] fun n => n.idxOf t := by
  intro cts final hf
  have h1 : addAll cts [t] = if t ∈ cts then cts else cts ++ [t] := rfl
  have h2 : t ∈ addAll cts [t] := mem_addAll.2 (.inr List.mem_cons_self)
  dsimp only
  rw [idxOf_prefix hf h2, h1, getComptypeIndex]
  split
  · rfl
  · rename_i h
    rw [List.idxOf_append_of_notMem h]
    simp

theorem FmtExpr.toText_atomic (s : Text) : (FmtExpr.atomic s).toText = s := rfl
theorem FmtExpr.toText_nonAtomic (s : Text) : (FmtExpr.nonAtomic s).toText = s := rfl

/-! ### Types -/

theorem fmtIntType_eq (i : IntType) : fmtIntType i = i.text := by
  obtain ⟨s, n⟩ := i
  cases s <;> simp only [fmtIntType, IntType.text, Nat.mul_comm n 8] <;> rfl

theorem fmtMetaKind_eq (m : MetaKind) : fmtMetaKind m = m.text := by
  cases m with
  | vtablePointer t => simp only [fmtMetaKind, MetaKind.text, fmtTraitName, List.append_assoc]; rfl
  | _ => rfl

theorem fmtLayoutStrategy_eq (l : LayoutStrategy) : fmtLayoutStrategy l = l.text := by
  induction l with
  | tuple head tail ih =>
    simp only [fmtLayoutStrategy, LayoutStrategy.text, ih]
    cases head.packedAlign <;> rfl
  | _ => rfl

theorem fmtPointeeInfo_eq (p : PointeeInfo) : fmtPointeeInfo p = p.text := by
  obtain ⟨l, i, c, f, u⟩ := p
  cases i <;> cases f <;> cases u <;>
    simp [fmtPointeeInfo, PointeeInfo.text, fmtLayoutStrategy_eq, fmtMetaKind_eq]

theorem fmtPtrType_toText (p : PtrType) : (fmtPtrType p).toText = p.text := by
  cases p with
  | ref m pt => cases m <;> simp only [fmtPtrType, FmtExpr.toText, PtrType.text, fmtPointeeInfo_eq]
  | _ => simp only [fmtPtrType, FmtExpr.toText, PtrType.text, fmtPointeeInfo_eq, fmtMetaKind_eq]

/-- The text of a type, as an expression. -/
def Ty.fmt (names : List Ty) : Ty → FmtExpr
  | .ptr p => fmtPtrType p
  | t => .atomic (t.text names)

theorem Ty.fmt_toText (names : List Ty) (t : Ty) : (t.fmt names).toText = t.text names := by
  cases t with
  | ptr p => exact fmtPtrType_toText p
  | _ => rfl

theorem fmtType_fmt : ∀ t : Ty, Fmt (fmtType t) t.mentions fun n => t.fmt n
  | .int i => (Fmt.pure _).of_eq rfl fun _ => by rw [fmtIntType_eq]; rfl
  | .ptr _ => Fmt.pure _
  | .bool => Fmt.pure _
  | .tuple .. => (Fmt.bind (getComptypeIndex_fmt _) fun _ => Fmt.pure _).of_eq rfl fun _ => rfl
  | .union .. => (Fmt.bind (getComptypeIndex_fmt _) fun _ => Fmt.pure _).of_eq rfl fun _ => rfl
  | .enum .. => (Fmt.bind (getComptypeIndex_fmt _) fun _ => Fmt.pure _).of_eq rfl fun _ => rfl
  | .array elem _ => by
    rw [fmtType]
    exact (Fmt.bind (fmtType_fmt elem) fun _ => Fmt.pure _).of_eq (List.append_nil _) fun n => by
      rw [Ty.fmt_toText]; rfl
  | .slice elem => by
    rw [fmtType]
    exact (Fmt.bind (fmtType_fmt elem) fun _ => Fmt.pure _).of_eq (List.append_nil _) fun n => by
      rw [Ty.fmt_toText]; rfl
  | .traitObject _ => Fmt.pure _

/-! ### Expressions -/

/-- The text of an expression, and whether it is atomic. -/
def toFmt (loose : Bool) (t : Text) : FmtExpr := if loose then .nonAtomic t else .atomic t

@[simp] theorem toFmt_toText (loose : Bool) (t : Text) : (toFmt loose t).toText = t := by cases loose <;> rfl
@[simp] theorem toFmt_toAtomic (loose : Bool) (t : Text) : (toFmt loose t).toAtomic = parens loose t := by cases loose <;> rfl

theorem fmtConstant_eq (c : Constant) (ty : Ty) : fmtConstant c = toFmt (ValueExpr.constant c ty).loose c.text := by
  cases c with
  | bool b => cases b <;> rfl
  | globalPointer r =>
    unfold fmtConstant fmtRelocation ValueExpr.loose Constant.text
    dsimp only
    by_cases h : r.offset = 0
    · rw [if_pos h, if_pos h]
      simp [h, toFmt, fmtGlobalName]
    · rw [if_neg h, if_neg h]
      simp [h, toFmt, fmtGlobalName]
  | pointerWithoutProvenance a =>
    unfold fmtConstant Constant.text
    dsimp only
    split <;> rfl
  | _ => rfl

mutual
theorem fmtValueExpr_fmt : ∀ e : ValueExpr, e.Printable → Fmt (fmtValueExpr e) e.mentions fun n => toFmt e.loose (e.text n)
  | .constant c ty, _ => by
    rw [fmtValueExpr, fmtConstant_eq c ty]
    exact Fmt.pure _
  | .tuple es t, h => by
    obtain ⟨h1, h2⟩ := h
    have ih := fmtValueExprs_fmt es h2
    cases t with
    | array => exact (Fmt.bind ih fun _ => Fmt.pure _).of_eq (List.append_nil _) fun n => rfl
    | tuple => exact (Fmt.bind ih fun _ => Fmt.pure _).of_eq (List.append_nil _) fun n => rfl
    | _ => exact h1.elim
  | .union field e t, h => by
    rw [fmtValueExpr]
    exact (Fmt.bind (fmtType_fmt t) fun _ => Fmt.bind (fmtValueExpr_fmt e h) fun _ => Fmt.pure _).of_eq
      (by rw [List.append_nil]; rfl) fun n => by rw [Ty.fmt_toText, toFmt_toText]; rfl
  | .variant d e t, h => by
    rw [fmtValueExpr]
    exact (Fmt.bind (fmtType_fmt t) fun _ => Fmt.bind (fmtValueExpr_fmt e h) fun _ => Fmt.pure _).of_eq
      (by rw [List.append_nil]; rfl) fun n => by rw [Ty.fmt_toText, toFmt_toText]; rfl
  | .getDiscriminant p, h => by
    rw [fmtValueExpr]
    exact (Fmt.bind (fmtPlaceExpr_fmt p h) fun _ => Fmt.pure _).of_eq (List.append_nil _) fun n => by rw [toFmt_toText]; rfl
  | .load p, h => by
    rw [fmtValueExpr]
    exact (Fmt.bind (fmtPlaceExpr_fmt p h) fun _ => Fmt.pure _).of_eq (List.append_nil _) fun n => by rw [toFmt_toText]; rfl
  | .addrOf p t, h => by
    obtain ⟨h1, h2⟩ := h
    have ih := fmtPlaceExpr_fmt p h2
    cases t with
    | raw _ => exact (Fmt.bind ih fun _ => Fmt.pure _).of_eq (List.append_nil _) fun n => by rw [toFmt_toAtomic]; rfl
    | ref m _ =>
      cases m <;> exact (Fmt.bind ih fun _ => Fmt.pure _).of_eq (List.append_nil _) fun n => by rw [toFmt_toAtomic]; rfl
    | _ => exact h1.elim
  | .unOp op e, h => by
    have ih := fmtValueExpr_fmt e h
    have one : ∀ (f : FmtExpr → FmtExpr) (R : List Ty → FmtExpr), (∀ n, f (toFmt e.loose (e.text n)) = R n) →
        Fmt (fmtValueExpr e >>= fun a => Pure.pure (f a)) (e.mentions ++ []) R :=
      fun f R hR => (Fmt.bind ih fun _ => Fmt.pure _).of_eq rfl hR
    have two : ∀ (ty : Ty) (f : FmtExpr → FmtExpr → FmtExpr) (R : List Ty → FmtExpr),
        (∀ n, f (toFmt e.loose (e.text n)) (ty.fmt n) = R n) →
        Fmt (fmtValueExpr e >>= fun a => fmtType ty >>= fun t => Pure.pure (f a t)) (e.mentions ++ ty.mentions) R :=
      fun ty f R hR => (Fmt.bind ih fun _ => Fmt.bind (fmtType_fmt ty) fun _ => Fmt.pure _).of_eq (by rw [List.append_nil]) hR
    rw [fmtValueExpr, ValueExpr.mentions]
    match op with
    | .int .neg => exact one _ _ fun n => by rw [toFmt_toText]; rfl
    | .int .bitNot => exact one _ _ fun n => by rw [toFmt_toText, ValueExpr.text]; simp only [UnOp.around, List.append_nil]; rfl
    | .int .countOnes => exact one _ _ fun n => by rw [toFmt_toText, ValueExpr.text]; simp only [UnOp.around, List.append_nil]; rfl
    | .cast (.intToInt ity) => exact one _ _ fun n => by rw [toFmt_toText, fmtIntType_eq]; rfl
    | .cast (.transmute ty) => exact two ty _ _ fun n => by rw [toFmt_toText, Ty.fmt_toText]; rfl
    | .getThinPointer => exact one _ _ fun n => by rw [toFmt_toText]; rfl
    | .getMetadata => exact one _ _ fun n => by rw [toFmt_toText]; rfl
    | .computeSize ty => exact two ty _ _ fun n => by rw [toFmt_toText, Ty.fmt_toText]; rfl
    | .computeAlign ty => exact two ty _ _ fun n => by rw [toFmt_toText, Ty.fmt_toText]; rfl
    | .vtableMethodLookup m => exact one _ _ fun n => by rw [toFmt_toText]; rfl
  | .binOp op l r, h => by
    have hl := fmtValueExpr_fmt l h.1
    have hr := fmtValueExpr_fmt r h.2
    have key : ∀ (f : FmtExpr → FmtExpr → FmtExpr) (R : List Ty → FmtExpr),
        (∀ n, f (toFmt l.loose (l.text n)) (toFmt r.loose (r.text n)) = R n) →
        Fmt (fmtValueExpr l >>= fun a => fmtValueExpr r >>= fun b => Pure.pure (f a b)) (l.mentions ++ r.mentions) R :=
      fun f R hR => (Fmt.bind hl fun _ => Fmt.bind hr fun _ => Fmt.pure _).of_eq (by rw [List.append_nil]) hR
    rw [fmtValueExpr, ValueExpr.mentions]
    cases op with
    | int op => cases op <;> exact key _ _ fun n => by rw [toFmt_toAtomic, toFmt_toAtomic]; rfl
    | intWithOverflow op => cases op <;> exact key _ _ fun n => by rw [toFmt_toAtomic, toFmt_toAtomic]; rfl
    | rel op => exact key _ _ fun n => by rw [toFmt_toAtomic, toFmt_toAtomic]; rfl
    | ptrOffset _ => exact key _ _ fun n => by rw [toFmt_toText, toFmt_toText]; rfl
    | ptrOffsetFrom _ _ => exact key _ _ fun n => by rw [toFmt_toText, toFmt_toText]; rfl
    | constructWidePointer t =>
      refine key _ _ fun n => ?_
      have hs : ∀ x : Text, lit ">(" ++ x = lit ">" ++ (lit "(" ++ x) := fun _ => rfl
      rw [toFmt_toText, toFmt_toText, fmtPtrType_toText]
      simp only [ValueExpr.text, BinOp.written, ValueExpr.loose, toFmt, List.append_assoc, hs]
      rfl
theorem fmtValueExprs_fmt : ∀ es : List ValueExpr, ValueExpr.PrintableL es → Fmt (fmtValueExprs es) (ValueExpr.mentionsL es) fun n => ValueExpr.texts n es
  | [], _ => Fmt.pure _
  | e :: es, h => by
    rw [fmtValueExprs]
    exact (Fmt.bind (fmtValueExpr_fmt e h.1) fun _ => Fmt.bind (fmtValueExprs_fmt es h.2) fun _ => Fmt.pure _).of_eq
      (by rw [List.append_nil]; rfl) fun n => by rw [toFmt_toText]; rfl
theorem fmtPlaceExpr_fmt : ∀ p : PlaceExpr, p.Printable → Fmt (fmtPlaceExpr p) p.mentions fun n => toFmt p.loose (p.text n)
  | .local _, _ => Fmt.pure _
  | .deref e t, h => by
    rw [fmtPlaceExpr]
    exact (Fmt.bind (fmtType_fmt t) fun _ => Fmt.bind (fmtValueExpr_fmt e h) fun _ => Fmt.pure _).of_eq
      (by rw [List.append_nil]; rfl) fun n => by rw [Ty.fmt_toText, toFmt_toText]; rfl
  | .field p _, h => by
    rw [fmtPlaceExpr]
    exact (Fmt.bind (fmtPlaceExpr_fmt p h) fun _ => Fmt.pure _).of_eq (List.append_nil _) fun n => by rw [toFmt_toAtomic]; rfl
  | .index p e, h => by
    rw [fmtPlaceExpr]
    exact (Fmt.bind (fmtPlaceExpr_fmt p h.1) fun _ => Fmt.bind (fmtValueExpr_fmt e h.2) fun _ => Fmt.pure _).of_eq
      (by rw [List.append_nil]; rfl) fun n => by rw [toFmt_toAtomic, toFmt_toText]; rfl
  | .downcast p _, h => by
    rw [fmtPlaceExpr]
    exact (Fmt.bind (fmtPlaceExpr_fmt p h) fun _ => Fmt.pure _).of_eq (List.append_nil _) fun n => by rw [toFmt_toAtomic]; rfl
end


mutual
theorem fmtValueExpr_panics : ∀ e : ValueExpr, ¬ e.Printable → Panics (fmtValueExpr e)
  | .constant .., h => absurd trivial h
  | .tuple es t, h => by
    cases t with
    | array => exact Panics.bind_left (fmtValueExprs_panics es fun h' => h ⟨trivial, h'⟩)
    | tuple => exact Panics.bind_left (fmtValueExprs_panics es fun h' => h ⟨trivial, h'⟩)
    | _ => exact Panics.panic
  | .union _ e t, h => by rw [fmtValueExpr]; exact Panics.bind_right (fmtType_fmt t) fun _ => Panics.bind_left (fmtValueExpr_panics e h)
  | .variant _ e t, h => by rw [fmtValueExpr]; exact Panics.bind_right (fmtType_fmt t) fun _ => Panics.bind_left (fmtValueExpr_panics e h)
  | .getDiscriminant p, h => by rw [fmtValueExpr]; exact Panics.bind_left (fmtPlaceExpr_panics p h)
  | .load p, h => by rw [fmtValueExpr]; exact Panics.bind_left (fmtPlaceExpr_panics p h)
  | .addrOf p t, h => by
    cases t with
    | raw _ => exact Panics.bind_left (fmtPlaceExpr_panics p fun h' => h ⟨trivial, h'⟩)
    | ref m _ => cases m <;> exact Panics.bind_left (fmtPlaceExpr_panics p fun h' => h ⟨trivial, h'⟩)
    | _ => exact Panics.panic
  | .unOp op e, h => by rw [fmtValueExpr]; exact Panics.bind_left (fmtValueExpr_panics e h)
  | .binOp op l r, h => by
    rw [fmtValueExpr]
    by_cases hl : l.Printable
    · exact Panics.bind_right (fmtValueExpr_fmt l hl) fun _ => Panics.bind_left (fmtValueExpr_panics r fun h' => h ⟨hl, h'⟩)
    · exact Panics.bind_left (fmtValueExpr_panics l hl)
theorem fmtValueExprs_panics : ∀ es : List ValueExpr, ¬ ValueExpr.PrintableL es → Panics (fmtValueExprs es)
  | [], h => absurd trivial h
  | e :: es, h => by
    rw [fmtValueExprs]
    by_cases hl : e.Printable
    · exact Panics.bind_right (fmtValueExpr_fmt e hl) fun _ => Panics.bind_left (fmtValueExprs_panics es fun h' => h ⟨hl, h'⟩)
    · exact Panics.bind_left (fmtValueExpr_panics e hl)
theorem fmtPlaceExpr_panics : ∀ p : PlaceExpr, ¬ p.Printable → Panics (fmtPlaceExpr p)
  | .local _, h => absurd trivial h
  | .deref e t, h => by rw [fmtPlaceExpr]; exact Panics.bind_right (fmtType_fmt t) fun _ => Panics.bind_left (fmtValueExpr_panics e h)
  | .field p _, h => by rw [fmtPlaceExpr]; exact Panics.bind_left (fmtPlaceExpr_panics p h)
  | .index p e, h => by
    rw [fmtPlaceExpr]
    by_cases hl : p.Printable
    · exact Panics.bind_right (fmtPlaceExpr_fmt p hl) fun _ => Panics.bind_left (fmtValueExpr_panics e fun h' => h ⟨hl, h'⟩)
    · exact Panics.bind_left (fmtPlaceExpr_panics p hl)
  | .downcast p _, h => by rw [fmtPlaceExpr]; exact Panics.bind_left (fmtPlaceExpr_panics p h)
end

/-! ### Functions -/

theorem fmtStatement_fmt (st : Statement) (h : st.Printable) : Fmt (fmtStatement st) st.mentions fun n => st.text n := by
  have one : ∀ {p : PlaceExpr}, p.Printable → ∀ (f : FmtExpr → Text) (R : List Ty → Text), (∀ n, f (toFmt p.loose (p.text n)) = R n) →
      Fmt (fmtPlaceExpr p >>= fun a => Pure.pure (f a)) p.mentions R :=
    fun hp f R hR => (Fmt.bind (fmtPlaceExpr_fmt _ hp) fun _ => Fmt.pure _).of_eq (List.append_nil _) hR
  cases st with
  | assign p e =>
    exact (Fmt.bind (fmtPlaceExpr_fmt p h.1) fun _ => Fmt.bind (fmtValueExpr_fmt e h.2) fun _ => Fmt.pure _).of_eq
      (by rw [List.append_nil]; rfl) fun n => by rw [toFmt_toText, toFmt_toText]; rfl
  | placeMention p => exact one h _ _ fun n => by rw [toFmt_toText]; rfl
  | setDiscriminant p _ => exact one h _ _ fun n => by rw [toFmt_toText]; rfl
  | validate p _ => exact one h _ _ fun n => by rw [toFmt_toText]; rfl
  | deinit p => exact one h _ _ fun n => by rw [toFmt_toText]; rfl
  | storageLive _ => exact Fmt.pure _
  | storageDead _ => exact Fmt.pure _

theorem fmtStatement_panics (st : Statement) (h : ¬ st.Printable) : Panics (fmtStatement st) := by
  cases st with
  | assign p e =>
    rw [fmtStatement]
    by_cases hl : p.Printable
    · exact Panics.bind_right (fmtPlaceExpr_fmt p hl) fun _ => Panics.bind_left (fmtValueExpr_panics e fun h' => h ⟨hl, h'⟩)
    · exact Panics.bind_left (fmtPlaceExpr_panics p hl)
  | placeMention p => exact Panics.bind_left (fmtPlaceExpr_panics p h)
  | setDiscriminant p _ => exact Panics.bind_left (fmtPlaceExpr_panics p h)
  | validate p _ => exact Panics.bind_left (fmtPlaceExpr_panics p h)
  | deinit p => exact Panics.bind_left (fmtPlaceExpr_panics p h)
  | storageLive _ => exact absurd trivial h
  | storageDead _ => exact absurd trivial h

/-- Loops. -/
theorem loop_fmt {α : Type} {loop : List α → PM Text} {f : α → PM Text} {L : α → List Ty} {R : α → List Ty → Text}
    (h0 : loop [] = Pure.pure []) (h1 : ∀ a as, loop (a :: as) = f a >>= fun t => loop as >>= fun ts => Pure.pure (t ++ ts)) :
    ∀ as : List α, (∀ a ∈ as, Fmt (f a) (L a) (R a)) → Fmt (loop as) (as.flatMap L) fun n => as.flatMap fun a => R a n
  | [], _ => by rw [h0]; exact Fmt.pure _
  | a :: as, h => by
    rw [h1]
    exact (Fmt.bind (h a List.mem_cons_self) fun _ => Fmt.bind (loop_fmt h0 h1 as fun x hx => h x (List.mem_cons_of_mem _ hx)) fun _ => Fmt.pure _).of_eq
      (by rw [List.append_nil, List.flatMap_cons]) fun n => by rw [List.flatMap_cons]

theorem loop_panics {α : Type} {loop : List α → PM Text} {f : α → PM Text} {L : α → List Ty} {R : α → List Ty → Text} {good : α → Prop}
    (h0 : loop [] = Pure.pure []) (h1 : ∀ a as, loop (a :: as) = f a >>= fun t => loop as >>= fun ts => Pure.pure (t ++ ts))
    (hg : ∀ a, good a → Fmt (f a) (L a) (R a)) (hb : ∀ a, ¬ good a → Panics (f a)) :
    ∀ as : List α, ¬ (∀ a ∈ as, good a) → Panics (loop as)
  | [], h => absurd (fun _ h => absurd h List.not_mem_nil) h
  | a :: as, h => by
    rw [h1]
    by_cases ha : good a
    · refine Panics.bind_right (hg a ha) fun _ => Panics.bind_left (loop_panics h0 h1 hg hb as fun h' => h fun x hx => ?_)
      rcases List.mem_cons.1 hx with rfl | hx
      · exact ha
      · exact h' x hx
    · exact Panics.bind_left (hb a ha)

/-- A function followed by a fixed change of its text. -/
theorem Fmt.map {α β : Type} {p : PM α} {L : List Ty} {R : List Ty → α} (h : Fmt p L R) (f : α → β) :
    Fmt (p >>= fun a => Pure.pure (f a)) L fun n => f (R n) :=
  (Fmt.bind h fun _ => Fmt.pure _).of_eq (List.append_nil _) fun _ => rfl

theorem PM.bind_assoc {α β γ : Type} (p : PM α) (q : α → PM β) (r : β → PM γ) : (p >>= q) >>= r = p >>= fun a => q a >>= r := by
  funext cts
  show ((p cts >>= fun x => q x.1 x.2) >>= fun y => r y.1 y.2) = (p cts >>= fun x => (q x.1 x.2 >>= fun y => r y.1 y.2))
  cases p cts <;> rfl

theorem PM.pure_bind {α β : Type} (a : α) (q : α → PM β) : (Pure.pure a >>= q : PM β) = q a := rfl

theorem fmtStatements_cons (st : Statement) (sts : List Statement) : fmtStatements (st :: sts) =
    (fmtStatement st >>= fun t => Pure.pure (t ++ lit "\n")) >>= fun t => fmtStatements sts >>= fun ts => Pure.pure (t ++ ts) := by
  rw [PM.bind_assoc]; rfl

theorem fmtLocals_cons (l : LocalName × Ty) (ls : List (LocalName × Ty)) : fmtLocals (l :: ls) =
    (fmtType l.2 >>= fun t => Pure.pure (lit "  let " ++ fmtLocalName l.1 ++ lit ": " ++ t.toText ++ lit ";\n")) >>=
      fun t => fmtLocals ls >>= fun ts => Pure.pure (t ++ ts) := by
  rw [PM.bind_assoc]; rfl

theorem fmtComptypeFields_cons (l : Nat × Ty) (ls : List (Nat × Ty)) : fmtComptypeFields (l :: ls) =
    (fmtType l.2 >>= fun t => Pure.pure (lit "  at byte " ++ natText l.1 ++ lit ": " ++ t.toText ++ lit ",\n")) >>=
      fun t => fmtComptypeFields ls >>= fun ts => Pure.pure (t ++ ts) := by
  rw [PM.bind_assoc]; rfl

theorem fmtComptypeVariants_cons (l : Int × (Ty × Tagger)) (ls : Variants) : fmtComptypeVariants (l :: ls) =
    (fmtType l.2.1 >>= fun t => Pure.pure (lit "  Variant " ++ intText l.1 ++ lit ": " ++ t.toText ++ lit "\n")) >>=
      fun t => fmtComptypeVariants ls >>= fun ts => Pure.pure (t ++ ts) := by
  rw [PM.bind_assoc]; rfl

theorem fmtArguments_fmt : ∀ args : List ArgumentExpr, (∀ a ∈ args, a.Printable) →
    Fmt (fmtArguments args) (args.flatMap ArgumentExpr.mentions) fun n => args.map (ArgumentExpr.text n)
  | [], _ => Fmt.pure _
  | .byValue e :: args, h => by
    rw [fmtArguments]
    exact (Fmt.bind (fmtValueExpr_fmt e (h _ List.mem_cons_self)) fun _ =>
      Fmt.bind (fmtArguments_fmt args fun x hx => h x (List.mem_cons_of_mem _ hx)) fun _ => Fmt.pure _).of_eq
      (by rw [List.append_nil]; rfl) fun n => by rw [toFmt_toText]; rfl
  | .inPlace p :: args, h => by
    rw [fmtArguments]
    exact (Fmt.bind (fmtPlaceExpr_fmt p (h _ List.mem_cons_self)) fun _ =>
      Fmt.bind (fmtArguments_fmt args fun x hx => h x (List.mem_cons_of_mem _ hx)) fun _ => Fmt.pure _).of_eq
      (by rw [List.append_nil]; rfl) fun n => by rw [toFmt_toText]; rfl

theorem fmtArguments_panics : ∀ args : List ArgumentExpr, ¬ (∀ a ∈ args, a.Printable) → Panics (fmtArguments args)
  | [], h => absurd (fun _ h => absurd h List.not_mem_nil) h
  | .byValue e :: args, h => by
    rw [fmtArguments]
    by_cases he : e.Printable
    · refine Panics.bind_right (fmtValueExpr_fmt e he) fun _ => Panics.bind_left (fmtArguments_panics args fun h' => h fun x hx => ?_)
      rcases List.mem_cons.1 hx with rfl | hx
      · exact he
      · exact h' x hx
    · exact Panics.bind_left (fmtValueExpr_panics e he)
  | .inPlace e :: args, h => by
    rw [fmtArguments]
    by_cases he : e.Printable
    · refine Panics.bind_right (fmtPlaceExpr_fmt e he) fun _ => Panics.bind_left (fmtArguments_panics args fun h' => h fun x hx => ?_)
      rcases List.mem_cons.1 hx with rfl | hx
      · exact he
      · exact h' x hx
    · exact Panics.bind_left (fmtPlaceExpr_panics e he)

theorem fmtCall_fmt (callee : Text) (conv : CallingConvention) (args : List Text) (ret : PlaceExpr) (next unwind : Option BbName) (h : ret.Printable) :
    Fmt (fmtCall callee conv (joinText (lit ", ") args) ret next unwind) ret.mentions fun n =>
      callText (ret.text n) ((match conv with | .rust => [] | .c => lit "extern \"C\"") ++ callee) args next unwind := by
  refine (Fmt.bind (fmtPlaceExpr_fmt ret h) fun _ => Fmt.pure _).of_eq (List.append_nil _) fun n => ?_
  rw [toFmt_toText]
  unfold callText
  cases next <;> cases unwind <;> simp only [List.append_assoc, fmtBbName, List.append_nil, List.nil_append] <;> rfl

theorem joinText_cases (sep : Text) : ∀ (xs : List Text) (y : Text), joinText sep (xs ++ [y]) = (xs.flatMap fun x => x ++ sep) ++ y
  | [], y => rfl
  | [x], y => by simp [joinText]
  | x :: x' :: xs, y => by
    have := joinText_cases sep (x' :: xs) y
    simp only [List.cons_append] at this
    simp only [List.cons_append, joinText, this, List.flatMap_cons, List.append_assoc]

theorem fmtTerminator_fmt (t : Terminator) (h : t.Printable) : Fmt (fmtTerminator t) t.mentions fun n => t.text n := by
  cases t with
  | goto _ => exact Fmt.pure _
  | switch e cases fallback =>
    refine (Fmt.bind (fmtValueExpr_fmt e h) fun _ => Fmt.pure _).of_eq (List.append_nil _) fun n => ?_
    rw [toFmt_toText, joinText_cases, List.flatMap_map]
    simp only [Terminator.text, List.append_assoc, fmtBbName]
    rfl
  | unreachable => exact Fmt.pure _
  | call callee conv args ret next unwind =>
    exact (Fmt.bind (fmtValueExpr_fmt callee h.1) fun _ => Fmt.bind (fmtArguments_fmt args h.2.1) fun _ => fmtCall_fmt _ conv _ ret next unwind h.2.2).of_eq
      (List.append_assoc _ _ _).symm fun n => by rw [toFmt_toAtomic]; rfl
  | «return» => exact Fmt.pure _
  | startUnwind e b =>
    have hs : ∀ x : Text, lit ") -> unwind: " ++ (lit "bb" ++ x) = lit ") -> unwind: bb" ++ x := fun x => by
      rw [← List.append_assoc, show lit ") -> unwind: " ++ lit "bb" = lit ") -> unwind: bb" by decide]
    refine (Fmt.bind (fmtValueExpr_fmt e h) fun _ => Fmt.pure _).of_eq (List.append_nil _) fun n => ?_
    rw [toFmt_toText, Terminator.text, fmtBbName]
    simp only [List.append_assoc, ← hs]
  | stopUnwind b =>
    have hs : ∀ x : Text, lit "    start unwind -> unwind: " ++ (lit "bb" ++ x) = lit "    start unwind -> unwind: bb" ++ x := fun x => by
      rw [← List.append_assoc, show lit "    start unwind -> unwind: " ++ lit "bb" = lit "    start unwind -> unwind: bb" by decide]
    refine (Fmt.pure _).of_eq rfl fun n => ?_
    rw [Terminator.text, fmtBbName]
    simp only [List.append_assoc, ← hs]
  | resumeUnwind => exact Fmt.pure _
  | intrinsic op args ret next =>
    exact (Fmt.bind (fmtValueExprs_fmt args h.1) fun _ => fmtCall_fmt _ .rust _ ret next none h.2).of_eq rfl fun n => rfl

theorem fmtTerminator_panics (t : Terminator) (h : ¬ t.Printable) : Panics (fmtTerminator t) := by
  cases t with
  | switch e cases fallback => exact Panics.bind_left (fmtValueExpr_panics e h)
  | startUnwind e _ => exact Panics.bind_left (fmtValueExpr_panics e h)
  | call callee conv args ret next unwind =>
    rw [fmtTerminator]
    by_cases h1 : callee.Printable
    · refine Panics.bind_right (fmtValueExpr_fmt callee h1) fun _ => ?_
      by_cases h2 : ∀ a ∈ args, a.Printable
      · refine Panics.bind_right (fmtArguments_fmt args h2) fun _ => ?_
        exact Panics.bind_left (fmtPlaceExpr_panics ret fun h3 => h ⟨h1, h2, h3⟩)
      · exact Panics.bind_left (fmtArguments_panics args h2)
    · exact Panics.bind_left (fmtValueExpr_panics callee h1)
  | intrinsic op args ret next =>
    rw [fmtTerminator]
    by_cases h2 : ValueExpr.PrintableL args
    · refine Panics.bind_right (fmtValueExprs_fmt args h2) fun _ => ?_
      exact Panics.bind_left (fmtPlaceExpr_panics ret fun h3 => h ⟨h2, h3⟩)
    · exact Panics.bind_left (fmtValueExprs_panics args h2)
  | _ => exact absurd trivial h

/-- All expressions of the block are printable. -/
def BasicBlock.Printable (b : BasicBlock) : Prop := (∀ st ∈ b.statements, st.Printable) ∧ b.terminator.Printable

theorem fmtBb_fmt (name : BbName) (b : BasicBlock) (start : Bool) (h : b.Printable) : Fmt (fmtBb name b start) b.mentions fun n => b.text n start name := by
  have h1 : Fmt (fmtStatements b.statements) (b.statements.flatMap Statement.mentions) fun n => b.statements.flatMap fun st => st.text n ++ lit "\n" :=
    loop_fmt (loop := fmtStatements) rfl fmtStatements_cons b.statements fun st hst => (fmtStatement_fmt st (h.1 st hst)).map _
  exact (Fmt.bind h1 fun _ => Fmt.bind (fmtTerminator_fmt b.terminator h.2) fun _ => Fmt.pure _).of_eq (by rw [List.append_nil]; rfl) fun n => rfl

theorem fmtBb_panics (name : BbName) (b : BasicBlock) (start : Bool) (h : ¬ b.Printable) : Panics (fmtBb name b start) := by
  rw [fmtBb]
  by_cases h1 : ∀ st ∈ b.statements, st.Printable
  · refine Panics.bind_right (loop_fmt (loop := fmtStatements) rfl fmtStatements_cons b.statements fun st hst =>
      (fmtStatement_fmt st (h1 st hst)).map _) fun _ => Panics.bind_left (fmtTerminator_panics _ fun h2 => h ⟨h1, h2⟩)
  · exact Panics.bind_left (loop_panics (loop := fmtStatements) rfl fmtStatements_cons (fun st hst => (fmtStatement_fmt st hst).map _)
      (fun st hst => Panics.bind_left (fmtStatement_panics st hst)) b.statements h1)

theorem mem_sortByName {V : Type} {m : List (Nat × V)} {x : Nat × V} : x ∈ sortByName m ↔ x ∈ m := List.mem_insertionSort _

/-- All expressions of the function are printable. -/
def Function.Printable (f : Function) : Prop := ∀ b ∈ f.blocks, b.2.Printable

theorem fmtLocals_fmt (ls : List (LocalName × Ty)) : Fmt (fmtLocals ls) (ls.flatMap fun l => l.2.mentions) fun n =>
    ls.flatMap fun l => lit "  let _" ++ natText l.1 ++ lit ": " ++ l.2.text n ++ lit ";\n" :=
  (loop_fmt (loop := fmtLocals) rfl fmtLocals_cons ls fun l _ => (fmtType_fmt l.2).map _).of_eq rfl fun n => by
    simp only [Ty.fmt_toText, fmtLocalName, lit, List.append_assoc]; rfl

theorem fmtFunction_fmt (name : FnName) (f : Function) (start : Bool) (h : f.Printable) :
    Fmt (fmtFunction name f start) f.mentions fun n => f.text n start name := by
  have h2 : Fmt (fmtBlocks f.start (sortByName f.blocks)) ((sortByName f.blocks).flatMap fun b => b.2.mentions) fun n =>
      (sortByName f.blocks).flatMap fun b => b.2.text n (f.start = b.1) b.1 :=
    loop_fmt (loop := fmtBlocks f.start) rfl (fun _ _ => rfl) _ fun b hb => fmtBb_fmt b.1 b.2 _ (h b (mem_sortByName.1 hb))
  exact (Fmt.bind (fmtLocals_fmt (sortByName f.locals)) fun _ => Fmt.bind h2 fun _ => Fmt.pure _).of_eq (by rw [List.append_nil]; rfl) fun n => by
    unfold Function.text
    cases start <;> simp only [List.append_assoc, fmtFnName, fmtLocalName] <;> rfl

theorem fmtFunction_panics (name : FnName) (f : Function) (start : Bool) (h : ¬ f.Printable) : Panics (fmtFunction name f start) := by
  rw [fmtFunction]
  refine Panics.bind_right (fmtLocals_fmt _) fun _ => Panics.bind_left ?_
  exact loop_panics (loop := fmtBlocks f.start) (good := fun b => b.2.Printable) rfl (fun _ _ => rfl) (fun b hb => fmtBb_fmt b.1 b.2 _ hb)
    (fun b hb => fmtBb_panics b.1 b.2 _ hb) _ fun h' => h fun b hb => h' b (mem_sortByName.2 hb)

theorem fmtFunctions_fmt (prog : Program) (h : prog.Printable) : Fmt (fmtFunctions prog) prog.mentions fun n =>
    (sortByName prog.functions).flatMap fun f => f.2.text n (prog.start = f.1) f.1 :=
  loop_fmt (loop := fmtFunctionList prog.start) rfl (fun _ _ => rfl) _ fun f hf => fmtFunction_fmt f.1 f.2 _ (h f (mem_sortByName.1 hf))

theorem fmtFunctions_panics (prog : Program) (h : ¬ prog.Printable) : Panics (fmtFunctions prog) :=
  loop_panics (loop := fmtFunctionList prog.start) (good := fun f => f.2.Printable) rfl (fun _ _ => rfl) (fun f hf => fmtFunction_fmt f.1 f.2 _ hf)
    (fun f hf => fmtFunction_panics f.1 f.2 _ hf) _ fun h' => h fun f hf => h' f (mem_sortByName.2 hf)

/-! ### Globals, traits and vtables -/

theorem byteText_eq : ∀ b : Option UInt8, byteText b = match b with
    | some u => [hexDigit (u.toNat / 16), hexDigit (u.toNat % 16)]
    | none => lit "__" := by
  have key : ∀ n : Fin 256, (Nat.toDigits 16 (n.val + 256)).tail = [hexDigit (n.val / 16), hexDigit (n.val % 16)] := by decide +kernel
  rintro (_ | b)
  · rfl
  · exact key ⟨b.toNat, b.toNat_lt⟩

theorem fmtGlobal_eq (name : GlobalName) (g : Global) : fmtGlobal name g = g.text name := by
  have h1 : fmtBytes g.bytes = joinText (lit " ") (g.bytes.map byteText) := by
    rw [fmtBytes]
    congr 2
    funext b
    rw [byteText_eq]
    cases b <;> rfl
  have h2 : ∀ r : Relocation, (fmtRelocation r).toText = (Constant.globalPointer r).text := fun r => by
    rw [fmtRelocation, Constant.text]
    split <;> simp [FmtExpr.toText, fmtGlobalName]
  have h3 : ∀ x : Text, lit ")" ++ (lit " {\n  bytes = [" ++ x) = lit ") {\n  bytes = [" ++ x := fun x => by
    rw [← List.append_assoc]; rfl
  simp only [fmtGlobal, Global.text, h1, h2, fmtGlobalName, List.append_assoc, h3]

theorem fmtVTable_eq (name : VTableName) (v : VTable) : fmtVTable name v = v.text name := by
  have h1 : ∀ x : Text, lit " {\n" ++ (lit "  trait = " ++ (lit "trait" ++ x)) = lit " {\n  trait = trait" ++ x := fun x => by
    rw [← List.append_assoc, ← List.append_assoc]; rfl
  have h2 : ∀ x : Text, lit ",\n" ++ (lit "  size = " ++ x) = lit ",\n  size = " ++ x := fun x => by rw [← List.append_assoc]; rfl
  have h3 : ∀ x : Text, lit ",\n" ++ (lit "  align = " ++ x) = lit ",\n  align = " ++ x := fun x => by rw [← List.append_assoc]; rfl
  have h4 : ∀ x : Text, lit "  " ++ (lit "m" ++ x) = lit "  m" ++ x := fun _ => rfl
  have h5 : ∀ x : Text, lit "() = " ++ (lit "f" ++ x) = lit "() = f" ++ x := fun x => by rw [← List.append_assoc]; rfl
  simp only [fmtVTable, VTable.text, fmtVTableName, fmtTraitName, fmtTraitMethodName, fmtFnName, List.append_assoc, h1, h2, h3, h4, h5]

/-! ### Definitions of composite types -/

theorem Ty.mentions_composite {u : Ty} : ∀ {t : Ty}, u ∈ t.mentions → u.Composite
  | .array e _, h => Ty.mentions_composite (t := e) h
  | .slice e, h => Ty.mentions_composite (t := e) h
  | .tuple .., h => by rw [Ty.mentions, List.mem_singleton] at h; subst h; trivial
  | .union .., h => by rw [Ty.mentions, List.mem_singleton] at h; subst h; trivial
  | .enum .., h => by rw [Ty.mentions, List.mem_singleton] at h; subst h; trivial
  | .int _, h => absurd h List.not_mem_nil
  | .ptr _, h => absurd h List.not_mem_nil
  | .bool, h => absurd h List.not_mem_nil
  | .traitObject _, h => absurd h List.not_mem_nil

theorem UnOp.mentions_composite {u : Ty} {op : UnOp} (h : u ∈ op.mentions) : u.Composite := by
  cases op with
  | cast c =>
    cases c with
    | transmute t => exact Ty.mentions_composite (t := t) h
    | _ => exact absurd h List.not_mem_nil
  | computeSize t => exact Ty.mentions_composite (t := t) h
  | computeAlign t => exact Ty.mentions_composite (t := t) h
  | _ => exact absurd h List.not_mem_nil

mutual
theorem ValueExpr.mentions_composite {u : Ty} : ∀ {e : ValueExpr}, u ∈ e.mentions → u.Composite
  | .constant .., h => absurd h List.not_mem_nil
  | .tuple es _, h => ValueExpr.mentionsL_composite (es := es) h
  | .union _ e t, h => (List.mem_append.1 h).elim Ty.mentions_composite (ValueExpr.mentions_composite (e := e))
  | .variant _ e t, h => (List.mem_append.1 h).elim Ty.mentions_composite (ValueExpr.mentions_composite (e := e))
  | .getDiscriminant p, h => PlaceExpr.mentions_composite (p := p) h
  | .load p, h => PlaceExpr.mentions_composite (p := p) h
  | .addrOf p _, h => PlaceExpr.mentions_composite (p := p) h
  | .unOp op e, h => (List.mem_append.1 h).elim (ValueExpr.mentions_composite (e := e)) UnOp.mentions_composite
  | .binOp _ l r, h => (List.mem_append.1 h).elim (ValueExpr.mentions_composite (e := l)) (ValueExpr.mentions_composite (e := r))
theorem ValueExpr.mentionsL_composite {u : Ty} : ∀ {es : List ValueExpr}, u ∈ ValueExpr.mentionsL es → u.Composite
  | [], h => absurd h List.not_mem_nil
  | e :: es, h => (List.mem_append.1 h).elim (ValueExpr.mentions_composite (e := e)) (ValueExpr.mentionsL_composite (es := es))
theorem PlaceExpr.mentions_composite {u : Ty} : ∀ {p : PlaceExpr}, u ∈ p.mentions → u.Composite
  | .local _, h => absurd h List.not_mem_nil
  | .deref e t, h => (List.mem_append.1 h).elim Ty.mentions_composite (ValueExpr.mentions_composite (e := e))
  | .field p _, h => PlaceExpr.mentions_composite (p := p) h
  | .index p e, h => (List.mem_append.1 h).elim (PlaceExpr.mentions_composite (p := p)) (ValueExpr.mentions_composite (e := e))
  | .downcast p _, h => PlaceExpr.mentions_composite (p := p) h
end

theorem Statement.mentions_composite {u : Ty} {st : Statement} (h : u ∈ st.mentions) : u.Composite := by
  cases st with
  | assign p e => exact (List.mem_append.1 h).elim PlaceExpr.mentions_composite ValueExpr.mentions_composite
  | placeMention p => exact PlaceExpr.mentions_composite (p := p) h
  | setDiscriminant p _ => exact PlaceExpr.mentions_composite (p := p) h
  | validate p _ => exact PlaceExpr.mentions_composite (p := p) h
  | deinit p => exact PlaceExpr.mentions_composite (p := p) h
  | _ => exact absurd h List.not_mem_nil

theorem Terminator.mentions_composite {u : Ty} {t : Terminator} (h : u ∈ t.mentions) : u.Composite := by
  cases t with
  | switch e _ _ => exact ValueExpr.mentions_composite (e := e) h
  | startUnwind e _ => exact ValueExpr.mentions_composite (e := e) h
  | call callee conv args ret next unwind =>
    rcases List.mem_append.1 h with h | h
    · rcases List.mem_append.1 h with h | h
      · exact ValueExpr.mentions_composite h
      · obtain ⟨a, _, h⟩ := List.mem_flatMap.1 h
        cases a with
        | byValue e => exact ValueExpr.mentions_composite (e := e) h
        | inPlace p => exact PlaceExpr.mentions_composite (p := p) h
    · exact PlaceExpr.mentions_composite h
  | intrinsic op args ret next => exact (List.mem_append.1 h).elim ValueExpr.mentionsL_composite PlaceExpr.mentions_composite
  | _ => exact absurd h List.not_mem_nil

theorem Program.mentions_composite {prog : Program} {u : Ty} (h : u ∈ prog.mentions) : u.Composite := by
  obtain ⟨f, _, h⟩ := List.mem_flatMap.1 h
  rcases List.mem_append.1 h with h | h
  · obtain ⟨l, _, h⟩ := List.mem_flatMap.1 h
    exact Ty.mentions_composite h
  · obtain ⟨b, _, h⟩ := List.mem_flatMap.1 h
    rcases List.mem_append.1 h with h | h
    · obtain ⟨st, _, h⟩ := List.mem_flatMap.1 h
      exact Statement.mentions_composite h
    · exact Terminator.mentions_composite h

theorem Ty.mentions_size {u : Ty} : ∀ {t : Ty}, u ∈ t.mentions → sizeOf u ≤ sizeOf t
  | .array e _, h => by
    have := Ty.mentions_size (t := e) h
    simp only [Ty.array.sizeOf_spec]; omega
  | .slice e, h => by
    have := Ty.mentions_size (t := e) h
    simp only [Ty.slice.sizeOf_spec]; omega
  | .tuple .., h => by rw [Ty.mentions, List.mem_singleton] at h; subst h; exact Nat.le_refl _
  | .union .., h => by rw [Ty.mentions, List.mem_singleton] at h; subst h; exact Nat.le_refl _
  | .enum .., h => by rw [Ty.mentions, List.mem_singleton] at h; subst h; exact Nat.le_refl _
  | .int _, h => absurd h List.not_mem_nil
  | .ptr _, h => absurd h List.not_mem_nil
  | .bool, h => absurd h List.not_mem_nil
  | .traitObject _, h => absurd h List.not_mem_nil

theorem Ty.components_size {c t : Ty} (h : c ∈ t.components) : sizeOf c < sizeOf t := by
  cases t with
  | tuple fields head tail =>
    rw [Ty.components, List.mem_append, List.mem_map] at h
    simp only [Ty.tuple.sizeOf_spec]
    rcases h with ⟨⟨o, f⟩, hf, rfl⟩ | h
    · have h1 := List.sizeOf_lt_of_mem hf
      simp only [Prod.mk.sizeOf_spec] at h1
      show sizeOf f < _
      omega
    · cases tail with
      | none => exact absurd h List.not_mem_nil
      | some u =>
        rw [Option.toList_some, List.mem_singleton] at h
        subst h
        simp only [Option.some.sizeOf_spec]; omega
  | union fields chunks size align =>
    rw [Ty.components, List.mem_map] at h
    simp only [Ty.union.sizeOf_spec]
    obtain ⟨⟨o, f⟩, hf, rfl⟩ := h
    have h1 := List.sizeOf_lt_of_mem hf
    simp only [Prod.mk.sizeOf_spec] at h1
    show sizeOf f < _
    omega
  | enum variants d disc size align =>
    rw [Ty.components, List.mem_map] at h
    simp only [Ty.enum.sizeOf_spec]
    obtain ⟨⟨o, f, tg⟩, hf, rfl⟩ := h
    have h1 := List.sizeOf_lt_of_mem hf
    simp only [Prod.mk.sizeOf_spec] at h1
    show sizeOf f < _
    omega
  | _ => exact absurd h List.not_mem_nil

theorem fmtComptypeFields_fmt (ls : List (Nat × Ty)) : Fmt (fmtComptypeFields ls) ((ls.map Prod.snd).flatMap Ty.mentions) fun n =>
    ls.flatMap fun f => lit "  at byte " ++ natText f.1 ++ lit ": " ++ f.2.text n ++ lit ",\n" :=
  (loop_fmt (loop := fmtComptypeFields) rfl fmtComptypeFields_cons ls fun l _ => (fmtType_fmt l.2).map _).of_eq
    (by rw [List.flatMap_map]) fun n => by simp only [Ty.fmt_toText]

theorem fmtComptypeVariants_fmt (ls : Variants) : Fmt (fmtComptypeVariants ls) ((ls.map fun v => v.2.1).flatMap Ty.mentions) fun n =>
    ls.flatMap fun v => lit "  Variant " ++ intText v.1 ++ lit ": " ++ v.2.1.text n ++ lit "\n" :=
  (loop_fmt (loop := fmtComptypeVariants) rfl fmtComptypeVariants_cons ls fun l _ => (fmtType_fmt l.2.1).map _).of_eq
    (by rw [List.flatMap_map]) fun n => by simp only [Ty.fmt_toText]

section
variable [Target]

theorem liftM_fmt {l : LayoutStrategy} {r : Res LayoutStrategy} (h : r = .ok l) : Fmt (liftM r : PM LayoutStrategy) [] fun _ => l := by
  subst h
  exact fun _ _ _ => rfl

theorem fmtComptype_ok {i : Nat} {t : Ty} {l : LayoutStrategy} (hc : t.Composite) (hl : t.layout = .ok l) {cts final : List Ty}
    (hf : addAll cts (t.components.flatMap Ty.mentions) <+: final) (hi : final.idxOf t = i) :
    fmtComptype i t cts = .ok (t.defText final l, addAll cts (t.components.flatMap Ty.mentions)) := by
  subst hi
  cases t with
  | tuple fields head tail =>
    cases tail with
    | none =>
      have h : Fmt (fmtComptype (final.idxOf (Ty.tuple fields head none)) (.tuple fields head none)) _ _ :=
        Fmt.bind (Fmt.pure _) fun _ => Fmt.bind (liftM_fmt hl) fun _ => Fmt.bind (fmtComptypeFields_fmt fields) fun _ => Fmt.pure _
      have h2 := (h.of_eq (by rw [List.append_nil, List.nil_append, List.nil_append]; simp [Ty.components]) fun _ => rfl) cts final hf
      rw [h2]
      simp only [fmtLayoutStrategy_eq, Ty.defText, Option.elim_none, List.append_nil]
      rfl
    | some u =>
      have h : Fmt (fmtComptype (final.idxOf (Ty.tuple fields head (some u))) (.tuple fields head (some u))) _ _ :=
        Fmt.bind (Fmt.pure _) fun _ => Fmt.bind (liftM_fmt hl) fun _ =>
          Fmt.bind (fmtComptypeFields_fmt fields) fun _ => Fmt.bind (fmtType_fmt u) fun _ => Fmt.bind (Fmt.pure _) fun _ => Fmt.pure _
      have h2 := (h.of_eq (L' := (Ty.tuple fields head (some u)).components.flatMap Ty.mentions) (by simp [Ty.components]) fun _ => rfl) cts final hf
      rw [h2]
      simp only [fmtLayoutStrategy_eq, Ty.fmt_toText, Ty.defText, Option.elim_some, List.append_assoc]
      rfl
  | union fields chunks size align =>
    have h : Fmt (fmtComptype (final.idxOf (Ty.union fields chunks size align)) (.union fields chunks size align)) _ _ :=
      Fmt.bind (Fmt.pure _) fun _ => Fmt.bind (liftM_fmt hl) fun _ =>
        Fmt.bind (fmtComptypeFields_fmt fields) fun _ => Fmt.bind (Fmt.pure _) fun _ => Fmt.pure _
    have h2 := (h.of_eq (L' := (Ty.union fields chunks size align).components.flatMap Ty.mentions) (by simp [Ty.components]) fun _ => rfl) cts final hf
    rw [h2]
    simp only [fmtLayoutStrategy_eq, Ty.defText, fmtComptypeChunks, List.append_assoc]
    rfl
  | enum variants d disc size align =>
    have h : Fmt (fmtComptype (final.idxOf (Ty.enum variants d disc size align)) (.enum variants d disc size align)) _ _ :=
      Fmt.bind (Fmt.pure _) fun _ => Fmt.bind (liftM_fmt hl) fun _ =>
        Fmt.bind (fmtComptypeVariants_fmt variants) fun _ => Fmt.bind (Fmt.pure _) fun _ => Fmt.pure _
    have h2 := (h.of_eq (L' := (Ty.enum variants d disc size align).components.flatMap Ty.mentions) (by simp [Ty.components]) fun _ => rfl) cts final hf
    rw [h2]
    simp only [fmtLayoutStrategy_eq, fmtIntType_eq, Ty.defText, List.append_assoc]
    rfl
  | _ => exact absurd hc id

theorem fmtComptype_error {i : Nat} {t : Ty} {e : Err} (hc : t.Composite) (hl : t.layout = .error e) (cts : List Ty) :
    fmtComptype i t cts = .error e := by
  unfold fmtComptype
  rw [hl]
  cases t <;> first | exact absurd hc id | rfl

theorem addAll_extra : ∀ (L cts : List Ty), ∃ extra, addAll cts L = cts ++ extra ∧ ∀ t ∈ extra, t ∈ L
  | [], cts => ⟨[], (List.append_nil _).symm, fun _ h => absurd h List.not_mem_nil⟩
  | t :: L, cts => by
    rw [addAll_cons]
    obtain ⟨extra, h1, h2⟩ := addAll_extra L (if t ∈ cts then cts else cts ++ [t])
    rw [h1]
    split
    · exact ⟨extra, rfl, fun u hu => List.mem_cons_of_mem _ (h2 u hu)⟩
    · refine ⟨t :: extra, by rw [List.append_assoc]; rfl, fun u hu => ?_⟩
      rcases List.mem_cons.1 hu with rfl | hu
      · exact List.mem_cons_self
      · exact List.mem_cons_of_mem _ (h2 u hu)

/-- What the loop over composite types prints. -/
structure Defs (S : Ty → Prop) (i : Nat) (cts final : List Ty) (defs : List Text) : Prop where
  pre : cts <+: final
  nodup : final.Nodup
  mem : ∀ t ∈ final, t.Composite ∧ S t
  closed : ∀ j t c u, i ≤ j → final[j]? = some t → c ∈ t.components → u ∈ c.mentions → u ∈ final
  length : defs.length = final.length - i
  text : ∀ j t, i ≤ j → final[j]? = some t → ∃ l, t.layout = .ok l ∧ defs[j - i]? = some (t.defText final l)

/-- The loop ends. -/
theorem fmtComptypes_loop (S : Ty → Prop) (hS : ∀ t c u, S t → c ∈ t.components → u ∈ c.mentions → S u) :
    ∀ (k m i : Nat) (cts : List Ty), cts.Nodup → (∀ t ∈ cts, t.Composite ∧ S t) →
      (∀ j t, i ≤ j → cts[j]? = some t → sizeOf t ≤ k) → (∀ j t, i + m ≤ j → cts[j]? = some t → sizeOf t < k) →
      ∃ fuel, (∃ e t, S t ∧ t.layout = .error e ∧ fmtComptypes fuel i cts = some (.error e)) ∨
        ∃ final defs, Defs S i cts final defs ∧ fmtComptypes fuel i cts = some (.ok defs.flatten) := by
  have stop : ∀ (i : Nat) (cts : List Ty), cts.Nodup → (∀ t ∈ cts, t.Composite ∧ S t) → cts[i]? = none →
      ∃ fuel, (∃ e t, S t ∧ t.layout = .error e ∧ fmtComptypes fuel i cts = some (.error e)) ∨
        ∃ final defs, Defs S i cts final defs ∧ fmtComptypes fuel i cts = some (.ok defs.flatten) := by
    intro i cts hn hm hi
    refine ⟨0, .inr ⟨cts, [], ⟨List.prefix_rfl, hn, hm, fun j t c u hj ht => ?_, ?_, fun j t hj ht => ?_⟩, ?_⟩⟩
    · rw [List.getElem?_eq_none ((List.getElem?_eq_none_iff.1 hi).trans hj)] at ht; cases ht
    · have := List.getElem?_eq_none_iff.1 hi
      simp only [List.length_nil]; omega
    · rw [List.getElem?_eq_none ((List.getElem?_eq_none_iff.1 hi).trans hj)] at ht; cases ht
    · unfold fmtComptypes; rw [hi]; rfl
  intro k
  induction k with
  | zero =>
    intro m i cts hn hm h1 _
    cases hi : cts[i]? with
    | none => exact stop i cts hn hm hi
    | some t =>
      have := h1 i t (Nat.le_refl _) hi
      cases t <;> simp at this <;> omega
  | succ k ihk =>
    intro m
    induction m with
    | zero =>
      intro i cts hn hm _ h2
      refine ihk cts.length i cts hn hm (fun j t hj ht => Nat.le_of_lt_succ (h2 j t hj ht)) fun j t hj ht => ?_
      rw [List.getElem?_eq_none (by omega)] at ht; cases ht
    | succ m ihm =>
      intro i cts hn hm h1 h2
      cases hi : cts[i]? with
      | none => exact stop i cts hn hm hi
      | some c =>
        obtain ⟨hcc, hSc⟩ := hm c (List.mem_of_getElem? hi)
        cases hl : c.layout with
        | error e =>
          refine ⟨1, .inl ⟨e, c, hSc, hl, ?_⟩⟩
          unfold fmtComptypes
          rw [hi]
          dsimp only
          rw [fmtComptype_error hcc hl]
        | ok l =>
          obtain ⟨extra, hx1, hx2⟩ := addAll_extra (c.components.flatMap Ty.mentions) cts
          have hx3 : ∀ t ∈ extra, ∃ c' ∈ c.components, t ∈ c'.mentions := fun t ht => by
            have := List.mem_flatMap.1 (hx2 t ht)
            exact this
          have hsz : ∀ t ∈ extra, sizeOf t < k + 1 := fun t ht => by
            obtain ⟨c', hc', ht'⟩ := hx3 t ht
            have e1 := Ty.mentions_size ht'
            have e2 := Ty.components_size hc'
            have e3 := h1 i c (Nat.le_refl _) hi
            omega
          have hget : ∀ j t, (cts ++ extra)[j]? = some t → cts[j]? = some t ∨ t ∈ extra := fun j t ht => by
            by_cases hj : j < cts.length
            · rw [List.getElem?_append_left hj] at ht; exact .inl ht
            · rw [List.getElem?_append_right (by omega)] at ht; exact .inr (List.mem_of_getElem? ht)
          obtain ⟨fuel, hf⟩ := ihm (i + 1) (cts ++ extra) (hx1 ▸ addAll_nodup hn)
            (fun t ht => by
              rcases List.mem_append.1 ht with ht | ht
              · exact hm t ht
              · obtain ⟨c', hc', ht'⟩ := hx3 t ht
                exact ⟨Ty.mentions_composite ht', hS c c' t hSc hc' ht'⟩)
            (fun j t hj ht => by
              rcases hget j t ht with ht | ht
              · exact h1 j t (by omega) ht
              · have := hsz t ht; omega)
            (fun j t hj ht => by
              rcases hget j t ht with ht | ht
              · exact h2 j t (by omega) ht
              · exact hsz t ht)
          refine ⟨fuel + 1, ?_⟩
          rcases hf with ⟨e, t, hSt, hlt, hf⟩ | ⟨final, defs, hd, hf⟩
          · refine .inl ⟨e, t, hSt, hlt, ?_⟩
            unfold fmtComptypes
            rw [hi]
            dsimp only
            obtain ⟨s, hs⟩ : ∃ s, fmtComptype i c cts = .ok (s, cts ++ extra) := by
              have hidx : (cts ++ extra).idxOf c = i := by
                have hlt : i < (cts ++ extra).length := by
                  have := (List.getElem?_eq_some_iff.1 hi).1
                  rw [List.length_append]; omega
                have := (hx1 ▸ addAll_nodup hn : (cts ++ extra).Nodup).idxOf_getElem i hlt
                have e : (cts ++ extra)[i] = c := by
                  have := (List.getElem?_eq_some_iff.1 hi)
                  rw [List.getElem_append_left this.1]; exact this.2
                rw [e] at this; exact this
              have := fmtComptype_ok hcc hl (cts := cts) (final := cts ++ extra) (hx1 ▸ List.prefix_rfl) hidx
              rw [hx1] at this
              exact ⟨_, this⟩
            rw [hs]
            dsimp only
            rw [hf]
          · right
            have hpre : cts <+: final := (List.prefix_append _ _).trans hd.pre
            have hfi : final[i]? = some c := by
              obtain ⟨r, rfl⟩ := hpre
              rw [List.getElem?_append_left (List.getElem?_eq_some_iff.1 hi).1]; exact hi
            have hidx : final.idxOf c = i := by
              obtain ⟨hlt, e⟩ := List.getElem?_eq_some_iff.1 hfi
              have := hd.nodup.idxOf_getElem i hlt
              rw [e] at this; exact this
            refine ⟨final, c.defText final l :: defs, ⟨hpre, hd.nodup, hd.mem, ?_, ?_, ?_⟩, ?_⟩
            · intro j t c' u hj ht hc' hu
              rcases Nat.lt_or_eq_of_le hj with hj | rfl
              · exact hd.closed j t c' u hj ht hc' hu
              · rw [hfi] at ht; cases ht
                refine hd.pre.subset ?_
                rw [← hx1]
                exact mem_addAll.2 (.inr (List.mem_flatMap.2 ⟨c', hc', hu⟩))
            · have := (List.getElem?_eq_some_iff.1 hfi).1
              rw [List.length_cons, hd.length]; omega
            · intro j t hj ht
              rcases Nat.lt_or_eq_of_le hj with hj | rfl
              · obtain ⟨l', e1, e2⟩ := hd.text j t hj ht
                refine ⟨l', e1, ?_⟩
                rw [show j - i = (j - (i + 1)) + 1 by omega, List.getElem?_cons_succ]; exact e2
              · rw [hfi] at ht; cases ht
                exact ⟨l, hl, by rw [Nat.sub_self]; rfl⟩
            · unfold fmtComptypes
              rw [hi]
              dsimp only
              rw [fmtComptype_ok hcc hl (hx1 ▸ hd.pre) hidx, hx1]
              dsimp only
              rw [hf]
              rfl

end

end MiniRust
