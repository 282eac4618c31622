import Verif.Step
import Verif.TreeBorrows
import Verif.Lemmas.EM
/-
Which failures the functions of the model can produce. `Soft` are the failures of ordinary
evaluation: UB, a panic, or a rejected nondeterministic choice.
-/
set_option linter.unusedSectionVars false
namespace MiniRust

/-- The failures of ordinary evaluation. -/
def Soft (e : Err) : Prop := e = .ub ∨ e = .panic ∨ e = .noBehavior

/-- `Soft`, or the `None` of an `Option`-returning function. -/
def SoftN (e : Err) : Prop := e = .none ∨ Soft e

/-- Every failure of `r` satisfies `E`. -/
structure ResE {α : Type} (E : Err → Prop) (r : Res α) : Prop where
  err : ∀ e, r = .error e → E e

theorem Soft.ub : Soft .ub := .inl rfl
theorem Soft.panic : Soft .panic := .inr (.inl rfl)
theorem Soft.noBehavior : Soft .noBehavior := .inr (.inr rfl)

section
variable {α β : Type} {E : Err → Prop}

theorem ResE.ok {a : α} : ResE E (.ok a) := ⟨by intro e h; cases h⟩
theorem ResE.pure {a : α} : ResE E (pure a : Res α) := ⟨by intro e h; cases h⟩
theorem ResE.error {e : Err} (h : E e) : ResE (α := α) E (.error e) := ⟨by intro e' h'; cases h'; exact h⟩
theorem ResE.bind {x : Res α} {f : α → Res β} (hx : ResE E x) (hf : ∀ a, ResE E (f a)) :
    ResE E (x >>= f) := by
  refine ⟨fun e h => ?_⟩
  rw [Res.bind_eq_error] at h
  rcases h with h | ⟨a, _, h⟩
  · exact hx.err _ h
  · exact (hf _).err _ h
theorem ResE.ite {c : Prop} [Decidable c] {x y : Res α} (hx : ResE E x) (hy : ResE E y) :
    ResE E (if c then x else y) := by split <;> assumption
theorem ResE.mono {E' : Err → Prop} {x : Res α} (h : ResE E x) (hE : ∀ e, E e → E' e) : ResE E' x :=
  ⟨fun e he => hE e (h.err e he)⟩

theorem ResE.ub (h : E .ub) : ResE (α := α) E ub := .error h
theorem ResE.panic (h : E .panic) : ResE (α := α) E panic := .error h
theorem ResE.rassert {b : Bool} (h : E .panic) : ResE E (rassert b) := by
  unfold MiniRust.rassert; split
  · exact .ok
  · exact .error h
theorem ResE.ensureUb {b : Bool} (h : E .ub) : ResE E (ensureUb b) := by
  unfold MiniRust.ensureUb; split
  · exact .ok
  · exact .error h
theorem ResE.unwrap {o : Option α} (h : E .panic) : ResE E (unwrap o) := by
  unfold MiniRust.unwrap; split
  · exact .ok
  · exact .error h
theorem ResE.subslice {l : List α} {i n : Nat} (h : E .panic) : ResE E (subslice l i n) := by
  unfold MiniRust.subslice; split
  · exact .ok
  · exact .error h
theorem ResE.writeSubslice {l : List α} {i : Nat} {m : List α} (h : E .panic) :
    ResE E (writeSubslice l i m) := by
  unfold MiniRust.writeSubslice; split
  · exact .ok
  · exact .error h
theorem ResE.index {l : List α} {i : Nat} (h : E .panic) : ResE E (index l i) := .unwrap h
theorem ResE.sizeMul {n : Nat} {i : Int} (h : E .panic) : ResE E (sizeMul n i) := .unwrap h
theorem ResE.mapGet {K V : Type} [DecidableEq K] {m : Map K V} {k : K} (h : E .panic) : ResE E (m.get k) :=
  .unwrap h
/-- `is_ok` only lets panics and rejected choices through. -/
theorem ResE.isOk {x : Res α} (h : E .panic) (h' : E .noBehavior) : ResE E (isOk x) := by
  unfold MiniRust.isOk; split
  · exact .ok
  · exact .error h
  · exact .error h'
  · exact .ok

theorem ResE.softN {x : Res α} (h : ResE Soft x) : ResE SoftN x := h.mono fun _ => .inr
end

theorem SoftN.none : SoftN .none := .inl rfl
theorem SoftN.ub : SoftN .ub := .inr .ub
theorem SoftN.panic : SoftN .panic := .inr .panic
theorem SoftN.noBehavior : SoftN .noBehavior := .inr .noBehavior

/-- One step of the proof that a failure is soft. -/
syntax "soft_step" : tactic
macro_rules | `(tactic| soft_step) => `(tactic| assumption)
macro_rules | `(tactic| soft_step) => `(tactic| first
  | exact Soft.ub | exact Soft.panic | exact Soft.noBehavior
  | exact SoftN.none | exact SoftN.ub | exact SoftN.panic | exact SoftN.noBehavior)
macro_rules | `(tactic| soft_step) => `(tactic| split)
macro_rules | `(tactic| soft_step) => `(tactic| intro _)
macro_rules | `(tactic| soft_step) => `(tactic| first
  | exact ResE.ok | apply ResE.error | apply ResE.ub | apply ResE.panic | apply ResE.bind | exact ResE.pure
  | apply ResE.rassert | apply ResE.ensureUb | apply ResE.unwrap | apply ResE.subslice
  | apply ResE.writeSubslice | apply ResE.index | apply ResE.sizeMul | apply ResE.mapGet
  | apply ResE.isOk | apply ResE.ite)
/-- Prove that all failures are soft by following the structure of the program. -/
macro "soft" : tactic => `(tactic| repeat' (with_reducible soft_step))

variable {P : Type} [DecidableEq P] [T : Target]

theorem soft_indexInt {α : Type} {l : List α} {i : Int} : ResE Soft (indexInt l i) := by
  unfold indexInt; soft
macro_rules | `(tactic| soft_step) => `(tactic| apply soft_indexInt)

theorem soft_intAlign {i : IntType} : ResE Soft i.align := by unfold IntType.align; soft
macro_rules | `(tactic| soft_step) => `(tactic| apply soft_intAlign)
theorem soft_expectSize {l : LayoutStrategy} : ResE Soft l.expectSize := by
  unfold LayoutStrategy.expectSize; soft
macro_rules | `(tactic| soft_step) => `(tactic| apply soft_expectSize)
theorem soft_expectAlign {l : LayoutStrategy} : ResE Soft l.expectAlign := by
  unfold LayoutStrategy.expectAlign; soft
macro_rules | `(tactic| soft_step) => `(tactic| apply soft_expectAlign)

theorem soft_layout : ∀ {ty : Ty}, ResE Soft ty.layout := by
  intro ty
  induction ty using Ty.layout.induct <;> unfold Ty.layout <;> soft
macro_rules | `(tactic| soft_step) => `(tactic| apply soft_layout)
theorem soft_size {ty : Ty} : ResE Soft ty.size := by unfold Ty.size; soft
macro_rules | `(tactic| soft_step) => `(tactic| apply soft_size)
theorem soft_sizeAlign {ty : Ty} : ResE Soft ty.sizeAlign := by unfold Ty.sizeAlign; soft
macro_rules | `(tactic| soft_step) => `(tactic| apply soft_sizeAlign)
theorem soft_alignOf {ty : Ty} : ResE Soft ty.alignOf := by unfold Ty.alignOf; soft
macro_rules | `(tactic| soft_step) => `(tactic| apply soft_alignOf)
theorem soft_withOverflow {i : IntType} : ResE Soft i.withOverflow := by unfold IntType.withOverflow; soft
macro_rules | `(tactic| soft_step) => `(tactic| apply soft_withOverflow)

theorem soft_computeSizeAndAlign {vt : ThinPtr P → Res VTable} (hvt : ∀ p, ResE Soft (vt p)) :
    ∀ {l : LayoutStrategy} {m : Option (PtrMeta P)}, ResE Soft (l.computeSizeAndAlign vt m) := by
  intro l m
  induction l, m using LayoutStrategy.computeSizeAndAlign.induct <;>
    unfold LayoutStrategy.computeSizeAndAlign <;> soft
  all_goals first | exact hvt _ | (rename_i h; exact (h _ _ _ rfl rfl).elim)

theorem soft_evalIntBinOp {op l r i} : ResE Soft (evalIntBinOp op l r i) := by
  unfold evalIntBinOp; cases op <;> soft
macro_rules | `(tactic| soft_step) => `(tactic| apply soft_evalIntBinOp)
theorem soft_evalIntBinOpWrapped {op l r i} : ResE Soft (evalIntBinOpWrapped op l r i) := by
  unfold evalIntBinOpWrapped; soft
macro_rules | `(tactic| soft_step) => `(tactic| apply soft_evalIntBinOpWrapped)
theorem soft_compareMeta {l r : Option (PtrMeta P)} : ResE Soft (compareMeta l r) := by
  unfold compareMeta; soft
macro_rules | `(tactic| soft_step) => `(tactic| apply soft_compareMeta)
theorem soft_comparePtr {l r : Pointer P} : ResE Soft (comparePtr l r) := by unfold comparePtr; soft
macro_rules | `(tactic| soft_step) => `(tactic| apply soft_comparePtr)
theorem soft_compareValues {ty} {l r : Value P} : ResE Soft (compareValues ty l r) := by
  unfold compareValues; soft
macro_rules | `(tactic| soft_step) => `(tactic| apply soft_compareValues)

/-! ### Encoding and decoding -/

theorem softN_bytesData {bs : List (AByte P)} : ResE SoftN (bytesData bs) := by
  induction bs with
  | nil => exact .ok
  | cons b bs ih =>
    unfold bytesData
    split
    · soft
    · split
      · soft
      · rename_i h; exact .error (ih.err _ h)
macro_rules | `(tactic| soft_step) => `(tactic| apply softN_bytesData)
theorem softN_decodeInt {i : IntType} {bs : List (AByte P)} : ResE SoftN (decodeInt i bs) := by
  unfold decodeInt; soft
macro_rules | `(tactic| soft_step) => `(tactic| apply softN_decodeInt)
theorem soft_encodeInt {i : IntType} {n : Int} : ResE Soft (encodeInt i n : Res (List (AByte P))) := by
  unfold encodeInt; soft
macro_rules | `(tactic| soft_step) => `(tactic| apply soft_encodeInt)
theorem softN_decodeBool {bs : List (AByte P)} : ResE SoftN (decodeBool bs) := by
  unfold decodeBool; soft
macro_rules | `(tactic| soft_step) => `(tactic| apply softN_decodeBool)
theorem softN_decodePtr {bs : List (AByte P)} : ResE SoftN (decodePtr bs) := by
  unfold decodePtr; soft
macro_rules | `(tactic| soft_step) => `(tactic| apply softN_decodePtr)
theorem soft_encodePtr {p : ThinPtr P} : ResE Soft (encodePtr p) := by unfold encodePtr; soft
macro_rules | `(tactic| soft_step) => `(tactic| apply soft_encodePtr)
theorem soft_asWidePair {p : PtrType} : ResE Soft p.asWidePair := by unfold PtrType.asWidePair; soft
macro_rules | `(tactic| soft_step) => `(tactic| apply soft_asWidePair)
theorem soft_decodeValue {k : MetaKind} {v : Value P} : ResE Soft (k.decodeValue v) := by
  unfold MetaKind.decodeValue; soft
macro_rules | `(tactic| soft_step) => `(tactic| apply soft_decodeValue)
theorem soft_encodeAsValue {k : MetaKind} {m : Option (PtrMeta P)} : ResE Soft (k.encodeAsValue m) := by
  unfold MetaKind.encodeAsValue; soft
macro_rules | `(tactic| soft_step) => `(tactic| apply soft_encodeAsValue)
macro_rules | `(tactic| soft_step) => `(tactic| (apply ResE.softN; first
  | apply soft_layout | apply soft_size | apply soft_asWidePair | apply soft_decodeValue))
theorem softN_decodeMeta {k : MetaKind} {bs : List (AByte P)} : ResE SoftN (decodeMeta k bs) := by
  unfold decodeMeta; soft
macro_rules | `(tactic| soft_step) => `(tactic| apply softN_decodeMeta)
theorem softN_decodePtrTy {p : PtrType} {bs : List (AByte P)} : ResE SoftN (decodePtrTy p bs) := by
  unfold decodePtrTy; soft
macro_rules | `(tactic| soft_step) => `(tactic| apply softN_decodePtrTy)
theorem soft_encodeMeta {k : MetaKind} {v : Value P} : ResE Soft (encodeMeta k v) := by
  unfold encodeMeta; soft
macro_rules | `(tactic| soft_step) => `(tactic| apply soft_encodeMeta)
theorem soft_encodePtrTy {p : PtrType} {v : Value P} : ResE Soft (encodePtrTy p v) := by
  unfold encodePtrTy; soft
macro_rules | `(tactic| soft_step) => `(tactic| apply soft_encodePtrTy)

section
variable {S : Type}
/-- The discriminant decoder fails only if its accessor does. -/
theorem softN_decodeDiscriminant {acc : S → Nat → Nat → Res (List (AByte P) × S)}
    (hacc : ∀ s i n, ResE Soft (acc s i n)) :
    (∀ (d : Discriminator) (s : S), ResE Soft (decodeDiscriminant acc d s)) := by
  refine Discriminator.rec (motive_1 := fun d => ∀ s, ResE Soft (decodeDiscriminant acc d s))
    (motive_2 := fun l => ∀ v s r, decodeDiscriminantChildren acc l v s = some r → ResE Soft r)
    (motive_3 := fun p => ∀ s, ResE Soft (decodeDiscriminant acc p.2 s)) ?_ ?_ ?_ ?_ ?_ ?_
  · intro d s; unfold decodeDiscriminant; soft
  · intro s; unfold decodeDiscriminant; soft
  · intro off vt fb ch ih1 ih2 s
    unfold decodeDiscriminant
    split
    · rename_i h; exact .error ((hacc _ _ _).err _ h)
    · split
      · soft
      · rename_i e hne h
        rcases softN_decodeInt.err _ h with rfl | h
        · exact absurd rfl hne
        · exact .error h
      · split
        · rename_i h; exact ih2 _ _ _ h
        · exact ih1 _
  · intro v s r h; unfold decodeDiscriminantChildren at h; cases h
  · rintro ⟨⟨a, b⟩, d⟩ rest ih1 ih2 v s r h
    unfold decodeDiscriminantChildren at h
    split at h
    · cases h; exact ih1 _
    · exact ih2 _ _ _ h
  · intro _ d ih s; exact ih s

theorem soft_encodeDiscriminant {acc : S → Nat → List (AByte P) → Res S}
    (hacc : ∀ s i b, ResE Soft (acc s i b)) (t : Tagger) (s : S) :
    ResE Soft (encodeDiscriminant acc t s) := by
  induction t generalizing s with
  | nil => unfold encodeDiscriminant; soft
  | cons a rest ih =>
    obtain ⟨off, vt, v⟩ := a
    unfold encodeDiscriminant
    refine .bind soft_encodeInt fun b => .bind (hacc _ _ _) fun s => ih s
end

theorem soft_sliceAccessor {b : List (AByte P)} {u i n} : ResE Soft (sliceAccessor b u i n) := by
  unfold sliceAccessor; soft
theorem soft_decodeChunks {b : List (AByte P)} {cs} : ResE Soft (decodeChunks b cs) := by
  induction cs <;> unfold decodeChunks <;> soft
macro_rules | `(tactic| soft_step) => `(tactic| apply soft_decodeChunks)
theorem soft_encodeChunks {cs} {data : List (List (AByte P))} {b} : ResE Soft (encodeChunks cs data b) := by
  induction cs generalizing data b with
  | nil => unfold encodeChunks; soft
  | cons c cs ih => cases data <;> unfold encodeChunks <;> soft; exact ih
macro_rules | `(tactic| soft_step) => `(tactic| apply soft_encodeChunks)
theorem softN_decodeElems {dec : List (AByte P) → Res (Value P)} (h : ∀ b, ResE SoftN (dec b)) {n k b} :
    ResE SoftN (decodeElems dec n k b) := by
  induction k generalizing b with
  | zero => unfold decodeElems; soft
  | succ k ih => unfold decodeElems; soft; exacts [h _, ih]
theorem soft_encodeElems {enc : Value P → Res (List (AByte P))} (h : ∀ v, ResE Soft (enc v)) {n vs} :
    ResE Soft (encodeElems enc n vs) := by
  induction vs with
  | nil => unfold encodeElems; soft
  | cons v vs ih => unfold encodeElems; soft; exact h _

mutual
theorem softN_decode : ∀ (ty : Ty) (bs : List (AByte P)), ResE SoftN (decode ty bs)
  | .int _, _ => by unfold decode; soft
  | .bool, _ => by unfold decode; soft
  | .ptr _, _ => by unfold decode; soft
  | .tuple _ _ (some _), _ => by unfold decode; soft
  | .tuple fields _ none, _ => by unfold decode; soft; exact softN_decodeFields fields _
  | .array elem _, _ => by
    unfold decode; soft
    exact softN_decodeElems (softN_decode elem)
  | .union _ _ _ _, _ => by unfold decode; soft; exact soft_decodeChunks.softN
  | .enum variants _ d _ _, _ => by
    unfold decode
    refine .bind (.rassert .panic) fun _ => .bind
      (softN_decodeDiscriminant (fun _ _ _ => soft_sliceAccessor) _ _).softN fun x => ?_
    soft
    exact softN_decodeVariant variants _ _
  | .slice _, _ => by unfold decode; soft
  | .traitObject _, _ => by unfold decode; soft
theorem softN_decodeFields : ∀ (fs : List (Nat × Ty)) (bs : List (AByte P)), ResE SoftN (decodeFields fs bs)
  | [], _ => by unfold decodeFields; soft
  | (_, ty) :: rest, _ => by
    unfold decodeFields; soft
    exacts [softN_decode ty _, softN_decodeFields rest _]
theorem softN_decodeVariant : ∀ (vs : List (Int × (Ty × Tagger))) (d : Int) (bs : List (AByte P)),
    ResE SoftN (decodeVariant vs d bs)
  | [], _, _ => by unfold decodeVariant; soft
  | (_, (ty, _)) :: rest, _, _ => by
    unfold decodeVariant
    exact .ite (softN_decode ty _) (softN_decodeVariant rest _ _)
end

mutual
theorem soft_encode : ∀ (ty : Ty) (v : Value P), ResE Soft (encode ty v)
  | .int _, v => by cases v <;> unfold encode <;> soft
  | .bool, v => by cases v <;> unfold encode <;> soft
  | .ptr _, v => by cases v <;> unfold encode <;> soft
  | .tuple _ _ (some _), v => by cases v <;> unfold encode <;> soft
  | .tuple fields _ none, v => by
    cases v <;> unfold encode <;> soft
    exact soft_encodeFields fields _ _
  | .array elem _, v => by
    cases v <;> unfold encode <;> soft
    exact soft_encodeElems (soft_encode elem)
  | .union _ _ _ _, v => by cases v <;> unfold encode <;> soft
  | .enum variants _ d _ _, v => by
    cases v <;> unfold encode <;> soft
    exact soft_encodeVariant variants _ _
  | .slice _, v => by cases v <;> unfold encode <;> soft
  | .traitObject _, v => by cases v <;> unfold encode <;> soft
theorem soft_encodeFields : ∀ (fs : List (Nat × Ty)) (vs : List (Value P)) (bs : List (AByte P)),
    ResE Soft (encodeFields fs vs bs)
  | [], _, _ => by unfold encodeFields; soft
  | (_, _) :: _, [], _ => by unfold encodeFields; soft
  | (_, ty) :: rest, v :: vs, _ => by
    unfold encodeFields; soft
    exacts [soft_encode ty v, soft_encodeFields rest vs _]
theorem soft_encodeVariant : ∀ (vs : List (Int × (Ty × Tagger))) (d : Int) (v : Value P),
    ResE Soft (encodeVariant vs d v)
  | [], _, _ => by unfold encodeVariant; soft
  | (_, (ty, _)) :: rest, _, _ => by
    unfold encodeVariant
    exact .ite (.bind (soft_encode ty _) fun _ => soft_encodeDiscriminant
      (fun _ _ _ => .writeSubslice .panic) _ _) (soft_encodeVariant rest _ _)
end
macro_rules | `(tactic| soft_step) => `(tactic| apply soft_encode)
macro_rules | `(tactic| soft_step) => `(tactic| apply softN_decode)

/-! ### Value validity -/

/-- The environment of value validity fails only softly. -/
structure SoftEnv (env : ValEnv P) : Prop where
  from_ : ∀ p, ResE Soft (env.vtableFromPtr p)
  lookup : ∀ p, ResE Soft (env.vtableLookup p)
  deref : ∀ p n, ResE Soft (env.dereferenceable p n)

section
variable {env : ValEnv P} (henv : SoftEnv env)
include henv

theorem soft_computeSize {l m} : ResE Soft (env.computeSize l m) := by
  unfold ValEnv.computeSize
  exact .bind (soft_computeSizeAndAlign henv.lookup) fun _ => .ok
theorem soft_computeAlign {l m} : ResE Soft (env.computeAlign l m) := by
  unfold ValEnv.computeAlign
  exact .bind (soft_computeSizeAndAlign henv.lookup) fun _ => .ok
theorem soft_checkVTablePtr {p t} : ResE Soft (checkVTablePtr env p t) := by
  unfold checkVTablePtr; soft; exact henv.from_ _
theorem soft_checkPtrMetadata {m k} : ResE Soft (checkPtrMetadata env m k) := by
  unfold checkPtrMetadata; soft; exact soft_checkVTablePtr henv
theorem soft_checkPtr {p ty} : ResE Soft (checkPtr env p ty) := by
  unfold checkPtr; soft
  exacts [soft_checkPtrMetadata henv, soft_computeSize henv, soft_computeAlign henv, henv.from_ _]
omit henv in
theorem soft_checkChunks {data : List (List (AByte P))} {cs} : ResE Soft (checkChunks data cs) := by
  induction data generalizing cs with
  | nil => unfold checkChunks; soft
  | cons d data ih => cases cs <;> unfold checkChunks <;> soft; exact ih
omit henv in
theorem soft_checkElems {chk : Value P → Res Unit} (h : ∀ v, ResE Soft (chk v)) {vs} :
    ResE Soft (checkElems chk vs) := by
  induction vs with
  | nil => unfold checkElems; soft
  | cons v vs ih => unfold checkElems; soft; exact h _

mutual
theorem soft_checkValue : ∀ (ty : Ty) (v : Value P), ResE Soft (checkValue env ty v)
  | .int _, v => by cases v <;> unfold checkValue <;> soft
  | .bool, v => by cases v <;> unfold checkValue <;> soft
  | .ptr _, v => by cases v <;> unfold checkValue <;> soft; exact soft_checkPtr henv
  | .tuple fields _ _, v => by
    cases v <;> unfold checkValue <;> soft
    exact soft_checkFields fields _
  | .array elem _, v => by
    cases v <;> unfold checkValue <;> soft
    exact soft_checkElems (soft_checkValue elem)
  | .union _ _ _ _, v => by cases v <;> unfold checkValue <;> soft; exact soft_checkChunks
  | .enum variants _ d _ _, v => by
    cases v <;> unfold checkValue <;> soft
    exact soft_checkVariant variants _ _
  | .slice _, v => by cases v <;> unfold checkValue <;> soft
  | .traitObject _, v => by cases v <;> unfold checkValue <;> soft
theorem soft_checkFields : ∀ (fs : List (Nat × Ty)) (vs : List (Value P)), ResE Soft (checkFields env fs vs)
  | [], _ => by unfold checkFields; soft
  | (_, _) :: _, [] => by unfold checkFields; soft
  | (_, ty) :: rest, v :: vs => by
    unfold checkFields; soft
    exacts [soft_checkValue ty v, soft_checkFields rest vs]
theorem soft_checkVariant : ∀ (vs : List (Int × (Ty × Tagger))) (d : Int) (v : Value P),
    ResE Soft (checkVariant env vs d v)
  | [], _, _ => by unfold checkVariant; soft
  | (_, (ty, _)) :: rest, _, _ => by
    unfold checkVariant
    exact .ite (soft_checkValue ty _) (soft_checkVariant rest _ _)
end

theorem soft_transmute {v ty1 ty2} : ResE Soft (transmute env v ty1 ty2) := by
  unfold transmute; soft
  · exact soft_checkValue henv _ _
  · rename_i h e hne he
    rcases (softN_decode _ _).err _ he with rfl | h
    · exact absurd rfl hne
    · exact h
end

mutual
theorem soft_abiCompat : ∀ (a b : Ty), ResE Soft (abiCompat a b)
  | .int _, b => by cases b <;> unfold abiCompat <;> soft
  | .bool, b => by cases b <;> unfold abiCompat <;> soft
  | .ptr _, b => by cases b <;> unfold abiCompat <;> soft
  | .tuple fields _ _, b => by
    cases b <;> unfold abiCompat <;> soft
    exact soft_abiFields fields _
  | .array elem _, b => by
    cases b <;> unfold abiCompat <;> soft
    exact soft_abiCompat elem _
  | .union fields _ _ _, b => by
    cases b <;> unfold abiCompat <;> soft
    exact soft_abiFields fields _
  | .enum variants _ _ _ _, b => by
    cases b <;> unfold abiCompat <;> soft
    exact soft_abiVariants variants _
  | .slice _, b => by cases b <;> unfold abiCompat <;> soft
  | .traitObject _, b => by cases b <;> unfold abiCompat <;> soft
theorem soft_abiFields : ∀ (as bs : List (Nat × Ty)), ResE Soft (abiFields as bs)
  | [], _ => by unfold abiFields; soft
  | (_, _) :: _, [] => by unfold abiFields; soft
  | (_, ty) :: rest, (_, ty') :: rest' => by
    unfold abiFields; soft
    exacts [soft_abiCompat ty ty', soft_abiFields rest rest']
theorem soft_abiVariants : ∀ (as bs : List (Int × (Ty × Tagger))), ResE Soft (abiVariants as bs)
  | [], _ => by unfold abiVariants; soft
  | (_, (ty, _)) :: rest, bs => by
    unfold abiVariants; soft
    exacts [soft_abiCompat ty _, soft_abiVariants rest bs]
end
macro_rules | `(tactic| soft_step) => `(tactic| apply soft_abiCompat)

end MiniRust
