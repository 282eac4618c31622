import Verif.Lemmas.BuilderTotal
/-
Declarations, and whole functions.
-/
namespace MiniRust
open FnBuilder

/-! ### The builder fails only by panicking -/

def Pan {α : Type} (r : Res α) : Prop := ∀ e, r = .error e → e = .panic

theorem Pan.ok {α : Type} {a : α} : Pan (.ok a : Res α) := fun _ h => by cases h

theorem Pan.panic {α : Type} : Pan (MiniRust.panic : Res α) := fun _ h => by cases h; rfl

theorem Pan.bind {α β : Type} {x : Res α} {f : α → Res β} (hx : Pan x) (hf : ∀ a, Pan (f a)) : Pan (x >>= f) := by
  intro e h
  cases x with
  | ok a => exact hf a e h
  | error e' => cases h; exact hx _ rfl

theorem pan_unwrap {α : Type} (o : Option α) : Pan (unwrap o) := by
  cases o
  · exact fun _ h => by cases h; rfl
  · exact .ok

theorem pan_tryInsert {K V : Type} [DecidableEq K] (m : Map K V) (k : K) (v : V) : Pan (m.tryInsert k v) := by
  unfold Map.tryInsert; split
  · exact .panic
  · exact .ok

theorem pan_set {b : FnBuilder} {n k} : Pan (b.setCurBlock n k) := by
  unfold setCurBlock; split
  · exact .panic
  · split
    · exact .ok
    · exact .panic

theorem pan_finish {b : FnBuilder} {t} : Pan (b.finishBlock t) :=
  .bind (pan_unwrap _) fun _ => .bind (pan_tryInsert _ _ _) fun _ => .ok

theorem pan_call {b : FnBuilder} {r g a c n u} : Pan (b.handleCall r g a c n u) := by
  refine .bind (pan_unwrap _) fun _ => .bind pan_finish fun _ => ?_
  cases n
  · exact .ok
  · exact pan_set

theorem pan_handler {b : FnBuilder} {k g} (hg : ∀ b, Pan (g b)) : Pan (b.handlerBlock k g) := by
  refine .bind pan_set fun _ => .bind (hg _) fun _ => ?_
  split
  · exact .panic
  · exact .ok

theorem pan_declareCases : ∀ {cases} {b : FnBuilder} {m br}, Pan (b.declareCases m br cases)
  | [], _, _, _ => .ok
  | (_, _) :: _, _, _, _ => .bind (pan_tryInsert _ _ _) fun _ => pan_declareCases

theorem pan_branches {k} : ∀ {l : List ((FnBuilder → Res FnBuilder) × BbName)} {b : FnBuilder} {after},
    (∀ e ∈ l, ∀ b, Pan (e.1 b)) → Pan (buildBranches k b after l)
  | [], _, _, _ => .ok
  | (g, n) :: l, b, after, hl => by
    have hl' : ∀ e ∈ l, ∀ b, Pan (e.1 b) := fun e he => hl e (List.mem_cons_of_mem _ he)
    refine .bind pan_set fun _ => .bind (hl _ List.mem_cons_self _) fun _ => ?_
    split
    · split
      · exact .bind pan_finish fun _ => pan_branches hl'
      · exact .bind pan_finish fun _ => pan_branches hl'
    · exact pan_branches hl'

theorem declareCases_mem : ∀ {cases : List (Int × (FnBuilder → Res FnBuilder))} {b b' : FnBuilder} {m m' br br'},
    b.declareCases m br cases = .ok (b', m', br') → (∀ e ∈ cases, ∀ b, Pan (e.2 b)) → (∀ e ∈ br, ∀ b, Pan (e.1 b)) →
    ∀ e ∈ br', ∀ b, Pan (e.1 b)
  | [], _, _, _, _, _, _, h, _, hb => by cases h; exact hb
  | (i, g) :: cases, b, b', m, m', br, br', h, hc, hb => by
    simp only [declareCases, Res.bind_eq_ok] at h
    obtain ⟨_, _, h⟩ := h
    refine declareCases_mem h (fun e he => hc e (List.mem_cons_of_mem _ he)) fun e he => ?_
    obtain he | he := List.mem_append.mp he
    · exact hb e he
    · cases List.mem_singleton.mp he; exact hc (i, g) List.mem_cons_self

theorem pan_switch {b : FnBuilder} {v cases g} (hc : ∀ e ∈ cases, ∀ b, Pan (e.2 b)) (hg : ∀ b, Pan (g b)) :
    Pan (b.switchInt v cases g) := by
  refine .bind (pan_unwrap _) fun _ => ?_
  intro e h
  rw [Res.bind_eq_error] at h
  obtain h | ⟨⟨b1, m, br⟩, h1, h⟩ := h
  · exact pan_declareCases e h
  · refine Pan.bind pan_finish (fun _ => Pan.bind (pan_branches fun e he => ?_) fun r => ?_) e h
    · obtain he | he := List.mem_append.mp he
      · exact declareCases_mem h1 hc (by simp) e he
      · cases List.mem_singleton.mp he; exact hg
    · obtain ⟨_, _ | _⟩ := r
      · exact .ok
      · exact pan_set

mutual
theorem Code.pan : (c : Code) → ∀ b, Pan (c.build b)
  | .nil, b => by unfold Code.build; exact .ok
  | .stmt s rest, b => by
    unfold Code.build
    exact .bind (.bind (pan_unwrap _) fun _ => .ok) fun _ => Code.pan rest _
  | .op o a r rest, b => by
    unfold Code.build
    exact .bind (.bind (pan_unwrap _) fun _ => .bind pan_finish fun _ => pan_set) fun _ => Code.pan rest _
  | .halt o a r rest, b | .unreachable rest, b | .ret rest, b | .resume rest, b => by
    unfold Code.build
    exact .bind pan_finish fun _ => Code.pan rest _
  | .callNoret r g a rest, b | .callNounwind r g a rest, b => by
    unfold Code.build
    exact .bind pan_call fun _ => Code.pan rest _
  | .call c k handler rest, b => by
    unfold Code.build
    exact .bind (pan_handler (Code.pan handler)) fun _ => .bind pan_call fun _ => Code.pan rest _
  | .startUnwind e k handler rest, b => by
    unfold Code.build
    exact .bind (pan_handler (Code.pan handler)) fun _ => .bind pan_finish fun _ => Code.pan rest _
  | .tryCall c handler rest, b => by
    unfold Code.build
    refine .bind (pan_handler fun b => .bind (Code.pan handler b) fun _ => ?_) fun _ => .bind pan_call fun _ =>
      .bind pan_finish fun _ => .bind pan_set fun _ => Code.pan rest _
    split
    · exact pan_finish
    · exact .ok
  | .tryUnwind e handler rest, b => by
    unfold Code.build
    refine .bind (pan_handler fun b => .bind (Code.pan handler b) fun _ => ?_) fun _ => .bind pan_finish fun _ =>
      .bind pan_set fun _ => Code.pan rest _
    split
    · exact pan_finish
    · exact .ok
  | .stop rest, b => by unfold Code.build; exact .panic
  | .switch v cases fallback rest, b => by
    unfold Code.build
    refine .bind (pan_switch ?_ (Code.pan fallback)) fun _ => Code.pan rest _
    rw [Cases.builders_eq]
    intro e he
    obtain ⟨e', he', rfl⟩ := List.mem_map.mp he
    exact Cases.pan cases e' he'
  | .while_ c body rest, b => by
    unfold Code.build
    refine .bind (.bind (pan_unwrap _) fun _ => .bind pan_finish fun _ => .bind pan_set fun _ => pan_switch ?_ fun _ => .ok)
      fun _ => Code.pan rest _
    intro e he
    cases List.mem_singleton.mp he
    refine fun b => .bind (Code.pan body b) fun _ => ?_
    split
    · exact pan_finish
    · exact .ok
theorem Cases.pan : (cs : Cases) → ∀ e ∈ cs.toList, ∀ b, Pan (e.2.build b)
  | .nil => by simp [Cases.toList]
  | .cons i b rest => by
    simp only [Cases.toList, List.forall_mem_cons]
    exact ⟨Code.pan b, Cases.pan rest⟩
end

/-! ### Declarations -/

/-- The state of the builder after some declarations. -/
structure Declared (tys : List Ty) (args : List LocalName) (ret : Option LocalName) (b : FnBuilder) : Prop where
  locals : b.locals = tys.zipIdx.map fun e => (e.2, e.1)
  args : b.args = args
  ret : b.ret = ret
  next : b.nextLocal = tys.length
  blocks : b.blocks = []
  start : b.start = 0
  conv : b.conv = .rust
  cur : b.cur = some ⟨[], 0, .regular⟩
  nextBlock : b.nextBlock = 1

theorem get?_zipIdx {tys : List Ty} {n i : Nat} (h : n + tys.length ≤ i) :
    Map.get? ((tys.zipIdx n).map fun e => (e.2, e.1)) i = none := by
  induction tys generalizing n with
  | nil => rfl
  | cons t tys ih =>
    simp only [List.length_cons] at h
    simp only [List.zipIdx_cons, List.map_cons, Map.get?]
    rw [if_neg (by omega), ih (by omega)]

theorem get?_zipIdx_lt {tys : List Ty} {n i : Nat} (h1 : n ≤ i) (h2 : i < n + tys.length) :
    Map.get? ((tys.zipIdx n).map fun e => (e.2, e.1)) i = tys[i - n]? := by
  induction tys generalizing n with
  | nil => simp at h2; omega
  | cons t tys ih =>
    simp only [List.length_cons] at h2
    simp only [List.zipIdx_cons, List.map_cons, Map.get?]
    by_cases hi : n = i
    · subst hi; simp
    · rw [if_neg hi, ih (by omega) (by omega)]
      obtain ⟨m, hm⟩ : ∃ m, i - n = m + 1 := ⟨i - n - 1, by omega⟩
      rw [hm, show i - (n + 1) = m by omega]; rfl

theorem Declared.insert {tys args ret b} (h : Declared tys args ret b) (ty : Ty) :
    b.locals.tryInsert b.nextLocal ty = .ok ((tys ++ [ty]).zipIdx.map fun e => (e.2, e.1)) := by
  have hn : b.locals.get? b.nextLocal = none := by
    rw [h.locals, h.next]; exact get?_zipIdx (by omega)
  rw [Map.tryInsert_eq_ok]
  refine ⟨hn, ?_⟩
  rw [Map.insert_fresh hn, h.locals, h.next]
  simp [List.zipIdx_append]

theorem new_declared : ∃ b, FnBuilder.new = .ok b ∧ Declared [] [] none b :=
  ⟨_, rfl, ⟨rfl, rfl, rfl, rfl, rfl, rfl, rfl, rfl, rfl⟩⟩

theorem Declared.step {tys args ret b} (h : Declared tys args ret b) (d : Decl) :
    (d.isRet = true ∧ ret.isSome = true ∧ d.build b = .error .panic) ∨
    (¬ (d.isRet = true ∧ ret.isSome = true) ∧ ∃ b', d.build b = .ok b' ∧
      Declared (tys ++ [d.ty]) (if d.isArg then args ++ [tys.length] else args) (if d.isRet then some tys.length else ret) b') := by
  cases d with
  | var ty =>
    refine .inr ⟨by simp [Decl.isRet], ?_⟩
    simp only [Decl.build, declareLocal, h.insert ty, Res.bind_ok]
    exact ⟨_, rfl, rfl, h.args, h.ret, by simp [h.next], h.blocks, h.start, h.conv, h.cur, h.nextBlock⟩
  | arg ty =>
    refine .inr ⟨by simp [Decl.isRet], ?_⟩
    simp only [Decl.build, declareArg, h.insert ty, Res.bind_ok]
    exact ⟨_, rfl, rfl, by simp [h.args, h.next, Decl.isArg], h.ret, by simp [h.next], h.blocks, h.start, h.conv, h.cur, h.nextBlock⟩
  | ret ty =>
    cases ret with
    | some r => exact .inl ⟨rfl, rfl, by simp [Decl.build, declareRet, h.ret]⟩
    | none =>
      refine .inr ⟨by simp, ?_⟩
      simp only [Decl.build, declareRet, h.ret, Option.isSome_none, Bool.false_eq_true, if_false, h.insert ty, Res.bind_ok]
      exact ⟨_, rfl, rfl, h.args, by simp [Decl.isRet, h.next], by simp [h.next], h.blocks, h.start, h.conv, h.cur, h.nextBlock⟩

/-- The names of the arguments, and of the return place. -/
def argNames (n : Nat) : List Decl → List LocalName
  | [] => []
  | d :: ds => (if d.isArg then [n] else []) ++ argNames (n + 1) ds

def retName (n : Nat) : List Decl → Option LocalName
  | [] => none
  | d :: ds => if d.isRet then some n else retName (n + 1) ds

theorem Declared.steps : ∀ {ds : List Decl} {tys args ret b}, Declared tys args ret b →
    if (ds.countP (·.isRet)) + (if ret.isSome then 1 else 0) ≤ 1
    then ∃ b', buildDecls b ds = .ok b' ∧ Declared (tys ++ ds.map (·.ty)) (args ++ argNames tys.length ds)
      (ret.or (retName tys.length ds)) b'
    else buildDecls b ds = .error .panic
  | [], tys, args, ret, b, h => by
    rw [if_pos (by simp; split <;> omega)]
    exact ⟨b, rfl, by simpa [argNames, retName] using h⟩
  | d :: ds, tys, args, ret, b, h => by
    obtain ⟨hr, hs, he⟩ | ⟨hn, b1, h1, hd⟩ := h.step d
    · rw [if_neg]
      · simp [buildDecls, he]
      · simp only [List.countP_cons, hr, if_true, hs]; omega
    · have := Declared.steps (ds := ds) hd
      simp only [buildDecls, h1, Res.bind_ok]
      by_cases hr : d.isRet = true
      · have hret : ret = none := by
          cases ret
          · rfl
          · exact absurd ⟨hr, rfl⟩ hn
        have harg : d.isArg = false := by cases d <;> simp_all [Decl.isArg, Decl.isRet]
        subst hret
        simp only [hr, if_true, Option.isSome_some, harg, Bool.false_eq_true, if_false] at this
        simp only [List.countP_cons, hr, if_true, Option.isSome_none, Bool.false_eq_true, if_false, Nat.add_zero]
        split at this
        · rename_i hle
          rw [if_pos hle]
          obtain ⟨b', hb, hD⟩ := this
          refine ⟨b', hb, ?_⟩
          simpa [argNames, retName, hr, harg] using hD
        · rename_i hle
          rw [if_neg hle]; exact this
      · simp only [Bool.not_eq_true] at hr
        simp only [hr, Bool.false_eq_true, if_false] at this
        simp only [List.countP_cons, hr, Bool.false_eq_true, if_false, Nat.add_zero]
        by_cases hle : ds.countP (·.isRet) + (if ret.isSome = true then 1 else 0) ≤ 1
        · rw [if_pos hle] at this ⊢
          obtain ⟨b', hb, hD⟩ := this
          refine ⟨b', hb, ?_⟩
          cases harg : d.isArg <;> simpa [argNames, retName, hr, harg] using hD
        · rw [if_neg hle] at this ⊢; exact this

theorem argNames_eq {ds : List Decl} {n : Nat} :
    argNames n ds = ((ds.zipIdx n).filter fun e => e.1.isArg).map (·.2) := by
  induction ds generalizing n with
  | nil => rfl
  | cons d ds ih =>
    simp only [argNames, List.zipIdx_cons, List.filter_cons, ih]
    cases d.isArg <;> simp

theorem retName_some {ds : List Decl} {n r : Nat} (h : retName n ds = some r) :
    n ≤ r ∧ r < n + ds.length ∧ ∃ ty, ds[r - n]? = some (.ret ty) := by
  induction ds generalizing n with
  | nil => cases h
  | cons d ds ih =>
    simp only [retName] at h
    split at h
    · rename_i hr
      cases h
      refine ⟨Nat.le_refl _, by simp, ?_⟩
      cases d with
      | ret ty => exact ⟨ty, by simp⟩
      | _ => cases hr
    · obtain ⟨h1, h2, ty, h3⟩ := ih h
      refine ⟨by omega, by simp only [List.length_cons]; omega, ty, ?_⟩
      obtain ⟨m, hm⟩ : ∃ m, r - n = m + 1 := ⟨r - n - 1, by omega⟩
      rw [show r - (n + 1) = m by omega] at h3
      rw [hm]; exact h3

theorem retName_none {ds : List Decl} {n : Nat} : retName n ds = none ↔ ∀ d ∈ ds, d.isRet = false := by
  induction ds generalizing n with
  | nil => simp [retName]
  | cons d ds ih =>
    simp only [retName, List.forall_mem_cons]
    cases d.isRet <;> simp [ih]

/-! ### Whole functions -/

/-- The types of the locals: those declared, and that of the return place if it was not declared. -/
def declTypes (ds : List Decl) : List Ty := ds.map (·.ty) ++ if ds.any (·.isRet) then [] else [unitTy]

def declRet (ds : List Decl) : LocalName := (retName 0 ds).getD ds.length

theorem finish_fn {ds : List Decl} {b b' : FnBuilder} (hd : Declared (ds.map (·.ty)) (argNames 0 ds) (retName 0 ds) b)
    (hg : Grow b b') (hc : b'.cur = none) :
    b'.finishFunction = .ok ⟨(declTypes ds).zipIdx.map fun e => (e.2, e.1), argNames 0 ds, declRet ds, .rust, b'.blocks, 0⟩ := by
  simp only [finishFunction, hc, Option.isSome_none, Bool.false_eq_true, if_false]
  cases hr : retName 0 ds with
  | some r =>
    rw [hr] at hd
    have hany : ds.any (·.isRet) = true := by
      rw [Bool.eq_iff_iff]
      simp only [List.any_eq_true, iff_true]
      obtain ⟨_, _, ty, h⟩ := retName_some hr
      exact ⟨_, List.mem_of_getElem? h, rfl⟩
    have hr' : b'.ret = some r := hg.ret.trans hd.ret
    simp [hr', hg.locals, hd.locals, hg.args, hd.args, hg.start, hd.start, hg.conv, hd.conv, declTypes, declRet, hr, hany, unwrap]
  | none =>
    rw [hr] at hd
    have hany : ds.any (·.isRet) = false := by
      rw [List.any_eq_false]
      intro d hd; rw [retName_none.mp hr d hd]; simp
    have hr' : b'.ret = none := hg.ret.trans hd.ret
    have hins := hd.insert unitTy
    rw [← hg.locals, ← hg.nextLocal] at hins
    simp only [hr', Option.isNone_none, if_true, declareRet, Option.isSome_none, Bool.false_eq_true, if_false, hins, Res.bind_ok, unwrap]
    simp [hg.args, hd.args, hg.start, hd.start, hg.conv, hd.conv, hg.nextLocal, hd.next, declTypes, declRet, hr, hany]

theorem inv_declared {tys args ret b} (h : Declared tys args ret b) : FnBuilder.Inv b := by
  refine ⟨?_, fun cb hcb => ?_⟩
  · rintro n (hn | ⟨cb, hcb, rfl⟩)
    · rw [h.blocks] at hn; exact absurd rfl hn
    · rw [h.cur] at hcb; cases hcb; rw [h.nextBlock]; exact Nat.one_pos
  · rw [h.blocks]; rfl

/-- What `buildFunction` makes. -/
theorem buildFunction_spec {ds : List Decl} {code : Code} {f : Function} (h : buildFunction ds code = .ok f) :
    code.flow = some false ∧ ds.countP (·.isRet) ≤ 1 ∧
    f.locals = ((declTypes ds).zipIdx.map fun e => (e.2, e.1)) ∧ f.args = argNames 0 ds ∧ f.ret = declRet ds ∧
    f.callingConvention = .rust ∧ f.start = 0 ∧ code.Laid f.blocks (0, 0) none ∧ HasKind f.blocks 0 .regular ∧
    ∀ [Target] prog, code.Checked prog f .regular → checkBlocks prog f f.blocks.values = .ok () := by
  obtain ⟨b0, h0, d0⟩ := new_declared
  simp only [buildFunction, h0, Res.bind_ok] at h
  have hD := d0.steps (ds := ds)
  simp only [Option.isSome_none, Bool.false_eq_true, if_false, Nat.add_zero] at hD
  split at hD
  · rename_i hle
    obtain ⟨b1, h1, d1⟩ := hD
    simp only [List.nil_append, List.length_nil, Option.none_or] at d1
    simp only [h1, Res.bind_ok, Res.bind_eq_ok] at h
    obtain ⟨b2, h2, h3⟩ := h
    obtain ⟨hf, g2, l2, _⟩ := Code.sound (T := x86_64) code b1 b2 _ d1.cur h2
    simp only [Code.piece] at hf l2
    have c2 : b2.cur = none := by
      cases hc : b2.cur with
      | none => rfl
      | some cb => simp [finishFunction, hc, panic] at h3
    rw [finish_fn d1 g2 c2] at h3
    cases h3
    have hext : Ext b2.blocks b2 := ⟨fun _ _ h => h, fun cb h => by rw [c2] at h; cases h⟩
    refine ⟨by rw [hf, c2]; rfl, hle, rfl, rfl, rfl, rfl, rfl, by simpa [c2, CurBlock.pos] using l2 _ hext, ?_, ?_⟩
    · obtain ⟨blk, hb, _, hk⟩ := (g2.ext _ hext).2 _ d1.cur
      exact ⟨blk, hb, hk⟩
    · intro T prog hC
      obtain ⟨_, _, _, f2⟩ := Code.sound (T := T) code b1 b2 _ d1.cur h2
      have hfine : ∀ f', Fine prog f' b1 := fun f' => ⟨by rw [d1.blocks]; simp, fun cb h => by rw [d1.cur] at h; cases h; rfl⟩
      obtain ⟨⟨hF, _⟩, _⟩ := f2 prog _ hext hC (hfine _)
      have aux : ∀ (f : Function) (l : List BasicBlock), (∀ e ∈ l, checkStatements prog f e.statements = .ok () ∧
          e.terminator.checkWf prog f e.kind = .ok ()) → checkBlocks prog f l = .ok () := by
        intro f l hl
        induction l with
        | nil => rfl
        | cons e l ih =>
          obtain ⟨h1, h2⟩ := hl e List.mem_cons_self
          simp only [checkBlocks, h1, h2, Res.bind_ok]
          exact ih fun e he => hl e (List.mem_cons_of_mem _ he)
      apply aux
      intro blk hblk
      simp only [Map.values, List.mem_map] at hblk
      obtain ⟨e, he, rfl⟩ := hblk
      exact hF e he
  · rename_i hle
    simp [hD] at h

theorem buildFunction_total {ds : List Decl} {code : Code} (hf : code.flow = some false) (hd : ds.countP (·.isRet) ≤ 1) :
    ∃ f, buildFunction ds code = .ok f := by
  obtain ⟨b0, h0, d0⟩ := new_declared
  have hD := d0.steps (ds := ds)
  simp only [Option.isSome_none, Bool.false_eq_true, if_false, Nat.add_zero, if_pos hd] at hD
  obtain ⟨b1, h1, d1⟩ := hD
  simp only [List.nil_append, List.length_nil, Option.none_or] at d1
  obtain ⟨b2, h2, _, _⟩ := Code.total (T := x86_64) code (by simp [Code.piece, hf]) b1 _ d1.cur (inv_declared d1)
  obtain ⟨hf', g2, _, _⟩ := Code.sound (T := x86_64) code b1 b2 _ d1.cur h2
  simp only [Code.piece] at hf' h2
  have c2 : b2.cur = none := by
    rw [hf] at hf'
    cases h : b2.cur <;> simp_all
  have h3 := finish_fn d1 g2 c2
  rw [show buildFunction ds code = b2.finishFunction by simp only [buildFunction, h0, Res.bind_ok, h1, h2]]
  exact ⟨_, h3⟩

theorem pan_buildFunction {ds : List Decl} {code : Code} : Pan (buildFunction ds code) := by
  obtain ⟨b0, h0, d0⟩ := new_declared
  simp only [buildFunction, h0, Res.bind_ok]
  have hD := d0.steps (ds := ds)
  simp only [Option.isSome_none, Bool.false_eq_true, if_false, Nat.add_zero] at hD
  refine .bind ?_ fun _ => .bind (Code.pan code _) fun b => ?_
  · split at hD
    · obtain ⟨b1, h1, _⟩ := hD
      rw [h1]; exact .ok
    · rw [hD]; exact .panic
  · unfold finishFunction
    split
    · exact .panic
    · have hlast : ∀ b : FnBuilder, Pan (do
          let ret ← unwrap b.ret
          (.ok ⟨b.locals, b.args, ret, b.conv, b.blocks, b.start⟩ : Res Function)) :=
        fun b => .bind (pan_unwrap _) fun _ => .ok
      simp only
      split
      · refine .bind (.bind ?_ fun _ => .ok) fun b => hlast b
        unfold declareRet
        split
        · exact .panic
        · exact .bind (pan_tryInsert _ _ _) fun _ => .ok
      · exact hlast b

end MiniRust
