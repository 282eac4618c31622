import Verif.Lemmas.Pretty
import Verif.Lemmas.Layout
import Verif.Lemmas.WfProg
/-
Well-formed programs can be printed, with two exceptions.
-/
namespace MiniRust
section
variable [T : Target] {prog : Program}

theorem Ty.mentions_wf {u : Ty} : ∀ {t : Ty}, t.checkWf prog = .ok () → u ∈ t.mentions → u.checkWf prog = .ok ()
  | .array e _, h, hu => by
    simp only [Ty.checkWf, Res.bind_eq_ok] at h
    obtain ⟨_, _, _, _, _, _, ⟨⟩, h, _⟩ := h
    exact Ty.mentions_wf h hu
  | .slice e, h, hu => by
    simp only [Ty.checkWf, Res.bind_eq_ok] at h
    obtain ⟨_, _, _, _, ⟨⟩, h, _⟩ := h
    exact Ty.mentions_wf h hu
  | .tuple .., h, hu => by rw [Ty.mentions, List.mem_singleton] at hu; subst hu; exact h
  | .union .., h, hu => by rw [Ty.mentions, List.mem_singleton] at hu; subst hu; exact h
  | .enum .., h, hu => by rw [Ty.mentions, List.mem_singleton] at hu; subst hu; exact h
  | .int _, _, h => absurd h List.not_mem_nil
  | .ptr _, _, h => absurd h List.not_mem_nil
  | .bool, _, h => absurd h List.not_mem_nil
  | .traitObject _, _, h => absurd h List.not_mem_nil

theorem Ty.components_wf {t c : Ty} (h : t.checkWf prog = .ok ()) (hc : c ∈ t.components) : c.checkWf prog = .ok () := by
  cases t with
  | tuple fields head tail =>
    rw [Ty.components, List.mem_append, List.mem_map] at hc
    cases tail with
    | none =>
      simp only [Ty.checkWf, Res.bind_eq_ok] at h
      obtain ⟨_, h, _⟩ := h
      rcases hc with ⟨f, hf, rfl⟩ | hc
      · exact ((tupleFields_ok h).1 f hf).1
      · exact absurd hc List.not_mem_nil
    | some u =>
      simp only [Ty.checkWf, Res.bind_eq_ok] at h
      obtain ⟨_, h, ⟨⟩, hu, _⟩ := h
      rcases hc with ⟨f, hf, rfl⟩ | hc
      · exact ((tupleFields_ok h).1 f hf).1
      · rw [Option.toList_some, List.mem_singleton] at hc
        subst hc; exact hu
  | union fields chunks size align =>
    rw [Ty.components, List.mem_map] at hc
    simp only [Ty.checkWf, Res.bind_eq_ok] at h
    obtain ⟨⟨⟩, h, _⟩ := h
    obtain ⟨f, hf, rfl⟩ := hc
    exact (checkUnionFields_ok h f hf).1
  | enum variants d disc size align =>
    rw [Ty.components, List.mem_map] at hc
    simp only [Ty.checkWf, Res.bind_eq_ok] at h
    obtain ⟨⟨⟩, h, _⟩ := h
    obtain ⟨f, hf, rfl⟩ := hc
    exact (checkVariants_ok h f hf).2.1
  | _ => exact absurd hc List.not_mem_nil

/-- Printable, and all types in the text are well-formed. -/
def WfText (prog : Program) (P : Prop) (L : List Ty) : Prop := P ∧ ∀ u ∈ L, u.checkWf prog = .ok ()

theorem WfText.nil {P : Prop} (h : P) : WfText prog P [] := ⟨h, fun _ h => absurd h List.not_mem_nil⟩

theorem WfText.append {P Q : Prop} {L L' : List Ty} (h : WfText prog P L) (h' : WfText prog Q L') : WfText prog (P ∧ Q) (L ++ L') :=
  ⟨⟨h.1, h'.1⟩, fun u hu => (List.mem_append.1 hu).elim (h.2 u) (h'.2 u)⟩

theorem WfText.ty {t : Ty} (h : t.checkWf prog = .ok ()) : WfText prog True t.mentions := ⟨trivial, fun _ hu => Ty.mentions_wf h hu⟩

theorem WfText.mono {P Q : Prop} {L : List Ty} (h : WfText prog P L) (f : P → Q) : WfText prog Q L := ⟨f h.1, h.2⟩

mutual
theorem ValueExpr.wfText {locals : Map LocalName Ty} : ∀ {e : ValueExpr} {ty : Ty}, e.checkWf prog locals = .ok ty → e.Each (ValueExpr.Usual prog) →
    WfText prog e.Printable e.mentions
  | .constant c t, _, _, _ => WfText.nil trivial
  | .tuple es t, ty, h, hu => by
    simp only [ValueExpr.checkWf, Res.bind_eq_ok] at h
    obtain ⟨⟨⟩, _, h⟩ := h
    cases t with
    | tuple fields head tail =>
      simp only [Res.bind_eq_ok, ensureWf_eq_ok, beq_iff_eq] at h
      obtain ⟨_, _, _, hlen, ⟨⟩, h, _⟩ := h
      exact (ValueExpr.wfTexts (by simp [hlen]) h hu.2).mono fun h => ⟨trivial, h⟩
    | array elem count =>
      simp only [Res.bind_eq_ok, ensureWf_eq_ok] at h
      obtain ⟨_, _, ⟨⟩, h, _⟩ := h
      exact (ValueExpr.wfTexts (by simp) h hu.2).mono fun h => ⟨trivial, h⟩
    | _ => cases h
  | .union i e t, ty, h, hu => by
    simp only [ValueExpr.checkWf, Res.bind_eq_ok] at h
    obtain ⟨⟨⟩, ht, h⟩ := h
    cases t with
    | union fields chunks size align =>
      simp only [Res.bind_eq_ok] at h
      obtain ⟨_, _, _, _, _, he, _⟩ := h
      exact ((WfText.ty ht).append (ValueExpr.wfText he hu.2)).mono And.right
    | _ => cases h
  | .variant d e t, ty, h, hu => by
    rw [ValueExpr.checkWf.eq_def] at h
    cases t with
    | enum variants dt disc size align =>
      simp only [Res.bind_eq_ok] at h
      obtain ⟨⟨⟩, ht, h⟩ := h
      split at h
      · cases h
      · simp only [Res.bind_eq_ok] at h
        obtain ⟨_, he, _⟩ := h
        exact ((WfText.ty ht).append (ValueExpr.wfText he hu.2)).mono And.right
    | _ => cases h
  | .getDiscriminant p, ty, h, hu => by
    simp only [ValueExpr.checkWf, Res.bind_eq_ok] at h
    obtain ⟨_, hp, _⟩ := h
    exact PlaceExpr.wfText hp hu.2
  | .load p, ty, h, hu => by
    simp only [ValueExpr.checkWf, Res.bind_eq_ok] at h
    obtain ⟨_, hp, _⟩ := h
    exact PlaceExpr.wfText hp hu.2
  | .addrOf p t, ty, h, hu => by
    simp only [ValueExpr.checkWf, Res.bind_eq_ok] at h
    obtain ⟨_, _, _, hp, _⟩ := h
    exact (PlaceExpr.wfText hp hu.2).mono fun h => ⟨hu.1, h⟩
  | .unOp op e, ty, h, hu => by
    simp only [ValueExpr.checkWf, Res.bind_eq_ok] at h
    obtain ⟨_, he, h⟩ := h
    have hop : WfText prog True op.mentions := by
      cases op with
      | cast c =>
        cases c with
        | transmute t => exact WfText.ty hu.1
        | _ => exact WfText.nil trivial
      | computeSize t =>
        simp only [UnOp.checkWf, Res.bind_eq_ok] at h
        obtain ⟨⟨⟩, ht, _⟩ := h
        exact WfText.ty ht
      | computeAlign t =>
        simp only [UnOp.checkWf, Res.bind_eq_ok] at h
        obtain ⟨⟨⟩, ht, _⟩ := h
        exact WfText.ty ht
      | _ => exact WfText.nil trivial
    exact ((ValueExpr.wfText he hu.2).append hop).mono And.left
  | .binOp op l r, ty, h, hu => by
    simp only [ValueExpr.checkWf, Res.bind_eq_ok] at h
    obtain ⟨_, hl, _, hr, _⟩ := h
    exact (ValueExpr.wfText hl hu.2.1).append (ValueExpr.wfText hr hu.2.2)
theorem ValueExpr.wfTexts {locals : Map LocalName Ty} : ∀ {es : List ValueExpr} {tys : List Ty}, es.length = tys.length →
    ValueExpr.checkFields prog locals es tys = .ok () → ValueExpr.EachL (ValueExpr.Usual prog) es →
    WfText prog (ValueExpr.PrintableL es) (ValueExpr.mentionsL es)
  | [], _, _, _, _ => WfText.nil trivial
  | e :: es, [], hl, _, _ => absurd hl (by simp)
  | e :: es, ty :: tys, hl, h, hu => by
    simp only [ValueExpr.checkFields, Res.bind_eq_ok] at h
    obtain ⟨_, he, _, _, h⟩ := h
    exact (ValueExpr.wfText he hu.1).append (ValueExpr.wfTexts (by simpa using hl) h hu.2)
theorem PlaceExpr.wfText {locals : Map LocalName Ty} : ∀ {p : PlaceExpr} {ty : Ty}, p.checkWf prog locals = .ok ty → p.Each (ValueExpr.Usual prog) →
    WfText prog p.Printable p.mentions
  | .local _, _, _, _ => WfText.nil trivial
  | .deref e t, ty, h, hu => by
    simp only [PlaceExpr.checkWf, Res.bind_eq_ok] at h
    obtain ⟨⟨⟩, ht, _, he, _⟩ := h
    exact ((WfText.ty ht).append (ValueExpr.wfText he hu)).mono And.right
  | .field p _, ty, h, hu => by
    simp only [PlaceExpr.checkWf, Res.bind_eq_ok] at h
    obtain ⟨_, hp, _⟩ := h
    have := PlaceExpr.wfText (p := p) hp hu
    exact this
  | .index p e, ty, h, hu => by
    simp only [PlaceExpr.checkWf, Res.bind_eq_ok] at h
    obtain ⟨_, hp, _, he, _⟩ := h
    exact (PlaceExpr.wfText hp hu.1).append (ValueExpr.wfText he hu.2)
  | .downcast p _, ty, h, hu => by
    simp only [PlaceExpr.checkWf, Res.bind_eq_ok] at h
    obtain ⟨_, hp, _⟩ := h
    have := PlaceExpr.wfText (p := p) hp hu
    exact this
end

theorem Statement.wfText {f : Function} {st : Statement} (h : st.checkWf prog f = .ok ()) (hu : st.Each (ValueExpr.Usual prog)) :
    WfText prog st.Printable st.mentions := by
  cases st with
  | assign p e =>
    simp only [Statement.checkWf, Res.bind_eq_ok] at h
    obtain ⟨_, hp, _, he, _⟩ := h
    exact (PlaceExpr.wfText hp hu.1).append (ValueExpr.wfText he hu.2)
  | placeMention p => simp only [Statement.checkWf, Res.bind_eq_ok] at h; obtain ⟨_, hp, _⟩ := h; exact PlaceExpr.wfText hp hu
  | setDiscriminant p _ => simp only [Statement.checkWf, Res.bind_eq_ok] at h; obtain ⟨_, hp, _⟩ := h; exact PlaceExpr.wfText hp hu
  | validate p _ => simp only [Statement.checkWf, Res.bind_eq_ok] at h; obtain ⟨_, hp, _⟩ := h; exact PlaceExpr.wfText hp hu
  | deinit p => simp only [Statement.checkWf, Res.bind_eq_ok] at h; obtain ⟨_, hp, _⟩ := h; exact PlaceExpr.wfText hp hu
  | storageLive _ => exact WfText.nil trivial
  | storageDead _ => exact WfText.nil trivial

theorem intrinsicArgs_wfText {locals : Map LocalName Ty} : ∀ {es : List ValueExpr}, checkIntrinsicArgs prog locals es = .ok () →
    ValueExpr.EachL (ValueExpr.Usual prog) es → WfText prog (ValueExpr.PrintableL es) (ValueExpr.mentionsL es)
  | [], _, _ => WfText.nil trivial
  | e :: es, h, hu => by
    simp only [checkIntrinsicArgs, Res.bind_eq_ok] at h
    obtain ⟨_, he, _, _, _, _, h⟩ := h
    exact (ValueExpr.wfText he hu.1).append (intrinsicArgs_wfText h hu.2)

theorem callArgs_wfText {locals : Map LocalName Ty} : ∀ {es : List ArgumentExpr}, checkCallArgs prog locals es = .ok () →
    (∀ a ∈ es, a.Each (ValueExpr.Usual prog)) → WfText prog (∀ a ∈ es, a.Printable) (es.flatMap ArgumentExpr.mentions)
  | [], _, _ => WfText.nil fun _ h => absurd h List.not_mem_nil
  | e :: es, h, hu => by
    simp only [checkCallArgs, Res.bind_eq_ok] at h
    obtain ⟨_, he, _, _, _, _, h⟩ := h
    have h1 : WfText prog e.Printable e.mentions := by
      have := hu e List.mem_cons_self
      cases e with
      | byValue e => exact ValueExpr.wfText he this
      | inPlace p => exact PlaceExpr.wfText he this
    rw [List.flatMap_cons]
    exact (h1.append (callArgs_wfText h fun a ha => hu a (List.mem_cons_of_mem _ ha))).mono fun h a ha =>
      (List.mem_cons.1 ha).elim (fun e => e ▸ h.1) (h.2 a)

theorem Terminator.wfText {f : Function} {k : BbKind} {t : Terminator} (h : t.checkWf prog f k = .ok ()) (hu : t.Each (ValueExpr.Usual prog)) :
    WfText prog t.Printable t.mentions := by
  cases t with
  | switch e _ _ => simp only [Terminator.checkWf, Res.bind_eq_ok] at h; obtain ⟨_, he, _⟩ := h; exact ValueExpr.wfText he hu
  | startUnwind e _ => simp only [Terminator.checkWf, Res.bind_eq_ok] at h; obtain ⟨_, he, _⟩ := h; exact ValueExpr.wfText he hu
  | call callee conv args ret next unwind =>
    simp only [Terminator.checkWf, Res.bind_eq_ok] at h
    obtain ⟨_, hc, _, _, _, hr, _, _, _, _, ⟨⟩, ha, _⟩ := h
    exact (((ValueExpr.wfText hc hu.1).append (callArgs_wfText ha hu.2.1)).append (PlaceExpr.wfText hr hu.2.2)).mono fun h => ⟨h.1.1, h.1.2, h.2⟩
  | intrinsic op args ret next =>
    simp only [Terminator.checkWf, Res.bind_eq_ok] at h
    obtain ⟨_, hr, _, _, _, _, ⟨⟩, ha, _⟩ := h
    exact (intrinsicArgs_wfText ha hu.1).append (PlaceExpr.wfText hr hu.2)
  | _ => exact WfText.nil trivial

theorem Program.wfText (h : prog.checkWf = .ok ()) (hu : prog.Each (ValueExpr.Usual prog)) : WfText prog prog.Printable prog.mentions := by
  have hf : ∀ f ∈ prog.functions, f.2.checkWf prog = .ok () := fun f hf => by
    simp only [Program.checkWf, Res.bind_eq_ok] at h
    obtain ⟨_, _, ⟨⟩, h2, _⟩ := h
    exact checkFunctions_mem h2 (List.mem_map.2 ⟨f, hf, rfl⟩)
  have hfun : ∀ f ∈ prog.functions, (∀ t ∈ f.2.locals, t.2.checkWf prog = .ok ()) ∧
      ∀ b ∈ f.2.blocks, (∀ st ∈ b.2.statements, WfText prog st.Printable st.mentions) ∧ WfText prog b.2.terminator.Printable b.2.terminator.mentions := by
    intro f hfm
    have hw := hf f hfm
    simp only [Function.checkWf, Res.bind_eq_ok] at hw
    obtain ⟨⟨⟩, h1, _, _, _, _, h2⟩ := hw
    refine ⟨fun t ht => (checkLocals_mem h1 (List.mem_map.2 ⟨t, ht, rfl⟩)).1, fun b hb => ?_⟩
    split at h2
    · cases h2
    · obtain ⟨h3, h4⟩ := checkBlocks_mem h2 (List.mem_map.2 ⟨b, hb, rfl⟩)
      exact ⟨fun st hst => Statement.wfText (checkStatements_mem h3 hst) ((hu f hfm b hb).1 st hst), Terminator.wfText h4 (hu f hfm b hb).2⟩
  refine ⟨fun f hf b hb => ⟨fun st hst => (((hfun f hf).2 b hb).1 st hst).1, ((hfun f hf).2 b hb).2.1⟩, fun u hu => ?_⟩
  obtain ⟨f, hfm, hu⟩ := List.mem_flatMap.1 hu
  have hfm := mem_sortByName.1 hfm
  rcases List.mem_append.1 hu with hu | hu
  · obtain ⟨l, hl, hu⟩ := List.mem_flatMap.1 hu
    exact Ty.mentions_wf ((hfun f hfm).1 l (mem_sortByName.1 hl)) hu
  · obtain ⟨b, hb, hu⟩ := List.mem_flatMap.1 hu
    have hb := (hfun f hfm).2 b (mem_sortByName.1 hb)
    rcases List.mem_append.1 hu with hu | hu
    · obtain ⟨st, hst, hu⟩ := List.mem_flatMap.1 hu
      exact (hb.1 st hst).2 u hu
    · exact hb.2.2 u hu

theorem Program.Uses.wf (h : prog.checkWf = .ok ()) (hu : prog.Each (ValueExpr.Usual prog)) {t : Ty} (ht : prog.Uses t) : t.checkWf prog = .ok () := by
  induction ht with
  | mention hm => exact (Program.wfText h hu).2 _ hm
  | component _ hc hu ih => exact Ty.mentions_wf (Ty.components_wf ih hc) hu

end
end MiniRust
