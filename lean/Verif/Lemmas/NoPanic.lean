import Verif.Lemmas.KnownReach
import Verif.Lemmas.WfProg
import Verif.Props.PtrOps
/-
A logic for type soundness and the absence of panics (properties C37 and C59). `Np pl s x Q` says that
`x` run in `s` satisfies `Q` if it succeeds, and that it does not panic provided `pl` holds.
-/
set_option linter.unusedSectionVars false
namespace MiniRust

/-- `x` does not panic in `s` if `pl` holds, and if it succeeds then `Q` holds of its result. -/
def Np {M P F α : Type} (pl : Prop) (s : Machine M P F) (x : EM M P F α) (Q : α → Machine M P F → Prop) : Prop :=
  (pl → x s ≠ .error .panic) ∧ ∀ a s', x s = .ok (a, s') → Q a s'

/-- The same for computations that do not touch the machine. -/
def NpR {α : Type} (pl : Prop) (r : Res α) (Q : α → Prop) : Prop :=
  (pl → r ≠ .error .panic) ∧ ∀ a, r = .ok a → Q a

section
variable {M P F α β : Type} {pl : Prop} {s : Machine M P F} {Q : α → Machine M P F → Prop}
  {R : β → Machine M P F → Prop}

theorem Np.bind {x : EM M P F α} {f : α → EM M P F β} (hx : Np pl s x Q)
    (hf : ∀ a s1, x s = .ok (a, s1) → Q a s1 → Np pl s1 (f a) R) : Np pl s (x >>= f) R := by
  refine ⟨fun hp h => ?_, fun b s' h => ?_⟩
  · rcases EM.bind_eq_error.1 h with h | ⟨a, s1, h1, h2⟩
    · exact hx.1 hp h
    · exact (hf a s1 h1 (hx.2 a s1 h1)).1 hp h2
  · obtain ⟨a, s1, h1, h2⟩ := EM.bind_eq_ok.1 h
    exact (hf a s1 h1 (hx.2 a s1 h1)).2 b s' h2

theorem Np.pure {a : α} (h : Q a s) : Np pl s (pure a) Q :=
  ⟨(fun _ h' => nomatch h'), fun _ _ h' => by obtain ⟨rfl, rfl⟩ := EM.pure_eq_ok.1 h'; exact h⟩

theorem Np.throw {e : Err} (h : pl → e ≠ .panic) : Np pl s (EM.throw e : EM M P F α) Q :=
  ⟨fun hp h' => by cases h'; exact h hp rfl, fun b s' h' => by cases h'⟩

theorem Np.lift {r : Res α} (h : NpR pl r (fun a => Q a s)) : Np pl s (EM.lift r) Q :=
  ⟨fun hp h' => h.1 hp (EM.lift_eq_error.1 h'), fun b s' h' => by
    obtain ⟨h1, rfl⟩ := EM.lift_eq_ok.1 h'; exact h.2 _ h1⟩

theorem Np.read {f : Machine M P F → Res α} (h : NpR pl (f s) (fun a => Q a s)) : Np pl s (EM.read f) Q :=
  ⟨fun hp h' => h.1 hp (EM.read_eq_error.1 h'), fun b s' h' => by
    obtain ⟨h1, rfl⟩ := EM.read_eq_ok.1 h'; exact h.2 _ h1⟩

theorem Np.modify {f : Machine M P F → Machine M P F} {Q : Unit → Machine M P F → Prop} (h : Q () (f s)) :
    Np pl s (EM.modify f) Q :=
  ⟨fun _ h' => by simp at h', fun b s' h' => by obtain rfl := EM.modify_eq_ok.1 h'; exact h⟩

theorem Np.bindLift {r : Res α} {f : α → EM M P F β} (hr : pl → r ≠ .error .panic)
    (hf : ∀ a, r = .ok a → Np pl s (f a) R) : Np pl s (EM.lift r >>= f) R := by
  refine Np.bind (Q := fun a s1 => r = .ok a ∧ s1 = s) (.lift ⟨hr, fun a ha => ⟨ha, rfl⟩⟩) ?_
  rintro a s1 _ ⟨h1, rfl⟩; exact hf a h1

theorem Np.bindRead {r : Machine M P F → Res α} {f : α → EM M P F β} (hr : pl → r s ≠ .error .panic)
    (hf : ∀ a, r s = .ok a → Np pl s (f a) R) : Np pl s (EM.read r >>= f) R := by
  refine Np.bind (Q := fun a s1 => r s = .ok a ∧ s1 = s) (.read ⟨hr, fun a ha => ⟨ha, rfl⟩⟩) ?_
  rintro a s1 _ ⟨h1, rfl⟩; exact hf a h1

theorem Np.mono {Q' : α → Machine M P F → Prop} {x : EM M P F α} (h : Np pl s x Q)
    (hQ : ∀ a s', x s = .ok (a, s') → Q a s' → Q' a s') : Np pl s x Q' :=
  ⟨h.1, fun a s' h' => hQ a s' h' (h.2 a s' h')⟩

theorem Np.ite {c : Prop} [Decidable c] {x y : EM M P F α} (hx : c → Np pl s x Q) (hy : ¬ c → Np pl s y Q) :
    Np pl s (if c then x else y) Q := by
  split
  · exact hx ‹_›
  · exact hy ‹_›

theorem Np.unwrapRes {x : EM M P F α} (hx : pl → ∃ r, x s = .ok r ∨ x s = .error .noBehavior)
    (hQ : ∀ a s', x s = .ok (a, s') → Q a s') : Np pl s (EM.unwrapRes x) Q := by
  refine ⟨fun hp h => ?_, fun a s' h => hQ a s' (EM.unwrapRes_eq_ok.1 h)⟩
  obtain ⟨r, h1 | h1⟩ := hx hp
  · simp [EM.unwrapRes, h1] at h
  · simp [EM.unwrapRes, h1] at h

variable {Q : α → Prop} {R : β → Prop}
theorem NpR.ok {a : α} (h : Q a) : NpR pl (.ok a : Res α) Q := ⟨(fun _ h' => nomatch h'), fun _ h' => by cases h'; exact h⟩
theorem NpR.ub : NpR pl (.error .ub : Res α) Q := ⟨(fun _ h' => nomatch h'), (fun _ h' => nomatch h')⟩
theorem NpR.bind {x : Res α} {f : α → Res β} (hx : NpR pl x Q) (hf : ∀ a, x = .ok a → Q a → NpR pl (f a) R) :
    NpR pl (x >>= f) R := by
  refine ⟨fun hp h => ?_, fun b h => ?_⟩
  · rcases Res.bind_eq_error.1 h with h | ⟨a, h1, h2⟩
    · exact hx.1 hp h
    · exact (hf a h1 (hx.2 a h1)).1 hp h2
  · obtain ⟨a, h1, h2⟩ := Res.bind_eq_ok.1 h
    exact (hf a h1 (hx.2 a h1)).2 b h2
theorem NpR.mono {Q' : α → Prop} {x : Res α} (h : NpR pl x Q) (hQ : ∀ a, x = .ok a → Q a → Q' a) : NpR pl x Q' :=
  ⟨h.1, fun a h' => hQ a h' (h.2 a h')⟩
theorem NpR.ofOk {x : Res α} {a : α} (h : x = .ok a) (hq : Q a) : NpR pl x Q := by subst h; exact .ok hq
theorem NpR.ofEx {x : Res α} (h : ∃ a, x = .ok a ∧ Q a) : NpR pl x Q := by
  obtain ⟨a, h1, h2⟩ := h; exact .ofOk h1 h2
theorem NpR.ensureUb {b : Bool} {Q : Unit → Prop} (h : b = true → Q ()) : NpR pl (ensureUb b) Q := by
  cases b with
  | false => exact .ub
  | true => exact .ok (h rfl)
theorem NpR.ite {c : Prop} [Decidable c] {x y : Res α} (hx : c → NpR pl x Q) (hy : ¬ c → NpR pl y Q) :
    NpR pl (if c then x else y) Q := by
  split
  · exact hx ‹_›
  · exact hy ‹_›
end

section
variable {M PE AE F : Type} [T : Target] [DecidableEq PE] [Memory M (AllocId × PE) F] [B : BasicBacked M PE AE F]

/-- Memory models whose operations panic only when used with provenance of no allocation, and that
accept every store to live memory. The basic memory model is one, and so is Tree Borrows if its violations are ignored. -/
structure PlainMem (M : Type) {PE AE F : Type} [Memory M (AllocId × PE) F] [B : BasicBacked M PE AE F] : Prop where
  load : ∀ (m : M) p n al, (B.mem m).KnownId p → Memory.load m p n al ≠ .error .panic
  store : ∀ (m : M) p bs al, (B.mem m).KnownId p → Memory.store m p bs al ≠ .error .panic
  storeOk : ∀ (m : M) p bs al, Aligned al p.addr → bs.length = 0 ∨ (B.mem m).Fits p bs.length →
    ∃ m', Memory.store m p bs al = .ok m'
  allocate : ∀ (m : M) k n al pick, Memory.allocate m k n al pick ≠ .error .panic
  deallocate : ∀ (m : M) p k n al, (B.mem m).KnownId p → Memory.deallocate m p k n al ≠ .error .panic
  retag : ∀ (m : M) f p t e vt, (∀ info, t.safePointee = some info →
    ∃ mask, info.unsafeCells.freezeMask vt info.layout p.metadata = .ok mask) → Memory.retagPtr m f p t e vt ≠ .error .panic
  endCall : ∀ (m : M) f, Memory.endCall m f ≠ .error .panic

/-- Retagging a pointer of a type without aliasing requirements does not change it. -/
class RawRetag (M P F : Type) [Memory M P F] : Prop where
  raw : ∀ (m m' : M) (f f' : F) (ptr ptr' : Pointer P) pty e vt, pty.safePointee = none →
    Memory.retagPtr m f ptr pty e vt = .ok (ptr', f', m') → ptr' = ptr

/-- The address of the pointer is in the address space. -/
def InSpace (p : ThinPtr (AllocId × PE)) : Prop := 0 ≤ p.addr ∧ p.addr < 2 ^ (8 * T.ptrSize)

/-- What all steps rely on. -/
structure Base (prog : Program) (s : Machine M (AllocId × PE) F) : Prop where
  isProg : s.prog = prog
  known : Known made 0 s
  mem : ∃ h : MemHistory PE, MemReach (F := F) h s.mem.memory
  vt : s.VTablesOk
  globals : ∀ x g, prog.globals.get? x = some g → ∃ p, s.globalPtrs.get? x = some p
  fns : ∀ x f, prog.functions.get? x = some f → ∃ p, s.fnPtrs.get? x = some p ∧ InSpace p
  fnsOnly : ∀ x ∈ s.fnPtrs, ∃ f, prog.functions.get? x.1 = some f
  vtables : ∀ x v, prog.vtables.get? x = some v → ∃ p, s.vtablePtrs.get? x = some p

/-- What the evaluation of expressions of the function `fn` relies on. -/
structure Ready (prog : Program) (fn : Function) (s : Machine M (AllocId × PE) F) : Prop extends Base prog s where
  frame : ∃ fr, s.curFrame = .ok fr ∧ fr.func = fn ∧ ∀ x ∈ fr.locals, InSpace x.2

/-- What stays the same while an expression is evaluated. -/
structure Ev (s s' : Machine M (AllocId × PE) F) : Prop where
  env : s'.valEnv = s.valEnv
  cnt : cnt s' = cnt s
  tab : s'.prog = s.prog ∧ s'.vtablePtrs = s.vtablePtrs

variable {s s' s1 s2 : Machine M (AllocId × PE) F} {prog : Program} {fn : Function}

theorem Ev.refl : Ev s s := ⟨rfl, rfl, rfl, rfl⟩
theorem Ev.trans (h : Ev s s1) (h' : Ev s1 s2) : Ev s s2 :=
  ⟨h'.env.trans h.env, h'.cnt.trans h.cnt, h'.tab.1.trans h.tab.1, h'.tab.2.trans h.tab.2⟩

theorem checkPtr_same {m m' : BasicMem PE AE} (h : SameData m m') (p : ThinPtr (AllocId × PE)) (n : Nat) :
    m'.checkPtr p n = m.checkPtr p n := by
  unfold BasicMem.checkPtr
  split
  · rfl
  split
  · rfl
  · rename_i id pe _
    obtain ⟨h1, h2⟩ := h
    cases ha : m.allocations[id]? with
    | none =>
      have hb : m'.allocations[id]? = none := by
        rw [List.getElem?_eq_none_iff] at ha ⊢; omega
      simp only [index, ha, hb]
    | some a =>
      have hl := (List.getElem?_eq_some_iff.1 ha).1
      obtain ⟨b, hb⟩ : ∃ b, m'.allocations[id]? = some b := by
        exact ⟨_, List.getElem?_eq_getElem (by omega)⟩
      obtain ⟨e1, e2, e3, e4, e5⟩ := h2 id a b ha hb
      have es : b.size = a.size := by simp [Alloc.size, e1]
      have el : b.live = a.live := e5.symm
      have ea : b.addr = a.addr := e2.symm
      have k : ∀ c : Alloc PE AE, index m.allocations id = .ok a ∧ index m'.allocations id = .ok b := by
        intro _; simp [index, ha, hb, unwrap]
      rw [(k a).1, (k a).2]
      show (if (!b.live) = true then _ else _) = (if (!a.live) = true then _ else _)
      rw [el, ea, es]

theorem Ev.ofSame (hm : SameAllocs (B := B) s.mem s'.mem) (hp : s'.prog = s.prog) (hv : s'.vtablePtrs = s.vtablePtrs) :
    Ev s s' := by
  refine ⟨?_, hm.1.symm, hp, hv⟩
  have e1 : s'.vtableFromPtr = s.vtableFromPtr := by unfold Machine.vtableFromPtr; rw [hp, hv]
  have e2 : s'.vtableLookup = s.vtableLookup := by unfold Machine.vtableLookup; rw [hp, hv]
  unfold Machine.valEnv
  rw [e1, e2]
  congr 1
  funext p n
  show Memory.dereferenceable _ _ _ = Memory.dereferenceable _ _ _
  rw [B.dereferenceable, B.dereferenceable, checkPtr_same hm]

theorem MemReach.run {h h' : MemHistory PE} {m m' : M} (hm : MemReach (F := F) h m) (hr : MemRun (F := F) m h' m') :
    MemReach (F := F) (h' ++ h) m' := hm.append hr

theorem OnlyTop.curFrame {a : Nat} {ts ts' : List (Thread (AllocId × PE) F)} (h : OnlyTop FrameExtra a ts ts')
    {t fr rest} (ht : ts[a]? = some t) (hs : t.stack = fr :: rest) :
    ∃ t' fr', ts'[a]? = some t' ∧ t'.stack = fr' :: rest ∧ FrameExtra fr fr' := by
  rcases h with rfl | ⟨t1, f, f', r, h1, h2, h3, rfl⟩
  · exact ⟨t, fr, ht, hs, fr.extra, rfl⟩
  · rw [h1] at ht; cases ht
    rw [h2] at hs; cases hs
    refine ⟨_, f', by rw [List.getElem?_set_self (List.getElem?_eq_some_iff.1 h1).1], rfl, h3⟩

theorem Base.ofExpr {α : Type} {x : EM M (AllocId × PE) F α} {R : α → Nat → Prop} {a : α}
    (ht : Tri Soft (ExprRel (SameAllocs (B := B))) x) (hh : Tri Soft (ExprRel (ReadHist (PE := PE) F)) x)
    (hk : Kt made 0 s x R) (hr : Base prog s) (h : x s = .ok (a, s')) :
    Base prog s' ∧ Ev s s' ∧ R a (cnt s') := by
  obtain ⟨g, hR⟩ := hk hr.known a s' h
  have h1 := ht.ok _ _ _ h
  obtain ⟨⟨hist, hrun, -⟩, -, -⟩ := hh.ok _ _ _ h
  obtain ⟨h0, hm⟩ := hr.mem
  have hp : s'.prog = s.prog := by rw [h1.rest]
  have hv : s'.vtablePtrs = s.vtablePtrs := by rw [h1.rest]
  have hg : s'.globalPtrs = s.globalPtrs := by rw [h1.rest]
  have hf : s'.fnPtrs = s.fnPtrs := by rw [h1.rest]
  refine ⟨⟨hp.trans hr.isProg, g.known, ⟨_, hm.append hrun⟩, hr.vt.congr hp hv, ?_, ?_, ?_, ?_⟩, .ofSame h1.mem hp hv, hR⟩
  · rw [hg]; exact hr.globals
  · rw [hf]; exact hr.fns
  · rw [hf]; exact hr.fnsOnly
  · rw [hv]; exact hr.vtables

theorem Ready.ofExpr {α : Type} {x : EM M (AllocId × PE) F α} {R : α → Nat → Prop} {a : α}
    (ht : Tri Soft (ExprRel (SameAllocs (B := B))) x) (hh : Tri Soft (ExprRel (ReadHist (PE := PE) F)) x)
    (hk : Kt made 0 s x R) (hr : Ready prog fn s) (h : x s = .ok (a, s')) :
    Ready prog fn s' ∧ Ev s s' ∧ R a (cnt s') := by
  obtain ⟨hb, he, hR⟩ := Base.ofExpr ht hh hk hr.toBase h
  have h1 := ht.ok _ _ _ h
  have ha : s'.activeThread = s.activeThread := by rw [h1.rest]
  obtain ⟨fr, e1, e2, e3⟩ := hr.frame
  obtain ⟨t, rest, k1, k2⟩ := curFrame_eq_ok.1 e1
  obtain ⟨t', fr', k3, k4, ex, rfl⟩ := h1.threads.curFrame k1 k2
  exact ⟨⟨hb, _, curFrame_eq_ok.2 ⟨t', rest, by rw [ha]; exact k3, k4⟩, e2, e3⟩, he, hR⟩
end
end MiniRust
