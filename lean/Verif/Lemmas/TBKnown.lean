import Verif.Spec.TBMachine
import Verif.Lemmas.KnownStep
import Verif.Lemmas.TBRetag
/-
A logic for machines that run under Tree Borrows. It shows at the same time that all provenance the machine holds denotes
existing nodes, that what happens to the memory is a run in the sense of `TBRun`, and how the machine relates to the ones
that run under two other memory models: the one with a check added to `reborrow`, and the one that ignores all
violations of the aliasing rules.
-/
set_option linter.unusedSectionVars false
namespace MiniRust
variable [T : Target]

/-- Tree Borrows. -/
@[reducible] def TBMem.real : Memory TBMem TBProv TBFrame := instMemoryTBMemTBProvTBFrameOfTarget

/-- The result, or the alternative. -/
def orElse {α : Type} (r : Res α) (a : α) : Res α :=
  match r with
  | .ok x => .ok x
  | .error _ => .ok a

/-- Ignores all violations of the aliasing rules. -/
@[reducible] def TBMem.lax : Memory TBMem TBProv TBFrame where
  new := ⟨BasicMem.new⟩
  allocate := TBMem.real.allocate
  deallocate m ptr kind size align := do
    let mem ← m.mem.deallocate ptr kind size align (fun n p => orElse (TBMem.deallocHandler size n p) n)
    .ok ⟨mem⟩
  store m ptr bytes align := do
    let mem ← m.mem.store ptr bytes align (fun n p o => orElse (TBMem.accessHandler .write bytes.length n p o) n)
    .ok ⟨mem⟩
  load m ptr len align := do
    let (bytes, mem) ← m.mem.load ptr len align (fun n p o => orElse (TBMem.accessHandler .read len n p o) n)
    .ok (bytes, ⟨mem⟩)
  dereferenceable := TBMem.real.dereferenceable
  retagPtr m f ptr pty entry vt := do
    let _ ← ReborrowSettings.new ptr pty entry vt
    orElse (TBMem.retagPtr m f ptr pty entry vt) (ptr, f, m)
  newCall := []
  endCall m f := orElse (TBMem.endCall m f) m
  leakCheck := TBMem.real.leakCheck

theorem orElse_ok {α : Type} {r : Res α} {a b : α} (h : r = .ok b) : orElse r a = .ok b := by subst h; rfl

theorem lax_load {m m' : TBMem} {p n al bs} (h : TBMem.real.load m p n al = .ok (bs, m')) :
    TBMem.lax.load m p n al = .ok (bs, m') := by
  have h := tb_load_eq_ok.1 h
  have : m.mem.load p n al (fun x p o => orElse (TBMem.accessHandler .read n x p o) x) = .ok (bs, m'.mem) := by
    rw [BasicMem.load_eq_ok] at h ⊢
    obtain ⟨h1, h2 | ⟨h2, id, pe, a, off, extra, h3, h4, h5, h6, h7, h8, h9, h10⟩⟩ := h
    · exact ⟨h1, .inl h2⟩
    · exact ⟨h1, .inr ⟨h2, id, pe, a, off, extra, h3, h4, h5, h6, h7, orElse_ok h8, h9, h10⟩⟩
  exact Res.bind_eq_ok.2 ⟨_, this, rfl⟩

theorem lax_store {m m' : TBMem} {p bs al} (h : TBMem.real.store m p bs al = .ok m') :
    TBMem.lax.store m p bs al = .ok m' := by
  have h := tb_store_eq_ok.1 h
  have : m.mem.store p bs al (fun x p o => orElse (TBMem.accessHandler .write bs.length x p o) x) = .ok m'.mem := by
    rw [BasicMem.store_eq_ok] at h ⊢
    obtain ⟨h1, h2 | ⟨h2, id, pe, a, off, extra, data, h3, h4, h5, h6, h7, h8, h9, h10⟩⟩ := h
    · exact ⟨h1, .inl h2⟩
    · exact ⟨h1, .inr ⟨h2, id, pe, a, off, extra, data, h3, h4, h5, h6, h7, orElse_ok h8, h9, h10⟩⟩
  exact Res.bind_eq_ok.2 ⟨_, this, rfl⟩

theorem lax_deallocate {m m' : TBMem} {p k n al} (h : TBMem.real.deallocate m p k n al = .ok m') :
    TBMem.lax.deallocate m p k n al = .ok m' := by
  have h := tb_deallocate_eq_ok.1 h
  have : m.mem.deallocate p k n al (fun x p => orElse (TBMem.deallocHandler n x p) x) = .ok m'.mem := by
    rw [BasicMem.deallocate_eq_ok] at h ⊢
    obtain ⟨id, pe, a, extra, h1, h2, h3, h4, h5, h6, h7, h8, h9⟩ := h
    exact ⟨id, pe, a, extra, h1, h2, h3, h4, h5, h6, h7, orElse_ok h8, h9⟩
  exact Res.bind_eq_ok.2 ⟨_, this, rfl⟩

theorem lax_endCall {m m' : TBMem} {f} (h : TBMem.real.endCall m f = .ok m') : TBMem.lax.endCall m f = .ok m' :=
  orElse_ok h

theorem retag_settings {m : TBMem} {f p t e vt r} (h : TBMem.retagPtr m f p t e vt = .ok r) :
    ∃ st, ReborrowSettings.new p t e vt = .ok st := by
  unfold TBMem.retagPtr at h
  obtain ⟨st, h, _⟩ := Res.bind_eq_ok.1 h
  exact ⟨st, h⟩

theorem lax_retag {m : TBMem} {f p t e vt r} (h : TBMem.real.retagPtr m f p t e vt = .ok r) :
    TBMem.lax.retagPtr m f p t e vt = .ok r := by
  obtain ⟨st, hst⟩ := retag_settings h
  exact Res.bind_eq_ok.2 ⟨_, hst, orElse_ok h⟩

namespace TB

abbrev Mach := Machine TBMem TBProv TBFrame
abbrev Inst := Memory TBMem TBProv TBFrame

/-! ### Provenance of existing nodes -/

section
variable (m : TBMem)
def PK (p : ThinPtr TBProv) : Prop := ∀ q, p.prov = some q → m.HasNode q
def VK (v : Value TBProv) : Prop := ∀ q, ProvIn q v → m.HasNode q
def BK (bs : List (AByte TBProv)) : Prop := ∀ q, ProvInBytes q bs → m.HasNode q
def AK : StackPopAction TBProv → Prop
  | .bottomOfStack => True
  | .backToCaller _ _ ptr => PK m ptr

structure FK (fr : StackFrame TBProv TBFrame) : Prop where
  locals : ∀ x ∈ fr.locals, PK m x.2
  action : AK m fr.stackPopAction

structure TK (t : Thread TBProv TBFrame) : Prop where
  stack : ∀ fr ∈ t.stack, FK m fr
  payloads : ∀ p ∈ t.unwindPayloads, PK m p

/-- The pointer of a place. -/
def PlK (p : Place TBProv) : Prop := VK m (.ptr p.ptr)
end

section
variable {m m' : TBMem}
theorem PK.mono (hn : MemLe m m') {p : ThinPtr TBProv} (h : PK m p) : PK m' p := fun q hq => hn.hasNode (h q hq)
theorem VK.mono (hn : MemLe m m') {p : Value TBProv} (h : VK m p) : VK m' p := fun q hq => hn.hasNode (h q hq)
theorem PlK.mono (hn : MemLe m m') {p : Place TBProv} (h : PlK m p) : PlK m' p := VK.mono hn h
theorem BK.mono (hn : MemLe m m') {p : List (AByte TBProv)} (h : BK m p) : BK m' p := fun q hq => hn.hasNode (h q hq)
theorem AK.mono (hn : MemLe m m') {p : StackPopAction TBProv} (h : AK m p) : AK m' p := by
  cases p with
  | bottomOfStack => trivial
  | backToCaller _ _ ptr => exact PK.mono hn h
theorem FK.mono (hn : MemLe m m') {fr : StackFrame TBProv TBFrame} (h : FK m fr) : FK m' fr :=
  ⟨fun x hx => (h.locals x hx).mono hn, h.action.mono hn⟩
theorem TK.mono (hn : MemLe m m') {t : Thread TBProv TBFrame} (h : TK m t) : TK m' t :=
  ⟨fun x hx => (h.stack x hx).mono hn, fun p hp => (h.payloads p hp).mono hn⟩

theorem VK.int {i} : VK m (.int i) := fun q hq => by cases hq
theorem VK.bool {i} : VK m (.bool i) := fun q hq => by cases hq
theorem VK.tuple {vs : List (Value TBProv)} (h : ∀ v ∈ vs, VK m v) : VK m (.tuple vs) := by
  intro q hq; cases hq with | elem hv hp => exact h _ hv q hp
theorem VK.elem {vs : List (Value TBProv)} (h : VK m (.tuple vs)) : ∀ v ∈ vs, VK m v :=
  fun _ hv q hq => h q (.elem hv hq)
theorem VK.variant {d} {v : Value TBProv} (h : VK m v) : VK m (.variant d v) := by
  intro q hq; cases hq with | variant hp => exact h q hp
theorem VK.ofVariant {d} {v : Value TBProv} (h : VK m (.variant d v)) : VK m v :=
  fun q hq => h q (.variant hq)
theorem VK.unit : VK m unitValue := VK.tuple (by simp)
theorem VK.ptr {p : Pointer TBProv} (h : PK m p.thin)
    (hm : ∀ q, p.metadata = some (.vtablePointer q) → PK m q) : VK m (.ptr p) := by
  intro q hq
  cases hq with
  | thin hp => exact h q hp
  | vtable hm' hp => exact hm _ hm' q hp
theorem VK.thin {p : Pointer TBProv} (h : VK m (.ptr p)) : PK m p.thin :=
  fun q hq => h q (.thin hq)
theorem PlK.thin {p : Place TBProv} (h : PlK m p) : PK m p.ptr.thin := VK.thin h
theorem VK.meta {p : Pointer TBProv} (h : VK m (.ptr p)) : ∀ q, p.metadata = some (.vtablePointer q) → PK m q :=
  fun _ hm q hq => h q (.vtable hm hq)
theorem VK.widen {p : ThinPtr TBProv} (h : PK m p) : VK m (.ptr (p.widen none)) :=
  VK.ptr h (fun _ h => by cases h)
theorem PK.offset {p : ThinPtr TBProv} {i : Int} (h : PK m p) : PK m (p.wrappingOffset i) :=
  fun q hq => h q hq
theorem PK.none {a : Int} : PK m ⟨a, .none⟩ := fun q hq => by cases hq
theorem PK.congr {p q : ThinPtr TBProv} (h : PK m p) (e : q.prov = p.prov) : PK m q :=
  fun x hx => h x (by rw [← e]; exact hx)
theorem BK.encodeInt {vt i} {bs : List (AByte TBProv)} (h : encodeInt vt i = .ok bs) : BK m bs :=
  fun _ hq => absurd hq (not_provInBytes_encodeInt h)
theorem BK.uninit {k : Nat} : BK m (List.replicate k .uninit) :=
  fun _ hq => absurd hq not_provInBytes_replicate

theorem HasNode.lt {q : TBProv} (h : m.HasNode q) : q.1 < m.mem.allocations.length := by
  obtain ⟨n, h, _⟩ := h
  unfold TBMem.tree? at h
  obtain ⟨a, ha, _⟩ := Option.map_eq_some_iff.1 h
  exact (List.getElem?_eq_some_iff.1 ha).1
theorem PK.knownId {p : ThinPtr TBProv} (h : PK m p) : m.mem.KnownId p := fun _ _ hp => HasNode.lt (h _ hp)
end

/-! ### The state of the machine -/

/-- All provenance the machine holds denotes existing nodes; the memory was reached by operations of the memory
interface, and the calls in progress are those of the frames, and `pd`, which are about to end. -/
structure Wf (pd : List TBFrame) (s : Mach) : Prop where
  reach : ∃ fs, TBReach ⟨s.mem.memory, fs⟩ ∧ fs.Perm (pd ++ s.calls)
  mem : ∀ (id : Nat) a, s.mem.memory.mem.allocations[id]? = some a → a.live = true → BK s.mem.memory a.data
  exposed : ∀ p ∈ s.intptrcast.exposed, s.mem.memory.HasNode p
  globals : ∀ x ∈ s.globalPtrs, PK s.mem.memory x.2
  fns : ∀ x ∈ s.fnPtrs, PK s.mem.memory x.2
  vtables : ∀ x ∈ s.vtablePtrs, PK s.mem.memory x.2
  threads : ∀ t ∈ s.threads, TK s.mem.memory t

/-- What happened to the memory is a run of operations of the memory interface. -/
def Run (pd : List TBFrame) (s : Mach) (pd' : List TBFrame) (s' : Mach) : Prop :=
  ∀ fs : List TBFrame, fs.Perm (pd ++ s.calls) →
    ∃ fs', TBRun ⟨s.mem.memory, fs⟩ ⟨s'.mem.memory, fs'⟩ ∧ fs'.Perm (pd' ++ s'.calls)

structure Grow (pd : List TBFrame) (s : Mach) (pd' : List TBFrame) (s' : Mach) : Prop where
  wf : Wf pd' s'
  run : Run pd s pd' s'
  le : MemLe s.mem.memory s'.mem.memory

variable {pd pd' pd1 pd2 : List TBFrame} {s s' s1 s2 : Mach} {α β : Type}

theorem Wf.inv (h : Wf pd s) : ∃ S, TInv s.mem.memory S := by
  obtain ⟨fs, h, _⟩ := h.reach
  exact ⟨_, h.inv⟩

theorem Run.refl : Run pd s pd s := fun fs h => ⟨fs, .refl, h⟩
theorem Run.trans (h : Run pd s pd1 s1) (h' : Run pd1 s1 pd2 s2) : Run pd s pd2 s2 := by
  intro fs hf
  obtain ⟨fs1, h1, h2⟩ := h fs hf
  obtain ⟨fs2, h3, h4⟩ := h' fs1 h2
  exact ⟨fs2, h1.append h3, h4⟩

theorem Run.reach (h : Run pd s pd' s') (hs : Wf pd s) :
    (∃ fs, TBReach ⟨s'.mem.memory, fs⟩ ∧ fs.Perm (pd' ++ s'.calls)) ∧ MemLe s.mem.memory s'.mem.memory := by
  obtain ⟨fs, h1, h2⟩ := hs.reach
  obtain ⟨fs', h3, h4⟩ := h fs h2
  exact ⟨⟨fs', h1.append h3, h4⟩, (h3.inv h1.inv).2⟩

theorem Grow.refl (h : Wf pd s) : Grow pd s pd s := ⟨h, .refl, .refl⟩
theorem Grow.trans (h : Grow pd s pd1 s1) (h' : Grow pd1 s1 pd2 s2) : Grow pd s pd2 s2 :=
  ⟨h'.wf, h.run.trans h'.run, h.le.trans h'.le⟩

/-! ### The triple -/

/-- How results under Tree Borrows, under the memory model with the additional check, and under the one that ignores
violations relate. -/
def Agree (a g b : Res α) : Prop :=
  (g = a ∧ (b = a ∨ a = .error .ub)) ∨ (a = .error .panic ∧ g = .error .ub)

theorem Agree.same {a : Res α} : Agree a a a := .inl ⟨rfl, .inl rfl⟩

def Kt (pd pd' : List TBFrame) (s : Mach) (x : Inst → EM TBMem TBProv TBFrame α) (R : α → Mach → Prop) : Prop :=
  Wf pd s → Agree (x instMemoryTBMemTBProvTBFrameOfTarget s) (x TBMem.guarded s) (x TBMem.lax s) ∧
    ∀ a s', x instMemoryTBMemTBProvTBFrameOfTarget s = .ok (a, s') → Grow pd s pd' s' ∧ R a s'

section
variable {R : α → Mach → Prop} {Q : β → Mach → Prop}

theorem bind_ok {x : EM TBMem TBProv TBFrame α} {f : α → EM TBMem TBProv TBFrame β} {a s1} (h : x s = .ok (a, s1)) :
    (x >>= f) s = f a s1 := by
  cases hf : f a s1 with
  | ok r => exact EM.bind_eq_ok.2 ⟨a, s1, h, hf⟩
  | error e => exact EM.bind_eq_error.2 (.inr ⟨a, s1, h, hf⟩)
theorem bind_error {x : EM TBMem TBProv TBFrame α} {f : α → EM TBMem TBProv TBFrame β} {e} (h : x s = .error e) :
    (x >>= f) s = .error e := EM.bind_eq_error.2 (.inl h)

theorem Agree.bind {x : Inst → EM TBMem TBProv TBFrame α} {f : Inst → α → EM TBMem TBProv TBFrame β} {I J L : Inst}
    (h : Agree (x I s) (x J s) (x L s)) (hf : ∀ a s1, x I s = .ok (a, s1) → Agree (f I a s1) (f J a s1) (f L a s1)) :
    Agree ((x I >>= f I) s) ((x J >>= f J) s) ((x L >>= f L) s) := by
  cases hx : x I s with
  | ok r =>
    obtain ⟨a, s1⟩ := r
    rcases h with ⟨h1, h2⟩ | ⟨h1, _⟩
    · rcases h2 with h2 | h2
      · rw [bind_ok hx, bind_ok (h1.trans hx), bind_ok (h2.trans hx)]
        exact hf a s1 hx
      · rw [hx] at h2; cases h2
    · rw [hx] at h1; cases h1
  | error e =>
    rcases h with ⟨h1, h2⟩ | ⟨h1, h2⟩
    · rcases h2 with h2 | h2
      · rw [bind_error hx, bind_error (h1.trans hx), bind_error (h2.trans hx)]
        exact .same
      · rw [hx] at h2; cases h2
        rw [bind_error hx, bind_error (h1.trans hx)]
        exact .inl ⟨rfl, .inr rfl⟩
    · rw [hx] at h1; cases h1
      rw [bind_error hx, bind_error h2]
      exact .inr ⟨rfl, rfl⟩

theorem Kt.bind {x : Inst → EM TBMem TBProv TBFrame α} {f : Inst → α → EM TBMem TBProv TBFrame β} (hx : Kt pd pd1 s x R)
    (hf : ∀ a s1, Grow pd s pd1 s1 → R a s1 → Kt pd1 pd2 s1 (fun I => f I a) Q) : Kt pd pd2 s (fun I => x I >>= f I) Q := by
  intro hs
  obtain ⟨h1, h2⟩ := hx hs
  constructor
  · refine h1.bind fun a s1 h => ?_
    obtain ⟨g, r⟩ := h2 a s1 h
    exact (hf a s1 g r g.wf).1
  · intro b s' h
    obtain ⟨a, s1, h3, h4⟩ := EM.bind_eq_ok.1 h
    obtain ⟨g, r⟩ := h2 a s1 h3
    obtain ⟨g', q⟩ := (hf a s1 g r g.wf).2 b s' h4
    exact ⟨g.trans g', q⟩

theorem Kt.pure {a : α} (h : Wf pd s → R a s) : Kt pd pd s (fun _ => pure a) R := by
  intro hs
  refine ⟨.same, fun b s' h' => ?_⟩
  obtain ⟨rfl, rfl⟩ := EM.pure_eq_ok.1 h'
  exact ⟨.refl hs, h hs⟩

theorem Kt.throw {e : Err} : Kt pd pd' s (fun _ => (EM.throw e : EM TBMem TBProv TBFrame α)) R :=
  fun _ => ⟨.same, fun _ _ h => by simp at h⟩

theorem Kt.lift {r : Res α} (h : Wf pd s → ∀ a, r = .ok a → R a s) : Kt pd pd s (fun _ => EM.lift r) R := by
  intro hs
  refine ⟨.same, fun a s' h' => ?_⟩
  obtain ⟨e, rfl⟩ := EM.lift_eq_ok.1 h'
  exact ⟨.refl hs, h hs a e⟩

theorem Kt.read {r : Inst → Mach → Res α} (h : Wf pd s → ∀ a, r instMemoryTBMemTBProvTBFrameOfTarget s = .ok a → R a s)
    (e : r TBMem.guarded s = r instMemoryTBMemTBProvTBFrameOfTarget s ∧ r TBMem.lax s = r instMemoryTBMemTBProvTBFrameOfTarget s :=
      by exact ⟨rfl, rfl⟩) :
    Kt pd pd s (fun I => EM.read (r I)) R := by
  intro hs
  refine ⟨?_, fun a s' h' => ?_⟩
  · simp only [EM.read, e.1, e.2]; exact .same
  · obtain ⟨e, rfl⟩ := EM.read_eq_ok.1 h'
    exact ⟨.refl hs, h hs a e⟩

theorem Kt.mono {R' : α → Mach → Prop} {x : Inst → EM TBMem TBProv TBFrame α} (h : Kt pd pd' s x R)
    (hR : ∀ a s', R a s' → R' a s') : Kt pd pd' s x R' :=
  fun hs => ⟨(h hs).1, fun a s' h' => ⟨((h hs).2 a s' h').1, hR _ _ ((h hs).2 a s' h').2⟩⟩

theorem Kt.ite {c : Prop} [Decidable c] {x y : Inst → EM TBMem TBProv TBFrame α} (hx : c → Kt pd pd' s x R)
    (hy : ¬ c → Kt pd pd' s y R) : Kt pd pd' s (fun I => if c then x I else y I) R := by
  by_cases h : c
  · simp only [if_pos h]; exact hx h
  · simp only [if_neg h]; exact hy h

theorem Kt.bindLift {r : Res α} {f : Inst → α → EM TBMem TBProv TBFrame β}
    (hf : ∀ a, r = .ok a → Kt pd pd' s (fun I => f I a) Q) : Kt pd pd' s (fun I => EM.lift r >>= f I) Q := by
  refine .bind (pd1 := pd) (R := fun a s1 => r = .ok a ∧ s1 = s) ?_ ?_
  · intro hs
    refine ⟨.same, fun a s' h' => ?_⟩
    obtain ⟨e, rfl⟩ := EM.lift_eq_ok.1 h'
    exact ⟨.refl hs, e, rfl⟩
  · rintro a _ _ ⟨e, rfl⟩
    exact hf a e

theorem Kt.bindRead {r : Inst → Mach → Res α} {f : Inst → α → EM TBMem TBProv TBFrame β}
    (hf : Wf pd s → ∀ a, r instMemoryTBMemTBProvTBFrameOfTarget s = .ok a → Kt pd pd' s (fun I => f I a) Q)
    (e : r TBMem.guarded s = r instMemoryTBMemTBProvTBFrameOfTarget s ∧ r TBMem.lax s = r instMemoryTBMemTBProvTBFrameOfTarget s :=
      by exact ⟨rfl, rfl⟩) :
    Kt pd pd' s (fun I => EM.read (r I) >>= f I) Q := by
  refine .bind (pd1 := pd) (R := fun a s1 => (Wf pd s ∧ r instMemoryTBMemTBProvTBFrameOfTarget s = .ok a) ∧ s1 = s) ?_ ?_
  · intro hs
    refine ⟨?_, fun a s' h' => ?_⟩
    · simp only [EM.read, e.1, e.2]; exact .same
    · obtain ⟨e, rfl⟩ := EM.read_eq_ok.1 h'
      exact ⟨.refl hs, ⟨hs, e⟩, rfl⟩
  · rintro a _ _ ⟨⟨h1, h2⟩, rfl⟩
    exact hf h1 a h2

/-- A failure that none of the memory models is responsible for may be turned into a panic. -/
theorem Kt.unwrapRes {x : Inst → EM TBMem TBProv TBFrame α} (h : Kt pd pd' s x R)
    (hx : Wf pd s → x TBMem.guarded s = x instMemoryTBMemTBProvTBFrameOfTarget s ∧ x TBMem.lax s = x instMemoryTBMemTBProvTBFrameOfTarget s) :
    Kt pd pd' s (fun I => EM.unwrapRes (x I)) R := by
  intro hs
  obtain ⟨h1, h2⟩ := hx hs
  refine ⟨?_, fun a s' h' => (h hs).2 a s' (EM.unwrapRes_eq_ok.1 h')⟩
  simp only [EM.unwrapRes, h1, h2]
  exact .same

/-- Changes outside the memory. -/
theorem Wf.congr (h : Wf pd s) (hm : s'.mem.memory = s.mem.memory) (he : s'.intptrcast = s.intptrcast)
    (hg : s'.globalPtrs = s.globalPtrs) (hf : s'.fnPtrs = s.fnPtrs) (hv : s'.vtablePtrs = s.vtablePtrs)
    (hr : Run pd s pd' s') (ht : ∀ t ∈ s'.threads, TK s.mem.memory t) : Wf pd' s' := by
  constructor
  · exact (hr.reach h).1
  · rw [hm]; exact h.mem
  · rw [hm, he]; exact h.exposed
  · rw [hm, hg]; exact h.globals
  · rw [hm, hf]; exact h.fns
  · rw [hm, hv]; exact h.vtables
  · rw [hm]; exact ht

/-- Nothing happened to the memory and the calls. -/
theorem Run.ctl (hm : s'.mem.memory = s.mem.memory) (hc : (pd' ++ s'.calls).Perm (pd ++ s.calls)) : Run pd s pd' s' :=
  fun fs h => ⟨fs, by rw [hm]; exact .refl, h.trans hc.symm⟩

theorem Run.threads (hm : s'.mem.memory = s.mem.memory) (hc : s'.threads = s.threads) : Run pd s pd s' :=
  .ctl hm (by unfold Machine.calls; rw [hc])

theorem Grow.ctl (h : Wf pd' s') (hm : s'.mem.memory = s.mem.memory) (hr : Run pd s pd' s') : Grow pd s pd' s' :=
  ⟨h, hr, by rw [hm]; exact .refl⟩

/-- Changes of nothing that matters. -/
theorem Grow.idle (hs : Wf pd s) (hm : s'.mem.memory = s.mem.memory) (he : s'.intptrcast = s.intptrcast)
    (hg : s'.globalPtrs = s.globalPtrs) (hf : s'.fnPtrs = s.fnPtrs) (hv : s'.vtablePtrs = s.vtablePtrs)
    (ht : s'.threads = s.threads) : Grow pd s pd s' := by
  have hr : Run pd s pd s' := .threads hm ht
  exact .ctl (hs.congr hm he hg hf hv hr (by rw [ht]; exact hs.threads)) hm hr

theorem Kt.popInt {R : Int → Mach → Prop} (h : ∀ i s', s'.mem = s.mem → s'.threads = s.threads → s'.activeThread = s.activeThread → R i s') :
    Kt pd pd s (fun _ => (EM.popInt : EM TBMem TBProv TBFrame Int)) R := by
  intro hs
  refine ⟨.same, fun a s' h' => ?_⟩
  obtain ⟨rest, _, rfl⟩ := EM.popInt_eq_ok.1 h'
  exact ⟨.idle hs rfl rfl rfl rfl rfl rfl, h _ _ rfl rfl rfl⟩

theorem Kt.popProv {R : Option TBProv → Mach → Prop} (h : ∀ i s', R i s') :
    Kt pd pd s (fun _ => (EM.popProv : EM TBMem TBProv TBFrame _)) R := by
  intro hs
  refine ⟨.same, fun a s' h' => ?_⟩
  obtain ⟨rest, _, rfl⟩ := EM.popProv_eq_ok.1 h'
  exact ⟨.idle hs rfl rfl rfl rfl rfl rfl, h _ _⟩

end

end TB
end MiniRust
