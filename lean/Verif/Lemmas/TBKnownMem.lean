import Verif.Lemmas.TBKnown
import Mathlib.Data.List.InsertIdx
import Mathlib.Data.List.Perm.Basic
/-
The operations on the memory, in the logic for machines that run under Tree Borrows.
-/
set_option linter.unusedSectionVars false
namespace MiniRust
variable [T : Target]

theorem retag_valid {m m' : TBMem} {f f' ptr ptr' pty entry vt}
    (h : TBMem.retagPtr m f ptr pty entry vt = .ok (ptr', f', m')) (hv : m.ValidPtr ptr.thin) : m'.ValidPtr ptr'.thin := by
  rcases retag_ok h with ⟨_, rfl, _, rfl⟩ | ⟨st, thin, hs, hr, rfl⟩
  · exact hv
  · rcases reborrow_ok hr with ⟨h0, rfl, _, _⟩ | ⟨id, parent, a, off, perms, root, path, root', hp, ha, _, hlen,
      _, _, hmatch, hlive, hadd, hinit, rfl, _, rfl⟩
    · intro pv hpv; simp only [ThinPtr.widen] at hpv; rw [h0] at hpv; cases hpv
    · intro pv hpv
      cases hpv
      rw [hasNode_iff]
      have hlt := (List.getElem?_eq_some_iff.1 ha).1
      obtain ⟨i, rfl, hnone, hpar, hd⟩ := Node.addNode_ok hadd
      have : ∀ {perms' : List Permission} {n n' : Node} {idx q d}, TBMem.initAccesses (parent ++ [i]) off n idx perms' = .ok n' →
          n.data q = some d → ∃ d', n'.data q = some d' := by
        intro perms'
        induction perms' with
        | nil => intro n n' idx q d h hd; cases h; exact ⟨d, hd⟩
        | cons X perms' ih =>
          intro n n' idx q d h hd
          simp only [TBMem.initAccesses, Res.bind_eq_ok] at h
          obtain ⟨n1, h1, h⟩ := h
          unfold TBMem.initAccess at h1
          split at h1
          · obtain ⟨qs1, hd1, _⟩ := Node.access_data' h1 hd
            exact ih h hd1
          · cases h1; exact ih h hd
      obtain ⟨d', hd'⟩ := this hinit (q := parent ++ [i]) (d := (perms, st.protected_)) (by rw [hd, if_pos rfl])
      exact ⟨{ a with extra := root' }, d', by simp [hlt], hd'⟩

theorem retag_metadata {m m' : TBMem} {f f' ptr ptr' pty entry vt}
    (h : TBMem.retagPtr m f ptr pty entry vt = .ok (ptr', f', m')) : ptr'.metadata = ptr.metadata := by
  rcases retag_ok h with ⟨_, rfl, _, rfl⟩ | ⟨st, thin, hs, hr, rfl⟩ <;> rfl

/-- Retagging leaves the data of all allocations alone. -/
theorem retag_data {m m' : TBMem} {f f' ptr ptr' pty entry vt}
    (h : TBMem.retagPtr m f ptr pty entry vt = .ok (ptr', f', m')) {id : Nat} {a'} (ha : m'.mem.allocations[id]? = some a') :
    ∃ a, m.mem.allocations[id]? = some a ∧ a.data = a'.data ∧ a.live = a'.live := by
  rcases retag_ok h with ⟨_, rfl, _, rfl⟩ | ⟨st, thin, hs, hr, rfl⟩
  · exact ⟨a', ha, rfl, rfl⟩
  · rcases reborrow_ok hr with ⟨h0, rfl, _, rfl⟩ | ⟨i, parent, a, off, perms, root, path, root', hp, hi, _, hlen,
      _, _, hmatch, hlive, hadd, hinit, rfl, _, rfl⟩
    · exact ⟨a', ha, rfl, rfl⟩
    · simp only [List.getElem?_set] at ha
      split at ha
      · rename_i e; subst e
        rw [if_pos (List.getElem?_eq_some_iff.1 hi).1] at ha
        cases ha
        exact ⟨a, hi, rfl, rfl⟩
      · exact ⟨a', ha, rfl, rfl⟩

namespace TB
variable {pd pd' pd1 pd2 : List TBFrame} {s s' s1 s2 : Mach} {α β : Type}

/-- A change of the memory by a run of the memory that keeps the calls. -/
theorem Grow.ofMem {m : ConcMem TBMem} (hs : Wf pd s) (hs' : s' = { s with mem := m })
    (hrun : ∀ fs, TBRun ⟨s.mem.memory, fs⟩ ⟨m.memory, fs⟩)
    (hm : MemLe s.mem.memory m.memory → ∀ (id : Nat) a, m.memory.mem.allocations[id]? = some a → a.live = true → BK m.memory a.data) :
    Grow pd s pd s' := by
  have hr : Run pd s pd s' := fun fs h => ⟨fs, by subst hs'; exact hrun fs, by subst hs'; exact h⟩
  obtain ⟨h1, h2⟩ := hr.reach hs
  refine ⟨⟨h1, ?_, ?_, ?_, ?_, ?_, ?_⟩, hr, h2⟩ <;> subst hs'
  · exact hm h2
  · exact fun p hp => h2.hasNode (hs.exposed p hp)
  · exact fun x hx => (hs.globals x hx).mono h2
  · exact fun x hx => (hs.fns x hx).mono h2
  · exact fun x hx => (hs.vtables x hx).mono h2
  · exact fun x hx => (hs.threads x hx).mono h2

/-- The memory changed at one allocation. -/
theorem Grow.setAlloc {m : ConcMem TBMem} (hs : Wf pd s) (hs' : s' = { s with mem := m }) {id : Nat}
    {b : Alloc Path Node} (hb : b.live = true → BK s.mem.memory b.data)
    (hset : m.memory.mem.allocations = s.mem.memory.mem.allocations.set id b)
    (hrun : ∀ fs, TBRun ⟨s.mem.memory, fs⟩ ⟨m.memory, fs⟩) : Grow pd s pd s' := by
  refine Grow.ofMem hs hs' hrun fun hle i x hx hl => ?_
  rw [hset, List.getElem?_set] at hx
  split at hx
  · split at hx
    · cases hx; exact (hb hl).mono hle
    · cases hx
  · exact (hs.mem i x hx hl).mono hle

theorem Agree.res {a g b : Res α} {k : α → Res β} (h : Agree a g b) : Agree (a >>= k) (g >>= k) (b >>= k) := by
  rcases h with ⟨rfl, rfl | rfl⟩ | ⟨rfl, rfl⟩
  · exact .same
  · exact .inl ⟨rfl, .inr rfl⟩
  · exact .inr ⟨rfl, rfl⟩

theorem Agree.ofLax {a b : Res α} (h : a = .error .ub ∨ ∃ x, a = .ok x) (hb : ∀ x, a = .ok x → b = .ok x) : Agree a a b := by
  rcases h with rfl | ⟨x, rfl⟩
  · exact .inl ⟨rfl, .inr rfl⟩
  · exact .inl ⟨rfl, .inl (hb x rfl)⟩

theorem Kt.memLoad {ptr : ThinPtr TBProv} {len align at'} (hp : PK s.mem.memory ptr) :
    Kt pd pd s (fun _ => memLoad ptr len align at') (fun bs s' => BK s'.mem.memory bs ∧ s' = { s with mem := s'.mem }) := by
  intro hs
  constructor
  · obtain ⟨S, I⟩ := hs.inv
    have := tb_load_cases I hp.knownId (len := len) (align := align)
    have : Agree (TBMem.real.load s.mem.memory ptr len align) (TBMem.guarded.load s.mem.memory ptr len align)
        (TBMem.lax.load s.mem.memory ptr len align) := by
      refine Agree.ofLax ?_ fun x hx => lax_load hx
      rcases this with h | ⟨b, m', h⟩
      · exact .inl h
      · exact .inr ⟨_, h⟩
    exact (Agree.res (Agree.res this))
  · intro bs s' h
    obtain ⟨m, hm, rfl⟩ := memLoad_eq_ok.1 h
    obtain ⟨mm, hl, rfl⟩ := ConcMem.load_eq_ok.1 hm
    have hrun : ∀ fs, TBRun ⟨s.mem.memory, fs⟩ ⟨mm, fs⟩ := fun fs => .step .refl (.load hl)
    have e' := tb_load_eq_ok.1 hl
    rw [BasicMem.load_eq_ok] at e'
    obtain ⟨_, ⟨_, rfl, e2⟩ | ⟨_, id, pe, a, off, extra, hpr, ha, hl', h1, h2, _, rfl, e2⟩⟩ := e'
    · refine ⟨Grow.ofMem hs rfl hrun fun hle i x hx hlv => ?_, ?_, rfl⟩
      · have hx' : mm.mem.allocations[i]? = some x := hx
        rw [e2] at hx'
        exact (hs.mem i x hx' hlv).mono hle
      · rintro q ⟨_, hb, _⟩; cases hb
    · have hset : mm.mem.allocations = s.mem.memory.mem.allocations.set id { a with extra := extra } := by rw [e2]
      have g := Grow.setAlloc (s' := { s with mem := ⟨mm, s.mem.accesses ++ [⟨.load, at', ptr.addr, len⟩]⟩ })
        (b := { a with extra := extra }) hs rfl (fun hl => hs.mem id a ha hl) hset hrun
      refine ⟨g, ?_, rfl⟩
      refine BK.mono g.le ?_
      rintro q ⟨b, hb, i, hi⟩
      exact hs.mem id a ha hl' q ⟨b, List.mem_of_mem_drop (List.mem_of_mem_take hb), i, hi⟩

theorem memStore_grow {ptr : ThinPtr TBProv} {bs align at'} (hb : BK s.mem.memory bs) (hs : Wf pd s) {u}
    (h : memStore ptr bs align at' s = .ok (u, s')) : Grow pd s pd s' ∧ s' = { s with mem := s'.mem } := by
  obtain ⟨m, hm, rfl⟩ := memStore_eq_ok.1 h
  obtain ⟨mm, hl, rfl⟩ := ConcMem.store_eq_ok.1 hm
  refine ⟨?_, rfl⟩
  have hrun : ∀ fs, TBRun ⟨s.mem.memory, fs⟩ ⟨mm, fs⟩ := fun fs => .step .refl (.store hl)
  have e' := tb_store_eq_ok.1 hl
  rw [BasicMem.store_eq_ok] at e'
  obtain ⟨_, ⟨rfl, e2⟩ | ⟨_, id, pe, a, off, extra, data, hpr, ha, hl', h1, h2, _, hw, e2⟩⟩ := e'
  · refine Grow.ofMem hs rfl hrun fun hle i x hx hlv => ?_
    have hx' : mm.mem.allocations[i]? = some x := hx
    rw [e2] at hx'
    exact (hs.mem i x hx' hlv).mono hle
  · have hset : mm.mem.allocations = s.mem.memory.mem.allocations.set id { a with extra := extra, data := data } := by rw [e2]
    refine Grow.setAlloc hs rfl (fun hl q hq => ?_) hset hrun
    rcases ProvInBytes.write hw hq with hq | hq
    · exact hs.mem id a ha hl' q hq
    · exact hb q hq

theorem Kt.memStore {ptr : ThinPtr TBProv} {bs align at'} (hp : PK s.mem.memory ptr)
    (hb : BK s.mem.memory bs) : Kt pd pd s (fun _ => memStore ptr bs align at') (fun _ s' => s' = { s with mem := s'.mem }) := by
  intro hs
  constructor
  · obtain ⟨S, I⟩ := hs.inv
    have := tb_store_cases I hp.knownId (bytes := bs) (align := align)
    have : Agree (TBMem.real.store s.mem.memory ptr bs align) (TBMem.guarded.store s.mem.memory ptr bs align)
        (TBMem.lax.store s.mem.memory ptr bs align) := Agree.ofLax this fun x hx => lax_store hx
    exact (Agree.res (Agree.res this))
  · intro u s' h
    exact memStore_grow hb hs h

theorem Kt.memAllocate {kind size align} :
    Kt pd pd s (fun _ => memAllocate kind size align) (fun p s' => PK s'.mem.memory p ∧ s'.threads = s.threads ∧ s'.activeThread = s.activeThread) := by
  unfold MiniRust.memAllocate
  refine Kt.bind (Kt.popInt (R := fun _ s1 => s1.threads = s.threads ∧ s1.activeThread = s.activeThread) fun _ _ _ h1 h2 => ⟨h1, h2⟩)
    fun pick s1 _ ⟨ht, hact⟩ => ?_
  intro hs
  refine ⟨.same, fun p s' h => ?_⟩
  simp only [Res.bind_eq_ok, Prod.exists, Except.ok.injEq, Prod.mk.injEq] at h
  obtain ⟨p', m, hm, rfl, rfl⟩ := h
  simp only [ConcMem.allocate, Res.bind_eq_ok, Prod.exists, Except.ok.injEq, Prod.mk.injEq] at hm
  obtain ⟨p'', mm, hl, rfl, rfl⟩ := hm
  have hrun : ∀ fs, TBRun ⟨s1.mem.memory, fs⟩ ⟨mm, fs⟩ := fun fs => .step .refl (.alloc hl)
  have e' := tb_allocate_eq_ok.1 hl
  rw [BasicMem.allocate_eq_ok] at e'
  obtain ⟨_, _, rfl, e2⟩ := e'
  have hal : mm.mem.allocations = s1.mem.memory.mem.allocations ++
      [⟨List.replicate size .uninit, pick, align, kind, true, TBMem.newRoot size⟩] := by rw [e2]
  refine ⟨Grow.ofMem hs rfl hrun ?_, ?_, ht, hact⟩
  · intro hle i x hx hlv
    have hx' : mm.mem.allocations[i]? = some x := hx
    rw [hal, List.getElem?_append] at hx'
    split at hx'
    · exact (hs.mem i x hx' hlv).mono hle
    · rw [List.getElem?_singleton] at hx'
      split at hx'
      · cases hx'
        exact BK.uninit
      · cases hx'
  · intro q hq
    cases hq
    show mm.HasNode _
    rw [hasNode_iff, hal]
    exact ⟨_, _, List.getElem?_concat_length, rfl⟩

theorem Kt.memDeallocate {ptr : ThinPtr TBProv} {kind size align} (hp : PK s.mem.memory ptr) :
    Kt pd pd s (fun _ => memDeallocate ptr kind size align) (fun _ s' => s' = { s with mem := s'.mem }) := by
  intro hs
  constructor
  · obtain ⟨S, I⟩ := hs.inv
    have := tb_dealloc_cases I hp.knownId (kind := kind) (size := size) (align := align)
    have : Agree (TBMem.real.deallocate s.mem.memory ptr kind size align) (TBMem.guarded.deallocate s.mem.memory ptr kind size align)
        (TBMem.lax.deallocate s.mem.memory ptr kind size align) := Agree.ofLax this fun x hx => lax_deallocate hx
    exact (Agree.res (Agree.res this))
  intro _ s' h
  unfold MiniRust.memDeallocate at h
  simp only [Res.bind_eq_ok, Except.ok.injEq, Prod.mk.injEq, true_and] at h
  obtain ⟨m, hm, rfl⟩ := h
  simp only [ConcMem.deallocate, Res.bind_eq_ok, Except.ok.injEq] at hm
  obtain ⟨mm, hl, rfl⟩ := hm
  have hrun : ∀ fs, TBRun ⟨s.mem.memory, fs⟩ ⟨mm, fs⟩ := fun fs => .step .refl (.dealloc hl)
  have e' := tb_deallocate_eq_ok.1 hl
  rw [BasicMem.deallocate_eq_ok] at e'
  obtain ⟨id, pe, a, extra, hpr, ha, hl', h1, h2, _, _, hw, e2⟩ := e'
  have hset : mm.mem.allocations = s.mem.memory.mem.allocations.set id { a with extra := extra, live := false } := by rw [e2]
  exact ⟨Grow.setAlloc hs rfl (fun hl => by cases hl) hset hrun, rfl⟩

/-! ### Calls -/

/-- The calls of all threads but one. -/
def others (ts : List (Thread TBProv TBFrame)) (i : Nat) : List TBFrame :=
  (ts.eraseIdx i).flatMap fun t => t.stack.map (·.extra)

theorem calls_perm {i : Nat} {t} (h : s.threads[i]? = some t) :
    s.calls.Perm (t.stack.map (·.extra) ++ others s.threads i) := by
  have := flatten_eraseIdx_perm (fs := s.threads.map fun t => t.stack.map (·.extra)) (i := i) (f := t.stack.map (·.extra))
    (by simp [h])
  unfold Machine.calls others
  rw [List.flatMap_def, List.flatMap_def]
  rw [← List.eraseIdx_map]
  exact this

theorem calls_set_perm {i : Nat} {t t'} (h : s.threads[i]? = some t) (hs : s'.threads = s.threads.set i t') :
    s'.calls.Perm (t'.stack.map (·.extra) ++ others s.threads i) := by
  have hlt := (List.getElem?_eq_some_iff.1 h).1
  have h1 := calls_perm (s := s') (i := i) (t := t') (by rw [hs]; simp [hlt])
  have h2 : others s'.threads i = others s.threads i := by
    unfold others; rw [hs, List.eraseIdx_set_eq]
  rwa [h2] at h1

theorem TK.setFrame {m : TBMem} {t : Thread TBProv TBFrame} {fr : StackFrame TBProv TBFrame} {rest} (h : TK m t)
    (hr : ∀ f ∈ rest, FK m f) (hf : FK m fr) : TK m { t with stack := fr :: rest } :=
  ⟨fun f h' => (List.mem_cons.1 h').elim (fun e => e ▸ hf) (hr f), h.payloads⟩

/-- A thread changes. -/
theorem Grow.setThread (h : Wf pd s) {i : Nat} {t t' : Thread TBProv TBFrame} (hi : s.threads[i]? = some t)
    (ht : TK s.mem.memory t') (hc : (pd' ++ t'.stack.map (·.extra)).Perm (pd ++ t.stack.map (·.extra)))
    (hs' : s' = { s with threads := s.threads.set i t' }) : Grow pd s pd' s' := by
  subst hs'
  have hr : Run pd s pd' { s with threads := s.threads.set i t' } := by
    refine .ctl rfl ?_
    refine ((calls_set_perm (s' := { s with threads := s.threads.set i t' }) hi rfl).append_left pd').trans ?_
    refine List.Perm.trans ?_ ((calls_perm hi).append_left pd).symm
    rw [← List.append_assoc, ← List.append_assoc]
    exact hc.append_right _
  refine .ctl (h.congr rfl rfl rfl rfl rfl hr fun x hx => ?_) rfl hr
  rcases List.mem_or_eq_of_mem_set hx with h1 | rfl
  · exact h.threads x h1
  · exact ht

theorem Kt.modify {f : Mach → Mach} {R : Unit → Mach → Prop} (h : Wf pd s → Grow pd s pd' (f s) ∧ R () (f s)) :
    Kt pd pd' s (fun _ => EM.modify f) R := by
  intro hs
  refine ⟨.same, fun u s' h' => ?_⟩
  have := EM.modify_eq_ok.1 h'
  cases this
  exact h hs

/-- The calls keep their protectors. -/
theorem Kt.mutateCurFrame {f : Inst → StackFrame TBProv TBFrame → EM TBMem TBProv TBFrame (α × StackFrame TBProv TBFrame)}
    {R : α → Mach → Prop} (hR : ∀ a s1 s2, s2.mem = s1.mem → R a s1 → R a s2)
    (hf : Wf pd s → ∀ fr, s.curFrame = .ok fr → FK s.mem.memory fr →
      Kt pd pd s (fun I => f I fr) (fun r s' => R r.1 s' ∧ FK s'.mem.memory r.2 ∧ r.2.extra = fr.extra ∧
        s'.threads = s.threads ∧ s'.activeThread = s.activeThread)) :
    Kt pd pd s (fun I => mutateCurFrame (f I)) R := by
  unfold MiniRust.mutateCurFrame
  refine .bindRead fun hs fr hfr => ?_
  obtain ⟨t, rest, h1, h2⟩ := curFrame_eq_ok.1 hfr
  refine .bind (hf hs fr hfr ((hs.threads t (List.mem_of_getElem? h1)).stack fr (by rw [h2]; simp))) ?_
  rintro ⟨a, fr'⟩ s1 g ⟨hr, hk, he, ht, ha⟩
  refine .bindRead fun hs1 t1 ht1 => .bindLift fun t2 ht2 => ?_
  have ht1 := getActive_eq_ok.1 ht1
  obtain ⟨fr1, rest1, h5, rfl⟩ := setCurFrame_eq_ok.1 ht2
  have e : t1 = t := by rw [ht, ha] at ht1; exact Option.some.inj (ht1.symm.trans h1)
  subst e
  have e2 : fr1 = fr ∧ rest1 = rest := by rw [h2] at h5; cases h5; exact ⟨rfl, rfl⟩
  obtain ⟨rfl, rfl⟩ := e2
  refine .bind (pd1 := pd) (R := fun _ s2 => s2.mem = s1.mem) (.modify fun hs1 => ⟨?_, rfl⟩) fun _ s2 _ hm => .pure fun _ => hR _ _ _ hm hr
  have tk := hs1.threads _ (List.mem_of_getElem? ht1)
  refine Grow.setThread hs1 (t := t1) ht1 (tk.setFrame (rest := rest1) (fun f hf => tk.stack f (by rw [h5]; simp [hf])) hk) ?_ rfl
  simp only at he
  simp [h5, he]

theorem reborrow_before {m : TBMem} {p : ThinPtr TBProv} {st f} (h0 : st.inside = []) (hb : m.before p = true) :
    m.reborrow p st f = .error .panic := by
  unfold TBMem.before at hb
  split at hb
  · cases hb
  · rename_i id path hp
    split at hb
    · cases hb
    · rename_i a ha
      simp only [decide_eq_true_eq] at hb
      have hsz : sizeFromBytes (p.addr - a.addr) = none := by
        cases h : sizeFromBytes (p.addr - a.addr) with
        | none => rfl
        | some k => rw [sizeFromBytes_eq_some] at h; omega
      have hch : m.mem.checkPtr p 0 = .ok none := by simp [BasicMem.checkPtr]
      unfold TBMem.reborrow
      simp [h0, hch, hp, index, ha, hsz, unwrap]

theorem retag_agree {m : TBMem} {S} (I : TInv m S) {f : TBFrame} {ptr : Pointer TBProv} {pty entry vt} (hv : m.ValidPtr ptr.thin) :
    Agree (TBMem.real.retagPtr m f ptr pty entry vt) (TBMem.guarded.retagPtr m f ptr pty entry vt)
      (TBMem.lax.retagPtr m f ptr pty entry vt) := by
  have hg : TBMem.guarded.retagPtr m f ptr pty entry vt =
      if m.emptyBefore ptr pty entry vt then .error .ub else TBMem.retagPtr m f ptr pty entry vt := rfl
  have hl : TBMem.lax.retagPtr m f ptr pty entry vt = (do
      let _ ← ReborrowSettings.new ptr pty entry vt
      orElse (TBMem.retagPtr m f ptr pty entry vt) (ptr, f, m)) := rfl
  have hr : TBMem.real.retagPtr m f ptr pty entry vt = TBMem.retagPtr m f ptr pty entry vt := rfl
  rw [hg, hl, hr]
  cases hst : ReborrowSettings.new ptr pty entry vt with
  | error e =>
    have h1 : m.emptyBefore ptr pty entry vt = false := by unfold TBMem.emptyBefore; rw [hst]
    have h2 : TBMem.retagPtr m f ptr pty entry vt = .error e := by unfold TBMem.retagPtr; rw [hst]; rfl
    rw [h1, h2]
    exact .same
  | ok o =>
    cases o with
    | none =>
      have h1 : m.emptyBefore ptr pty entry vt = false := by unfold TBMem.emptyBefore; rw [hst]
      have h2 : TBMem.retagPtr m f ptr pty entry vt = .ok (ptr, f, m) := by unfold TBMem.retagPtr; rw [hst]; rfl
      rw [h1, h2]
      exact .same
    | some st =>
      have h1 : m.emptyBefore ptr pty entry vt = (st.inside.isEmpty && m.before ptr.thin) := by unfold TBMem.emptyBefore; rw [hst]
      cases hb : m.emptyBefore ptr pty entry vt with
      | true =>
        rw [h1, Bool.and_eq_true, List.isEmpty_iff] at hb
        refine .inr ⟨?_, rfl⟩
        have := reborrow_before (f := f) hb.1 hb.2
        unfold TBMem.retagPtr
        rw [hst]
        simp [this]
      | false =>
        have hc : TBMem.retagPtr m f ptr pty entry vt = .error .ub ∨ ∃ r, TBMem.retagPtr m f ptr pty entry vt = .ok r := by
          refine retag_cases I hv fun info hi => ?_
          obtain ⟨mask, hm, hin, _⟩ := settings_spec hst hi
          refine ⟨mask, hm, fun h0 id p a hp ha => ?_⟩
          subst h0
          rw [h1] at hb
          simp only [List.map_nil] at hin
          rw [hin] at hb
          simp only [List.isEmpty_nil, Bool.true_and] at hb
          simp only [TBMem.before, hp, ha, decide_eq_false_iff_not] at hb
          omega
        rcases hc with hc | ⟨r, hc⟩
        · rw [hc]; exact .inl ⟨rfl, .inr rfl⟩
        · rw [hc]; exact .inl ⟨rfl, .inl rfl⟩

/-- The first half of `Kt`. -/
def Ag (s : Mach) (x : Inst → EM TBMem TBProv TBFrame α) : Prop :=
  Agree (x instMemoryTBMemTBProvTBFrameOfTarget s) (x TBMem.guarded s) (x TBMem.lax s)

theorem Ag.bind {x : Inst → EM TBMem TBProv TBFrame α} {f : Inst → α → EM TBMem TBProv TBFrame β} (h : Ag s x)
    (hf : ∀ a s1, x instMemoryTBMemTBProvTBFrameOfTarget s = .ok (a, s1) → Ag s1 (fun I => f I a)) :
    Ag s (fun I => x I >>= f I) :=
  Agree.bind h hf

theorem Kt.retagPtrM {ptr : Pointer TBProv} {pty e} (hp : VK s.mem.memory (.ptr ptr)) :
    Kt pd pd s (fun _ => retagPtrM ptr pty e) (fun p s' => VK s'.mem.memory (.ptr p)) := by
  intro hs
  constructor
  · show Ag s fun _ => MiniRust.retagPtrM ptr pty e
    unfold MiniRust.retagPtrM MiniRust.mutateCurFrame
    refine Ag.bind Agree.same fun fr s1 h1 => ?_
    obtain ⟨_, rfl⟩ := EM.read_eq_ok.1 h1
    obtain ⟨S, I⟩ := hs.inv
    have := retag_agree I (f := fr.extra) (pty := pty) (entry := e) (vt := s1.vtableLookup) hp.thin
    exact Ag.bind (Agree.res (Agree.res this)) fun _ _ _ => Agree.same
  · intro p s' h
    have hk := (mutateCurFrame_ok (f := fun (frame : StackFrame TBProv TBFrame) (s : Mach) => do
        let (ptr, extra, mem) ← s.mem.retagPtr frame.extra ptr pty e s.vtableLookup
        .ok ((ptr, { frame with extra := extra }), { s with mem := mem })) (by
      intro fr s r s1 h
      simp only [Res.bind_eq_ok, Prod.exists, Except.ok.injEq, Prod.mk.injEq] at h
      obtain ⟨_, _, _, _, _, rfl⟩ := h
      exact ⟨rfl, rfl⟩)).1 h
    obtain ⟨t, fr, rest, fr', s1, h1, h2, hk, rfl⟩ := hk
    clear h
    simp only [Res.bind_eq_ok, Prod.exists, Except.ok.injEq, Prod.mk.injEq] at hk
    obtain ⟨p, ex, m, hm, ⟨rfl, rfl⟩, rfl⟩ := hk
    simp only [ConcMem.retagPtr, Res.bind_eq_ok, Prod.exists, Except.ok.injEq, Prod.mk.injEq] at hm
    obtain ⟨p, ex, mm, hl, rfl, rfl, rfl⟩ := hm
    have hrt : TBMem.retagPtr s.mem.memory fr.extra ptr pty e s.vtableLookup = .ok (p, ex, mm) := hl
    have hr : Run pd s pd { s with
        mem := ⟨mm, s.mem.accesses⟩, threads := s.threads.set s.activeThread { t with stack := { fr with extra := ex } :: rest } } := by
      intro fs hfs
      have hc := (calls_perm h1)
      have hc' := calls_set_perm (s' := { s with
        mem := ⟨mm, s.mem.accesses⟩, threads := s.threads.set s.activeThread { t with stack := { fr with extra := ex } :: rest } }) h1 rfl
      rw [h2] at hc
      simp only [List.map_cons, List.cons_append] at hc hc'
      have hfs2 : fs.Perm (fr.extra :: (pd ++ (rest.map (·.extra) ++ others s.threads s.activeThread))) :=
        hfs.trans ((hc.append_left pd).trans List.perm_middle)
      obtain ⟨i, hi⟩ := List.getElem?_of_mem (hfs2.mem_iff.2 List.mem_cons_self)
      obtain ⟨hlt, hi'⟩ := List.getElem?_eq_some_iff.1 hi
      refine ⟨fs.set i ex, .step .refl (.retag hi hl), ?_⟩
      refine List.Perm.trans ?_ ((hc'.append_left pd).trans List.perm_middle).symm
      have h3 : (fs.set i ex).Perm (ex :: fs.eraseIdx i) := by
        have := List.getElem_cons_eraseIdx_perm (l := fs.set i ex) (n := i) (by simpa using hlt)
        rw [List.eraseIdx_set_eq] at this
        simpa using this.symm
      refine h3.trans (List.Perm.cons _ ?_)
      have h4 := (List.getElem_cons_eraseIdx_perm (l := fs) (n := i) hlt).trans hfs2
      rw [hi'] at h4
      exact (List.perm_cons _).1 h4
    obtain ⟨hre, hle⟩ := hr.reach hs
    refine ⟨⟨⟨hre, ?_, ?_, ?_, ?_, ?_, ?_⟩, hr, hle⟩, ?_⟩
    · intro id a ha hlv
      obtain ⟨a', ha', h3, h4⟩ := retag_data hrt ha
      rw [← h3]
      exact (hs.mem id a' ha' (h4.trans hlv)).mono hle
    · exact fun p hp => hle.hasNode (hs.exposed p hp)
    · exact fun x hx => (hs.globals x hx).mono hle
    · exact fun x hx => (hs.fns x hx).mono hle
    · exact fun x hx => (hs.vtables x hx).mono hle
    · intro x hx
      rcases List.mem_or_eq_of_mem_set hx with h3 | rfl
      · exact (hs.threads x h3).mono hle
      · have tk := (hs.threads t (List.mem_of_getElem? h1)).mono hle
        refine tk.setFrame (fun f hf => tk.stack f (by rw [h2]; simp [hf])) ?_
        have fk := tk.stack fr (by rw [h2]; simp)
        exact ⟨fk.locals, fk.action⟩
    · refine VK.ptr (retag_valid hrt hp.thin) fun q hq => ?_
      rw [retag_metadata hrt] at hq
      exact PK.mono hle (hp.meta q hq)

/-- The end of a call that was already taken off the stack. -/
theorem Kt.memEndCall {f : TBFrame} : Kt (f :: pd) pd s (fun _ => memEndCall f) (fun _ s' => s' = { s with mem := s'.mem }) := by
  intro hs
  obtain ⟨fs, hre, hfs⟩ := hs.reach
  have hidx : ∀ fs : List TBFrame, fs.Perm (f :: pd ++ s.calls) → ∃ i, fs[i]? = some f ∧ (fs.eraseIdx i).Perm (pd ++ s.calls) := by
    intro fs hfs
    obtain ⟨i, hi⟩ := List.getElem?_of_mem (hfs.mem_iff.2 List.mem_cons_self)
    obtain ⟨hlt, hi'⟩ := List.getElem?_eq_some_iff.1 hi
    refine ⟨i, hi, ?_⟩
    have h4 := (List.getElem_cons_eraseIdx_perm (l := fs) (n := i) hlt).trans hfs
    rw [hi'] at h4
    exact (List.perm_cons _).1 h4
  obtain ⟨i, hi, _⟩ := hidx fs hfs
  obtain ⟨m', hm', _⟩ := TInv.endCall (hre.inv.perm (flatten_eraseIdx_perm hi))
  have hrl : TBMem.real.endCall s.mem.memory f = .ok m' := hm'
  constructor
  · have : Agree (TBMem.real.endCall s.mem.memory f) (TBMem.guarded.endCall s.mem.memory f)
        (TBMem.lax.endCall s.mem.memory f) := Agree.ofLax (.inr ⟨m', hrl⟩) fun x hx => lax_endCall hx
    exact (Agree.res (Agree.res this))
  · intro u s' h
    unfold MiniRust.memEndCall at h
    simp only [Res.bind_eq_ok, Except.ok.injEq, Prod.mk.injEq, true_and] at h
    obtain ⟨m, hm, rfl⟩ := h
    simp only [ConcMem.endCall, Res.bind_eq_ok, Except.ok.injEq] at hm
    obtain ⟨mm, hl, rfl⟩ := hm
    refine ⟨?_, rfl⟩
    have hr : Run (f :: pd) s pd { s with mem := ⟨mm, s.mem.accesses⟩ } := by
      intro fs hfs
      obtain ⟨i, hi, hp⟩ := hidx fs hfs
      exact ⟨_, .step .refl (.endCall hi hl), hp⟩
    obtain ⟨hre, hle⟩ := hr.reach hs
    have hsd : SameData s.mem.memory.mem mm.mem := BasicBacked.endCall (M := TBMem) _ _ _ hl
    refine ⟨⟨hre, ?_, ?_, ?_, ?_, ?_, ?_⟩, hr, hle⟩
    · intro id a ha hlv
      have ha' : mm.mem.allocations[id]? = some a := ha
      have hlt : id < s.mem.memory.mem.allocations.length := by
        rw [hsd.1]; exact (List.getElem?_eq_some_iff.1 ha').1
      obtain ⟨h1, _, _, _, h5⟩ := hsd.2 id _ a (List.getElem?_eq_getElem hlt) ha'
      rw [← h1]
      exact (hs.mem id _ (List.getElem?_eq_getElem hlt) (by rw [h5]; exact hlv)).mono hle
    · exact fun p hp => hle.hasNode (hs.exposed p hp)
    · exact fun x hx => (hs.globals x hx).mono hle
    · exact fun x hx => (hs.fns x hx).mono hle
    · exact fun x hx => (hs.vtables x hx).mono hle
    · exact fun x hx => (hs.threads x hx).mono hle

/-! ### Typed accesses -/

theorem Kt.typedLoad {ptr : ThinPtr TBProv} {ty align at'} (hp : PK s.mem.memory ptr) :
    Kt pd pd s (fun _ => typedLoad ptr ty align at') (fun v s' => VK s'.mem.memory v) := by
  unfold MiniRust.typedLoad
  refine .bindLift fun n _ => .bind (.memLoad hp) fun bs s1 _ ⟨hb, _⟩ => .read fun _ v hv => ?_
  exact fun q hq => hb q (decode_prov ty (decodeChecked_eq_ok.1 hv).1 hq)

theorem Kt.typedStore {ptr : ThinPtr TBProv} {v ty align at'} (hp : PK s.mem.memory ptr)
    (hv : VK s.mem.memory v) : Kt pd pd s (fun _ => typedStore ptr v ty align at') (fun _ s' => s' = { s with mem := s'.mem }) := by
  unfold MiniRust.typedStore
  refine .bindRead fun _ bs hb => .memStore hp ?_
  exact fun q hq => hv q (encode_prov ty (encodeChecked_eq_ok.1 hb).2 hq)

theorem Kt.placeLoad {p : Place TBProv} {ty} (hp : PlK s.mem.memory p) :
    Kt pd pd s (fun _ => placeLoad p ty) (fun v s' => VK s'.mem.memory v) := by
  unfold MiniRust.placeLoad
  exact .ite (fun _ => .throw) fun _ => .typedLoad hp.thin

theorem Kt.placeStore {p : Place TBProv} {v ty} (hp : PlK s.mem.memory p) (hv : VK s.mem.memory v) :
    Kt pd pd s (fun _ => placeStore p v ty) (fun _ _ => True) := by
  unfold MiniRust.placeStore
  exact .ite (fun _ => .throw) fun _ => .mono (.typedStore hp.thin hv) fun _ _ _ => trivial

theorem Kt.addrOf {p : Place TBProv} {pty} (hp : PlK s.mem.memory p) :
    Kt pd pd s (fun _ => addrOf p pty) (fun v s' => VK s'.mem.memory v.1) := by
  unfold MiniRust.addrOf
  exact .bindRead fun _ _ _ => .bind (.retagPtrM hp) fun q s1 _ hq => .pure fun _ => hq

/-! ### Discriminants -/

theorem Kt.fun {x : Inst → EM TBMem TBProv TBFrame α} {R : α → Mach → Prop} (h : Kt pd pd' s x R) :
    Kt pd pd' s (fun I s => x I s) R := h

theorem Kt.decodeDiscriminant {acc : Inst → Mach → Nat → Nat → Res (List (AByte TBProv) × Mach)} {P : TBMem → Prop}
    (hP : ∀ m m', MemLe m m' → P m → P m')
    (hacc : ∀ (s : Mach) i n, P s.mem.memory → Kt pd pd s (fun I s => acc I s i n) (fun _ _ => True)) :
    ∀ (d : Discriminator) (s : Mach), P s.mem.memory →
      Kt pd pd s (fun I s => MiniRust.decodeDiscriminant (acc I) d s) (fun _ _ => True) := by
  refine Discriminator.rec
    (motive_1 := fun d => ∀ (s : Mach), P s.mem.memory →
      Kt pd pd s (fun I s => MiniRust.decodeDiscriminant (acc I) d s) (fun _ _ => True))
    (motive_2 := fun l => ∀ (v : Int) (s : Mach), P s.mem.memory →
      (∀ I, decodeDiscriminantChildren (acc I) l v s = none) ∨
      ∃ d : Discriminator, (∀ I, decodeDiscriminantChildren (acc I) l v s = some (MiniRust.decodeDiscriminant (acc I) d s)) ∧
        Kt pd pd s (fun I s => MiniRust.decodeDiscriminant (acc I) d s) (fun _ _ => True))
    (motive_3 := fun p => ∀ (s : Mach), P s.mem.memory →
      Kt pd pd s (fun I s => MiniRust.decodeDiscriminant (acc I) p.2 s) (fun _ _ => True)) ?_ ?_ ?_ ?_ ?_ ?_
  · intro d s hp
    simp only [MiniRust.decodeDiscriminant]
    exact .pure fun _ => trivial
  · intro s hp
    simp only [MiniRust.decodeDiscriminant]
    exact .pure fun _ => trivial
  · intro off vt fb ch ih1 ih2 s hp
    have e : (fun (I : Inst) s => MiniRust.decodeDiscriminant (acc I) (.branch off vt fb ch) s) =
        fun (I : Inst) => (show EM TBMem TBProv TBFrame _ from (fun s => acc I s off vt.size)) >>= fun bytes => fun s =>
          match decodeInt vt bytes with
          | .error .none => .ok (none, s)
          | .error e => .error e
          | .ok val =>
            match decodeDiscriminantChildren (acc I) ch val s with
            | some r => r
            | none => MiniRust.decodeDiscriminant (acc I) fb s := by
      funext I s
      simp only [MiniRust.decodeDiscriminant]
      cases h : acc I s off vt.size with
      | error e => exact (bind_error h).symm
      | ok r =>
        obtain ⟨b, s1⟩ := r
        refine Eq.symm (Eq.trans (bind_ok h) ?_)
        cases hd : decodeInt vt b with
        | error e => cases e <;> simp [hd]
        | ok val => cases hc : decodeDiscriminantChildren (acc I) ch val s1 <;> simp [hc, hd]
    rw [e]
    refine .bind (hacc s off vt.size hp) fun bytes s1 g _ => ?_
    have hp1 := hP _ _ g.le hp
    cases hd : decodeInt vt bytes with
    | error e =>
      cases e with
      | none => exact .pure fun _ => trivial
      | _ => exact .throw
    | ok val =>
      rcases ih2 val s1 hp1 with hn | ⟨d, hd, hk⟩
      · intro hs
        have := ih1 s1 hp1 hs
        simp only [hn]
        exact this
      · intro hs
        have := hk hs
        simp only [hd]
        exact this
  · intro v s hp
    exact .inl fun I => by unfold decodeDiscriminantChildren; rfl
  · rintro ⟨⟨a, b⟩, d⟩ rest ih1 ih2 v s hp
    by_cases h : a ≤ v ∧ v < b
    · refine .inr ⟨d, fun I => ?_, ih1 s hp⟩
      unfold decodeDiscriminantChildren
      rw [if_pos h]
    · have : ∀ I, decodeDiscriminantChildren (acc I) (((a, b), d) :: rest) v s = decodeDiscriminantChildren (acc I) rest v s := by
        intro I
        rw [decodeDiscriminantChildren, if_neg h]
      simp only [this]
      exact ih2 v s hp
  · intro _ d ih; exact ih

theorem read_ok {f : Mach → Res α} {a} (h : f s = .ok a) : EM.read (M := TBMem) f s = .ok (a, s) := EM.read_eq_ok.2 ⟨h, rfl⟩
theorem read_error {f : Mach → Res α} {e} (h : f s = .error e) : EM.read (M := TBMem) f s = .error e := by
  simp [EM.read, h]

theorem Kt.getDiscriminant {p : Place TBProv} {ty} (hp : PlK s.mem.memory p) :
    Kt pd pd s (fun _ => getDiscriminant p ty) (fun v s' => VK s'.mem.memory v.1) := by
  unfold MiniRust.getDiscriminant
  cases ty with
  | enum a b c d e =>
    refine .ite (fun _ => .throw) fun _ => .bind (Kt.decodeDiscriminant (P := fun m => PlK m p) (fun _ _ h => PlK.mono h) ?_ c s hp)
      fun d s1 _ _ => ?_
    · intro s i n hp
      have : Kt pd pd s (fun _ => EM.read (fun s => s.ptrOffsetInbounds p.ptr.thin i) >>= fun q => MiniRust.memLoad q n Align.one .none)
          (fun _ _ => True) :=
        .bindRead fun _ q hq => .mono (.memLoad (PK.congr hp.thin (ptrOffsetInbounds_prov hq))) fun _ _ _ => trivial
      have e : (fun (I : Inst) (s : Mach) => (do
          let ptr ← s.ptrOffsetInbounds p.ptr.thin i
          MiniRust.memLoad ptr n Align.one .none s)) =
          (fun (I : Inst) => EM.read (fun s => s.ptrOffsetInbounds p.ptr.thin i) >>= fun q => MiniRust.memLoad q n Align.one .none) := by
        funext I s
        cases h : s.ptrOffsetInbounds p.ptr.thin i with
        | error e => rw [bind_error (read_error (f := fun s : Mach => s.ptrOffsetInbounds p.ptr.thin i) h)]; rfl
        | ok q => rw [bind_ok (read_ok (f := fun s : Mach => s.ptrOffsetInbounds p.ptr.thin i) h)]; rfl
      rw [e]
      exact this
    · cases d with
      | none => exact .throw
      | some d => exact .pure fun _ => VK.int
  | _ => exact .throw

/-- The writes of `SetDiscriminant`. -/
def encTag (I : Inst) (p : Place TBProv) (tg : Tagger) : EM TBMem TBProv TBFrame Unit := fun s => do
  let s ← encodeDiscriminant (fun (s : Mach) offset bytes => do
    let ptr ← s.ptrOffsetInbounds p.ptr.thin offset
    let (_, s) ← memStore ptr bytes Align.one .none s
    .ok s) tg s
  .ok ((), s)

theorem Kt.encTag {p : Place TBProv} : ∀ (tg : Tagger) (s : Mach), PlK s.mem.memory p →
    Kt pd pd s (fun I => TB.encTag I p tg) (fun _ _ => True)
  | [], s, hp => .pure fun _ => trivial
  | (off, (vt, v)) :: tg, s, hp => by
    have e : (fun (I : Inst) => TB.encTag I p ((off, (vt, v)) :: tg)) = fun (I : Inst) => EM.lift (encodeInt vt v) >>= fun bytes =>
        EM.read (fun s => s.ptrOffsetInbounds p.ptr.thin off) >>= fun q => MiniRust.memStore q bytes Align.one .none >>= fun _ =>
        TB.encTag I p tg := by
      funext I s
      unfold TB.encTag
      simp only [MiniRust.encodeDiscriminant]
      cases h : (encodeInt vt v : Res (List (AByte TBProv))) with
      | error e => rw [bind_error (x := EM.lift (.error e)) rfl]; rfl
      | ok bs =>
        rw [bind_ok (x := EM.lift (.ok bs)) rfl]
        cases h : s.ptrOffsetInbounds p.ptr.thin off with
        | error e => rw [bind_error (read_error (f := fun s : Mach => s.ptrOffsetInbounds p.ptr.thin off) h)]; simp [h]
        | ok q =>
          rw [bind_ok (read_ok (f := fun s : Mach => s.ptrOffsetInbounds p.ptr.thin off) h)]
          cases h2 : MiniRust.memStore q bs Align.one .none s with
          | error e =>
            refine Eq.trans ?_ (bind_error h2).symm
            simp only [Res.bind_ok, h2]; rfl
          | ok r =>
            refine Eq.trans ?_ (bind_ok h2).symm
            simp only [Res.bind_ok, h2]
    rw [e]
    refine .bindLift fun bs hb => .bindRead fun _ q hq => .bind (.memStore (PK.congr hp.thin (ptrOffsetInbounds_prov hq)) (BK.encodeInt hb))
      fun _ s1 g _ => ?_
    exact Kt.encTag tg s1 (PlK.mono g.le hp)

theorem Kt.setDiscriminant {p : Place TBProv} {ty v} (hp : PlK s.mem.memory p) :
    Kt pd pd s (fun _ => setDiscriminant p ty v) (fun _ _ => True) := by
  unfold MiniRust.setDiscriminant
  cases ty with
  | enum a b c d e =>
    refine .ite (fun _ => .throw) fun _ => ?_
    cases h : Map.get? a v with
    | none => exact .throw
    | some x => exact Kt.encTag _ s hp
  | _ => exact .throw

end TB
end MiniRust
