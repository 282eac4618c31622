import Verif.Lemmas.SelfAssign
import Verif.Props.Representation
/-
C09: storing back what was just loaded. `typedLoad`/`typedStore` are the machine's typed accesses;
`MemBytesLe` (`Spec/SelfAssign.lean`) is the definedness order on memories.
-/
set_option linter.unusedSectionVars false
namespace MiniRust
section
variable {M PE AE F : Type} [DecidableEq PE] [T : Target] [LT : LawfulTarget T]
  [Memory M (AllocId × PE) F] [B : BasicBacked M PE AE F]
include B

/-- In every memory model built on the basic memory (so also under Tree Borrows): after loading a
value and storing it back, no byte of memory is more defined than before, no allocation changed in
any other way, and only memory was touched; and whatever is loaded next from that place is the same
value again. -/
theorem C09_self_assignment (prog : Program) (ty : Ty) (hwf : ty.checkWf prog = .ok ())
    (s s1 s2 : Machine M (AllocId × PE) F) (hco : ty.Coherent s1.valEnv)
    (p : ThinPtr (AllocId × PE)) (al al' al'' : Align) (at0 at1 at2 : Atomicity)
    (v : Value (AllocId × PE))
    (hload : typedLoad p ty al at0 s = .ok (v, s1))
    (hstore : typedStore p v ty al' at1 s1 = .ok ((), s2)) :
    MemBytesLe (B.mem s2.mem.memory) (B.mem s.mem.memory) ∧ s2 = { s with mem := s2.mem } ∧
    ∀ v' s3, typedLoad p ty al'' at2 s2 = .ok (v', s3) → v' = v := by
  rw [typedLoad_eq_ok] at hload
  obtain ⟨n, bytes, m1, hn, hl, rfl, hdec, hval⟩ := hload
  rw [typedStore_eq_ok] at hstore
  obtain ⟨bytes', m2, _, henc, hs, rfl⟩ := hstore
  rw [ConcMem.load_eq_ok] at hl
  obtain ⟨mem1, hl, rfl⟩ := hl
  rw [ConcMem.store_eq_ok] at hs
  obtain ⟨mem2, hs, rfl⟩ := hs
  obtain ⟨b, hb, hle⟩ := C03_encode_decode_partial prog ty n hwf hn _ hco bytes v hdec
  rw [henc] at hb; cases hb
  obtain ⟨hx, hB⟩ := B.load s.mem.memory p n al
  rw [hl, Res.map_ok] at hB
  obtain ⟨hy, hB'⟩ := B.store mem1 p bytes' al'
  simp only at hs
  rw [hs, Res.map_ok] at hB'
  refine ⟨BasicMem.store_le_of_load hB.symm hle hB'.symm, rfl, ?_⟩
  intro v' s3 hload'
  rw [typedLoad_eq_ok] at hload'
  obtain ⟨n', bytes'', m3, hn', hl', _, hdec', _⟩ := hload'
  rw [hn] at hn'; cases hn'
  rw [ConcMem.load_eq_ok] at hl'
  obtain ⟨mem3, hl', _⟩ := hl'
  obtain ⟨hz, hB''⟩ := B.load mem2 p n al''
  simp only at hl'
  rw [hl', Res.map_ok] at hB''
  have hlen : bytes'.length = n := by
    rw [hle.1]; exact (C01_decode_size prog ty n hwf hn bytes).1 v hdec
  have := BasicMem.load_after_store hB'.symm hlen hB''.symm
  subst this
  have := C02_decode_encode_partial prog ty n hwf hn _ hco v hval
  rw [henc, Res.bind_ok, hdec'] at this
  cases this; rfl

end

section
variable [T : Target] [LT : LawfulTarget T]

/-- In the basic memory model storing back what was just loaded always succeeds, and so does loading
it again: removing a self-assignment removes no behaviour and no undefined behaviour. -/
theorem C09_self_assignment_succeeds (prog : Program) (ty : Ty) (hwf : ty.checkWf prog = .ok ())
    (s s1 : Machine (BasicMem Unit Unit) (AllocId × Unit) Unit) (hco : ty.Coherent s1.valEnv)
    (p : ThinPtr (AllocId × Unit)) (al : Align) (at0 at1 at2 : Atomicity) (v : Value (AllocId × Unit))
    (hload : typedLoad p ty al at0 s = .ok (v, s1)) :
    ∃ s2 s3, typedStore p v ty al at1 s1 = .ok ((), s2) ∧ typedLoad p ty al at2 s2 = .ok (v, s3) := by
  have hload0 := hload
  rw [typedLoad_eq_ok] at hload
  obtain ⟨n, bytes, m1, hn, hl, rfl, hdec, hval⟩ := hload
  rw [ConcMem.load_eq_ok] at hl
  obtain ⟨mem1, hl, rfl⟩ := hl
  obtain ⟨b, hb, hle⟩ := C03_encode_decode_partial prog ty n hwf hn _ hco bytes v hdec
  have hlen : b.length = n := by
    rw [hle.1]; exact (C01_decode_size prog ty n hwf hn bytes).1 v hdec
  have hm1 : mem1 = s.mem.memory := BasicMem.load_unit hl
  subst hm1
  obtain ⟨mem2, hs⟩ := BasicMem.store_of_load hl hlen
  obtain ⟨r, mem3, hl3⟩ := BasicMem.load_of_store hs hlen
  have hr : r = b := BasicMem.load_after_store hs hlen hl3
  subst hr
  have hm3 : mem3 = mem2 := BasicMem.load_unit hl3
  subst hm3
  have hst : typedStore p v ty al at1
      { s with mem := ⟨s.mem.memory, s.mem.accesses ++ [⟨.load, at0, p.addr, n⟩]⟩ } = .ok ((),
      { s with mem := ⟨mem3, s.mem.accesses ++ [⟨.load, at0, p.addr, n⟩] ++
        [⟨.store, at1, p.addr, r.length⟩]⟩ }) := by
    rw [typedStore_eq_ok]
    exact ⟨r, _, hval, hb, ConcMem.store_eq_ok.2 ⟨mem3, hs, rfl⟩, rfl⟩
  have hdec3 : decode ty r = .ok v := by
    have := C02_decode_encode_partial prog ty n hwf hn _ hco v hval
    rwa [hb, Res.bind_ok] at this
  refine ⟨_, { s with mem := ⟨mem3, s.mem.accesses ++ [⟨.load, at0, p.addr, n⟩] ++
        [⟨.store, at1, p.addr, r.length⟩] ++ [⟨.load, at2, p.addr, n⟩]⟩ }, hst, ?_⟩
  rw [typedLoad_eq_ok]
  refine ⟨n, r, _, hn, ConcMem.load_eq_ok.2 ⟨mem3, hl3, rfl⟩, rfl, hdec3, ?_⟩
  have henv : ∀ accs accs', Machine.valEnv (M := BasicMem Unit Unit) { s with mem := ⟨mem3, accs⟩ } =
      Machine.valEnv (M := BasicMem Unit Unit) { s with mem := ⟨s.mem.memory, accs'⟩ } := by
    intro accs accs'
    have hd : (fun q k => Memory.dereferenceable mem3 q k) =
        (fun q k => Memory.dereferenceable s.mem.memory q k) := by
      funext q k
      rw [BasicBacked.dereferenceable, BasicBacked.dereferenceable]
      congr 1
      exact BasicMem.Fits_store hs q k
    unfold Machine.valEnv
    congr 1
  rw [henv _ (s.mem.accesses ++ [⟨.load, at0, p.addr, n⟩])]
  exact hval
end

/-! ### Concrete case: the padding byte of `(u8, u16)` -/
section
attribute [local instance] x86_64

def Ex.padded : Ty :=
  .tuple [(0, .int ⟨.unsigned, 1⟩), (2, .int ⟨.unsigned, 2⟩)] ⟨4, ⟨1⟩, none⟩ none

def Ex.emptyMachine : Machine (BasicMem Unit Unit) (Nat × Unit) Unit :=
  ⟨⟨[], 0, [], [], []⟩, ConcMem.new, IntPtrCast.new, [], 0, [], [], [], [], [], [], [], []⟩

/-- A machine with one allocation at address 16, whose padding byte is initialised. -/
def Ex.machine1 : Machine (BasicMem Unit Unit) (Nat × Unit) Unit :=
  { Ex.emptyMachine with
    mem := ⟨⟨[⟨[.init 1 none, .init 9 none, .init 2 none, .init 3 none], 16, ⟨1⟩, .stack, true, ()⟩]⟩, []⟩ }

theorem Ex.padded_coherent (env : ValEnv (Nat × Unit)) : Ex.padded.Coherent env := by
  intro vs dt disc s a h
  unfold Ex.padded at h
  cases h with
  | field hf h =>
    simp only [List.mem_cons, List.not_mem_nil, or_false] at hf
    rcases hf with rfl | rfl <;> cases h

example : Ex.padded.checkWf Ex.prog = .ok () := by decide
/-- The hypotheses of `C09_self_assignment` hold here: the load and the store succeed, and the store
makes the padding byte uninitialised. -/
example : Prod.fst <$> (do
      let v ← typedLoad ⟨16, some (0, ())⟩ Ex.padded ⟨0⟩ .none
      typedStore ⟨16, some (0, ())⟩ v Ex.padded ⟨0⟩ .none
      EM.read fun s => .ok (s.mem.memory.allocations.map (·.data)) :
      EM (BasicMem Unit Unit) (Nat × Unit) Unit _) Ex.machine1 =
    .ok [[.init 1 none, .uninit, .init 2 none, .init 3 none]] := by decide +kernel
end
end MiniRust
