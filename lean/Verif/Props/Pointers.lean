import Verif.Lemmas.Pointers
import Verif.Lemmas.Eval
import Verif.Lemmas.KnownStep
import Verif.Props.Representation
/-
C43, C34: which values are valid, that exactly those come out of loads, and that storing them works.

The theorems hold for every memory model built on the basic one, in particular for both memory models of the
specification.
-/
set_option linter.unusedSectionVars false
namespace MiniRust

section
variable {P : Type} [DecidableEq P] [T : Target]
/-- C08: for every type, the provenance in an encoded value is that of the value, and the provenance in a decoded
value is that of the bytes: neither direction invents any. -/
theorem C08_no_invented_provenance (ty : Ty) (p : P) :
    (∀ (v : Value P) bytes, encode ty v = .ok bytes → ProvInBytes p bytes → ProvIn p v) ∧
    (∀ (v : Value P) bytes, decode ty bytes = .ok v → ProvIn p v → ProvInBytes p bytes) :=
  ⟨fun _ _ h hp => encode_prov ty h hp, fun _ _ h hp => decode_prov ty h hp⟩
end

section
variable {M PE AE F : Type} [T : Target] [DecidableEq PE] [Memory M (AllocId × PE) F]
  [SoftMem M (AllocId × PE) F] [B : BasicBacked M PE AE F]
variable {s s' : Machine M (AllocId × PE) F} {prog : Program}
include B

/-! ### C43: value validity -/

/-- C43: in every reachable state, a value is accepted at a type exactly if it is valid at that type: integers in
range, references non-null, aligned, dereferenceable and to an inhabited type, wide pointers with the right kind
of metadata, and so on for all types. -/
theorem C43_valid_iff (hu : prog.KeysUnique) (hr : Reachable prog s) {h : MemHistory PE}
    (hm : MemReach (F := F) h s.mem.memory) (ty : Ty) (v : Value (AllocId × PE)) :
    checkValue s.valEnv ty v = .ok () ↔ s.ValidValue h ty v :=
  checkValue_iff (vtablesOk_of_reachable hu hr) hm ty v

/-- C43: in every reachable state, loading a value of a well-formed sized type gives the value its bytes
represent if they represent a valid one, and is UB otherwise. -/
theorem C43_load_exact [LawfulTarget T] (hu : prog.KeysUnique) (hr : Reachable prog s) {ptr : ThinPtr (AllocId × PE)} {ty : Ty}
    {align : Align} {at' : Atomicity} {n : Nat} (hw : ty.checkWf prog = .ok ()) (hn : ty.size = .ok n)
    {bytes : List (AByte (AllocId × PE))} {m : ConcMem M}
    (hl : s.mem.load ptr n align at' = .ok (bytes, m)) {h : MemHistory PE} (hm : MemReach (F := F) h m.memory) :
    (∀ v s', typedLoad ptr ty align at' s = .ok (v, s') ↔
      s' = { s with mem := m } ∧ decode ty bytes = .ok v ∧ s'.ValidValue h ty v) ∧
    ((¬ ∃ v, decode ty bytes = .ok v ∧ ({ s with mem := m } : Machine M (AllocId × PE) F).ValidValue h ty v) →
      typedLoad ptr ty align at' s = .error .ub) := by
  have hvt : ({ s with mem := m } : Machine M (AllocId × PE) F).VTablesOk :=
    (vtablesOk_of_reachable hu hr).congr rfl rfl
  constructor
  · intro v s'
    rw [typedLoad_eq_ok]
    constructor
    · rintro ⟨n', bytes', m', h1, h2, rfl, h3, h4⟩
      rw [hn] at h1; cases h1
      rw [hl] at h2; cases h2
      exact ⟨rfl, h3, (checkValue_iff hvt hm ty v).1 h4⟩
    · rintro ⟨rfl, h3, h4⟩
      exact ⟨n, bytes, m, hn, hl, rfl, h3, (checkValue_iff hvt hm ty v).2 h4⟩
  · intro hno
    have e : typedLoad ptr ty align at' s =
        ((({ s with mem := m } : Machine M (AllocId × PE) F).decodeChecked ty bytes) >>= fun v => .ok (v, { s with mem := m })) := by
      have hml : memLoad ptr n align at' s = .ok (bytes, { s with mem := m }) := memLoad_eq_ok.2 ⟨m, hl, rfl⟩
      unfold typedLoad
      rw [EM.bind_of_ok (EM.lift_of_ok hn), EM.bind_of_ok hml]
      cases hx : ({ s with mem := m } : Machine M (AllocId × PE) F).decodeChecked ty bytes with
      | ok v => exact EM.read_of_ok hx
      | error e => exact EM.read_of_error hx
    rw [e]
    unfold Machine.decodeChecked
    obtain ⟨hg, rfl⟩ := good_of_size hw hn
    have hlen : bytes.length = ty.sz := by
      obtain ⟨h0, hm0⟩ := hr.memReach
      obtain ⟨⟨b, mm⟩, g1, g2⟩ := Res.bind_eq_ok.1 hl
      cases g2
      exact (C17_load_returns_last_stored hm0 g1).1
    rcases decode_total_good hg hlen with ⟨v, hd⟩ | hd
    · rw [hd]
      rcases checkValue_okOrUb hvt hm hg (fun p hc => Ty.ptr_checkWf hw hc) hd
        (fun p hp => hr.loaded hl hm (decode_prov ty hd hp)) with h1 | h1
      · exact absurd ⟨v, hd, (checkValue_iff hvt hm ty v).1 h1⟩ hno
      · simp only [h1]; rfl
    · rw [hd]; rfl

/-! ### C34: values obtained by loading are valid, valid values can be stored -/

/-- C34: a value obtained by a typed load is valid at its type. -/
theorem C34_loaded_valid (hu : prog.KeysUnique) (hr : Reachable prog s) {ptr : ThinPtr (AllocId × PE)} {ty : Ty}
    {align : Align} {at' : Atomicity} {v : Value (AllocId × PE)} (hl : typedLoad ptr ty align at' s = .ok (v, s'))
    {h : MemHistory PE} (hm : MemReach (F := F) h s'.mem.memory) : s'.ValidValue h ty v := by
  obtain ⟨n, bytes, m, h1, h2, rfl, h3, h4⟩ := typedLoad_eq_ok.1 hl
  have hvt : ({ s with mem := m } : Machine M (AllocId × PE) F).VTablesOk :=
    (vtablesOk_of_reachable hu hr).congr rfl rfl
  exact (checkValue_iff hvt hm ty v).1 h4

/-- C34: a value that is valid at a well-formed sized type can be encoded at this type, to as many bytes as the
type is large, and a typed store of it is the store of these bytes. A typed store of an invalid value does not
succeed. -/
theorem C34_store_valid [LawfulTarget T] (hu : prog.KeysUnique) (hr : Reachable prog s) {h : MemHistory PE}
    (hm : MemReach (F := F) h s.mem.memory) {ptr : ThinPtr (AllocId × PE)} {ty : Ty} {n : Nat}
    (hw : ty.checkWf prog = .ok ()) (hn : ty.size = .ok n) {align : Align} {at' : Atomicity} (v : Value (AllocId × PE)) :
    (s.ValidValue h ty v → ∃ bytes, encode ty v = .ok bytes ∧ bytes.length = n ∧
      typedStore ptr v ty align at' s = memStore ptr bytes align at' s) ∧
    (¬ s.ValidValue h ty v → ∀ r, typedStore ptr v ty align at' s ≠ .ok r) := by
  have hvt := vtablesOk_of_reachable hu hr
  obtain ⟨hg, rfl⟩ := good_of_size hw hn
  constructor
  · intro hv
    have hc := (checkValue_iff hvt hm ty v).2 hv
    obtain ⟨bs, hb⟩ := encode_total_good s.valEnv hg hc
    refine ⟨bs, hb, encode_length_good hg hb, ?_⟩
    have : s.encodeChecked ty v = .ok bs := encodeChecked_eq_ok.2 ⟨hc, hb⟩
    unfold typedStore
    rw [EM.bind_of_ok (EM.read_of_ok this)]
  · intro hv r hr'
    obtain ⟨u, s1⟩ := r
    obtain ⟨bytes, m, h1, _⟩ := typedStore_eq_ok.1 hr'
    exact hv ((checkValue_iff hvt hm ty v).1 h1)

end

section
variable [T : Target] [LawfulTarget T] {s : Machine (BasicMem Unit Unit) (AllocId × Unit) Unit} {prog : Program}
/-- C34: with the basic memory model, a typed store of a valid value through a pointer with real provenance
succeeds if the place is aligned and accessible, and is UB otherwise; in no case does it panic. -/
theorem C34_store_outcome (hu : prog.KeysUnique) (hr : Reachable prog s) {h : MemHistory Unit}
    (hm : MemReach (F := Unit) h s.mem.memory) {ptr : ThinPtr (AllocId × Unit)} (hg : Genuine h ptr) {ty : Ty} {n : Nat}
    (hw : ty.checkWf prog = .ok ()) (hn : ty.size = .ok n) {align : Align} {at' : Atomicity} {v : Value (AllocId × Unit)}
    (hv : s.ValidValue h ty v) :
    ((Aligned align ptr.addr ∧ (n = 0 ∨ Accessible h ptr n)) → ∃ r, typedStore ptr v ty align at' s = .ok r) ∧
    (¬ (Aligned align ptr.addr ∧ (n = 0 ∨ Accessible h ptr n)) → typedStore ptr v ty align at' s = .error .ub) := by
  obtain ⟨bytes, _, hl, he⟩ := (C34_store_valid hu hr hm hw hn v (ptr := ptr) (align := align) (at' := at')).1 hv
  obtain ⟨_, _, a1, a2⟩ := C18_access_exact hm hg (align := align)
  have e0 : n = 0 ↔ bytes = [] := by rw [← hl]; exact List.length_eq_zero_iff
  rw [e0, ← hl, he]
  constructor
  · intro hc
    obtain ⟨m, hs⟩ := (a1 bytes).2 hc
    exact ⟨((), { s with mem := _ }), memStore_eq_ok.2 ⟨_, by unfold ConcMem.store; rw [hs]; rfl, rfl⟩⟩
  · intro hc
    have := (a2 bytes).2 hc
    unfold memStore ConcMem.store
    rw [this]; rfl
end
end MiniRust
namespace MiniRust
namespace Ex
attribute [local instance] x86_64
/-- A reference to `n` bytes with alignment `2 ^ log`. -/
def refTo (n log : Nat) (inh : Bool := true) : Ty := .ptr (.ref .imm ⟨.sized n ⟨log⟩, inh, .sized [], true, true⟩)
/-- A reference to a slice of `n`-byte elements. -/
def sliceRef (n log : Nat) : Ty := .ptr (.ref .imm ⟨.slice n ⟨log⟩, true, .slice [], true, true⟩)
/-- A thin pointer value. -/
def thinAt (addr : Int) (p : Option (Nat × Unit)) : Value (Nat × Unit) := .ptr ⟨⟨addr, p⟩, none⟩
-- The provenance of a pointer stored in an array of pointers is found in its bytes.
example : ∃ bytes, encode (.array (.ptr (.raw .none)) 2) (.tuple [thinAt 5 none, thinAt 16 (some (3, ()))]) = .ok bytes ∧
    ProvInBytes (3, ()) bytes ∧ ¬ ProvInBytes (4, ()) bytes := by
  refine ⟨_, rfl, ⟨.init 16 (some ⟨(3, ()), 0⟩), by decide +kernel, 0, rfl⟩, fun hp => ?_⟩
  have := (C08_no_invented_provenance (.array (.ptr (.raw .none)) 2) (4, ())).1
    (.tuple [thinAt 5 none, thinAt 16 (some (3, ()))]) _ rfl hp
  cases this with
  | elem h1 h2 =>
    simp only [List.mem_cons, List.not_mem_nil, or_false] at h1
    rcases h1 with rfl | rfl <;> cases h2 with
    | thin h => cases h
    | vtable h => cases h
-- Valid and invalid values at these types: a good reference, null, misaligned, without provenance, to an
-- uninhabited type, past the end; a slice that fits and one that does not; trait objects.
example : ∃ s : BMach, Reachable staticsProg s ∧
    (errOf (checkValue s.valEnv (refTo 4 2) (thinAt 16 (some (0, ())))) = none ∧
    errOf (checkValue s.valEnv (refTo 0 2) (thinAt 0 none)) = some .ub ∧
    errOf (checkValue s.valEnv (refTo 0 2) (thinAt 4 none)) = none ∧
    errOf (checkValue s.valEnv (refTo 4 2) (thinAt 18 (some (0, ())))) = some .ub ∧
    errOf (checkValue s.valEnv (refTo 4 2) (thinAt 16 none)) = some .ub ∧
    errOf (checkValue s.valEnv (refTo 4 2 false) (thinAt 16 (some (0, ())))) = some .ub ∧
    errOf (checkValue s.valEnv (refTo 4 2) (thinAt 24 (some (0, ())))) = some .ub) ∧
    errOf (checkValue s.valEnv (sliceRef 4 2) (.ptr ⟨⟨16, some (0, ())⟩, some (.elementCount 2)⟩)) = none ∧
    errOf (checkValue s.valEnv (sliceRef 4 2) (.ptr ⟨⟨16, some (0, ())⟩, some (.elementCount 3)⟩)) = some .ub ∧
    errOf (checkValue s.valEnv (.ptr (.raw (.vtablePointer 0))) (.ptr ⟨⟨16, none⟩, some (.vtablePointer ⟨58, some (4, ())⟩)⟩)) = none ∧
    errOf (checkValue s.valEnv (.ptr (.raw (.vtablePointer 0))) (.ptr ⟨⟨16, none⟩, some (.vtablePointer ⟨57, some (3, ())⟩)⟩)) = some .ub :=
  exists_reachable staticsRun 0 _ (by decide +kernel)
-- Loading a stored pointer as a reference to four bytes gives the reference; as a reference to eight bytes that
-- would be misaligned it is UB.
example : ∃ s : BMach, Reachable staticsProg s ∧
    errOf (Ty.checkWf staticsProg (refTo 4 2)) = none ∧
    (typedLoad ⟨40, some (1, ())⟩ (refTo 4 2) ⟨3⟩ .none s).toOption.map (·.1) = some (thinAt 20 (some (0, ()))) ∧
    errOf (typedLoad ⟨40, some (1, ())⟩ (refTo 8 3) ⟨3⟩ .none s) = some .ub :=
  exists_reachable staticsRun 0 _ (by decide +kernel)
-- Storing a valid reference works, storing a null reference does not.
example : ∃ s : BMach, Reachable staticsProg s ∧
    errOf (typedStore ⟨32, some (1, ())⟩ (thinAt 16 (some (0, ()))) (refTo 4 2) ⟨3⟩ .none s) = none ∧
    errOf (typedStore ⟨32, some (1, ())⟩ (thinAt 0 none) (refTo 4 2) ⟨3⟩ .none s) = some .panic :=
  exists_reachable staticsRun 0 _ (by decide +kernel)
end Ex
end MiniRust
