import Verif.Lemmas.Chunks
/-
C38: the chunks computed for a union when Rust types are translated.
-/
set_option linter.unusedSectionVars false
namespace MiniRust
variable {P : Type} [DecidableEq P]
section
variable [T : Target]

theorem fields_of_checkWf {prog : Program} {fields : List (Nat × Ty)} {cs : List (Nat × Nat)} {size : Nat} {align : Align}
    (h : (Ty.union fields cs size align).checkWf prog = .ok ()) :
    ∀ f ∈ fields, f.2.Good ∧ f.1 + f.2.sz ≤ size := by
  have hg := Ty.good_of_checkWf prog _ h ⟨size, align, rfl⟩
  cases hg with
  | union h1 h2 => exact fun f hf => ⟨h1 f hf, h2 f hf⟩

/-- **C38, no panic and well-formedness.** For fields that fit the union (the union type without chunks is
well-formed), the chunks can be computed, and the union type with these chunks is well-formed. -/
theorem C38_union_wellformed {prog : Program} {fields : List (Nat × Ty)} {size : Nat} {align : Align}
    (h : (Ty.union fields [] size align).checkWf prog = .ok ()) :
    ∃ cs, calcChunks fields size = .ok cs ∧ (Ty.union fields cs size align).checkWf prog = .ok () := by
  have hf := fields_of_checkWf h
  obtain ⟨m, hm⟩ := markFields_fits_of (fs := fields) (n := size) (fun f hf' => markUsedBytes_fits (hf f hf').1)
    (fun f hf' => (hf f hf').2) (List.replicate size false) (by simp)
  have hc : calcChunks fields size = .ok (scanChunks (m ++ [false]) 0 none) := by
    simp only [calcChunks, hm, Res.bind_ok]
  refine ⟨_, hc, ?_⟩
  obtain ⟨e, h1, h2⟩ := separated_checkRanges (calcChunks_spec hc).1 (Nat.le_refl 0) (Nat.zero_le _)
  simp only [Ty.checkWf, Res.bind_eq_ok] at h ⊢
  obtain ⟨u, g1, _, _, w, _, g4⟩ := h
  exact ⟨u, g1, e, h1, (), by simp [ensureWf, h2], by simpa [checkLayout, Ty.layout, Ty.metaKind] using g4⟩

/-- **C38, shape.** The chunks are not empty, inside the union, in ascending order, and between any two of
them there is a byte that is in no chunk (so they are disjoint, and as large as possible). -/
theorem C38_chunks_shape {fields : List (Nat × Ty)} {size : Nat} {cs : List (Nat × Nat)}
    (h : calcChunks fields size = .ok cs) : Separated cs 0 size := (calcChunks_spec h).1

/-- **C38, chunks hold data.** Every byte in a chunk is data (not padding) of some field. -/
theorem C38_chunks_hold_data {fields : List (Nat × Ty)} {size : Nat} {cs : List (Nat × Nat)}
    (h : calcChunks fields size = .ok cs) {k : Nat} (hk : InRanges cs k) : FieldByte fields k := by
  obtain ⟨⟨off, ty⟩, hf, h1, h2⟩ := ((calcChunks_spec h).2 k).1 hk
  exact ⟨off, ty, k - off, hf, h2.uses, by simp only at h1; omega⟩

/-- **C38, data is in chunks.** Every data byte of a field without wide pointers is in some chunk.
Missing for the full claim: wide pointers, for which it is false (`C38_wide_pointer_lost`). -/
theorem C38_data_in_chunks_partial {fields : List (Nat × Ty)} {size : Nat} {cs : List (Nat × Nat)}
    (h : calcChunks fields size = .ok cs) {off : Nat} {ty : Ty} (hf : (off, ty) ∈ fields) (hthin : OnlyThin ty) {i : Nat}
    (hi : UsesByte ty i) : InRanges cs (off + i) :=
  ((calcChunks_spec h).2 _).2 ⟨_, hf, by simp, by simpa using hi.marked hthin⟩

/-- **C38, copying a union.** Copying a union value (decoding its bytes and encoding the result) always works.
The bytes of every chunk are kept, and all other bytes are reset to uninitialized. -/
theorem C38_copy {fields : List (Nat × Ty)} {size : Nat} {align : Align} {cs : List (Nat × Nat)}
    (h : calcChunks fields size = .ok cs) {bytes : List (AByte P)} (hl : bytes.length = size) :
    ∃ v bytes', decode (.union fields cs size align) bytes = .ok v ∧
      encode (.union fields cs size align) v = .ok bytes' ∧ bytes'.length = size ∧
      ∀ k, k < size → bytes'[k]? = if InRanges cs k then bytes[k]? else some .uninit := by
  obtain ⟨e, h1, h2⟩ := separated_checkRanges (calcChunks_spec h).1 (Nat.le_refl 0) (Nat.zero_le _)
  have hin : ∀ c ∈ cs, c.1 + c.2 ≤ bytes.length := fun c hc => by
    have := (checkRanges_ok h1).2.2 c hc
    omega
  obtain ⟨r, g1, g2, g3⟩ := encodeChunks_spec hin (acc := List.replicate size .uninit) (by simp [hl])
  refine ⟨.union (cs.map fun c => (bytes.drop c.1).take c.2), r, ?_, ?_, g2.trans hl, fun k hk => ?_⟩
  · simp only [decode, hl, beq_self_eq_true, rassert_true, Res.bind_ok, decodeChunks_slices hin]
  · simp only [encode, List.length_map, beq_self_eq_true, rassert_true, Res.bind_ok, g1]
  · rw [g3, List.getElem?_replicate, if_pos hk]

/-- **C38, fields survive a copy.** After copying a union value, every field without wide pointers has the
same value (or is as invalid) as before.
Missing for the full claim: wide pointers, for which it is false (`C38_wide_pointer_lost`). -/
theorem C38_fields_survive_copy_partial [LawfulTarget T] {prog : Program} {fields : List (Nat × Ty)} {size : Nat} {align : Align}
    {cs : List (Nat × Nat)} (hwf : (Ty.union fields cs size align).checkWf prog = .ok ())
    (h : calcChunks fields size = .ok cs) {bytes bytes' : List (AByte P)} {v : Value P}
    (hd : decode (.union fields cs size align) bytes = .ok v)
    (he : encode (.union fields cs size align) v = .ok bytes')
    {off : Nat} {ty : Ty} (hf : (off, ty) ∈ fields) (hthin : OnlyThin ty) {n : Nat} (hn : ty.size = .ok n) :
    ∃ before after, subslice bytes off n = .ok before ∧ subslice bytes' off n = .ok after ∧
      decode ty after = decode ty before := by
  have hl : bytes.length = size := by
    simp only [decode, Res.bind_eq_ok, rassert_eq_ok, beq_iff_eq] at hd
    obtain ⟨_, hd, _⟩ := hd
    exact hd
  obtain ⟨v', r, g1, g2, g3, g4⟩ := C38_copy (align := align) h hl
  rw [hd] at g1
  cases g1
  rw [he] at g2
  cases g2
  obtain ⟨hgood, hfit⟩ := fields_of_checkWf hwf _ hf
  have hsz := hgood.size
  rw [hn] at hsz
  cases hsz
  simp only at hfit
  have hs1 := subslice_isOk (l := bytes) (off := off) (len := ty.sz) (by omega)
  have hs2 := subslice_isOk (l := bytes') (off := off) (len := ty.sz) (by omega)
  refine ⟨_, _, hs1, hs2, decode_congr_good hgood (subslice_length hs2) (subslice_length hs1) fun i hi => ?_⟩
  rw [subslice_getElem? hs1, subslice_getElem? hs2]
  split
  case isFalse => rfl
  case isTrue hi' =>
  rw [g4 _ (by omega), if_pos (C38_data_in_chunks_partial h hf hthin hi)]

end

/-! ### Concrete cases -/
section
attribute [local instance] x86_64

namespace Ex

/-- A `u8` at offset 0 and a `u32` at offset 4, with padding between them. -/
def chunkPair : Ty := .tuple [(0, .int ⟨.unsigned, 1⟩), (4, .int ⟨.unsigned, 4⟩)] ⟨8, ⟨2⟩, none⟩ none

/-- `Option`-like: the tag in byte 0 decides between no data and a `u16` in bytes 2 and 3. -/
def chunkEnum : Ty :=
  .enum [(0, (.tuple [] ⟨4, ⟨1⟩, none⟩ none, [(0, (⟨.unsigned, 1⟩, 0))])),
         (1, (.tuple [(2, .int ⟨.unsigned, 2⟩)] ⟨4, ⟨1⟩, none⟩ none, [(0, (⟨.unsigned, 1⟩, 1))]))]
    ⟨.unsigned, 1⟩ (.branch 0 ⟨.unsigned, 1⟩ .invalid [((0, 1), .known 0), ((1, 2), .known 1)]) 4 ⟨1⟩

/-- The fields of a union of 20 bytes: the pair, an array of two enums, and a `bool`. -/
def chunkFields : List (Nat × Ty) :=
  [(0, chunkPair), (12, .array chunkEnum 2), (0, .bool)]

/-- The smallest program: no function, no trait. -/
def chunkProg : Program := ⟨[], 0, [], [], []⟩

/-- A raw pointer to a slice. -/
def widePtr : Ty := .ptr (.raw .elementCount)

/-- The bytes of the slice pointer to address 16 with 5 elements. -/
def wideBytes : List (AByte Nat) :=
  [16, 0, 0, 0, 0, 0, 0, 0, 5, 0, 0, 0, 0, 0, 0, 0].map fun b => .init b none

/-- 20 bytes that are all initialized. -/
def chunkBytes : List (AByte Nat) := (List.range 20).map fun i => .init (UInt8.ofNat (if i = 12 ∨ i = 16 then 1 else i)) none

end Ex

/-- The hypothesis of `C38_union_wellformed` is met by a union with padding and an enum array, and the
chunks are what one expects. -/
example : (Ty.union Ex.chunkFields [] 20 ⟨2⟩).checkWf Ex.chunkProg = .ok () ∧
    calcChunks Ex.chunkFields 20 = .ok [(0, 1), (4, 4), (12, 1), (14, 3), (18, 2)] := by decide +kernel

/-- A field that `C38_data_in_chunks_partial` and `C38_fields_survive_copy_partial` apply to. -/
example : (0, Ex.chunkPair) ∈ Ex.chunkFields ∧ OnlyThin Ex.chunkPair ∧ UsesByte Ex.chunkPair 4 ∧ Ex.chunkPair.size = .ok 8 ∧
    (Ty.union Ex.chunkFields [(0, 1), (4, 4), (12, 1), (14, 3), (18, 2)] 20 ⟨2⟩).checkWf Ex.chunkProg = .ok () ∧
    Ex.chunkBytes.length = 20 := by
  refine ⟨by simp [Ex.chunkFields], ?_, ?_, by decide +kernel, by decide +kernel, by decide +kernel⟩
  · intro p h
    simp only [Ex.chunkPair] at h
    cases h with
    | field hf hc =>
      simp only [List.mem_cons, List.not_mem_nil, or_false] at hf
      rcases hf with rfl | rfl <;> cases hc
  · exact .field (off := 4) (i := 0) (ty := .int ⟨.unsigned, 4⟩) (by simp) (.int (by decide))

/-- Copying the example union keeps the value of the pair, and resets its padding. -/
example : ((decode (.union Ex.chunkFields [(0, 1), (4, 4), (12, 1), (14, 3), (18, 2)] 20 ⟨2⟩) Ex.chunkBytes >>=
      encode (.union Ex.chunkFields [(0, 1), (4, 4), (12, 1), (14, 3), (18, 2)] 20 ⟨2⟩)) >>= fun b =>
      subslice b 0 8 >>= decode Ex.chunkPair) = .ok (.tuple [.int 0, .int 0x07060504]) := by decide +kernel

/-- **C38 fails for wide pointers.** A union whose only field is a raw pointer to a slice: the type without
chunks is well-formed, the computed chunks cover only the address, and copying a union that holds such a
pointer loses the length, so that the field is no longer valid. -/
theorem C38_wide_pointer_lost :
    (Ty.union [(0, Ex.widePtr)] [] 16 ⟨3⟩).checkWf Ex.chunkProg = .ok () ∧
    calcChunks [(0, Ex.widePtr)] 16 = .ok [(0, 8)] ∧
    UsesByte Ex.widePtr 8 ∧ ¬ InRanges [(0, 8)] 8 ∧
    decode Ex.widePtr Ex.wideBytes = .ok (.ptr ⟨⟨16, none⟩, some (.elementCount 5)⟩) ∧
    ((decode (.union [(0, Ex.widePtr)] [(0, 8)] 16 ⟨3⟩) Ex.wideBytes >>=
      encode (.union [(0, Ex.widePtr)] [(0, 8)] 16 ⟨3⟩)) >>= decode Ex.widePtr) = .error .none := by
  refine ⟨by decide +kernel, by decide +kernel, ?_, by decide +kernel, by decide +kernel, by decide +kernel⟩
  exact .wide (by decide) (by decide)

end
end MiniRust
