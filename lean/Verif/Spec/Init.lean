import Verif.Step
import Verif.Spec.Memory
/-
Vocabulary for C43 and C55: where the globals, functions and vtables of a program are placed.
-/
namespace MiniRust

/-- No name is bound twice. (libspecr's `Map` has this built in; the model's association lists do not.) -/
structure Program.KeysUnique (prog : Program) : Prop where
  globals : prog.globals.keys.Nodup
  functions : prog.functions.keys.Nodup
  vtables : prog.vtables.keys.Nodup

section
variable {PE : Type}

/-- The pointer is to the start of a live allocation with this kind, size and alignment. -/
def StartsLive (h : MemHistory PE) (p : ThinPtr (AllocId × PE)) (kind : AllocKind) (size : Nat) (align : Align) :
    Prop :=
  ∃ id, p.HasId id ∧ LiveIn h id ⟨kind, size, align, p.addr⟩

/-- Each item has one pointer, to the start of its own live allocation of the right size and alignment. -/
structure Placed {K : Type} [DecidableEq K] (h : MemHistory PE) (ptrs : Map K (ThinPtr (AllocId × PE)))
    (kind : AllocKind) (item : K → Nat → Align → Prop) : Prop where
  has : ∀ k size align, item k size align → ∃ p, ptrs.get? k = some p ∧ StartsLive h p kind size align
  only : ∀ k p, (k, p) ∈ ptrs → ptrs.get? k = some p ∧ ∃ size align, item k size align
  apart : ∀ k k' p p', ptrs.get? k = some p → ptrs.get? k' = some p' → p.addr = p'.addr → k = k'

/-- The globals of the program. -/
def Program.IsGlobal (prog : Program) (k : GlobalName) (size : Nat) (align : Align) : Prop :=
  ∃ g, prog.globals.get? k = some g ∧ size = g.bytes.length ∧ align = g.align
/-- The functions of the program take no space. -/
def Program.IsFn (prog : Program) (k : FnName) (size : Nat) (align : Align) : Prop :=
  k ∈ prog.functions.keys ∧ size = 0 ∧ align = ⟨0⟩
/-- The vtables of the program take no space. -/
def Program.IsVTable (prog : Program) (k : VTableName) (size : Nat) (align : Align) : Prop :=
  k ∈ prog.vtables.keys ∧ size = 0 ∧ align = ⟨0⟩

/-- The relocation at offset `i` concerns byte `k`. -/
def Covers [T : Target] (i k : Nat) : Prop := i ≤ k ∧ k < i + T.ptrSize

/-- Byte `k` of a global at the start of the program: if a relocation concerns it (the last one listed
counts), the corresponding byte of the pointer to the named global, moved by the offset of the relocation;
else the byte given in the program, without provenance. -/
def Global.InitByte [T : Target] (g : Global) (ptrs : Map GlobalName (ThinPtr (AllocId × PE))) (k : Nat)
    (b : AByte (AllocId × PE)) : Prop :=
  (∃ pre i r post p bytes, g.relocations = pre ++ (i, r) :: post ∧ Covers i k ∧
    (∀ j r', (j, r') ∈ post → ¬ Covers j k) ∧ ptrs.get? r.name = some p ∧
    encodePtr (p.wrappingOffset r.offset) = .ok bytes ∧ bytes[k - i]? = some b) ∨
  ((∀ i r, (i, r) ∈ g.relocations → ¬ Covers i k) ∧
    ((∃ x, g.bytes[k]? = some (some x) ∧ b = .init x none) ∨ (g.bytes[k]? = some none ∧ b = .uninit)))
end

end MiniRust
