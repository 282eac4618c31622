import Verif.Spec.Recode
import Verif.Spec.Run
/-
Jumps past empty blocks.
-/
namespace MiniRust

/-- The function with each jump to a block `b` replaced by one to `σ b`. -/
def Function.retarget (σ : BbName → BbName) (f : Function) : Function :=
  { f with
    start := σ f.start
    blocks := f.blocks.map fun x => (x.1, { x.2 with terminator := x.2.terminator.rename σ }) }

/-- The program with the jumps of each function replaced. -/
def Program.retarget (τ : FnName → BbName → BbName) (p : Program) : Program :=
  { p with functions := p.functions.map fun x => (x.1, x.2.retarget (τ x.1)) }

/-- `τ` only replaces jumps to blocks without statements that go on to another block, which is of the same kind; they are replaced
by jumps to this block. (Jumps to this block are not replaced.) -/
def Program.Bypasses (τ : FnName → BbName → BbName) (p : Program) : Prop :=
  ∀ n f, (n, f) ∈ p.functions → ∀ b, τ n b ≠ b → τ n (τ n b) = τ n b ∧
    ∃ k bb, f.blocks.get? b = some ⟨[], .goto (τ n b), k⟩ ∧ f.blocks.get? (τ n b) = some bb ∧ bb.kind = k

/-- With some choices, the program ends like this, after printing `out` and `err`. -/
def CanEnd [T : Target] (M : Type) {P F : Type} [Memory M P F] [DecidableEq P] (p : Program) (e : Err) (out err : List Printed) : Prop :=
  e ≠ .noBehavior ∧ ∃ o : List (Choice P), Ends M (F := F) p o e out err

end MiniRust
