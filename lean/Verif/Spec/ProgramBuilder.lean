import Verif.ProgramBuilder
/-
Histories of a program builder.
-/
namespace MiniRust

/-- What was done with a program builder. -/
inductive PbEvent
  | declaredFn (n : FnName)
  | fn (n : FnName) (f : Function)
  | declaredVTable (n : VTableName)
  | vtable (n : VTableName) (v : VTable)
  | declaredTrait (n : TraitName)
  | trait (n : TraitName) (methods : List TraitMethodName)
  | global (n : GlobalName) (g : Global)

/-- A program builder that was used in this way (most recent first). The builders of functions, traits and vtables are given back
to the program builder that made them (Rust's move semantics makes sure that this happens at most once, which is not assumed
here); what was done with them meanwhile is arbitrary. -/
inductive Built [Target] : List PbEvent → ProgBuilder → Prop
  | new : Built [] .new
  | declareFunction {h p n fb p'} : Built h p → p.declareFunction = .ok ((n, fb), p') → Built (.declaredFn n :: h) p'
  | finishFunction {h p n fb f r p'} : Built h p → .declaredFn n ∈ h → fb.finishFunction = .ok f → p.finishFunction n fb = .ok (r, p') →
      Built (.fn n f :: h) p'
  | declareVtable {h p t size align cells v p'} : Built h p → p.declareVtable t size align cells = (v, p') →
      Built (.declaredVTable v.name :: h) p'
  | declareVtableForFrozenTy {h p t ty v p'} : Built h p → p.declareVtableForFrozenTy t ty = .ok (v, p') →
      Built (.declaredVTable v.name :: h) p'
  | finishVtable {h p v r p'} : Built h p → .declaredVTable v.name ∈ h → p.finishVtable v = .ok (r, p') →
      Built (.vtable v.name ⟨v.traitName, v.size, v.align, v.cells, v.methods⟩ :: h) p'
  | declareTrait {h p t p'} : Built h p → p.declareTrait = (t, p') → Built (.declaredTrait t.name :: h) p'
  | finishTrait {h p t r p'} : Built h p → .declaredTrait t.name ∈ h → p.finishTrait t = .ok (r, p') →
      Built (.trait t.name t.methodNames :: h) p'
  | declareGlobal {h p t size align n ty p'} : Built h p → t.getSize = .ok size → t.getAlign = .ok align →
      p.declareGlobalZeroInitialized t = .ok (.deref (.constant (.globalPointer ⟨n, 0⟩) (.ptr (.raw .none))) ty, p') →
      Built (.global n ⟨List.replicate size (some 0), [], align⟩ :: h) p'

/-- The names that were declared for functions. -/
def declaredFns (h : List PbEvent) : List FnName := h.filterMap fun | .declaredFn n => some n | _ => none
/-- The names that were declared for vtables. -/
def declaredVTables (h : List PbEvent) : List VTableName := h.filterMap fun | .declaredVTable n => some n | _ => none
/-- The names that were declared for traits. -/
def declaredTraits (h : List PbEvent) : List TraitName := h.filterMap fun | .declaredTrait n => some n | _ => none
/-- The names that were declared for globals. -/
def declaredGlobals (h : List PbEvent) : List GlobalName := h.filterMap fun | .global n _ => some n | _ => none

end MiniRust
