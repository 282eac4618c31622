import Verif.Lemmas.TBLax
/-
Creating a machine retags nothing, so it does not notice whether making references to nothing below an allocation is UB.
-/
namespace MiniRust
variable [T : Target]

local notation "R" => (instMemoryTBMemTBProvTBFrameOfTarget : Memory TBMem TBProv TBFrame)
local notation "G" => (TBMem.guarded : Memory TBMem TBProv TBFrame)

theorem guarded_memAllocate : @memAllocate _ _ _ R = @memAllocate _ _ _ G := rfl
theorem guarded_memStore : @memStore _ _ _ R = @memStore _ _ _ G := rfl
theorem guarded_typedStore : @typedStore _ _ _ R _ T = @typedStore _ _ _ G _ T := rfl
theorem guarded_storageLive : @storageLive _ _ _ R _ = @storageLive _ _ _ G _ := rfl

theorem guarded_allocGlobals : ∀ l, @allocGlobals _ _ _ R l = @allocGlobals _ _ _ G l
  | [] => rfl
  | (n, g) :: l => by simp only [allocGlobals, guarded_memAllocate, guarded_allocGlobals l]

theorem guarded_fillGlobals : ∀ l, @fillGlobals _ _ _ R T l = @fillGlobals _ _ _ G T l
  | [] => rfl
  | (n, g) :: l => by simp only [fillGlobals, guarded_memStore, guarded_fillGlobals l]

theorem guarded_allocFunctions : ∀ l, @allocFunctions _ _ _ R l = @allocFunctions _ _ _ G l
  | [] => rfl
  | n :: l => by simp only [allocFunctions, guarded_memAllocate, guarded_allocFunctions l]

theorem guarded_allocVTables : ∀ l, @allocVTables _ _ _ R l = @allocVTables _ _ _ G l
  | [] => rfl
  | n :: l => by simp only [allocVTables, guarded_memAllocate, guarded_allocVTables l]

theorem guarded_storageLives : ∀ l fr, @storageLives _ _ _ R T fr l = @storageLives _ _ _ G T fr l
  | [], _ => rfl
  | n :: l, fr => by simp only [storageLives, guarded_storageLive, guarded_storageLives l]

theorem guarded_passArguments {fr} : ∀ l a, @passArguments _ _ _ R _ T fr l a = @passArguments _ _ _ G _ T fr l a
  | [], _ => by simp only [passArguments]
  | _ :: _, [] => by simp only [passArguments]
  | n :: l, a :: as => by simp only [passArguments, guarded_typedStore, guarded_passArguments l]

theorem guarded_createFrame {f act cc ty args} : @createFrame _ _ _ R _ T f act cc ty args = @createFrame _ _ _ G _ T f act cc ty args := by
  simp only [createFrame, guarded_storageLive, guarded_storageLives, guarded_passArguments]
  rfl

theorem guarded_newThread {f args} : @newThread _ _ _ R _ T f args = @newThread _ _ _ G _ T f args := by
  simp only [newThread, guarded_createFrame]

theorem guarded_new {prog oracle} : @Machine.new _ _ _ R _ T prog oracle = @Machine.new _ _ _ G _ T prog oracle := by
  simp only [Machine.new, initMachine, guarded_allocGlobals, guarded_fillGlobals, guarded_allocFunctions, guarded_allocVTables,
    guarded_newThread]
  rfl

end MiniRust
