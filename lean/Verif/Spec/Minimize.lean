import Verif.Spec.Run
import Verif.Minimize
/-
The flags of minimize.
-/
namespace MiniRust

/-- Arguments that are flags of minimize. -/
def IsMinimizeFlag (arg : List Char) : Prop := ∃ rest, arg = "--minimize-".toList ++ rest

/-- The flag that asks for a dump in a format. -/
def dumpFlag (format : List Char) : List Char := "--minimize-dump=".toList ++ format

/-- The flag that asks for a test of the JSON format. -/
def roundtripFlag : List Char := "--minimize-check-json-roundtrip".toList

/-- Arguments that are neither flags of minimize nor of the machine. -/
def IsOther (arg : List Char) : Prop := ¬ IsMinimizeFlag arg ∧ ¬ IsFlag arg

/-- Every flag is a known one. -/
def FlagsKnown (args : List (List Char)) : Prop :=
  ∀ a ∈ args, (IsMinimizeFlag a → a = roundtripFlag ∨ ∃ d, a = dumpFlag d) ∧ (IsFlag a → a = treeBorrowsFlag)

/-- The user asks which rustc this is. -/
def AsksRustc (exe : List Char) (args : List (List Char)) : Prop :=
  ∃ a ∈ exe :: args, a = "-vV".toList ∨ ∃ rest, a = "--print=".toList ++ rest

open Classical in
/-- The arguments that rustc gets: the sysroot, unless that is switched off or the user asks about rustc, the arguments that make rustc keep all the
undefined behavior, and then the arguments of the user that are not flags. -/
noncomputable def argsForRustc (env : MinimizeEnv) (exe : List Char) (args : List (List Char)) : List (List Char) :=
  [exe] ++ (if env.sysrootMode = some "off".toList ∨ AsksRustc exe args then [] else ["--sysroot=".toList ++ env.sysrootDir]) ++
  ["--cfg=miri", "-Zalways-encode-mir", "-Zextra-const-ub-checks", "-Zmir-emit-retag", "-Zmir-opt-level=0",
    "-Zmir-enable-passes=-CheckAlignment", "-Zmir-preserve-ub", "-Zub-checks=false"].map String.toList ++
  args.filter fun a => IsOther a

open Classical in
/-- The arguments that ask for a dump. -/
noncomputable def dumpFlags (args : List (List Char)) : List (List Char) := args.filter fun a => ∃ d, a = dumpFlag d

/-- minimize is called to translate a crate: not just to build the sysroot, and not as a rustc. -/
structure Translates (env : MinimizeEnv) (exe : List Char) : Prop where
  notOnly : env.sysrootMode ≠ some "only".toList
  notRustc : env.beRustc = false
  exe : IsOther exe

end MiniRust
