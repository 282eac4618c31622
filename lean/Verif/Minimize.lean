import Verif.Run
/-
The command line of minimize: `/repo/tooling/minimize/src/main.rs`.
-/
namespace MiniRust

/-- `MinimizeConfig`, `/repo/tooling/minimize/src/main.rs:184-191`, with the `MinirustMachineConfig` of
`/repo/tooling/miniutil/src/cli.rs:18-20` inlined; the defaults are those of `main.rs:195-199`. -/
structure MinimizeConfig where
  dump : Option (List Char) := none
  checkJsonRoundtrip : Bool := false
  treeBorrows : Bool := false
deriving DecidableEq

/-- `strip_prefix`. -/
def stripPrefix (pre : String) (arg : List Char) : Option (List Char) :=
  if pre.toList.isPrefixOf arg then some (arg.drop pre.toList.length) else none

/-- One iteration of the loop of `parse_args`, `/repo/tooling/minimize/src/main.rs:202-220`: `none` if the process exits with an error; otherwise
the new configuration and whether the argument is one for rustc. -/
def parseArg (config : MinimizeConfig) (arg : List Char) : Option (MinimizeConfig × Bool) :=
  match stripPrefix "--minimize-" arg with
  | some arg => match stripPrefix "dump=" arg with
    | some arg => if config.dump.isSome then none else some ({ config with dump := some arg }, false)
    | none => if arg = "check-json-roundtrip".toList then some ({ config with checkJsonRoundtrip := true }, false) else none
  | none => match consumeArg config.treeBorrows arg with
    | none => none
    | some (isFlag, treeBorrows) => some ({ config with treeBorrows := treeBorrows }, !isFlag)

/-- The loop of `parse_args`, `/repo/tooling/minimize/src/main.rs:201-222`: the configuration and the arguments for rustc. -/
def parseArgs : MinimizeConfig → List (List Char) → Option (MinimizeConfig × List (List Char))
  | config, [] => some (config, [])
  | config, arg :: args => match parseArg config arg with
    | none => none
    | some (config, forRustc) => match parseArgs config args with
      | none => none
      | some (config, rest) => some (config, if forRustc then arg :: rest else rest)

/-- `DEFAULT_ARGS`, `/repo/tooling/minimize/src/main.rs:105-117`. -/
def defaultArgs : List (List Char) := [
  "--cfg=miri".toList,
  "-Zalways-encode-mir".toList,
  "-Zextra-const-ub-checks".toList,
  "-Zmir-emit-retag".toList,
  "-Zmir-opt-level=0".toList,
  "-Zmir-enable-passes=-CheckAlignment".toList,
  "-Zmir-preserve-ub".toList,
  "-Zub-checks=false".toList]

/-- What minimize uses from its environment. `compile` is rustc with the translation as a callback (`get_mini`,
`/repo/tooling/minimize/src/main.rs:224-243`); it gives the exit code if the callback is not reached or panics. `rustc` is `be_rustc`
(`main.rs:119-140`), with exit code and output. `pretty`, `json` and `roundtrips` are `pretty::dump_program`, `json::dump_program` and whether
`json::assert_roundtrip` succeeds. Building the sysroot is taken to succeed. -/
structure MinimizeEnv where
  sysrootMode : Option (List Char)
  beRustc : Bool
  sysrootDir : List Char
  rustc : List (List Char) → Nat × List Char
  compile : List (List Char) → Except Nat Program
  pretty : Program → List Char
  json : Program → List Char
  roundtrips : Program → Bool

/-- Is minimize only asked about rustc? `/repo/tooling/minimize/src/main.rs:157`. -/
def probes (args : List (List Char)) : Bool := args.any fun a => a = "-vV".toList || (stripPrefix "--print=" a).isSome

/-- The first part of `main`, `/repo/tooling/minimize/src/main.rs:142-162`: the arguments with those that minimize adds; `none` if it only builds the sysroot.
The first argument is the name of the executable. -/
def allArgs (env : MinimizeEnv) (exe : List Char) (args : List (List Char)) : Option (List (List Char)) :=
  let all := exe :: (defaultArgs ++ args)
  if env.sysrootMode = some "only".toList then none
  else if env.sysrootMode = some "off".toList then some all
  else if probes all then some all
  else some (exe :: ("--sysroot=".toList ++ env.sysrootDir) :: (defaultArgs ++ args))

section
variable [Target]

/-- The callback of `main`, `/repo/tooling/minimize/src/main.rs:169-181`: exit code and text on stdout. -/
def minimizeProg (fuel : Nat) (env : MinimizeEnv) (basic : List (Choice (AllocId × Unit))) (tree : List (Choice TBProv))
    (config : MinimizeConfig) (prog : Program) : Option (Nat × List Char) :=
  match config.dump with
  | some kind =>
    if kind = "pretty".toList then some (0, env.pretty prog)
    else if kind = "json".toList then some (0, env.json prog)
    else some (errorCode, [])
  | none =>
    if config.checkJsonRoundtrip && !env.roundtrips prog then some (errorCode, [])
    else
      match (if config.treeBorrows then runProgram TBMem fuel prog tree else runProgram (BasicMem Unit Unit) fuel prog basic) with
      | none => none
      | some (e, out) => some (exitCode e, out)

/-- `main` of minimize, `/repo/tooling/minimize/src/main.rs:142-182`: exit code and text on stdout. -/
def minimize (fuel : Nat) (env : MinimizeEnv) (basic : List (Choice (AllocId × Unit))) (tree : List (Choice TBProv))
    (exe : List Char) (args : List (List Char)) : Option (Nat × List Char) :=
  match allArgs env exe args with
  | none => some (0, [])
  | some all =>
    if env.beRustc then some (env.rustc all)
    else match parseArgs {} all with
      | none => some (errorCode, [])
      | some (config, rustcArgs) => match env.compile rustcArgs with
        | .error code => some (code, [])
        | .ok prog => minimizeProg fuel env basic tree config prog

end
end MiniRust
