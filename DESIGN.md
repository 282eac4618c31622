# Design: a Lean 4 model of MiniRust

MiniRust (`/repo`) is an executable operational semantics for Rust, written in "specr lang"
(Rust code embedded in Markdown, `/repo/spec/**/*.md`). The model in `lean/Verif/` transcribes
that code into Lean 4 function by function. Every definition cites the file and lines it models.

## 1. Modelling conventions

* Everything is a total, computable Lean function. A Rust panic (`assert!`, `panic!`, `unwrap`
  on `None`, out-of-range indexing, missing map key) is the explicit error value `Err.panic`;
  `throw_ub!`, `throw_abort!`, `throw_machine_stop!`, `throw_ill_formed!`, `throw_deadlock!`,
  `throw_memory_leak!` are further explicit errors; `None`
  of an `Option`-returning spec function that can also panic is `Err.none`.
  Nothing is silently totalised: no `getD`, `head!`, `get!`.
* `Result`/`NdResult` functions return `Except Err`. Functions on `&mut self` return the new state.
* Nondeterminism (`pick`, `predict` of libspecr) is resolved by an explicit oracle: the caller
  supplies the choice, and the model checks it against the spec's predicate; a choice that
  violates the predicate gives `Err.noBehavior` ("this is not an execution"). Theorems quantify
  over all oracles, hence over all executions.
* Error messages (strings) are dropped.
* `Map<K,V>` is an association list with first-match lookup. `Set<T>` is a duplicate-free list.
  Where the spec iterates over a map, the model iterates over the list, and the theorems
  quantify over all lists, hence over all iteration orders.
* `Size`/`Offset` are `Nat`; `Int` is `Int`; `Align` is a power of two by construction.

## 2. Trusted base

* Lean 4.33.0's kernel.
* Axioms: only `propext`, `Classical.choice`, `Quot.sound` (checked with `#print axioms`; see
  section 6 for the audit command).
* Fidelity of the transcription from specr lang to Lean. The citations make it reviewable.
* libspecr (crate `libspecr`, not part of the repository): `Int` is arbitrary precision,
  `/`, `%` truncate, `>>` rounds towards minus infinity, bit operations are two's complement on
  infinite width, `Int::bring_in_bounds`, `in_bounds`, `Endianness::{encode,decode}`,
  `List`, `Map`, `Set`, `Size`, `Align` behave as documented. Their models are in `Verif/Prelude.lean`.

## 3. What is modelled

| Part of `/repo` | Lean module |
|---|---|
| `spec/prelude/*.md`, libspecr | `Verif/Prelude.lean` |
| `spec/lang/{types,values}.md`, `spec/mem/pointer.md` | `Verif/Types.lean` |
| `spec/lang/representation.md`, `spec/lang/prep.md` parts | `Verif/Representation.lean` |
| `spec/lang/syntax.md` | `Verif/Syntax.lean` |
| `spec/lang/well-formed.md` (types, values) | `Verif/WellFormedTypes.lean` |
| `spec/lang/well-formed.md` (programs) | `Verif/WellFormed.lean` |
| enum tagging and discriminators | `Verif/Enums.lean`, `Verif/Representation.lean` |
| `spec/mem/{interface,basic,intptrcast,concurrent}.md` | `Verif/Memory.lean` |
| `spec/mem/tree_borrows/*.md` | `Verif/TreeBorrows.lean` |
| `spec/lang/step/operators.md` | `Verif/Operators.lean` |
| `spec/lang/machine.md`, `spec/mem/atomic` typed accesses, `spec/lang/step/locks.md` | `Verif/Machine.lean` |
| `spec/lang/step/{expressions,statements,terminators,intrinsics}.md` | `Verif/Step.lean` |
| `tooling/minimize/src/chunks.rs` | `Verif/Chunks.lean` |
| `tooling/minimize/src/enums.rs` (rustc's layout data is the input) | `Verif/Enums.lean` |
| `tooling/minimize/src/ty.rs` (rustc's layout data is the input) | `Verif/RsTypes.lean` |
| `tooling/miniutil/src/build/{mod,terminator,statement}.rs` (the function builder) | `Verif/Builder.lean` |
| `tooling/miniutil/src/build/{ty,ty_conv}.rs`, `tooling/miniutil/src/build/global.rs` (types of Rust as an inductive type, global builders) | `Verif/TypeConv.lean` |
| `tooling/miniutil/src/build/mod.rs`, `function.rs` (the program, vtable and trait builders; functions and programs from lists) | `Verif/ProgramBuilder.lean` |
| `tooling/minimize/src/{function,bb}.rs` (the MIR body with translated types, places and rvalues is the input) | `Verif/Mir.lean` |
| `tooling/minimize/src/rvalue.rs`, the functions of `tooling/miniutil/src/build/expr.rs` it uses (types and constants already translated) | `Verif/Rvalue.lean` |
| `tooling/minimize/src/{program,vtable,constant}.rs` (what rustc knows about the crate is the input; the translation of a function is a list of requests and a function of the answers) | `Verif/Crate.lean` |
| `tooling/miniutil/src/{run,mock_write,cli}.rs`, `tooling/minirun/src/main.rs` (the JSON parser is a parameter) | `Verif/Run.lean` |
| `tooling/minimize/src/main.rs` (`main`, `parse_args`; rustc, the printers and the JSON parser are parameters) | `Verif/Minimize.lean` |
| `tooling/miniutil/src/pretty/*.rs` (texts are lists of characters; the loop over composite types has a bound on its iterations, which is shown to be reached) | `Verif/Pretty.lean` |
| `tooling/miniutil/src/build/expr.rs`, `if_` of `tooling/miniutil/src/build/terminator.rs`, `small_program` of `tooling/miniutil/src/build/mod.rs` (functions that only apply a constructor are that constructor) | `Verif/ExprBuilder.lean`, `Verif/Rvalue.lean`, `Verif/Mir.lean` |
| `tooling/miniutil/src/build/ty.rs` (unions, enums; functions that only apply a constructor are that constructor) | `Verif/TyBuilder.lean`, `Verif/TypeConv.lean`, `Verif/Enums.lean` |
| `tooling/minitest/src/lib.rs` (messages of undefined behavior only as far as data races are told apart) | `Verif/Minitest.lean` |
| `tooling/minimize/intrinsics/src/lib.rs` (threads and locks; each critical section without blocking operations is one step, the code of the threads is arbitrary) | `Verif/Native.lean` |

`Verif/Spec/*` holds the vocabulary of the property statements, `Verif/Props/*` the property theorems with
their concrete cases, `Verif/Lemmas/*` helper lemmas, `Verif/Examples/*` concrete programs and a runner for
them. The theorems about machine steps hold for every memory model unless they say otherwise.

Not modelled: the rest of `tooling/` (the driver of rustc and the setup of the sysroot, JSON through serde; they depend on rustc internals or are I/O only), the specr transpiler, the garbage collector of libspecr.

## 4. Properties, and how each is modelled and proved

* C01-C05 representation laws: `encode`, `decode`, `check_value`, `check_wf` for all types;
  induction on types. Enums need a coherence hypothesis (tagger and discriminator agree), because
  `check_wf` does not imply it (see section 5); theorems carry `_partial` and the failure of the
  unrestricted law is proved by a witness.
* C06: induction on values and lists.
* C07: induction on the number of bytes.
* C08: case analysis on `decode_ptr`/`encode_ptr` over arbitrary byte lists.
* C09: composition of C02/C03 with load/store of the memory model.
* C10-C13: arithmetic over unbounded `Int`, stated outright against mathematical congruence,
  truncating division and comparison.
* C14, C15: induction over types and layout descriptions.
* C16-C20: a `step` relation/function over a list of operations with arbitrary arguments; invariants
  by induction over the operation list.
* C21: induction over operation histories.
* C22: decision logic of `races`/`check_data_races`, then a statement over pairs of consecutive machine steps.
* C23-C25: invariant of the full machine by induction over steps with an arbitrary schedule oracle.
* C26-C30: state machine by case analysis, trees by induction, histories by induction.
* C31: simulation between Tree Borrows memory and basic memory over operation lists.
* C32: induction over cell lists.
* C33: induction over discriminator trees; permutation invariance.
* C34: induction over types; loads and stores of the machine characterised through C43.
* C35, C36, C46, C49: for each instruction, its effect on stack, payloads and storage of locals; then an invariant over
  runs: suspended frames wait at the call that made the frame above, locals and stack allocations correspond one to
  one, and payloads are counted by the kinds of the blocks of the frames (block kinds come from the well-formedness check).
* C37, C59: type preservation. Every expression, statement, terminator and intrinsic is shown not to panic and to give
  values valid at the checked type, in a state with known provenance, placed statics and typed locals (all invariants of
  runs). `Program.Tame` (in `Verif/Spec/Tame.lean`) lists what the checks of the specification miss; each clause has a
  witness of a panic in `Verif/Props/Panics.lean` or is an instance of the same gap. For Tree Borrows (`Verif/Props/TBSoundness.lean`)
  the same proof is run over a memory model that ignores violations (`TBMem.lax`); the triples of C73 then compare it with the
  specification and with the variant that has one more check (`TBMem.guarded`), which differs only where the specification panics.
* C61: loop invariants for the variant loops, then the laws of C02 from the layout guarantees (`Spec/Enums.lean`). Range
  arithmetic shows that tags, the valid range and the invalid ranges never overlap.
* C62: induction over types, with the list of cells as a function of the type. The specification (`Spec/RsTypes.lean`)
  says which bytes are inside an `UnsafeCell` without computing a list. False of arrays and empty cells.
* C63: induction over types; struct, union and enum cases reduce to the checks of `check_wf` (C38, C61). What rustc
  guarantees about layouts is the hypothesis `RsTy.Laid`.
* C38: induction over types: which markers each function sets, and how many it needs; induction over the marker list for
  the scan. Decoding depends only on the bytes a type uses, so copying a union keeps its fields.
* C39, C40: invariant of Tree Borrows memories over histories; case analysis of retagging; the accesses made when a
  protector is released, node by node.
* C55: induction over the allocation loops, then over runs (only stack and heap are ever deallocated).
* C43: induction over types; the validity relation is a separate inductive definition over the memory history.
* C44, C58: decision logic over the memory history; the allocation a pointer belongs to bounds the arithmetic.
* C45, C47: the bytes at a place; decoding a part of the bytes is the part of the decoded value, and writing a part
  changes that part only (induction over field lists and elements). Combined with type soundness (C59).
* C50: as C45 and C47, with the lemma that an encoded tag is read back by the discriminator, wherever tag and data do not
  overlap (coherence, see C02).
* C51: decision logic over the memory history; for the last clause, the history of a step contains operations on the heap
  only if the step executes one of the two intrinsics.
* C52: decision logic over "memory holds value v at type ty", itself a plain load in the same state; success by relating
  atomic to plain accesses in the basic memory model.
* C53: an inclusion of states preserved by every evaluation function; for order independence, evaluation in the basic
  memory model is shown to be blind to the records of accesses.
* C54, C60: decision logic of the intrinsics; for "nothing else does it", a relation "nothing printed or exposed" preserved
  by every other evaluation function; for the round trip, monotonicity of the exposed set along runs (C42).
* C57: an invariant over runs, "all provenance held is in a set closed under allocation", for arbitrary such sets;
  preserved by every evaluation function.
* C41, C42: every step is a short list of memory operations and one control operation; case analysis of the
  errors of each evaluation function, induction over runs.
* C64: a byte only changes by stores; a store through an unrelated reference disables every reference that is not
  interior mutable, and a disabled reference cannot be read through. Repeating a read: the invariant that makes ending a
  call succeed (C30) also makes all other references permit the read, and derived references permit it since none of
  them was written through while protected. The events are those of an arbitrary execution (`TBTrace`).
* C65: structured programs are data (`Code`), with their own step relation that knows nothing of blocks. Building is
  shown to lay the program out in the blocks (`Laid`); runs correspond by simulation in both directions. Totality:
  induction over programs with an invariant of the builder. Users who set blocks by hand (`set_cur_block` on a block of
  their own) are outside the structured fragment; the bodies of closures are programs again.
* C66: what one frame does in a step of the machine is defined from the instruction the machine runs next (`Does`);
  by C35 and C46 each step moves the frame along the control flow graph; induction over runs. With C65 this gives
  runs of the structured program.
* C67: what a MIR body does is defined by small programs for its blocks and their runs (`Todo`, `MirRun`), without blocks
  of MiniRust. The translation is shown to lay these programs out in the blocks of the function, whatever order the
  hash map of blocks has; runs correspond by simulation in both directions. With C66 this holds for activations on
  the machine. False for drops that unwind, panics that must not unwind and panics in cleanup code (witnesses), so
  two theorems are partial.

- C68: the translation of places, operands and rvalues is a function from a small copy of rustc's types to MiniRust expressions. Its
  meaning is what the machine evaluates. The specification of integer operators (`RustInt`) is a relation written from the Rust
  reference, independent of MiniRust's operators; for pointers it is in terms of the history of the memory (`Spans`, `ValidPtr`). Places
  are by induction: what appending one projection does. Built on C10-C13, C44, C45, C50, C58.
- C69: allocations, constants and the context are association lists; `translate_alloc_id` is recursive with fuel. An invariant says which
  allocations are complete and which are in progress; it gives the globals at any time. Termination: each level names one more needed
  allocation. The initial memory follows from C55.
- C70: the main loop is a relation (`Crate.Runs`) that leaves the next function open. The invariant relates the names to an
  inductive `Needed` relation that does not mention the context; completeness by induction on `Needed`, termination by counting.
- C71, C72: one simulation for both (`Verif/Spec/Refine.lean`): `StateBelow s t` says that `t` (basic model) is `s` (any model on
  top of the basic memory) where bytes may be uninitialized and provenance may be absent in `s`. Every evaluation function,
  statement, terminator, intrinsic and the construction of the initial machine preserve it (`Lemmas/Refine*.lean`). Function and
  vtable pointers are found by equality of pointers; this is monotone because these pointers always carry the provenance with
  which their allocation started. C71 instantiates `s` with Tree Borrows, C72 with the basic model.
- C73: an invariant over all steps (`Lemmas/TBKnown*.lean`): the provenance in memory, locals, return places, payloads, globals and
  the exposed set denotes nodes, and the memory together with the list of the frames' protectors is a reachable `TBState`.
  Each monadic operation of the machine gets a triple that says which calls end or begin (`Kt pd pd' s x R`). The same triple
  compares three memory models (the specification, one that checks more, one that ignores violations), which C37 uses.

- **C74** Modelled: the conversion of Rust types to MiniRust types in `ty_conv.rs`, with the trait implementations as one recursive
  function over an inductive type of Rust types, the helpers for reference types and for globals. Proved by induction on the type, on
  x86_64: every type that exists in Rust converts without panic; the result is well-formed if the sizes do not overflow; size and
  alignment are the ones of Rust (a small separate table); reference and pointer types are wide exactly for slices; the helpers' masks
  say that no byte is in an `UnsafeCell`; globals have the size and alignment of the type and are zeroed.
- **C75** Modelled: `ProgramBuilder`, `VTableBuilder`, `TraitBuilder`, `function`, `program_with_globals`. Proved by an invariant over all
  histories of a builder: names are never given out twice; the finished program has exactly the functions, globals, traits and vtables
  of the history; every vtable has exactly the methods of its trait; when the builder panics; the program is well-formed if and only if
  the functions are, the vtables have proper sizes and cells, and the start function takes and returns nothing.
- C76: the right-hand side of the simulation for C71 is any *quiet* memory model (`QuietMem`): one whose extra information stays
  as it was at the allocation as long as every access goes through the root and nothing is reborrowed. Tree Borrows is one. The
  simulation is used in both directions (Tree Borrows → basic, basic → Tree Borrows) in lockstep. The condition on programs
  (`Program.AllPtr`) speaks about the types of locals, of dereferenced places and of `&`-expressions only.
- **C77** Every computation of a step is *local* (`Loc`, Lemmas/Foot.lean): it adds to the list of accesses, and its result depends on the
  memory only through the bytes at the addresses it adds as reads. Proved by induction over expressions and by cases over
  statements, terminators and intrinsics, for both memory models; the writes by the memory-relation traversal (`Wrote`). The specification
  (Spec/Footprint.lean) only speaks about two machines that agree on some addresses.
- **C78** From C77: the second of two independent steps behaves before the first one as it does after it, and the first one after the
  second one; the memories agree byte for byte. Steps that allocate, deallocate, spawn, use locks or print are excluded: allocation and
  identifiers are ordered by the machine, and deallocation is not checked for races (finding 15).
- **C79** Modelled: the run loop with a bound on its length, the text that is printed, `str::lines`, the command line. Proved by
  induction over the loop, the arguments and the printed values; the theorems about the Tree Borrows flag combine this with C71 and C76.

- **C80** (partial; `Spec/EndToEnd`, `Props/EndToEnd`) Joins C67 and C70: frames of reachable states execute the start function or what an instance was translated
  to (C46 and C70), and an activation of that follows its MIR (C67). Not more than C67: drops that unwind skip their
  cleanup, and functions that panic without unwinding are excluded (witnesses: C67_drop_unwind_lost, C67_nounwind_unwinds).

- **C81** The native library for threads and locks as a transition system with arbitrary clients. Proved by an invariant over all
  schedules, including spurious wakeups: the history is one that MiniRust allows (`Legal`), so locks exclude each other and
  joins wait.
- **C82** (partial) The full claim, that threads wait only for what they would wait for in MiniRust, is false (finding 16, witnesses:
  C82_lost_wakeup, C82_spawn_blocked). Proved by an invariant for schedules without the first problem and clients without the
  second.
- **C83** (a race is reported under some schedule). `Spec/Races.lean` defines runs of steps that threads make on their own (`LocalRun`), when two steps depend on each other and when the order of two steps is forced (`Before`). The proof moves the steps of the run by swapping adjacent independent ones (C78) until the conflicting ones are adjacent; every swap either succeeds, keeps the accesses and the rest of the run, or reports undefined behaviour. `C83_race_found_partial` needs the second thread to be one that was not synchronised before, because of finding 2.
- **C84** (choices made later do not matter). `Lemmas/Choices.lean` shows of every operation of the interpreter, up to `step` and `Machine.new`, that it uses a prefix of the choices and does the same whatever follows it; C84 states this of executions (`C84_state`, `C84_reachable`) and of `run` (`C84_run`, `C84_more`). C83 uses it to show that the racing schedule is an execution of the program.
- **C85** (the command line of minimize). Decision logic: induction over the arguments gives an exact characterisation of what `parse_args` accepts and of the configuration (`C85_flags`); the arguments that minimize adds are never flags, so `main` reduces to it. `C85_run` and `C85_pipeline` then follow from C79.
- **C86** (the dump of a program). `Spec/Pretty.lean` gives the text of every construct for a fixed list of names of types, without a table, and defines which composite types a program uses. `Lemmas/Pretty.lean` shows of every function of the printer which types it looks up and that its text is the specified one for every table that extends its own; the loop over the table ends because definitions refer only to smaller types (induction on the size of types and on the number of types of this size).
- **C87** (names of blocks and unused code). `Spec/Recode.lean` defines when a program has the code of another one on a set of blocks, up to names. `Lemmas/Recode*.lean` show, operation by operation, that the two programs stay in related states as long as the first one stays in these blocks; well-formedness is shown to be invariant under renaming. That control stays in the blocks reachable in the graph follows from C35.
- **C88** (jumping past empty blocks). `Spec/Bypass.lean` defines the new program and when blocks may be passed by. `Lemmas/Bypass.lean` runs both programs side by side with the relation of C87: if the scheduled thread is in an empty block only the original program makes a step. For data races the thread that races leaves the empty block before the step that it races with; it could run then since it was already synchronized or already enabled (C22), and its stack was the same (C35).
- **C89** (starting a program). Each stage of `Machine::new` is shown to fail only by a rejected choice; together with C37 and C41 nothing else is left. The two conditions that the check lacks are a hypothesis, with witnesses that it is needed.
- **C90** (the assertions of tests). `Spec/Minitest.lean` defines data races of executions in terms of steps and accesses, without the check of the interpreter, and how executions end. Refinement: each helper of minitest passes, fails or answers exactly as the definition says of its attempts. `assert_ub_expr` is reduced to the program it builds, and its undefined behavior to that of its two statements.
- **C91** (programs without loops and recursion end). `Spec/Termination.lean` says what a loop and a recursion are: cycles of the jumps between reachable blocks and of the calls between functions. Invariant with a measure: each thread is charged for the statements and blocks that its frames can still run, and for the frames those blocks can still push; the charge of a function is defined by recursion on its rank in the graph of calls, that of a block on its rank in the graph of jumps. Every step lowers the sum over the threads, also when it spawns, unwinds or wakes another thread, and the start is below a bound that does not depend on the choices. `C91_no_while`: a function that is built without `while_` has no loops, since a cycle would give runs longer than any run of the structured program (C65). `C91_loop` runs a program with a loop for any number of steps.
- **C92** (the functions that build expressions). Equations: for every state and all operands, evaluating what a function builds gives the value its name promises, in terms of the booleans, integers and pointers that the operands evaluate to, and the state after them. Decision logic: the helpers are well-formed with the right type, misuse panics, a small program is well-formed exactly if its locals and statements are.
- **C93** (unions and enums of miniutil). Round-trip law: any bytes survive being loaded and stored at a type built with `union_ty`. Enums with a tag, built from the helpers as tests do, are well-formed and coherent (as in C02), so the round-trip laws apply, and the discriminator inverts the taggers. Decision logic for well-formedness of unions and for types that are no integer types.

## 5. Findings (places where code and English claim disagree)

Each line is a place where the code, and the faithful model of it, does not have a property one would expect.
"(witness: T)" names the theorem that proves it.

1. `check_wf` accepts enum types whose tagger and discriminator disagree, so encoding a valid value and decoding
   it can give another value or none (witness: C02_fails_for_incoherent_enum, C03_fails_for_incoherent_enum).
2. `synchronized_threads` is never reset (machine.md:361, terminators.md:315, locks.md:88, intrinsics.md:295):
   a thread that was ever spawned or woken is exempt from race detection for ever (witness: C22_race_missed).
3. `Access::races` reports a race for an empty access strictly inside the other one (concurrent.md:163-174)
   (witness: C22_empty_access_races).
4. The freeze mask of an unsized tuple omits the padding (witness: C32_fails_for_unsized_tuples).
5. Reborrowing a zero-sized pointee below its allocation panics (tree_borrows/memory.md:93)
   (witness: C30_retag_panics_below_allocation).
6. A thread that acquires a lock it holds blocks on itself (locks.md); not a contradiction, but C24 is stated
   accordingly.
7. `Function::check_wf` does not check that the start block exists or that it is a regular block
   (well-formed.md, function check). The invariants of C36 and C46 therefore assume it (`StartsOk`)
   (witness: C37_missing_start_panics).
8. Panics of the interpreter on programs that `check_wf` accepts:
   * `AtomicFetchAndOp` does not wrap its result (intrinsics.md:581-585) (witness: C37_fetch_and_op_panics).
   * Pointer constants are accepted at any pointer type, also references (witness: C37_constant_panics).
   * Returning a reference to a local of the callee (terminators.md:333-361) (witness: C37_dangling_return_panics).
   * Ids of threads and locks are stored at any integer type (witness: C37_lock_ids_panic).
   * Functions named in vtables need not exist (witness: C37_method_panics).
   * `PointerWithExposedProvenance` accepts integers that are no addresses (witness: C37_exposed_panics).
   * `Allocate` and `GetUnwindPayload` may return a reference (witness: C37_allocate_panics).
   * `PtrOffset` on references gives references that are not valid (witness: C37_offset_panics).
   * `Type::check_wf` computes the layout of the element type of an array before checking it (witness: C37_check_panics).
   * Making a zero-sized reference from a pointer in front of its allocation, which Rust allows, panics under Tree Borrows
     (mem/tree_borrows/memory.md:93) (witness: C37_tb_retag_panics).
   * Not proved by witness: target types of transmutes, integer casts and wide pointer construction and the discriminant
     type of enums are not checked; `CountOnes` of integers of 2^29 bytes or more; `ComputeSize` and `ComputeAlign` whose
     result does not fit `usize`.
9. `mark_used_bytes` marks one word for every pointer (minimize/src/chunks.rs:48), so a union that holds a wide pointer
   loses its metadata when it is copied (witness: C38_wide_pointer_lost).
10. `translate_enum` invents tags for uninhabited variants that rustc leaves out of the niche, and they can clash with the
    data of the untagged variant: `enum E { Never(!), A(bool), B }` makes `A(false)` invalid (witness:
    C61_absent_variant_breaks_data). It also reads discriminants at the tag type, so a signed niche with more than 127
    variants loses variants (witness: C61_signed_niche_loses_variant).
11. `cells_in_sized_ty` walks over `vec![0, count]` instead of `0..count` (minimize/src/ty.rs), so `[Cell<u8>; 3]` has a
    byte in an `UnsafeCell` that is not reported, and `[Cell<u8>; 1]` is not accepted by MiniRust (witnesses:
    C62_array_cell_missing, C62_array_ill_formed). Empty `UnsafeCell`s and empty fields at the start of an earlier field
    are rejected (witnesses: C62_empty_cell_ill_formed, C63_empty_field_ill_formed).
12. `translate_terminator` drops the unwind action of `Drop` (minimize/src/bb.rs:222-258), so that no cleanup code can run when
    a destructor unwinds (witness: C67_drop_unwind_lost). Functions that panic without unwinding, such as
    `panic_nounwind`, start to unwind (witness: C67_nounwind_unwinds). An `assert` or panic in a cleanup block becomes
    `StartUnwind` in a cleanup block, which `check_wf` rejects (witness: C67_cleanup_panic_ill_formed).
13. `arith_offset` multiplies with `MulUnchecked` (minimize/src/bb.rs:492-523), so that `wrapping_offset` with an overflowing distance
    is undefined behavior although Rust defines it (C68_arith_offset_overflow). `ptr_offset_from` does not require the pointers to belong to
    the same allocation (witness: C68_ptr_offset_from_missed_ub). `Len` of an array does not evaluate the place, and `[x; 0]` does not
    evaluate `x` (witness: C68_missed_ub).
14. The vtable of a type for a trait with a supertrait has the supertrait's methods, but the trait that is generated (vtable.rs:108-143)
    has only the own ones, so that the program is ill-formed (C70_supertrait_rejected). A static that holds a pointer past the end of another
    static makes the program ill-formed, although Rust allows it (C70_past_end_rejected). The start function passes a unit place as the
    return place of `main` whatever its return type is, so that a `main` that returns an `ExitCode` is undefined behavior at the
    call (C70_main_result_ub).
15. Deallocation, by `deallocate` or by `StorageDead`, is not reported to the data race detector (concurrent.md:58-61): a thread that frees
    memory right after another thread, unsynchronised with it, writes it has no data race, although the other order of the two steps is
    undefined behavior (witness: C78_deallocation_is_not_checked).
16. The native library for the intrinsics (`tooling/minimize/intrinsics/src/lib.rs`) can deadlock where MiniRust does not. `acquire`
    drops `LOCKS` before it enters the thread into `WAITING` (lines 103-104); a `release` in between wakes up nobody, and the thread
    then parks although the lock is open (witness: C82_lost_wakeup). `join` keeps `JOIN_HANDLES` locked while it waits (lines 65-67), so
    a thread that is being joined can neither spawn nor join (witness: C82_spawn_blocked).
17. The pretty printer panics on well-formed programs that take an address at the type of a box (expr.rs:138-140), or transmute to a type
    that is not well-formed (witness: C86_unprintable). The dump does not show the types of constants, so that programs with the same dump
    can behave differently (witness: C86_ambiguous). Smaller defects, visible in the texts of `Spec/Pretty.lean`: `!` and `count_ones` lack
    the closing parenthesis (expr.rs:145-147), and `StopUnwind` is printed as `start unwind` (function.rs:229).
18. `check_wf` accepts start functions that return any type of size 0 and alignment 1 (well-formed.md:892-933), for example an empty array, but
    `new_thread` (machine.md:310) passes the unit type as the return type of the caller, so that starting such a program is undefined behavior
    (witness: C89_start_ub). It does not check the sizes of globals either (witness: C89_huge_ub).

## 6. Audit

`grep -rnE 'sorry|admit|^axiom |native_decide|bv_decide|implemented_by|unsafe |maxHeartbeats 0' lean/Verif` must be empty.
