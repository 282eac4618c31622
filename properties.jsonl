{"id": "C01", "title": "Encoding has the size of the type", "statement": "Encoding a well-formed value at a sized, well-formed type never panics and yields exactly as many abstract bytes as the type's layout size; a byte list of any other length is never decoded to a value.", "quantifier": "every sized well-formed type (arbitrary nesting, field counts, array lengths), every value that is well-formed at it, every byte list", "why_tests_cant": "types and values are unboundedly nested; tests encode a few literals", "anchors": ["spec/lang/representation.md: Type::encode, Type::decode", "spec/lang/types.md: Type::layout"]}
{"id": "C02", "title": "Decode after encode is the identity", "statement": "For every well-formed value v of a well-formed type, decode(encode(v)) = Some(v). (False of the code for enums whose tagger is not inverted by their discriminator, although check_wf accepts them; proved for every type whose enums are coherent, and the failure is proved by witness.)", "quantifier": "every well-formed type, every value well-formed at that type", "why_tests_cant": "needs induction over types; round trip tests sample values", "anchors": ["spec/lang/representation.md: Generic properties (lines 680-700)", "spec/lang/representation.md: Type::encode/decode", "spec/lang/well-formed.md: Type::check_wf"]}
{"id": "C03", "title": "Encode after decode loses only information", "statement": "If decode(bytes) = Some(v) then encode(v) is defined and is less defined than or equal to bytes (byte for byte: uninit is below everything, dropping provenance goes down). (False for enums whose discriminator accepts tags the tagger does not write; proved for coherent types, failure proved by witness.)", "quantifier": "every well-formed type, every byte list of any content and provenance", "why_tests_cant": "ranges over all byte strings including mixed provenance and uninit", "anchors": ["spec/lang/representation.md: Generic properties", "spec/lang/representation.md: DefinedRelation"]}
{"id": "C04", "title": "Encoding is monotone in the definedness order", "statement": "If v1 <= v2 are well-formed values of a well-formed type then encode(v1) <= encode(v2).", "quantifier": "every well-formed type and every pair of related values", "why_tests_cant": "relational property over pairs of unbounded values", "anchors": ["spec/lang/representation.md: Generic properties", "spec/lang/representation.md: impl DefinedRelation for Value"]}
{"id": "C05", "title": "Decoding is monotone in the definedness order", "statement": "If bytes1 <= bytes2 then decode(bytes1) <= decode(bytes2), where None is below every Some: adding initialisation or provenance never turns a valid value into an invalid one, nor into a different one beyond being more defined.", "quantifier": "every well-formed type and every pair of related byte lists", "why_tests_cant": "relational property over all pairs of byte strings", "anchors": ["spec/lang/representation.md: Generic properties", "spec/lang/representation.md: Type::decode"]}
{"id": "C06", "title": "The definedness relation is a partial order", "statement": "le_defined on abstract bytes, pointers, values and byte lists is reflexive, transitive and antisymmetric.", "quantifier": "all bytes, pointers, values, lists", "why_tests_cant": "unbounded nesting of values and lists", "anchors": ["spec/lang/representation.md: trait DefinedRelation and its impls"]}
{"id": "C07", "title": "Integer byte encoding is a bijection with in-range integers", "statement": "For every byte size and endianness, encoding an integer succeeds exactly when it is in range for the size and signedness, decode inverts encode, encode inverts decode, and the big-endian bytes are the reverse of the little-endian ones.", "quantifier": "every integer, every size, both endiannesses, both signednesses", "why_tests_cant": "infinite domain", "anchors": ["spec/lang/representation.md: impl Type::Int encode/decode", "spec/prelude/target.md: ENDIANNESS"]}
{"id": "C08", "title": "Pointer provenance survives only intact", "statement": "Decoding a pointer from bytes yields provenance p exactly when all PTR_SIZE bytes are initialised and byte i carries fragment i of p; a pointer stored and loaded back has its address and provenance unchanged; if any fragment is missing, permuted or from another provenance then the decoded pointer has no provenance.", "quantifier": "every byte list and pointer", "why_tests_cant": "all permutations and mixtures of fragments", "anchors": ["spec/lang/representation.md: decode_ptr, encode_ptr"]}
{"id": "C09", "title": "Copying a value through memory is redundant-assignment safe", "statement": "Storing at a type what was just loaded at that type from the same place changes memory only to something less or equally defined, and loading again gives the same value; so removing a self-assignment is a correct optimisation in the definedness order.", "quantifier": "every coherent well-formed type, memory state, pointer", "why_tests_cant": "all memory contents", "anchors": ["spec/lang/representation.md: Generic properties (self assignment)", "spec/lang/representation.md: typed_load, typed_store"]}
{"id": "C10", "title": "Wrapping arithmetic is exact modulo 2^bits", "statement": "Add/Sub/Mul/Neg/Not and integer casts return the unique integer in range of the result type that is congruent to the exact mathematical result modulo 2^bits, and never panic or are UB.", "quantifier": "all operand values, all integer types", "why_tests_cant": "infinite family of types and 2^n operands", "anchors": ["spec/lang/step/operators.md: eval_int_bin_op, eval_un_op, eval_bin_op, eval_cast_op"]}
{"id": "C11", "title": "Unchecked arithmetic, division and shifts are UB exactly when documented", "statement": "AddUnchecked/SubUnchecked/MulUnchecked/ShlUnchecked/ShrUnchecked succeed exactly when the exact result is in range (shift amount within width) and then agree with the wrapping ones; Div/Rem are UB exactly on zero divisors and on MIN/-1, and otherwise round towards zero with the remainder taking the dividend's sign; DivExact is UB exactly when the remainder is non-zero or division is.", "quantifier": "all operands of all integer types", "why_tests_cant": "infinite domain", "anchors": ["spec/lang/step/operators.md: eval_int_bin_op"]}
{"id": "C12", "title": "Overflow flags are exact", "statement": "The with-overflow operations return a pair whose first component is the wrapped result and whose flag is true exactly when the mathematical result does not fit the type.", "quantifier": "all operands of all integer types", "why_tests_cant": "infinite domain", "anchors": ["spec/lang/step/operators.md: eval_int_bin_op_with_overflow"]}
{"id": "C13", "title": "Comparison operators implement a total order", "statement": "On integers, booleans, and pointers, Lt/Le/Gt/Ge/Eq/Ne and three-way Cmp agree with one total preorder; Cmp yields -1/0/1 accordingly; pointer comparison looks at address and metadata and never at provenance.", "quantifier": "all operand values", "why_tests_cant": "infinite domain", "anchors": ["spec/lang/step/operators.md: eval_rel_op, Cmp; compare_ptr"]}
{"id": "C14", "title": "Layouts are consistent", "statement": "For a well-formed type the computed layout is representable: sizes are valid for the target, sized types have size a multiple of their alignment, unsized tuples place the tail at an aligned offset after the head, size computed from metadata is a multiple of the alignment and large enough for head and tail, and the metadata kind of pointers to the type matches its layout.", "quantifier": "all well-formed types, all metadata values", "why_tests_cant": "unbounded nesting", "anchors": ["spec/lang/types.md: Type::layout, Type::meta_kind", "spec/mem/pointer.md: LayoutStrategy", "spec/lang/machine.md: compute_size/compute_align, TupleHeadLayout::full_size_and_align"]}
{"id": "C15", "title": "ABI compatibility is an equivalence that implies equal size and alignment", "statement": "check_abi_compatibility is symmetric, transitive, reflexive on sized types, and two ABI compatible sized types have the same size and alignment.", "quantifier": "all pairs and triples of types", "why_tests_cant": "unbounded nesting of types", "anchors": ["spec/lang/step/terminators.md: check_abi_compatibility"]}
{"id": "C16", "title": "Live allocations are always disjoint, aligned and in the address space", "statement": "After any history of memory operations from the empty memory, live allocations of non-zero size do not overlap each other, no two live allocations share an address-range point, every address is positive and a multiple of the requested alignment, and the end of each allocation fits in the address space.", "quantifier": "every finite history of allocate/deallocate/store/load with any arguments and any allocator choice", "why_tests_cant": "all histories and nondeterministic address choices", "anchors": ["spec/mem/basic.md: allocate, deallocate, store, load, overlaps"]}
{"id": "C17", "title": "A load returns what was last stored, and stores do not disturb other memory", "statement": "In any reachable memory, after a successful store a load through the same pointer returns exactly the stored bytes, and any load of a range that does not overlap the stored range, or of another allocation, returns the same as before. Freshly allocated memory is uninitialised.", "quantifier": "every reachable memory, pointer, byte list, and disjoint range", "why_tests_cant": "all memory histories", "anchors": ["spec/mem/basic.md: store, load, allocate"]}
{"id": "C18", "title": "Access checks are exact", "statement": "A load or store of n bytes succeeds exactly when the pointer is aligned and either n = 0 or the pointer carries the provenance of a live allocation that contains the n bytes at its address; otherwise it is UB, never a panic and never a silent success.", "quantifier": "every reachable memory, pointer with or without provenance, size", "why_tests_cant": "all states and pointers", "anchors": ["spec/mem/basic.md: check_ptr, load, store"]}
{"id": "C19", "title": "Deallocation is exact and final", "statement": "deallocate succeeds exactly when the pointer carries provenance of a live allocation of that kind, points to its start, and size and align match; afterwards, in every continuation of the history, every non-zero-size access or second deallocation through any pointer with that provenance is UB (no use after free, no double free).", "quantifier": "every history, and every continuation of it", "why_tests_cant": "quantifies over all future histories", "anchors": ["spec/mem/basic.md: deallocate, check_ptr"]}
{"id": "C20", "title": "Leak check reports exactly the live heap allocations", "statement": "At program end, a memory leak is reported exactly when some heap allocation was allocated and not deallocated in the history.", "quantifier": "every history", "why_tests_cant": "all histories", "anchors": ["spec/mem/basic.md: leak_check", "spec/lang/machine.md: leak check at program exit"]}
{"id": "C21", "title": "Pointers from integers only get exposed provenance", "statement": "int2ptr returns a pointer with the requested address whose provenance is either none or one that was exposed by an earlier ptr2int in the history.", "quantifier": "every history of expose and cast operations and every angelic choice", "why_tests_cant": "all histories", "anchors": ["spec/mem/intptrcast.md: IntPtrCast"]}
{"id": "C22", "title": "Data races are detected exactly between unsynchronised adjacent conflicting accesses", "statement": "A step is UB for a data race exactly when the previous step was by another thread, not synchronised with this one by that step, and the two steps made overlapping accesses, at least one a write and not both atomic. (As coded, the set of synchronised threads is never reset, so a thread that was ever spawned or woken is exempt for ever; the failure is proved by witness and the detection is proved relative to the recorded set.)", "quantifier": "every pair of steps of every execution of every program", "why_tests_cant": "all schedules", "anchors": ["spec/mem/concurrent.md: check_data_races, Access::races", "spec/lang/machine.md: reset_data_race_tracking, synchronized_threads"]}
{"id": "C23", "title": "Locks give mutual exclusion under every schedule", "statement": "In every reachable machine state each lock has at most one owner; only the owner can release it, release by anyone else is UB, and a thread whose acquire completed is the owner until it releases.", "quantifier": "every program, schedule and nondeterministic choice", "why_tests_cant": "all interleavings", "anchors": ["spec/lang/step/locks.md: lock_acquire, lock_release"]}
{"id": "C24", "title": "No lost wakeups and no spurious ones", "statement": "In every reachable state a thread is blocked on a lock only while that lock is held by an existing thread, and blocked on a join only while the joined thread exists and has not terminated; releasing a lock with waiters hands it to exactly one of them, which becomes enabled, and leaves the others blocked, and any waiter can be chosen; nothing else unblocks a thread waiting for a lock; a thread blocked on a join is woken exactly when the joined thread terminates.", "quantifier": "every program and schedule", "why_tests_cant": "all interleavings", "anchors": ["spec/lang/step/locks.md", "spec/lang/step/terminators.md: terminate_active_thread", "spec/lang/step/intrinsics.md: join"]}
{"id": "C25", "title": "Deadlock is reported exactly when no thread can run", "statement": "A step reports deadlock exactly when no thread is enabled; only enabled threads are scheduled; terminated threads are never scheduled again and stay terminated.", "quantifier": "every program, schedule", "why_tests_cant": "all interleavings", "anchors": ["spec/lang/machine.md: Machine::step"]}
{"id": "C26", "title": "Tree Borrows: a permission only ever loses rights", "statement": "For every permission and every sequence of accesses, once a kind of access through a reference is forbidden (UB) it stays forbidden; Disabled never recovers; in particular the set of allowed future access sequences shrinks along every transition.", "quantifier": "every permission state and every finite access sequence", "why_tests_cant": "all sequences of accesses", "anchors": ["spec/mem/tree_borrows/state_machine.md", "spec/mem/tree_borrows/state_machine_unprotected.md", "spec/mem/tree_borrows/state_machine_protected.md"]}
{"id": "C27", "title": "Tree Borrows: write access invalidates every conflicting reference", "statement": "After a successful write through a reference, a later read or write through any reference that is not one of its ancestors or itself and that is neither an interior mutable location nor a not-yet-written interior mutable reservation, at any overlapping location, is UB.", "quantifier": "every tree, every location, every pair of references, and any accesses in between", "why_tests_cant": "all trees and histories", "anchors": ["spec/mem/tree_borrows/tree.md: access", "spec/mem/tree_borrows/memory.md: load/store"]}
{"id": "C28", "title": "Tree Borrows: protected references cannot be invalidated during the call", "statement": "While a reference is protected, a foreign write to a location read through it, and a foreign read or write to a location written through it, are UB (unless the location is interior mutable); so is deallocating, through any pointer, an allocation of which a byte was accessed through a strongly protected reference. Being passed to a function counts as a read of the whole pointee.", "quantifier": "every tree and every sequence of accesses while the protector is active", "why_tests_cant": "all histories", "anchors": ["spec/mem/tree_borrows/state_machine_protected.md", "spec/mem/tree_borrows/tree.md: contains_strong_protector", "spec/mem/tree_borrows/memory.md: deallocate"]}
{"id": "C29", "title": "Tree Borrows: read-only accesses commute", "statement": "Reads through any two references in either order leave the same tree and agree on UB, and repeating an access changes nothing.", "quantifier": "every tree and every pair of reads", "why_tests_cant": "all trees", "anchors": ["spec/mem/tree_borrows/tree.md", "spec/mem/tree_borrows/state_machine.md"]}
{"id": "C30", "title": "Tree Borrows: structural invariant", "statement": "In every reachable Tree Borrows memory every node of every tree tracks exactly one permission per byte of the allocation, a node of a live allocation is protected exactly while a call in progress protects it, each protector belongs to one call, the pointers handed out stay valid for ever, and no memory operation through valid pointers panics. (One panic exists in the code: a zero-sized reborrow below its allocation; proved by witness.)", "quantifier": "every history of memory operations, reborrows and frame exits", "why_tests_cant": "all histories", "anchors": ["spec/mem/tree_borrows/memory.md", "spec/mem/tree_borrows/tree.md"]}
{"id": "C31", "title": "Tree Borrows only adds undefined behaviour", "statement": "Every history of memory operations that is defined under Tree Borrows returns, operation by operation, the same bytes and addresses under the basic memory model with the same allocator choices.", "quantifier": "every history", "why_tests_cant": "refinement between two stateful machines over all histories", "anchors": ["spec/mem/tree_borrows/memory.md", "spec/mem/basic.md"]}
{"id": "C32", "title": "The interior-mutability mask of a pointee is exact", "statement": "For a sized or slice pointee, the freeze mask has exactly one entry per byte of the pointee and marks a byte as frozen exactly when it lies outside every UnsafeCell range. (For unsized tuples the mask is shorter than the pointee when padding precedes or follows the tail; proved by witness.)", "quantifier": "every pointee description and every metadata value", "why_tests_cant": "all layouts and lengths", "anchors": ["spec/mem/tree_borrows/reborrow_settings.md: UnsafeCellStrategy::freeze_mask, ReborrowSettings"]}
{"id": "C33", "title": "Enum discriminants are well-defined", "statement": "For a well-formed enum type the computed discriminant is an existing variant, does not depend on the iteration order of the discriminator's branches, and does not depend on bytes outside the tag bytes it branches on.", "quantifier": "every well-formed discriminator tree and every byte list", "why_tests_cant": "all trees and byte lists", "anchors": ["spec/lang/representation.md: decode_discriminant, encode_discriminant", "spec/lang/well-formed.md: Discriminator::check_wf"]}
{"id": "C34", "title": "Loaded values are well-formed", "statement": "Every value obtained by decoding bytes passes the type's validity check wherever decoding is defined, and typed stores of well-formed values never panic; a validity-violating load is UB.", "quantifier": "every well-formed type, memory state and byte content", "why_tests_cant": "all types and contents", "anchors": ["spec/lang/machine.md: typed_load, typed_store, check_value", "spec/lang/representation.md"]}
{"id": "C35", "title": "Calls and returns are disciplined", "statement": "A step changes only the stack of the thread that runs, and only as its instruction says: a call pushes exactly one frame, at the start of the called function, with exactly its return local and arguments live, and leaves the caller at the call; a return pops exactly that frame and moves the caller to the block named in its call, otherwise unchanged. The callee has the calling convention and the number of arguments of the call and ABI-compatible types, the storage of each of its arguments contains the encoding of the value passed, and after a return the place named in the call contains the value the callee's return local held. Every frame below another one waits at a call; a thread has terminated exactly if it has no frames.", "quantifier": "every program, call depth, reachable state and schedule, for every memory model built on the basic one", "why_tests_cant": "unbounded call depth and all states", "anchors": ["spec/lang/step/terminators.md: Call, Return, create_frame", "spec/lang/step/statements.md: StorageLive/StorageDead"]}
{"id": "C36", "title": "Unwinding is disciplined", "statement": "StartUnwind makes its operand the innermost pending payload and continues at the unwind block; resuming continues at the unwind block of the caller's call, and is UB if there is none or no caller. A thread has exactly one pending payload for each of its frames in a cleanup or catch block (and at least two for each in a terminate block), none when all frames are in regular blocks. So stopping to unwind and asking for the payload always succeed where the checks allow unwinding, and give the payload provided most recently and not yet dropped.", "quantifier": "every well-formed program whose functions start at a regular block, every reachable state", "why_tests_cant": "all call stacks, nested unwinding and block graphs", "anchors": ["spec/lang/step/terminators.md: StartUnwind, StopUnwind, ResumeUnwind", "spec/lang/step/intrinsics.md: GetUnwindPayload", "spec/lang/well-formed.md: block kinds"]}
{"id": "C37", "title": "Well-formed programs never make the interpreter panic", "statement": "Neither creating the machine for a program accepted by check_wf nor any step of it panics the interpreter. (Steps: false in several places, each proved by witness: overflowing atomic fetch-and-add, missing start block, constants or intrinsic results not valid at their type, returning a reference to a local, pointer arithmetic on references, more locks than ids, vtable methods that do not exist, and the check itself. Under Tree Borrows also: making a zero-sized reference from a pointer in front of its allocation. Proved for all programs that stay clear of these: with the basic memory model no step panics, and with Tree Borrows the zero-sized reference is the only cause.)", "quantifier": "every well-formed program, every choice and every reachable state", "why_tests_cant": "all programs and executions", "anchors": ["spec/lang/well-formed.md", "spec/lang/step/terminators.md", "spec/lang/machine.md: Machine::new, Machine::step"]}
{"id": "C38", "title": "Union chunks cover exactly the data bytes", "statement": "When Rust unions are translated, the chunks can be computed for all fields that fit the union and give a well-formed union type. The chunks are sorted, non-empty, inside the union, and separated by at least one byte outside all chunks. Together they contain exactly the bytes some field uses as data, so that copying a union value keeps the value of every field. (For wide pointers the code only marks the first word, so their metadata is lost; proved by witness.)", "quantifier": "every list of fields of every type that fits the union, every content of the union", "why_tests_cant": "unbounded nesting of types", "anchors": ["tooling/minimize/src/chunks.rs: calc_chunks, mark_used_bytes, mark_size, mark_discriminator"]}
{"id": "C39", "title": "Ending a call never fails under Tree Borrows, and uses the protected references a last time", "statement": "In every reachable Tree Borrows memory, ending any call in progress succeeds: it is never UB and never panics, and afterwards none of the references the call protected is protected any more as far as their memory is live. For each byte of a protected reference, the end of the call acts for all other references (except those derived from it) like a last write if the byte was written through it, a last read if it was only read, and nothing otherwise; so references unrelated to it cannot be used any more at bytes that were written during the call.", "quantifier": "every history of memory operations, reborrows, calls and returns, and every call in progress", "why_tests_cant": "the implicit writes performed when a protector is released could hit a conflicting permission after some long interleaving of other accesses; only an invariant over all histories rules it out", "anchors": ["spec/mem/tree_borrows/memory.md: release_protectors, end_call", "spec/mem/tree_borrows/tree.md", "spec/mem/tree_borrows/state_machine.md"]}
{"id": "C40", "title": "Retagging creates a fresh, correctly restricted child reference", "statement": "Retagging a reference or box with provenance yields a pointer with the same address and metadata whose provenance is a new child of the old one; the child is protected as its pointer type and position (function entry or not) demand; each byte of the pointee gets the documented initial permission, after a read if that permission asks for one, each byte outside the lazily initialised one. Raw pointers and references to non-Unpin types are returned unchanged. A successful retag of a non-empty pointee implies that its memory is live. Evaluating expressions protects no reference.", "quantifier": "every reachable memory, pointer, pointer type and pointee description", "why_tests_cant": "ranges over all trees, pointer types, cell layouts and memory contents", "anchors": ["spec/mem/tree_borrows/memory.md: reborrow, retag_ptr", "spec/mem/tree_borrows/reborrow_settings.md"]}
{"id": "C41", "title": "Executions end for the reason they report", "statement": "A run stops normally only when an enabled thread reaches Exit with every heap allocation freed; it reports a memory leak only at an Exit with a heap allocation left, Abort only at an abort, and deadlock only if no thread can run. An ill-formed program is reported before the first step and never afterwards. Conversely an Exit or Abort that can evaluate its operands always ends the run that way.", "quantifier": "every program, every reachable state and every schedule, for every memory model built on the basic one", "why_tests_cant": "a misreported outcome could occur after any history of allocations in any interleaving of threads", "anchors": ["spec/lang/machine.md: Machine::step, Machine::new", "spec/lang/step/intrinsics.md: Exit, Abort", "spec/mem/basic.md: leak_check"]}
{"id": "C42", "title": "What a run never takes back", "statement": "During a run the program and the addresses of its globals, functions and vtables never change, output already printed stays as it is (stdout and stderr only grow at the end), and provenance once exposed stays exposed.", "quantifier": "every program, every reachable state and every number of further steps under every schedule", "why_tests_cant": "must hold for every step of every program, including steps ending in unwinding, thread switches and calls", "anchors": ["spec/lang/machine.md: Machine", "spec/lang/step/intrinsics.md: PrintStdout, PrintStderr", "spec/mem/intptrcast.md: expose"]}
{"id": "C43", "title": "Value validity is exact", "statement": "In every reachable state a value is accepted at a type exactly if it is valid: integers are in range; pointers have an address in range and the kind of metadata their type asks for; references and boxes moreover are non-null, aligned for and dereferenceable at the size of their pointee (as given by the metadata), which is at most isize::MAX and inhabited; vtable pointers point to a vtable of their trait; compound values are valid componentwise. Loading bytes that represent such a value gives that value, loading anything else is UB.", "quantifier": "every program, reachable state, type, value, pointer and byte content, for every memory model built on the basic one", "why_tests_cant": "all types, all metadata, all memory histories (dereferenceability depends on what was freed before)", "anchors": ["spec/lang/representation.md: check_value, check_ptr, check_ptr_metadata, typed_load", "spec/lang/machine.md: compute_size, compute_align, vtable_from_ptr"]}
{"id": "C44", "title": "Pointer arithmetic is exact", "statement": "Wrapping pointer arithmetic never fails: it gives the address modulo the address space and keeps the provenance. In-bounds arithmetic gives exactly the address at the requested distance, with the same provenance, if it stays inside the live allocation the pointer belongs to (its end included) or the distance is zero, and is UB otherwise. The in-bounds distance of two pointers is the difference of their addresses if both belong to one live allocation (or the addresses are equal) and UB otherwise, also if negative when promised non-negative; it inverts in-bounds arithmetic.", "quantifier": "every pointer with provenance of some allocation of the run, every distance, every memory state after any history, for every memory model built on the basic one", "why_tests_cant": "unboundedly many addresses, distances and allocation histories; boundary cases at both ends of allocations and of the address space", "anchors": ["spec/lang/step/operators.md: ptr_offset_inbounds, ptr_offset_wrapping, PtrOffset, PtrOffsetFrom", "spec/mem/interface.md: signed_dereferenceable"]}
{"id": "C45", "title": "Places are the parts of the memory they project to", "statement": "The place of a field is the place of the whole moved by the offset of the field (for the unsized tail: rounded up to the dynamic alignment), the place of element i of an array or slice is moved by i times the element size and exists only for 0 <= i < length, a variant of an enum is at the place of the enum, and a dereferenced pointer is a place that remembers whether its address is aligned for the dynamic layout of the pointee. Projections leaving the allocation are UB. Loading from a misaligned place is UB. Loading a field, an element or a variant gives the corresponding part of the value loaded from the whole place.", "quantifier": "every well-formed program outside the exceptions listed for C37, every reachable state, every place expression, both memory models", "why_tests_cant": "unboundedly many nestings of projections, types, layouts and memory states", "anchors": ["spec/lang/step/expressions.md: eval_place (Field, Index, Deref, Downcast), eval_value (Load)", "spec/lang/machine.md: place_load", "spec/lang/step/operators.md: ptr_offset_inbounds"]}
{"id": "C46", "title": "Control stays inside the function and follows the terminators", "statement": "Every frame of a running program executes a function of the program and is at a statement or at the terminator of one of its blocks. Statements execute in order; Goto continues at its target, Switch at the case for the value of its operand or at the fallback if there is none; Unreachable is UB.", "quantifier": "every well-formed program whose functions start at a regular block, every reachable state", "why_tests_cant": "all control flow graphs and executions", "anchors": ["spec/lang/step/terminators.md: Goto, Switch, Unreachable", "spec/lang/machine.md: step", "spec/lang/well-formed.md: check_next_block"]}
{"id": "C47", "title": "Assignments write exactly their destination", "statement": "After an assignment, loading from the destination place gives the assigned value. What can be loaded from places that do not overlap the destination is unchanged. Assigning to a field of a tuple or an element of an array changes just that component of the value loaded from the whole place. Assigning to a misaligned place is UB. In the basic memory model the load after the assignment succeeds.", "quantifier": "every successful assignment, every state, every destination and every other place, both memory models", "why_tests_cant": "unboundedly many types, values, memory states and overlapping places", "anchors": ["spec/lang/step/statements.md: Statement::Assign", "spec/lang/machine.md: place_store, place_load", "spec/lang/representation.md: encode, decode"]}
{"id": "C49", "title": "Every live local has its own storage, and nothing else is on the stack", "statement": "Each live local of each frame of each thread has a live stack allocation of its own, with size and alignment of its type; every live stack allocation is the storage of one live local. Return local and arguments are always live. StorageLive gives a local new, uninitialised storage that did not exist before; StorageDead, StorageLive and the end of the function end the storage the local had, for ever.", "quantifier": "every program, every reachable state, every thread, frame and local, for every memory model built on the basic one", "why_tests_cant": "unbounded recursion, threads and loops over storage statements", "anchors": ["spec/lang/step/statements.md: StorageLive, StorageDead", "spec/lang/step/terminators.md: create_frame, Return, ResumeUnwind"]}
{"id": "C50", "title": "Discriminants, validation and de-initialization act on the bytes of their place", "statement": "Reading the discriminant of an enum that can be loaded gives the discriminant of the loaded value. After setting the discriminant d of an enum, loading it gives variant d with the data that could be loaded at that variant before, and reading the discriminant gives d; what can be loaded from places that do not overlap the tag is unchanged. After de-initializing a place, no integer, boolean or pointer can be loaded from a place that shares a byte with it, and what can be loaded elsewhere is unchanged. Mentioning a place only evaluates it. Validation is UB exactly when the load is, and in the basic memory model changes nothing that can be loaded. Each is UB on misaligned places. In the basic memory model the discriminant of a loadable enum can be read, and discriminants of loadable variants can be set.", "quantifier": "every state of every run, every place expression, enum type and discriminant; the last clauses for the basic memory model", "why_tests_cant": "unboundedly many enum layouts, tag encodings, memory states and overlapping places", "anchors": ["spec/lang/step/statements.md: SetDiscriminant, Validate, Deinit, PlaceMention", "spec/lang/step/expressions.md: GetDiscriminant", "spec/lang/representation.md: decode_discriminant, encode_discriminant"]}
{"id": "C51", "title": "The heap intrinsics", "statement": "Allocate returns a thin pointer with new provenance to the start of unused, properly aligned memory of the requested size; any free place can be chosen; it is UB exactly for a negative or too large size, an alignment that is not a power of two, or a result that is not a thin pointer. Deallocate succeeds only for the start of a live heap allocation with its size and alignment (exactly then in the basic memory model) and is UB otherwise; it ends that allocation and changes nothing else. What was just allocated can be freed. No other instruction creates or ends a heap allocation.", "quantifier": "every memory history, every operand, every choice of address, every step of every run, both memory models", "why_tests_cant": "unboundedly many histories, addresses, sizes and programs", "anchors": ["spec/lang/step/intrinsics.md: IntrinsicOp::Allocate, IntrinsicOp::Deallocate", "spec/mem/basic.md: allocate, deallocate"]}
{"id": "C52", "title": "Atomic intrinsics", "statement": "An atomic load returns the value memory holds at that type and changes no contents; an atomic store makes memory hold the stored value and changes nothing outside the accessed bytes; compare-exchange returns the old value, writes the new one exactly when the old one equals the expected one, and otherwise changes no contents; fetch-and-op returns the old value and leaves the result of the operation. The address must be aligned to the size of the type, and the type's size must be a power of two within the target's limit; other operands are UB. In the basic memory model each succeeds whenever the plain accesses would.", "quantifier": "every machine state, every pointer, every type, every stored, expected and operand value", "why_tests_cant": "unboundedly many memory states, types and values", "anchors": ["spec/lang/step/intrinsics.md: IntrinsicOp::AtomicStore, IntrinsicOp::AtomicLoad, IntrinsicOp::AtomicCompareExchange, IntrinsicOp::AtomicFetchAndOp"]}
{"id": "C53", "title": "Evaluating expressions only reads memory", "statement": "Evaluating a value or place expression changes no byte of memory, no allocation, no local, no lock, no output and no thread but for the memory model's own bookkeeping; the accesses it performs are loads. In the basic memory model, evaluating one expression does not change the outcome of evaluating another one, so their order does not matter.", "quantifier": "every expression, every machine state, well-formed or not", "why_tests_cant": "unboundedly many expressions and states", "anchors": ["spec/lang/step/expressions.md: eval_value, eval_place", "spec/mem/concurrent.md: load", "spec/mem/basic.md: load"]}
{"id": "C54", "title": "Turning pointers into integers and back", "statement": "Exposing a thin pointer gives its address, exposes exactly its provenance and changes nothing else. Turning an integer into a pointer gives a thin pointer with that address and either no provenance or any provenance that is exposed; other operands are UB. After a pointer was exposed, in the whole rest of the run its address can be turned into exactly the same pointer again. Provenance gets exposed by nothing else, so everything exposed was exposed by an earlier such step.", "quantifier": "every machine state, every operand, every step and every continuation of every run", "why_tests_cant": "unboundedly many programs, runs and choices of provenance", "anchors": ["spec/lang/step/intrinsics.md: IntrinsicOp::PointerExposeProvenance, IntrinsicOp::PointerWithExposedProvenance", "spec/mem/intptrcast.md: expose, int2ptr"]}
{"id": "C55", "title": "Programs start as declared, and statics keep their place", "statement": "A new machine has one enabled thread at the first statement of the start function, with nothing printed, locked or exposed. Each global holds exactly its declared bytes, with pointers to the named globals where it has relocations. During the whole run each global, function and vtable has one pointer, to the start of its own live allocation of the declared size and alignment, all at different addresses; a value identifies a function (or vtable) exactly if it is the pointer that function was given, and looking up anything else is UB.", "quantifier": "every program, every reachable state, every choice of addresses, for every memory model built on the basic one", "why_tests_cant": "any number of globals, relocations, functions and vtables, arbitrary placement by the allocator, arbitrarily long runs", "anchors": ["spec/lang/machine.md: Machine::new, fn_from_ptr, vtable_from_ptr"]}
{"id": "C57", "title": "Provenance cannot be forged", "statement": "Every pointer the program holds, in memory or in the machine, carries provenance of an allocation that was really made. Evaluating an expression only gives pointers to allocations the program could already get at by following stored pointers from its locals, globals, functions, vtables, unwind payloads and exposed pointers. What it can get at later is what it could get at before plus what was allocated since. An allocation it cannot get at any more keeps its place and contents and is never freed, for the rest of the run, whatever the program does.", "quantifier": "every program, every reachable state, every expression, every continuation of the run of any length, for every memory model built on the basic one", "why_tests_cant": "universally quantified over programs that try to guess addresses, transmute, offset, or go through integers; a test can only fail to find a forgery", "anchors": ["spec/mem/basic.md: 'AllocId cannot be faked', check_ptr", "spec/lang/representation.md: encode, decode", "spec/lang/step/intrinsics.md: PointerExposeProvenance, PointerWithExposedProvenance", "spec/lang/step/expressions.md"]}
{"id": "C58", "title": "Wide pointers, vtables and transmutes mean what they say", "statement": "Putting a thin pointer and metadata together gives the pointer with these parts if it is valid at the wanted type and is UB otherwise; taking a valid pointer apart gives valid parts from which it can be put together again. Size and alignment computed from metadata are those of the pointee: fixed, a multiple of the element size, or taken from the vtable. A method lookup gives a pointer to the function the vtable declares. A transmute is UB if the sizes differ, and otherwise gives the value that the bytes of the original represent at the new type if that is valid, and is UB if not.", "quantifier": "every reachable state of every program, every pointer type, every metadata, all pairs of well-formed sized types and every valid value", "why_tests_cant": "unboundedly many types, values and memory states", "anchors": ["spec/lang/step/operators.md: ConstructWidePointer, GetThinPointer, GetMetadata, ComputeSize, ComputeAlign, VTableMethodLookup, Transmute"]}
{"id": "C59", "title": "The type system is sound", "statement": "If check_wf gives an expression a type, then evaluating the expression in any reachable state yields a value of this type that is valid at it; a place of this type with an address in the address space and metadata of the kind the type calls for; or UB. It never makes the interpreter panic (under Tree Borrows: except by making a zero-sized reference from a pointer in front of its allocation).", "quantifier": "every well-formed program outside the exceptions listed for C37, every reachable state, every expression accepted by the checks", "why_tests_cant": "unboundedly many programs, expressions and memory states", "anchors": ["spec/lang/well-formed.md: ValueExpr::check_wf, PlaceExpr::check_wf", "spec/lang/step/expressions.md: eval_value, eval_place", "spec/lang/step/operators.md"]}
{"id": "C60", "title": "Assume, printing, raw comparison and unwind payloads", "statement": "Assume does nothing for true and is UB otherwise. Printing appends exactly the operands, integers and booleans, in order to the named output and changes nothing else; no other instruction prints. RawEq takes two references of the same type to sized memory and says whether their bytes are the same apart from provenance; uninitialized bytes are UB; it is reflexive and changes no contents. GetUnwindPayload gives the payload of the innermost unwind of the thread and is UB if there is none.", "quantifier": "every machine state, every list of operands, every step of every run", "why_tests_cant": "unboundedly many operands, memory contents and programs", "anchors": ["spec/lang/step/intrinsics.md: IntrinsicOp::Assume, IntrinsicOp::PrintStdout, IntrinsicOp::PrintStderr, IntrinsicOp::RawEq, IntrinsicOp::GetUnwindPayload"]}
{"id": "C61", "title": "Enums are translated faithfully", "statement": "Given the layout rustc computes for an enum, minimize produces a well-formed type of the same size and alignment. It has exactly the variants of the enum, each under the discriminant by which the rest of the translation refers to it. Values of this type survive being stored and loaded, whatever variant they are: tags do not clash with data or with each other. An enum without variants has no values.", "quantifier": "every enum: any number of variants, any field types, direct tags and niches of any integer type, wrapping valid ranges, a single inhabited variant, no variant", "why_tests_cant": "unboundedly many enums and field values; the tests translate a few dozen", "anchors": ["tooling/minimize/src/enums.rs: translate_enum, discriminant_for_variant, int_from_bits"]}
{"id": "C62", "title": "UnsafeCell ranges of pointees are exact", "statement": "For every Rust type behind a pointer, minimize reports the layout rustc gave it, and the ranges it reports as interior mutable are exactly the bytes inside an UnsafeCell (unions and enums that contain one count as a whole). Types without UnsafeCell have no such ranges. The ranges are accepted by MiniRust's own check of pointee descriptions.", "quantifier": "every Rust type: any nesting of structs, unions, enums, arrays and UnsafeCells, any layout", "why_tests_cant": "unboundedly many types; an inexact range changes which programs have undefined behavior", "anchors": ["tooling/minimize/src/ty.rs: pointee_info_of, cells_in_sized_ty, cells_from_layout"]}
{"id": "C63", "title": "Types are translated to well-formed types of the same layout", "statement": "Every sized Rust type whose layout satisfies rustc's guarantees is translated without panicking to a MiniRust type that MiniRust accepts as well-formed, of the size and alignment rustc gave it, whose values survive being stored and loaded. Slices are translated to unsized types with the element's layout.", "quantifier": "every Rust type: any nesting of integers, characters, pointers, structs, unions, enums and arrays, any layout rustc allows", "why_tests_cant": "unboundedly many types and layouts; the tests translate a few dozen", "anchors": ["tooling/minimize/src/ty.rs: translate_ty, tuple_from_layout, translate_adt_variant_fields, translate_non_enum_adt"]}
{"id": "C64", "title": "The values behind references are stable", "statement": "Under Tree Borrows, two successful loads through a reference agree if nothing was stored through it in between, whatever happened through other references; a load after a store through the reference returns the stored bytes; loads through a shared reference always agree. While a reference is a function argument, its memory can be read through it at any time during the call (even if the program does not do so) and holds what it held at the start of the call, unless the function stored through it. Interior mutable memory is excepted.", "quantifier": "every reachable memory, every reference, every sequence of accesses, retags, allocations, deallocations, calls and returns in between", "why_tests_cant": "ranges over all executions of unrelated code between two accesses; tests fix one", "anchors": ["spec/mem/tree_borrows/memory.md: reborrow, load, store, end_call", "spec/mem/tree_borrows/state_machine_protected.md", "spec/mem/tree_borrows/state_machine_unprotected.md"]}
{"id": "C65", "title": "Functions built with the function builder run the structured program they were built from", "statement": "Building a function from statements, intrinsics, calls with handlers, unwinding with catch blocks, switches, ifs and while loops, nested in any way, yields a function that performs exactly the sequences of actions of the structured program and leaves after the same ones. It never runs off the end of the code and never spins between empty blocks. Building succeeds exactly if the program is structured (nothing follows code that does not end, everything ends, no switch has a case twice) and declares at most one return place; otherwise it panics. Locals, arguments and return place are those declared, in order. If the declared types, the expressions and the uses of unwinding are well-formed, so is the function.", "quantifier": "every structured program, of any size and nesting, every list of declarations", "why_tests_cant": "unboundedly many nestings, and each has unboundedly long runs", "anchors": ["tooling/miniutil/src/build/mod.rs: FunctionBuilder", "tooling/miniutil/src/build/terminator.rs", "tooling/miniutil/src/build/statement.rs"]}
{"id": "C66", "title": "Activations of a function do what its code says, whatever runs in between", "statement": "However the machine interleaves a call of a function with other threads and with the functions it calls, the sequence of actions of this one activation (statements, intrinsics, switch decisions with the value that was switched on, outcomes of its calls) is a run of the control flow graph of the function from its start, and it is left only by a return or by resuming to unwind. For a function built with the function builder it is a run of the structured program. Each successful step of the machine is accounted for.", "quantifier": "every well-formed program, every reachable state, every schedule and every run from there, every thread and depth of the stack", "why_tests_cant": "all interleavings with other threads, all depths of recursion", "anchors": ["spec/lang/step/statements.md: eval_statement", "spec/lang/step/terminators.md: eval_terminator", "spec/lang/machine.md: step", "tooling/miniutil/src/build/terminator.rs"]}
{"id": "C67", "title": "Translated functions do what the MIR of the Rust function says", "statement": "For every valid MIR body (rules of rustc about block kinds, unwinding, switch targets) the translation to MiniRust succeeds. The translated function performs exactly the sequences of actions that the MIR body specifies: assembling the spread argument, making always-live locals live, statements in order, asserts and panics according to the panic strategy, calls with the arguments passed by value or in place and the fields of the last argument for the rust-call ABI, dynamic dispatch, catch_unwind, unwinding into the cleanup block, and it ends where the MIR ends. Its locals, arguments, return place and calling convention are those of the body; the order in which blocks are visited does not matter; if types, statements and expressions are well-formed the function passes the well-formedness check; and activations on the abstract machine follow the MIR under every interleaving.", "quantifier": "every valid MIR body, every order of its blocks, both panic strategies, every run, every schedule", "why_tests_cant": "all control flow graphs with loops, all runs and interleavings", "anchors": ["tooling/minimize/src/function.rs: FnCtxt::translate", "tooling/minimize/src/bb.rs: translate_bb, translate_stmt, translate_terminator, translate_call, translate_rs_intrinsic, translate_catch_unwind, translate_unwind_action, translate_panic"]}
{"id": "C68", "title": "Translated places, operands, rvalues and value intrinsics mean what Rust says", "statement": "Evaluating the translation of a MIR rvalue gives the value the Rust reference defines, in the same cases, and is undefined behavior otherwise: wrapping, unchecked and checked integer arithmetic, shifts, division, negation; boolean operators; comparisons, also as Ordering; casts between integers and from bool; pointer offsets within an allocation; casts between raw pointers; unsizing to slices and trait objects; pointer metadata; aggregates, repeats, wide pointers from parts; references to and addresses of places; lengths, discriminants, transmutes; ctpop, exact_div, size_of_val, align_of_val, arith_offset, ptr_offset_from. Places are translated projection by projection and denote the field, element, variant or pointee. Operands are evaluated left to right, and an error in one is an error of the whole rvalue.", "quantifier": "every rvalue over every operands and places, every mid-evaluation state of every well-formed (tame) program, every target", "why_tests_cant": "all integers of all widths, all pointers and allocations, all nestings of projections", "anchors": ["tooling/minimize/src/rvalue.rs: translate_rvalue_smir, translate_operand_smir, translate_place_smir", "tooling/miniutil/src/build/expr.rs", "tooling/minimize/src/bb.rs: translate_rs_intrinsic"]}
{"id": "C69", "title": "Translated statics and constants have the bytes and values that rustc computed", "statement": "Each allocation that a crate needs becomes one global with its initialized bytes, its alignment, and a relocation to the right global at the right offset for each of its pointers, also if allocations point to each other in cycles, in whatever order functions are translated. When the program starts, the memory of the global holds these bytes and pointers to where the targets are. The translation of allocations terminates if they are finitely many. A translated constant evaluates to the value of the constant: integers by two's complement, booleans, thin and slice pointers, tuples, structs, arrays, enums.", "quantifier": "every graph of allocations, every constant, every translation order, every choice of base addresses, every target", "why_tests_cant": "all graphs of allocations including cycles, all constants and all placements", "anchors": ["tooling/minimize/src/constant.rs: translate_const_val, translate_alloc_id, translate_alloc, translate_relocation, fresh_global_name"]}
{"id": "C70", "title": "Translating a crate gives exactly the functions, vtables, traits and globals that main needs, each made once and under one name", "statement": "Starting from main, the translation makes exactly the functions, vtables, traits and globals that are transitively needed; each has one name, different items have different names, names do not change, and every reference in a function, vtable or relocation is to the item that is meant. It ends if finitely many items are needed, after at most one step for each function, and the order makes no difference but for names. The program starts with a function that calls main, exits when it returns, and aborts when it unwinds. The program is well-formed exactly if its functions are, its vtables have exactly the methods of their traits and sensible layouts, and no pointer in a static points past the end of its target.", "quantifier": "every crate (call graph with recursion, vtables, traits, allocations), every order of translation", "why_tests_cant": "all call graphs and all orders, which in the code depend on hashing", "anchors": ["tooling/minimize/src/program.rs: Ctxt::translate, get_fn_name, mk_start_fn", "tooling/minimize/src/vtable.rs: get_vtable, generate_vtable, get_trait_name, generate_trait"]}
{"id": "C71", "title": "Tree Borrows only adds undefined behavior", "statement": "Every execution of a program under Tree Borrows is, with the same choices, an execution under the basic memory model: it reaches the same state up to the Tree Borrows bookkeeping (same threads, locks, control, memory contents, pointers and output), and if it ends other than by undefined behavior it ends the same way. If the next step is undefined behavior under the basic model, then the execution under Tree Borrows does not go on either. The converse fails.", "quantifier": "every program, every sequence of choices (schedules, addresses, predicted provenance), every number of steps", "why_tests_cant": "whole-program simulation between two machines over all programs and executions", "anchors": ["spec/mem/tree_borrows/memory.md: TreeBorrowsMemory", "spec/mem/basic.md: BasicMemory", "spec/lang/machine.md: Machine::new, Machine::step"]}
{"id": "C72", "title": "Defining more data never introduces undefined behavior", "statement": "If in a state some uninitialized bytes are given any contents, or some pointers are given any provenance, then whatever the machine did it still does, staying in states that are related in the same way, with the same output and, unless it was undefined behavior, the same end. In particular, initializing uninitialized bytes of globals keeps all executions of a program. (This is what the definedness order of the specification is for.)", "quantifier": "every pair of states related by definedness, every pair of programs that differ in uninitialized bytes of globals, every execution", "why_tests_cant": "relates all executions from all pairs of states", "anchors": ["spec/lang/representation.md: trait DefinedRelation", "spec/lang/machine.md: Machine::step", "spec/lang/step/expressions.md", "spec/lang/step/statements.md", "spec/lang/step/terminators.md", "spec/lang/step/intrinsics.md"]}
{"id": "C73", "title": "Programs use Tree Borrows in an orderly way", "statement": "In every execution of every program under Tree Borrows, the memory goes through operations of the memory interface only, and the calls in progress that Tree Borrows knows are exactly the stack frames of the threads. Every pointer that the machine holds or computes has no provenance or one that denotes an existing node, for ever. A reference to live memory has a protector if and only if some stack frame protects it, no two frames protect the same reference, and the end of a call is never undefined behavior. The memory behind a shared reference outside of UnsafeCells does not change as long as the reference is valid; if a function got it as an argument it does not change during the call.", "quantifier": "all programs, all reachable machine states and all executions from them, all threads and stack frames, all pointers, references and bytes", "why_tests_cant": "The invariant relates the provenance of every pointer in the machine with every tree in memory, and the stack frames with all protectors, at every step of every schedule; and the consequence is about all code that may run during a call.", "anchors": ["spec/mem/tree_borrows/memory.md: TreeBorrowsMemory", "spec/lang/machine.md: Machine", "spec/lang/step/terminators.md: create_frame, eval_terminator", "spec/lang/step/statements.md: Validate"]}
{"id": "C74", "title": "The types that the builder derives from Rust types agree with Rust", "statement": "For every Rust type that the conversion supports (integers, bool, unit, raw pointers, references, arrays and slices, nested arbitrarily), the derived MiniRust type exists, is well-formed in every program unless it is too large, and has the size and alignment of the Rust type and, without pointers in it, exactly its values; pointers and references are wide exactly if the pointee is a slice, describe the layout of the pointee, and treat all of its bytes as outside of UnsafeCells; zero-initialized globals have exactly the size and alignment of the type.", "quantifier": "every Rust type built from these constructors, of any depth and with any array lengths; every program", "why_tests_cant": "types nest without bound and array lengths are arbitrary", "anchors": ["tooling/miniutil/src/build/ty_conv.rs: TypeConv", "tooling/miniutil/src/build/ty.rs: ref_ty_default_markers_for", "tooling/miniutil/src/build/global.rs"]}
{"id": "C75", "title": "A program builder makes the program it was told to make", "statement": "Whatever is done with a program builder in whatever order, it never gives out the same name twice for two functions, traits, vtables or globals, and the program it finally makes consists of exactly the functions, globals, traits and vtables that were given to it, each under its own name; only the calling convention of the start function is set to C. Every vtable has exactly the methods of its trait. Finishing something that is complete never panics; the program can be finished exactly if the start function is. The program is well-formed if and only if its functions are, its vtables have proper sizes, and the start function takes and returns nothing. Functions and programs that are made from lists number everything in order.", "quantifier": "all histories of a program builder of any length, all functions, traits, vtables and globals", "why_tests_cant": "histories are unbounded and interleave the construction of any number of items", "anchors": ["tooling/miniutil/src/build/mod.rs: ProgramBuilder, VTableBuilder, TraitBuilder, program_with_globals", "tooling/miniutil/src/build/function.rs: function", "tooling/miniutil/src/build/global.rs: declare_global_zero_initialized"]}
{"id": "C76", "title": "Without references and boxes, Tree Borrows changes nothing", "statement": "For a program in which no place has a type containing references or boxes, and in which pointers are only created at raw pointer types (mutable references to types that are not Unpin are allowed, too), each execution in the basic memory model is one under Tree Borrows with the same choices, and conversely: the states correspond, the same has been printed, the threads are in the same states, one can go on if and only if the other can, and they end in the same way. So the set of possible outputs and ends of such a program does not depend on the memory model.", "quantifier": "all programs meeting the condition, all choices, all executions of any length, all targets", "why_tests_cant": "Tests run a few programs in one memory model; the claim relates all executions of all such programs in two memory models, and fails as soon as some access, deallocation or end of a call treats the root of a tree in a special way.", "anchors": ["spec/mem/tree_borrows/memory.md: TreeBorrowsMemory", "spec/mem/tree_borrows/reborrow_settings.md: ReborrowSettings::new", "spec/mem/basic.md: BasicMemory", "spec/lang/step/statements.md: retag_val", "spec/lang/machine.md: Machine::step"]}
{"id": "C77", "title": "The data race detector is told about everything a step reads and writes", "statement": "For every reachable state and every step from it, the accesses that the step reports to the data race detector cover all bytes on which the outcome of the step depends and all bytes that it changes: with different bytes at all other addresses the step still succeeds and has the same effect, and no byte outside of the reported writes changes. So if no data race is reported, a step of an unsynchronised thread does not depend on what the step before wrote non-atomically. This holds with and without Tree Borrows.", "quantifier": "all programs, all executions and all choices, all states that agree on the reported addresses, both memory models", "why_tests_cant": "A missing report only shows as an undetected race in one particular interleaving and with particular contents of the memory; the claim compares each step with all states that agree on the reported addresses.", "anchors": ["spec/mem/concurrent.md: ConcurrentMemory::load, ConcurrentMemory::store, check_data_races", "spec/lang/machine.md: Machine::step, eval_statement, eval_terminator", "spec/lang/step/intrinsics.md"]}
{"id": "C78", "title": "Independent steps of different threads can be swapped", "statement": "If two adjacent steps of different threads neither allocate nor deallocate nor involve other threads, locks, output or exposed provenance, and neither writes what the other accesses, then with the two scheduling choices exchanged both steps succeed, make the same accesses and lead to the same state, unless the step that is now first races with the step before. In particular this holds if the second thread is unsynchronised, one of the steps is not atomic, and no data race is reported.", "quantifier": "all programs, reachable states, pairs of threads and remaining choices", "why_tests_cant": "It relates all pairs of interleavings of all programs.", "anchors": ["spec/mem/concurrent.md: Access::races, check_data_races", "spec/lang/machine.md: Machine::step", "spec/mem/basic.md: BasicMemory::load, BasicMemory::store"]}
{"id": "C79", "title": "Running a program reports how it ends and what it prints", "statement": "Running a program gives the reason for which its execution ends. get_stdout succeeds exactly if the program stops regularly, and then gives one line for each value printed to stdout, in order, from which the value can be read back; otherwise it gives the reason. minirun exits with 0 exactly if all its flags are known, wherever they are among the arguments, there is at most one other argument, the program can be loaded and stops regularly under the selected memory model; otherwise it exits with 101. What succeeds with the Tree Borrows flag can succeed in the same way without it, and for programs without references and boxes the flag makes no difference.", "quantifier": "all programs, choices, argument lists and printed values; runs of any length", "why_tests_cant": "Programs, interleavings, integers and argument lists are unbounded.", "anchors": ["tooling/miniutil/src/run.rs: run, run_program, get_stdout", "tooling/miniutil/src/mock_write.rs: MockWrite::into_strings", "tooling/miniutil/src/cli.rs: consume_arg, run_prog, run_prog_and_print_errors", "tooling/minirun/src/main.rs: main", "spec/lang/step/intrinsics.md: eval_print"]}
{"id": "C80", "title": "Programs made from a crate execute the MIR of the crate", "statement": "In every execution of the program that minimize makes from a crate, each activation of a function is either the start function, which calls main and then exits or aborts, or an activation of one of the instances that main needs. In the second case, from its call until it is left, it executes the statements, calls and branches of the MIR body of that instance in the order of the MIR, where calls go to the functions that were made from the instances which the MIR names, and it is left only where the MIR returns or resumes unwinding. Whatever other activations and threads do in between makes no difference.", "quantifier": "all crates, MIR bodies, orders in which they are translated, executions, schedules and activations", "why_tests_cant": "Crates, executions and interleavings are unbounded; a test compares the output of one run.", "anchors": ["tooling/minimize/src/program.rs: Ctxt::translate, mk_start_fn", "tooling/minimize/src/function.rs: FnCtxt::translate", "tooling/minimize/src/bb.rs: translate_bb, translate_terminator", "spec/lang/machine.md: Machine::step"]}
{"id": "C81", "title": "Natively compiled programs use threads and locks as MiniRust allows", "statement": "When a program that uses the intrinsics crate is compiled natively, every call of its thread and lock functions has an effect that MiniRust allows: a lock is acquired only when no thread holds it, so between two acquisitions of a lock by any threads the first of them has released it; join returns only after the joined thread has finished; new threads and locks get consecutive numbers. This assumes that threads release only locks that they hold, as MiniRust requires.", "quantifier": "all programs (also ones whose threads communicate by other means), numbers of threads and locks, schedules, and spurious wakeups", "why_tests_cant": "The schedules of native threads are unbounded and not under the control of a test.", "anchors": ["tooling/minimize/intrinsics/src/lib.rs: spawn, join, create_lock, acquire, release"]}
{"id": "C82", "title": "Natively compiled programs wait only for what they would wait for in MiniRust", "statement": "When a program that uses the intrinsics crate is compiled natively and no thread can go on, then each thread has finished, is outside of the crate, waits for a lock that another thread holds, or waits for a thread that has not finished.", "quantifier": "all programs, numbers of threads and locks, and schedules", "why_tests_cant": "A lost wakeup needs one particular interleaving.", "anchors": ["tooling/minimize/intrinsics/src/lib.rs: acquire, release, join, spawn"]}
{"id": "C83", "title": "A data race in an execution is reported under some schedule", "statement": "Take any execution and, after it, steps that each involve only memory and the thread that makes them. If two of these steps, by different threads, make conflicting accesses (they share a byte, one writes, one is not atomic), and the order of the two is not forced by steps between them (no step depends on the first and has the second depending on it, where steps depend on each other if they belong to the same thread or one writes what the other accesses), then some other order of scheduling the same threads makes the machine stop with undefined behaviour. So a program with such a race is never free of undefined behaviour, although the detector compares only adjacent steps.", "quantifier": "all programs, reachable states, sequences of steps of any length by any number of threads, and all pairs of conflicting steps among them", "why_tests_cant": "the reporting schedule is in general not one that was tried; it is constructed from the given execution, for every program and every execution", "anchors": ["spec/lang/machine.md: Machine::step", "spec/lang/machine.md: reset_data_race_tracking", "spec/mem/concurrent.md: ConcurrentMemory::check_data_races"]}
{"id": "C84", "title": "What a program does never depends on choices that are made later", "statement": "Executions resolve nondeterminism (addresses, scheduling, exposed provenance, lock handover) by choices made one after the other. A state that is reached, and how a program ends and what it prints, are determined by the finitely many choices made until then: with the same choices made so far and any other ones later, the execution reaches the same state, and a program that has ended ends in the same way. So every reached state can be continued by any later choices.", "quantifier": "all programs, memory models, sequences of choices, reachable states and continuations", "why_tests_cant": "it is about all pairs of executions that share their first choices, of any length, in every operation of the interpreter", "anchors": ["spec/lang/machine.md: Machine::step", "spec/lang/machine.md: Machine::new", "spec/lang/step/locks.md: LockRelease pick", "tooling/miniutil/src/run.rs: run"]}
{"id": "C85", "title": "The command line of minimize does what it says, and agrees with minirun", "statement": "minimize accepts exactly the command lines whose `--minimize-` and `--minirust-` flags are known and with at most one `--minimize-dump`; otherwise it fails without compiling anything. rustc gets the sysroot, the arguments that preserve all undefined behavior, and then the user's other arguments in order. With a dump flag the program is printed and not run; without one the exit code is 0 exactly if the translated program stops regularly under the memory model selected by the flags (and the JSON test, if asked for, succeeds), and stdout has what it printed. Dumping a crate as JSON and running the dump with minirun and the same machine flags gives the same exit code and the same output as running the crate directly, if the JSON format preserves the program.", "quantifier": "every list of arguments, environment, compiler result, sequence of choices of the machine, and number of steps", "why_tests_cant": "flags may be anywhere among arbitrarily many arguments, and outcomes depend on the program and on all choices of the machine", "anchors": ["tooling/minimize/src/main.rs: main, parse_args, DEFAULT_ARGS, MinimizeConfig", "tooling/miniutil/src/cli.rs: MinirustMachineConfig::consume_arg, run_prog_and_print_errors", "tooling/minirun/src/main.rs: main"]}
{"id": "C86", "title": "The dump of a program defines every type once and always ends", "statement": "Dumping a program (--minimize-dump, or printing a program with the library) always ends. If the expressions of the program take addresses only as references or raw pointers, tuple expressions have tuple or array types, and the layouts of the composite types can be computed, then the dump is: the definition of every composite type that occurs in the program or inside the definition of such a type, each exactly once, under the name by which every other part of the dump refers to it; then the traits, the vtables, the functions in the order of their names with the text of each of their locals, statements and terminators, and the globals. Otherwise the dump fails with a panic. Every well-formed program without addresses taken at other pointer types and without transmutations to ill-formed types can be dumped.", "quantifier": "all programs, with all types, expressions and functions of any size and nesting", "why_tests_cant": "the table of types grows while it is printed, and definitions refer to types that are numbered later; that this ends, and that names are used consistently, depends on all types that a program can contain", "anchors": ["tooling/miniutil/src/pretty/mod.rs: fmt_program", "tooling/miniutil/src/pretty/ty.rs: fmt_comptypes, get_comptype_index, fmt_comptype", "tooling/miniutil/src/pretty/expr.rs: fmt_value_expr, fmt_place_expr", "tooling/miniutil/src/pretty/function.rs: fmt_function, fmt_terminator"]}
{"id": "C87", "title": "The names of basic blocks and code that is not executed do not matter", "statement": "Renaming the basic blocks of the functions of a program (injectively in each function, in the block maps, the start blocks and all targets of terminators) changes neither whether the program is well formed nor how any execution ends or what it prints. Control only ever is in blocks that can be reached from the start of their function along terminators; removing, adding or replacing other blocks has no effect, as long as both programs are well formed. More generally, blocks that a given execution does not enter can be replaced without changing that execution: it goes through the same states of the memory, the locks, the threads and the locals.", "quantifier": "all programs, all pairs of programs that agree on the blocks that are used, all injective renamings, all executions and schedules, all memory models with the stated interface", "why_tests_cant": "A test runs one program with one numbering of its blocks; independence of the numbering and of dead code relates all pairs of programs and all their executions.", "anchors": ["spec/lang/step/terminators.md: jump_to_block, eval_terminator", "spec/lang/machine.md: step, jump_to_block", "spec/lang/well-formed.md: Program::check_wf", "tooling/miniutil/src/run.rs: run_program"]}
{"id": "C88", "title": "Jumping past empty blocks is a correct optimization", "statement": "Replace, in any function, jumps to a basic block that has no statements and only goes on to another block of the same kind by jumps to that block. The new program is well formed iff the old one is. Whatever it can do under some schedule and other choices (end normally, abort, deadlock, leak, have undefined behavior such as a data race, panic), after printing some output, the old program can also do. Conversely, whatever the old program can do the new one can do, unless the new one can have undefined behavior; one of them can have undefined behavior iff the other one can. So without undefined behavior both have the same outcomes and outputs.", "quantifier": "all programs, all choices of empty blocks to pass by, all schedules and other choices, all memory models that wrap the basic one", "why_tests_cant": "The two programs take different numbers of steps, so their schedules do not correspond one to one; data races depend on which steps are adjacent. That no outcome is gained or lost is a claim on all interleavings of all programs.", "anchors": ["spec/lang/machine.md: step, reset_data_race_tracking", "spec/lang/step/terminators.md: Goto, jump_to_block", "spec/mem/concurrent.md: check_data_races", "spec/lang/well-formed.md: Program::check_wf"]}
{"id": "C89", "title": "Starting a well-formed program is not undefined behavior", "statement": "Creating the machine for a program that passes the well-formedness check is not undefined behavior, does not panic, and fails only for choices of addresses that are not possible.", "quantifier": "all well-formed programs, all choices of addresses, the basic memory model and Tree Borrows", "why_tests_cant": "Tests start particular programs at the addresses that one run happens to choose; the claim is on every program the check accepts.", "anchors": ["spec/lang/machine.md: Machine::new, new_thread", "spec/lang/step/terminators.md: create_frame", "spec/lang/well-formed.md: Program::check_wf", "spec/mem/basic.md: allocate"]}
{"id": "C90", "title": "The assertions of tests say what they claim", "statement": "A test helper that expects a stop, an abort, a deadlock, a leak, an ill-formed program or undefined behavior passes exactly if the program ends in that way, and otherwise fails if the program ends at all. assert_stop_always passes exactly if all attempts stop; assert_ub_eventually passes exactly if an attempt ends in the expected undefined behavior and all attempts before it stop; has_data_race answers true exactly if one of 32 attempts gets to two conflicting, unsynchronized accesses of consecutive steps and all before it stop, false exactly if all attempts stop, and panics exactly if an attempt ends for another reason. Some choices make it answer true exactly if some execution of the program races. assert_ub_expr passes exactly if assigning the expression to a fresh local of the type is undefined behavior, or making the local live is.", "quantifier": "all programs, all choices of the executions in all attempts, all numbers of attempts, all expressions and types", "why_tests_cant": "The helpers are what the tests of the project rest on; they make random choices, so that a test of a helper sees only a few outcomes.", "anchors": ["tooling/minitest/src/lib.rs: assert_stop, assert_stop_always, assert_abort, assert_ub, assert_ub_eventually, assert_ub_expr, assert_ill_formed, assert_deadlock, assert_memory_leak, has_data_race", "tooling/miniutil/src/run.rs: run_program", "spec/mem/concurrent.md: check_data_races"]}
{"id": "C91", "title": "Programs without loops and recursion end", "statement": "If the control flow of each function has no cycle among the blocks that can be reached, every call and every spawn of a thread names its function directly, and no function calls or spawns itself, directly or through others, then there is one bound on the number of steps: every execution has ended after that many steps, whatever thread is scheduled at each step, whatever addresses are chosen and whatever the threads do to each other. Functions that are built with the function builder without while loops have no cycle. A program with a single jump from a block to itself is well-formed and has no such bound.", "quantifier": "all programs whose blocks and calls have no cycle, all memory models that wrap the basic one, all schedules and other choices", "why_tests_cant": "A test sees one execution and gives up after a while; the bound is for all schedules together, and the interpreter has no clock that would enforce it.", "anchors": ["spec/lang/machine.md: step", "spec/lang/step/terminators.md: eval_terminator, jump_to_block", "spec/lang/step/concurrency.md: spawn, new_thread", "tooling/miniutil/src/run.rs: run_program", "tooling/miniutil/src/build/terminator.rs: if_, switch_int, while_"]}
{"id": "C92", "title": "The functions that build expressions build what their names say", "statement": "For every machine state and all operands: the expressions built by bool_and, bool_or, bool_xor and not evaluate the operands once, from left to right, and give the conjunction, disjunction, exclusive or and negation of their values; they fail exactly as the first operand that fails; bool_to_int gives 1 for true and 0 for false in every integer type; ptr_addr gives the address of a pointer whatever its provenance is; null is the pointer to address 0 without provenance; global is the place at the address of the global with the given type; array gives the array of the values of its elements. if_ goes to the first block if its condition is true and to the second one otherwise. If the operands are well-formed and have the expected types, so are the built expressions. Using tuple, addr_of, ptr_to_ptr, construct_wide_pointer, int_cast or bool_to_int with a type of another kind panics. small_program never fails; the program is well-formed exactly if its locals have well-formed types of known size and its statements are well-formed, and it has no loops or calls.", "quantifier": "all machine states, memory models, operand expressions, types, and lists of locals and statements", "why_tests_cant": "the helpers are compositions of casts between booleans, bytes and integers; a test fixes the operands and one state, while programs apply the helpers to operands that have effects or fail, and to every integer type", "anchors": ["tooling/miniutil/src/build/expr.rs: bool_and, bool_or, bool_xor, not, bool_to_int, int_cast, ptr_addr, ptr_to_ptr, null, global, array, tuple, addr_of", "tooling/miniutil/src/build/terminator.rs: if_", "tooling/miniutil/src/build/mod.rs: small_program"]}
{"id": "C93", "title": "Unions and tagged enums built with the library keep their values", "statement": "A union type built with union_ty accepts every list of bytes of its size, whether initialized or not, and storing the loaded value gives exactly the same bytes back, with their provenance. It is well-formed exactly if its fields are well-formed types of known size that lie inside it and its size is valid and a multiple of its alignment. An enum built with enum_ty, enum_variant and discriminator_branch, with one tag per variant that is its discriminant, is well-formed if its discriminants are distinct and fit the discriminant and tag types and no variant uses the bytes of the tag; its values then survive being stored and loaded, and the discriminant read from the bytes of a variant is the one of that variant. A type that is no integer type cannot be given for discriminants and tags: the functions panic.", "quantifier": "all lists of fields, variants, bytes, integer types, offsets, sizes and alignments", "why_tests_cant": "the tests of the library build a few enums and unions; whether taggers, ranges of branches and variants fit together must hold for any number of variants, negative discriminants and every data", "anchors": ["tooling/miniutil/src/build/ty.rs: union_ty, enum_ty, enum_variant, discriminator_branch", "spec/lang/representation.md: decode, encode"]}
