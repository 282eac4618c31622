{
 "claims": [
  {
   "property": "C01",
   "status": "proved",
   "theorems": [
    "MiniRust.C01_encode_size",
    "MiniRust.C01_decode_size"
   ],
   "note": ""
  },
  {
   "property": "C02",
   "status": "partial",
   "theorems": [
    "MiniRust.C02_decode_encode_partial",
    "MiniRust.C02_direct_enums_coherent",
    "MiniRust.C02_niche_enums_coherent",
    "MiniRust.C02_fails_for_incoherent_enum"
   ],
   "note": "Proved for all well-formed types whose enums are coherent; the unrestricted law is false of the code (witness). Enums built by minimize are proved coherent."
  },
  {
   "property": "C03",
   "status": "partial",
   "theorems": [
    "MiniRust.C03_encode_decode_partial",
    "MiniRust.C03_fails_for_incoherent_enum"
   ],
   "note": "Proved for all well-formed types whose enums are coherent; the unrestricted law is false of the code (witness)."
  },
  {
   "property": "C04",
   "status": "proved",
   "theorems": [
    "MiniRust.C04_encode_monotone"
   ],
   "note": ""
  },
  {
   "property": "C05",
   "status": "proved",
   "theorems": [
    "MiniRust.C05_decode_monotone"
   ],
   "note": ""
  },
  {
   "property": "C06",
   "status": "proved",
   "theorems": [
    "MiniRust.C06_le_defined_correct",
    "MiniRust.C06_le_defined_partial_order"
   ],
   "note": ""
  },
  {
   "property": "C07",
   "status": "proved",
   "theorems": [
    "MiniRust.C07_int_encoding_bijection",
    "MiniRust.C07_little_endian_digits"
   ],
   "note": ""
  },
  {
   "property": "C08",
   "status": "proved",
   "theorems": [
    "MiniRust.C08_no_invented_provenance",
    "MiniRust.C08_decoded_provenance",
    "MiniRust.C08_broken_provenance",
    "MiniRust.C08_pointer_round_trip"
   ],
   "note": ""
  },
  {
   "property": "C33",
   "status": "proved",
   "theorems": [
    "MiniRust.C33_discriminant_exists",
    "MiniRust.C33_order_independent",
    "MiniRust.C33_only_tag_bytes",
    "MiniRust.C33_branch_meaning"
   ],
   "note": ""
  },
  {
   "property": "C34",
   "status": "proved",
   "theorems": [
    "MiniRust.C34_decoded_valid",
    "MiniRust.C34_loaded_valid",
    "MiniRust.C34_store_valid",
    "MiniRust.C34_store_outcome",
    "MiniRust.C43_load_exact"
   ],
   "note": ""
  },
  {
   "property": "C16",
   "status": "proved",
   "theorems": [
    "MiniRust.C16_placement",
    "MiniRust.C16_disjoint",
    "MiniRust.C16_fresh_identity"
   ],
   "note": ""
  },
  {
   "property": "C17",
   "status": "proved",
   "theorems": [
    "MiniRust.C17_load_returns_last_stored",
    "MiniRust.C17_read_back",
    "MiniRust.C17_frame",
    "MiniRust.C17_fresh_uninit"
   ],
   "note": ""
  },
  {
   "property": "C18",
   "status": "proved",
   "theorems": [
    "MiniRust.C18_bad_access_is_ub",
    "MiniRust.C18_dereferenceable_exact",
    "MiniRust.C18_access_exact"
   ],
   "note": ""
  },
  {
   "property": "C19",
   "status": "proved",
   "theorems": [
    "MiniRust.C19_bad_deallocation_is_ub",
    "MiniRust.C19_final",
    "MiniRust.C19_only_that_allocation",
    "MiniRust.C19_exact"
   ],
   "note": ""
  },
  {
   "property": "C20",
   "status": "proved",
   "theorems": [
    "MiniRust.C20_leak_check_exact"
   ],
   "note": ""
  },
  {
   "property": "C21",
   "status": "proved",
   "theorems": [
    "MiniRust.C21_only_exposed"
   ],
   "note": ""
  },
  {
   "property": "C26",
   "status": "proved",
   "theorems": [
    "MiniRust.C26_allowed_accesses_shrink",
    "MiniRust.C26_forbidden_stays_forbidden",
    "MiniRust.C26_disabled_is_final"
   ],
   "note": ""
  },
  {
   "property": "C27",
   "status": "proved",
   "theorems": [
    "MiniRust.C27_write_invalidates",
    "MiniRust.C27_foreign_read_freezes"
   ],
   "note": ""
  },
  {
   "property": "C28",
   "status": "proved",
   "theorems": [
    "MiniRust.C28_no_foreign_write_after_read",
    "MiniRust.C28_no_foreign_access_after_write",
    "MiniRust.C28_no_deallocation",
    "MiniRust.C28_argument_protected"
   ],
   "note": ""
  },
  {
   "property": "C29",
   "status": "proved",
   "theorems": [
    "MiniRust.C29_loads_commute",
    "MiniRust.C29_load_idempotent",
    "MiniRust.C29_store_idempotent"
   ],
   "note": ""
  },
  {
   "property": "C30",
   "status": "partial",
   "theorems": [
    "MiniRust.C30_one_permission_per_byte",
    "MiniRust.C30_protected_iff_in_call",
    "MiniRust.C30_protectors_unique",
    "MiniRust.C30_references_stay_valid",
    "MiniRust.C30_new_pointers_valid",
    "MiniRust.C30_accesses_never_panic",
    "MiniRust.C30_retag_never_panics_partial",
    "MiniRust.C30_retag_panics_below_allocation"
   ],
   "note": "Everything is proved; the absence of panics is false of the code for one case (zero-sized reborrow below its allocation, witness proved), which the partial theorem excludes."
  },
  {
   "property": "C31",
   "status": "proved",
   "theorems": [
    "MiniRust.C31_step_simulated",
    "MiniRust.C31_history_simulated",
    "MiniRust.C31_retag_same_pointer",
    "MiniRust.C31_checks_agree"
   ],
   "note": ""
  },
  {
   "property": "C32",
   "status": "partial",
   "theorems": [
    "MiniRust.C32_sized_mask_exact",
    "MiniRust.C32_slice_mask_exact",
    "MiniRust.C32_trait_object_mask_exact",
    "MiniRust.C32_tuple_mask_partial",
    "MiniRust.C32_fails_for_unsized_tuples"
   ],
   "note": "Sized, slice and trait object pointees are proved; for unsized tuples the claim is false of the code (witness)."
  },
  {
   "property": "C39",
   "status": "proved",
   "theorems": [
    "MiniRust.C39_end_call_always_succeeds",
    "MiniRust.C39_end_of_protection",
    "MiniRust.C39_end_call_in_sequence",
    "MiniRust.C39_end_of_call_is_a_write"
   ],
   "note": ""
  },
  {
   "property": "C40",
   "status": "proved",
   "theorems": [
    "MiniRust.C40_retag_creates_reference",
    "MiniRust.C40_no_retag",
    "MiniRust.C40_retag_requires_live_memory",
    "MiniRust.C40_expressions_protect_nothing"
   ],
   "note": ""
  },
  {
   "property": "C10",
   "status": "proved",
   "theorems": [
    "MiniRust.C10_wrapping_unique",
    "MiniRust.C10_wrapping_in_range",
    "MiniRust.C10_arithmetic_wraps",
    "MiniRust.C10_unary_wraps",
    "MiniRust.C10_not_flips_bits",
    "MiniRust.C10_bitwise_digitwise",
    "MiniRust.C10_digits_determine",
    "MiniRust.C10_shifts_wrap",
    "MiniRust.C10_countOnes_counts"
   ],
   "note": ""
  },
  {
   "property": "C11",
   "status": "proved",
   "theorems": [
    "MiniRust.C11_unchecked_ub_iff_overflow",
    "MiniRust.C11_unchecked_shift_ub_iff",
    "MiniRust.C11_division",
    "MiniRust.C11_division_unique"
   ],
   "note": ""
  },
  {
   "property": "C12",
   "status": "proved",
   "theorems": [
    "MiniRust.C12_overflow_flag_exact"
   ],
   "note": ""
  },
  {
   "property": "C13",
   "status": "proved",
   "theorems": [
    "MiniRust.C13_comparisons_total_order",
    "MiniRust.C13_valid_values_comparable"
   ],
   "note": ""
  },
  {
   "property": "C09",
   "status": "proved",
   "theorems": [
    "MiniRust.C09_self_assignment",
    "MiniRust.C09_self_assignment_succeeds"
   ],
   "note": ""
  },
  {
   "property": "C14",
   "status": "proved",
   "theorems": [
    "MiniRust.C14_layout_total",
    "MiniRust.C14_sized",
    "MiniRust.C14_dynamic_size",
    "MiniRust.C14_tail_placement",
    "MiniRust.C14_fields_disjoint",
    "MiniRust.C14_array_elements"
   ],
   "note": ""
  },
  {
   "property": "C15",
   "status": "proved",
   "theorems": [
    "MiniRust.C15_total_symmetric",
    "MiniRust.C15_reflexive",
    "MiniRust.C15_transitive",
    "MiniRust.C15_same_layout"
   ],
   "note": ""
  },
  {
   "property": "C22",
   "status": "partial",
   "theorems": [
    "MiniRust.C22_races_iff_conflict",
    "MiniRust.C22_conflict_races",
    "MiniRust.C22_accesses_recorded",
    "MiniRust.C22_step_partial",
    "MiniRust.C22_conflict_is_ub",
    "MiniRust.C22_synchronized_by_step",
    "MiniRust.C22_spawned_exempt",
    "MiniRust.C22_spawned_never_race",
    "MiniRust.C22_race_missed",
    "MiniRust.C22_empty_access_races"
   ],
   "note": "The full claim is false of the code: synchronised threads are never forgotten (witness C22_race_missed), and an empty access inside another one is reported as a race (witness C22_empty_access_races). Detection is proved exactly relative to the recorded set, for non-empty accesses; conflicts between threads outside that set are never missed."
  },
  {
   "property": "C23",
   "status": "proved",
   "theorems": [
    "MiniRust.C23_owner_changes",
    "MiniRust.C23_owner_until_release",
    "MiniRust.C23_mutual_exclusion",
    "MiniRust.C23_acquire",
    "MiniRust.C23_release",
    "MiniRust.C23_release_by_other_is_ub",
    "MiniRust.C23_acquire_no_lock_is_ub"
   ],
   "note": ""
  },
  {
   "property": "C24",
   "status": "proved",
   "theorems": [
    "MiniRust.C24_blocked_on_held_lock",
    "MiniRust.C24_blocked_on_live_thread",
    "MiniRust.C24_lock_wakeup",
    "MiniRust.C24_join_wakeup",
    "MiniRust.C24_join",
    "MiniRust.C24_any_waiter"
   ],
   "note": ""
  },
  {
   "property": "C25",
   "status": "proved",
   "theorems": [
    "MiniRust.C25_deadlock_iff",
    "MiniRust.C25_only_enabled_run",
    "MiniRust.C25_any_enabled_can_run",
    "MiniRust.C25_terminated_is_final",
    "MiniRust.C25_main_never_terminates",
    "MiniRust.C25_threads_persist"
   ],
   "note": ""
  },
  {
   "property": "C41",
   "status": "proved",
   "theorems": [
    "MiniRust.C41_reasons",
    "MiniRust.C41_exit",
    "MiniRust.C41_abort",
    "MiniRust.C41_ill_formed"
   ],
   "note": ""
  },
  {
   "property": "C42",
   "status": "proved",
   "theorems": [
    "MiniRust.C42_run_only_extends",
    "MiniRust.C42_program"
   ],
   "note": ""
  },
  {
   "property": "C55",
   "status": "proved",
   "theorems": [
    "MiniRust.C55_start",
    "MiniRust.C55_statics_placed",
    "MiniRust.C55_sorts_apart",
    "MiniRust.C55_initial_contents",
    "MiniRust.C55_function_lookup",
    "MiniRust.C55_vtable_lookup"
   ],
   "note": "Assumes that no name is bound twice, which libspecr's Map guarantees."
  },
  {
   "property": "C43",
   "status": "proved",
   "theorems": [
    "MiniRust.C43_valid_iff",
    "MiniRust.C43_load_exact"
   ],
   "note": ""
  },
  {
   "property": "C44",
   "status": "proved",
   "theorems": [
    "MiniRust.C44_offset_wraps",
    "MiniRust.C44_offset_inbounds",
    "MiniRust.C44_distance_inbounds",
    "MiniRust.C44_distance_wraps",
    "MiniRust.C44_offset_distance_inverse"
   ],
   "note": ""
  },
  {
   "property": "C58",
   "status": "proved",
   "theorems": [
    "MiniRust.C58_construct_wide",
    "MiniRust.C58_wide_parts",
    "MiniRust.C58_size_and_align",
    "MiniRust.C58_vtable_method",
    "MiniRust.C58_transmute"
   ],
   "note": ""
  },
  {
   "property": "C57",
   "status": "proved",
   "theorems": [
    "MiniRust.C57_genuine",
    "MiniRust.C57_evaluation",
    "MiniRust.C57_no_forging",
    "MiniRust.C57_untouched"
   ],
   "note": ""
  },
  {
   "property": "C35",
   "status": "proved",
   "theorems": [
    "MiniRust.C35_stack_discipline",
    "MiniRust.C35_terminated_iff",
    "MiniRust.C35_suspended_at_call",
    "MiniRust.C35_call",
    "MiniRust.C35_return"
   ],
   "note": ""
  },
  {
   "property": "C36",
   "status": "proved",
   "theorems": [
    "MiniRust.C36_pending_payloads",
    "MiniRust.C36_payload_available",
    "MiniRust.C36_no_payload_left",
    "MiniRust.C36_startUnwind",
    "MiniRust.C36_resumeUnwind",
    "MiniRust.C36_stopUnwind_proceeds",
    "MiniRust.C36_getUnwindPayload"
   ],
   "note": "Assumes that every function starts at a regular block, which check_wf does not check (see DESIGN.md)."
  },
  {
   "property": "C46",
   "status": "proved",
   "theorems": [
    "MiniRust.C46_in_block",
    "MiniRust.C46_switch",
    "MiniRust.C46_unreachable",
    "MiniRust.C46_goto_proceeds"
   ],
   "note": "The order of statements is part of C35_stack_discipline."
  },
  {
   "property": "C49",
   "status": "proved",
   "theorems": [
    "MiniRust.C49_local_storage",
    "MiniRust.C49_distinct",
    "MiniRust.C49_no_other_stack_memory",
    "MiniRust.C49_ret_and_args_live",
    "MiniRust.C49_storageLive",
    "MiniRust.C49_storageDead",
    "MiniRust.C49_popped_dead"
   ],
   "note": ""
  },
  {
   "property": "C37",
   "status": "partial",
   "theorems": [
    "MiniRust.C37_new",
    "MiniRust.C37_step_partial",
    "MiniRust.C37_run_partial",
    "MiniRust.C37_tb_new",
    "MiniRust.C37_tb_step_partial",
    "MiniRust.C37_tb_run_partial",
    "MiniRust.C37_tb_guarded_step_partial",
    "MiniRust.C37_tb_guarded_run_partial",
    "MiniRust.C37_tb_guarded_agrees",
    "MiniRust.Ex.C37_tb_retag_panics",
    "MiniRust.C37_fetch_and_op_panics",
    "MiniRust.C37_missing_start_panics",
    "MiniRust.C37_constant_panics",
    "MiniRust.C37_dangling_return_panics",
    "MiniRust.C37_lock_ids_panic",
    "MiniRust.C37_method_panics",
    "MiniRust.C37_exposed_panics",
    "MiniRust.C37_allocate_panics",
    "MiniRust.C37_offset_panics",
    "MiniRust.C37_check_panics"
   ],
   "note": "The claim is false of the code: eleven witnesses are proved. For programs that stay clear of them (Program.Tame) it is proved that no step panics with the basic memory model, and that with Tree Borrows a step panics only by making a zero-sized reference from a pointer in front of its allocation."
  },
  {
   "property": "C59",
   "status": "proved",
   "theorems": [
    "MiniRust.C59_value_sound",
    "MiniRust.C59_place_sound",
    "MiniRust.C59_evaluation_no_panic",
    "MiniRust.C59_tb_evaluation_no_panic"
   ],
   "note": "For programs and expressions outside the exceptions found for C37 (Program.Tame). Soundness holds for both memory models; absence of panics under Tree Borrows is up to the one exception found for it."
  },
  {
   "property": "C45",
   "status": "proved",
   "theorems": [
    "MiniRust.C45_field",
    "MiniRust.C45_index",
    "MiniRust.C45_deref",
    "MiniRust.C45_downcast",
    "MiniRust.C45_load_misaligned",
    "MiniRust.C45_load_field",
    "MiniRust.C45_load_element",
    "MiniRust.C45_load_variant",
    "MiniRust.C45_load_field_ok",
    "MiniRust.C45_load_element_ok",
    "MiniRust.C45_load_variant_ok"
   ],
   "note": "For programs outside the exceptions found for C37 (Program.Tame)."
  },
  {
   "property": "C47",
   "status": "proved",
   "theorems": [
    "MiniRust.C47_assign",
    "MiniRust.C47_assign_elsewhere",
    "MiniRust.C47_assign_misaligned",
    "MiniRust.C47_assign_field",
    "MiniRust.C47_assign_element",
    "MiniRust.C47_assign_ok"
   ],
   "note": "The value read back is the one assigned for types whose enums are coherent (see C02), which the code does not check."
  },
  {
   "property": "C53",
   "status": "proved",
   "theorems": [
    "MiniRust.C53_only_reads",
    "MiniRust.C53_independent",
    "MiniRust.C53_independent_place"
   ],
   "note": ""
  },
  {
   "property": "C50",
   "status": "proved",
   "theorems": [
    "MiniRust.C50_get_discriminant",
    "MiniRust.C50_set_discriminant",
    "MiniRust.C50_set_discriminant_elsewhere",
    "MiniRust.C50_deinit",
    "MiniRust.C50_deinit_elsewhere",
    "MiniRust.C50_placeMention",
    "MiniRust.C50_misaligned",
    "MiniRust.C50_validate",
    "MiniRust.C50_validate_ub",
    "MiniRust.C50_get_discriminant_ok",
    "MiniRust.C50_set_discriminant_ok"
   ],
   "note": "Setting discriminants is for types whose enums are coherent (see C02), which the code does not check; the clauses about success are for programs outside the exceptions found for C37 (Program.Tame)."
  },
  {
   "property": "C51",
   "status": "proved",
   "theorems": [
    "MiniRust.C51_allocate",
    "MiniRust.C51_allocate_any",
    "MiniRust.C51_allocate_ub",
    "MiniRust.C51_deallocate",
    "MiniRust.C51_deallocate_ub",
    "MiniRust.C51_deallocate_exact",
    "MiniRust.C51_round_trip",
    "MiniRust.C51_only_here"
   ],
   "note": ""
  },
  {
   "property": "C52",
   "status": "proved",
   "theorems": [
    "MiniRust.C52_load",
    "MiniRust.C52_store",
    "MiniRust.C52_compare_exchange",
    "MiniRust.C52_fetch_and_op",
    "MiniRust.C52_load_ub",
    "MiniRust.C52_store_ub",
    "MiniRust.C52_read_write_ub",
    "MiniRust.C52_load_exact",
    "MiniRust.C52_store_ok",
    "MiniRust.C52_compare_exchange_ok",
    "MiniRust.C52_fetch_and_op_ok"
   ],
   "note": "Stored types are those whose enums are coherent (see C02). Fetch-and-op whose result is out of range is undefined behavior or a panic of the interpreter (finding 2); C52_fetch_and_op_ok therefore assumes a result in range."
  },
  {
   "property": "C54",
   "status": "proved",
   "theorems": [
    "MiniRust.C54_expose",
    "MiniRust.C54_expose_exact",
    "MiniRust.C54_with_exposed",
    "MiniRust.C54_with_exposed_ub",
    "MiniRust.C54_only_here",
    "MiniRust.C54_round_trip",
    "MiniRust.C54_exposed_earlier"
   ],
   "note": ""
  },
  {
   "property": "C60",
   "status": "proved",
   "theorems": [
    "MiniRust.C60_assume",
    "MiniRust.C60_assume_ub",
    "MiniRust.C60_print_stdout",
    "MiniRust.C60_print_stderr",
    "MiniRust.C60_print_ub",
    "MiniRust.C60_step_print_stdout",
    "MiniRust.C60_step_print_stderr",
    "MiniRust.C60_print_only_here",
    "MiniRust.C60_get_unwind_payload",
    "MiniRust.C60_get_unwind_payload_ub",
    "MiniRust.C60_raw_eq",
    "MiniRust.C60_raw_eq_only_reads",
    "MiniRust.C60_raw_eq_self"
   ],
   "note": ""
  },
  {
   "property": "C38",
   "status": "partial",
   "theorems": [
    "MiniRust.C38_union_wellformed",
    "MiniRust.C38_chunks_shape",
    "MiniRust.C38_chunks_hold_data",
    "MiniRust.C38_data_in_chunks_partial",
    "MiniRust.C38_copy",
    "MiniRust.C38_fields_survive_copy_partial",
    "MiniRust.C38_wide_pointer_lost"
   ],
   "note": "The claim is false of the code for fields with wide pointers (proved by witness); proved for all other fields."
  },
  {
   "property": "C61",
   "status": "partial",
   "theorems": [
    "MiniRust.C61_direct",
    "MiniRust.C61_niche_partial",
    "MiniRust.C61_single",
    "MiniRust.C61_empty",
    "MiniRust.C61_roundTrips",
    "MiniRust.C61_absent_variant_breaks_data",
    "MiniRust.C61_signed_niche_loses_variant"
   ],
   "note": "The claim is false of the code for niche enums with an uninhabited variant outside the niche range, and for signed niches whose variants do not fit the tag type (both proved by witness). Proved for all others, and for direct tags, single and empty enums."
  },
  {
   "property": "C62",
   "status": "partial",
   "theorems": [
    "MiniRust.C62_cells_partial",
    "MiniRust.C62_slice_cells_partial",
    "MiniRust.C62_freeze",
    "MiniRust.C62_pointee_wellformed_partial",
    "MiniRust.C62_array_cell_missing",
    "MiniRust.C62_array_ill_formed",
    "MiniRust.C62_empty_cell_ill_formed"
   ],
   "note": "The claim is false of the code for arrays of types with UnsafeCell unless they have two elements, and well-formedness also for empty UnsafeCells (proved by witness). Proved for all other types."
  },
  {
   "property": "C63",
   "status": "partial",
   "theorems": [
    "MiniRust.C63_wellformed_partial",
    "MiniRust.C63_roundTrips_partial",
    "MiniRust.C63_slice_partial",
    "MiniRust.C63_empty_field_ill_formed"
   ],
   "note": "The claim is false of the code for a field of no size declared after a field that starts at the same place (proved by witness). Proved for all other types; what rustc guarantees about layouts is in Spec/RsTypes.lean."
  },
  {
   "property": "C64",
   "status": "proved",
   "theorems": [
    "MiniRust.C64_reads_agree",
    "MiniRust.C64_read_after_write",
    "MiniRust.C64_shared_reads_agree",
    "MiniRust.C64_read_can_be_repeated",
    "MiniRust.C64_argument_can_be_read"
   ],
   "note": "Interior mutable memory is excluded as in the English claim; an example shows why."
  },
  {
   "property": "C65",
   "status": "proved",
   "theorems": [
    "MiniRust.C65_same_behavior",
    "MiniRust.C65_never_stuck",
    "MiniRust.C65_builds_iff",
    "MiniRust.C65_misuse_panics",
    "MiniRust.C65_declarations",
    "MiniRust.C65_wellformed",
    "MiniRust.C65_start_exists"
   ],
   "note": ""
  },
  {
   "property": "C66",
   "status": "proved",
   "theorems": [
    "MiniRust.C66_every_step",
    "MiniRust.C66_lives_or_left",
    "MiniRust.C66_follows_graph",
    "MiniRust.C66_follows_graph_to_end",
    "MiniRust.C66_follows_structure",
    "MiniRust.C66_follows_structure_to_end"
   ],
   "note": ""
  },
  {
   "property": "C67",
   "status": "partial",
   "theorems": [
    "MiniRust.C67_translates",
    "MiniRust.C67_drop_call",
    "MiniRust.C67_signature",
    "MiniRust.C67_same_behavior_partial",
    "MiniRust.C67_order_irrelevant",
    "MiniRust.C67_wellformed_partial",
    "MiniRust.C67_start_exists",
    "MiniRust.C67_activation_follows_mir",
    "MiniRust.C67_activation_follows_mir_to_end",
    "MiniRust.C67_drop_unwind_lost",
    "MiniRust.C67_nounwind_unwinds",
    "MiniRust.C67_cleanup_panic_ill_formed"
   ],
   "note": "The claim is false of the code for drops that unwind, for panics that must not unwind, and well-formedness for panics in cleanup code (each proved by witness). Proved for everything else."
  },
  {
   "property": "C68",
   "status": "partial",
   "theorems": [
    "MiniRust.C68_integers",
    "MiniRust.C68_integers_deterministic",
    "MiniRust.C68_integers_unary",
    "MiniRust.C68_checked",
    "MiniRust.C68_booleans",
    "MiniRust.C68_not",
    "MiniRust.C68_comparisons",
    "MiniRust.C68_ordering",
    "MiniRust.C68_int_casts",
    "MiniRust.C68_aggregates",
    "MiniRust.C68_repeat",
    "MiniRust.C68_operand_errors",
    "MiniRust.C68_offset",
    "MiniRust.C68_ptr_casts",
    "MiniRust.C68_unsize_slice",
    "MiniRust.C68_unsize_dyn",
    "MiniRust.C68_metadata",
    "MiniRust.C68_place_local",
    "MiniRust.C68_place_field",
    "MiniRust.C68_place_index",
    "MiniRust.C68_place_deref",
    "MiniRust.C68_place_downcast",
    "MiniRust.C68_address_of",
    "MiniRust.C68_use",
    "MiniRust.C68_len",
    "MiniRust.C68_discriminant",
    "MiniRust.C68_transmute",
    "MiniRust.C68_wide_aggregate",
    "MiniRust.C68_ctpop",
    "MiniRust.C68_exact_div",
    "MiniRust.C68_size_of_val",
    "MiniRust.C68_arith_offset_partial",
    "MiniRust.C68_arith_offset_overflow",
    "MiniRust.C68_ptr_offset_from_partial",
    "MiniRust.Ex.C68_ptr_offset_from_missed_ub",
    "MiniRust.Ex.C68_missed_ub"
   ],
   "note": "The claim is false of the code for arith_offset when the distance in bytes overflows, for ptr_offset_from with pointers to different allocations, and for Len of arrays and [x; 0], which do not evaluate their operand (each proved). Proved for everything else."
  },
  {
   "property": "C69",
   "status": "proved",
   "theorems": [
    "MiniRust.C69_globals",
    "MiniRust.C69_translates",
    "MiniRust.C69_once",
    "MiniRust.C69_initial_memory",
    "MiniRust.C69_constants"
   ],
   "note": "Constants that the code does not support (function pointers, trait objects, unions) are panics in the model and outside the claim."
  },
  {
   "property": "C70",
   "status": "proved",
   "theorems": [
    "MiniRust.C70_names",
    "MiniRust.C70_names_stay",
    "MiniRust.C70_exactly_needed",
    "MiniRust.C70_functions",
    "MiniRust.C70_vtables",
    "MiniRust.C70_progress",
    "MiniRust.C70_bounded",
    "MiniRust.C70_ends",
    "MiniRust.C70_order",
    "MiniRust.C70_wellformed",
    "MiniRust.C70_start",
    "MiniRust.C70_starts",
    "MiniRust.C70_start_follows",
    "MiniRust.C70_supertrait_rejected",
    "MiniRust.C70_past_end_rejected",
    "MiniRust.C70_main_result_ub"
   ],
   "note": "The translations of single functions are parameters (C67, C68 are about them). Three valid kinds of Rust crates give programs that are ill-formed or undefined (witnesses, DESIGN section 5 item 14)."
  },
  {
   "property": "C71",
   "status": "proved",
   "theorems": [
    "MiniRust.C71_tree_borrows_only_adds_ub",
    "MiniRust.C71_basic_ub_is_tree_borrows_ub"
   ],
   "note": ""
  },
  {
   "property": "C72",
   "status": "proved",
   "theorems": [
    "MiniRust.C72_more_defined_states",
    "MiniRust.C72_more_defined_globals"
   ],
   "note": "For the basic memory model; under Tree Borrows provenance is not ordered in the specification."
  },
  {
   "property": "C73",
   "status": "proved",
   "theorems": [
    "MiniRust.C73_memory_is_reached",
    "MiniRust.C73_steps_are_operations",
    "MiniRust.C73_provenance_exists",
    "MiniRust.C73_values_exist",
    "MiniRust.C73_provenance_stays",
    "MiniRust.C73_protected_iff_in_frame",
    "MiniRust.C73_protectors_unique",
    "MiniRust.C73_calls_can_end",
    "MiniRust.C73_shared_memory_is_constant",
    "MiniRust.C73_shared_argument_is_constant"
   ],
   "note": ""
  },
  {
   "property": "C74",
   "status": "proved",
   "theorems": [
    "MiniRust.C74_no_cells",
    "MiniRust.C74_default_markers",
    "MiniRust.ConvTy.C74_well_formed",
    "MiniRust.ConvTy.C74_layout",
    "MiniRust.ConvTy.C74_slice_layout",
    "MiniRust.ConvTy.C74_pointers",
    "MiniRust.ConvTy.C74_globals",
    "MiniRust.ConvTy.C74_values"
   ],
   "note": "On x86_64, whose sizes the conversion assumes. The Rust size and alignment are a separate table in Spec/TypeConv.lean."
  },
  {
   "property": "C75",
   "status": "proved",
   "theorems": [
    "MiniRust.C75_names_distinct",
    "MiniRust.C75_contents",
    "MiniRust.C75_vtables",
    "MiniRust.C75_finish_function",
    "MiniRust.C75_finish_trait",
    "MiniRust.C75_finish_vtable",
    "MiniRust.C75_finish_program",
    "MiniRust.C75_wellformed",
    "MiniRust.C75_function_ok",
    "MiniRust.C75_function",
    "MiniRust.C75_program",
    "MiniRust.C75_trait_methods"
   ],
   "note": "Names are unbounded in the model; the code counts with u32."
  },
  {
   "property": "C76",
   "status": "proved",
   "theorems": [
    "MiniRust.C76_basic_is_tree_borrows",
    "MiniRust.C76_tree_borrows_is_basic",
    "MiniRust.C76_same_outcomes"
   ],
   "note": "By generalizing the simulation behind C71 to an arbitrary quiet memory model on the right; both directions in lockstep. Where neither execution can go on and the end is not a regular one (undefined behavior, a rejected choice, a panic), the theorems say that neither goes on, not that the two errors are equal."
  },
  {
   "property": "C77",
   "status": "proved",
   "theorems": [
    "MiniRust.C77_reads",
    "MiniRust.C77_reads_tree_borrows",
    "MiniRust.C77_writes",
    "MiniRust.C77_race_free",
    "MiniRust.C77_race_free_tree_borrows"
   ],
   "note": "Deallocation is no read or write and is not reported (finding 15)."
  },
  {
   "property": "C78",
   "status": "proved",
   "theorems": [
    "MiniRust.C78_swap",
    "MiniRust.C78_race_free_swap",
    "MiniRust.C78_deallocation_is_not_checked"
   ],
   "note": "For the basic memory model. The last theorem shows why steps that deallocate are excluded."
  },
  {
   "property": "C79",
   "status": "proved",
   "theorems": [
    "MiniRust.C79_run",
    "MiniRust.C79_run_mono",
    "MiniRust.C79_text",
    "MiniRust.C79_lines",
    "MiniRust.C79_stdout",
    "MiniRust.C79_stdout_error",
    "MiniRust.C79_flags",
    "MiniRust.C79_exit_code",
    "MiniRust.C79_codes",
    "MiniRust.C79_drop_flag",
    "MiniRust.C79_flag_irrelevant"
   ],
   "note": "JSON parsing is a parameter. Output of a step that fails is not modelled."
  },
  {
   "property": "C80",
   "status": "partial",
   "theorems": [
    "MiniRust.C80_follows_mir_partial",
    "MiniRust.C80_follows_mir_to_end_partial"
   ],
   "note": "The full claim is false of the code for destructors that unwind and functions that panic without unwinding, by C67_drop_unwind_lost and C67_nounwind_unwinds; everything else is proved. Loops, calls and unwinding are included."
  },
  {
   "property": "C81",
   "status": "proved",
   "theorems": [
    "MiniRust.Native.C81_legal",
    "MiniRust.Native.C81_exclusive",
    "MiniRust.Native.C81_join"
   ],
   "note": "Panics (numbers that do not exist, joining twice) end the model. Waiting for a mutex that is released without blocking is not modelled as a step."
  },
  {
   "property": "C82",
   "status": "partial",
   "theorems": [
    "MiniRust.Native.C82_blocked_partial",
    "MiniRust.Native.C82_no_deadlock_partial",
    "MiniRust.Native.C82_lost_wakeup",
    "MiniRust.Native.C82_spawn_blocked"
   ],
   "note": "False of the code (finding 16): the last two theorems are witnesses. Proved for schedules without wakeups between finding a lock closed and entering the waiting list, and when only the main thread spawns and joins."
  },
  {
   "property": "C83",
   "status": "partial",
   "theorems": [
    "MiniRust.C83_race_found_partial"
   ],
   "note": "For the plain memory model, and where the thread of the second access was not synchronised before. The full claim is false of the code: synchronized_threads is never reset, so races of a thread that was synchronised once are never reported (C22_race_missed, C22_spawned_never_race). Steps that allocate, deallocate, use locks, threads, output or exposed provenance may precede the run but are not part of it."
  },
  {
   "property": "C84",
   "status": "proved",
   "theorems": [
    "MiniRust.C84_state",
    "MiniRust.C84_reachable",
    "MiniRust.C84_run",
    "MiniRust.C84_more"
   ],
   "note": "For every memory model."
  },
  {
   "property": "C85",
   "status": "proved",
   "theorems": [
    "MiniRust.C85_flags",
    "MiniRust.C85_bad_flags",
    "MiniRust.C85_compile_error",
    "MiniRust.C85_dump",
    "MiniRust.C85_run",
    "MiniRust.C85_pipeline"
   ],
   "note": "rustc with the translation, the printers and the JSON parser are parameters. Calls as a plain rustc (MINIMIZE_BE_RUSTC) and calls that only build the sysroot are modelled but not part of the theorems."
  },
  {
   "property": "C86",
   "status": "partial",
   "theorems": [
    "MiniRust.C86_ends",
    "MiniRust.C86_dump",
    "MiniRust.C86_fails",
    "MiniRust.C86_wellFormed_partial",
    "MiniRust.C86_unique",
    "MiniRust.C86_names",
    "MiniRust.C86_operators",
    "MiniRust.C86_sorted",
    "MiniRust.C86_unprintable",
    "MiniRust.C86_ambiguous"
   ],
   "note": "Well-formed programs that take addresses at a box type or transmute to an ill-formed type cannot be dumped (finding 17), so the claim for all well-formed programs is proved without these. That the dump is produced, ends, and is what the statement says is proved for all programs."
  },
  {
   "property": "C87",
   "status": "proved",
   "theorems": [
    "MiniRust.C87_unused",
    "MiniRust.C87_states",
    "MiniRust.C87_names",
    "MiniRust.C87_names_each",
    "MiniRust.C87_follows",
    "MiniRust.C87_unreachable"
   ],
   "note": "C87_unused, C87_states and C87_names hold for every memory model; C87_names_each, C87_follows and C87_unreachable for those that wrap the basic one."
  },
  {
   "property": "C88",
   "status": "proved",
   "theorems": [
    "MiniRust.C88_refines",
    "MiniRust.C88_complete",
    "MiniRust.C88_ub",
    "MiniRust.C88_equiv",
    "MiniRust.C88_wf"
   ],
   "note": "For memory models that wrap the basic one (BasicMemory, Tree Borrows). Chains of empty blocks are handled by applying the theorem again."
  },
  {
   "property": "C89",
   "status": "partial",
   "theorems": [
    "MiniRust.C89_start_partial",
    "MiniRust.C89_only_choices_partial",
    "MiniRust.C89_tb_partial",
    "MiniRust.C89_start_ub",
    "MiniRust.C89_huge_ub"
   ],
   "note": "False of the code: a start function that returns an empty array and a global whose size is no valid size pass the check, and starting the program is undefined behavior (finding 18). Proved for all other well-formed programs (the hypothesis StartOk)."
  },
  {
   "property": "C90",
   "status": "proved",
   "theorems": [
    "MiniRust.C90_outcome",
    "MiniRust.C90_assert",
    "MiniRust.C90_stop_always",
    "MiniRust.C90_ub_eventually",
    "MiniRust.C90_has_data_race",
    "MiniRust.C90_race_exists",
    "MiniRust.C90_only_main",
    "MiniRust.C90_ub_expr_program",
    "MiniRust.C90_ub_expr"
   ],
   "note": "Messages of undefined behavior are not modelled, except that data races are told apart. C90_only_main and C90_ub_expr hold for memory models that wrap the basic one; the others for every model. C90_only_main shows how finding C22 limits has_data_race."
  },
  {
   "property": "C91",
   "status": "proved",
   "theorems": [
    "MiniRust.C91_ends",
    "MiniRust.C91_no_while",
    "MiniRust.C91_structured",
    "MiniRust.C91_loop"
   ],
   "note": "For memory models that wrap the basic one. The bound is uniform in the choices: an execution of the model also ends when its list of choices is exhausted, so a bound for each list alone would say nothing. Calls through computed function pointers are excluded by the hypothesis. C91_loop shows that the bound is not free: a well-formed program with one jump to itself has executions of any length."
  },
  {
   "property": "C92",
   "status": "proved",
   "theorems": [
    "MiniRust.C92_bool_ops",
    "MiniRust.C92_not",
    "MiniRust.C92_bool_errors",
    "MiniRust.C92_bool_to_int",
    "MiniRust.C92_if",
    "MiniRust.C92_bool_typed",
    "MiniRust.C92_ptr_addr",
    "MiniRust.C92_null",
    "MiniRust.C92_global",
    "MiniRust.C92_array",
    "MiniRust.C92_array_typed",
    "MiniRust.C92_misuse_panics",
    "MiniRust.C92_small_program"
   ],
   "note": "For every memory model and machine state. C92_ptr_addr is for thin pointers; with other pointers the transmute panics or is ill-formed because the sizes differ. Together with C91_ends, C92_small_program says that every small program ends."
  },
  {
   "property": "C93",
   "status": "proved",
   "theorems": [
    "MiniRust.C93_union_bytes",
    "MiniRust.C93_union_wf",
    "MiniRust.C93_tagged_enum",
    "MiniRust.C93_no_int_panics"
   ],
   "note": "Maps are collected from lists with later entries replacing earlier ones of the same key. C93_tagged_enum is for enums with one tag per variant that is its discriminant; that the check of well-formedness alone does not make taggers and discriminators fit together is the finding of C02."
  }
 ]
}