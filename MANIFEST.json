{
 "claims": [
  {
   "property": "C01",
   "status": "proved",
   "theorems": [
    "Stdgpu.Props.C01_has_single_bit"
   ],
   "note": ""
  },
  {
   "property": "C02",
   "status": "proved",
   "theorems": [
    "Stdgpu.Props.C02_bit_ceil",
    "Stdgpu.Props.C02_bit_ceil_overflow",
    "Stdgpu.Props.C02_bit_floor"
   ],
   "note": ""
  },
  {
   "property": "C03",
   "status": "proved",
   "theorems": [
    "Stdgpu.Props.C03_bit_mod"
   ],
   "note": ""
  },
  {
   "property": "C04",
   "status": "proved",
   "theorems": [
    "Stdgpu.Props.C04_bit_width",
    "Stdgpu.Props.C04_popcount"
   ],
   "note": ""
  },
  {
   "property": "C05",
   "status": "proved",
   "theorems": [
    "Stdgpu.Props.C05_bucket_in_range",
    "Stdgpu.Props.C05_bucket_surjective",
    "Stdgpu.Props.C05_bucket_respects_hash"
   ],
   "note": ""
  },
  {
   "property": "C06",
   "status": "proved",
   "theorems": [
    "Stdgpu.Props.C06_inc_dec_mod_step",
    "Stdgpu.Props.C06_concurrent_mod_counter"
   ],
   "note": ""
  },
  {
   "property": "C07",
   "status": "partial",
   "theorems": [
    "Stdgpu.Props.C07_linearizable_partial",
    "Stdgpu.Props.C07_final_value_schedule_independent",
    "Stdgpu.Props.C07_fetch_ops_commute",
    "Stdgpu.Props.C07_unique_tickets",
    "Stdgpu.Props.C07_openmp_mixed_kinds_lose_update"
   ],
   "note": "Linearizability and schedule independence are proved for every backend in which all operations of one atomic exclude each other. Missing: on the OpenMP backend operations of different kinds do not exclude each other; C07_openmp_mixed_kinds_lose_update proves that the property is false there."
  },
  {
   "property": "C08",
   "status": "proved",
   "theorems": [
    "Stdgpu.Props.C08_compare_exchange",
    "Stdgpu.Props.C08_cas_loop_atomic",
    "Stdgpu.Props.C08_cas_loop_lock_free",
    "Stdgpu.Props.C08_cas_loop_solo"
   ],
   "note": ""
  },
  {
   "property": "C09",
   "status": "proved",
   "theorems": [
    "Stdgpu.Props.C09_cuda_atomic_sub"
   ],
   "note": ""
  },
  {
   "property": "C10",
   "status": "proved",
   "theorems": [
    "Stdgpu.Props.C10_bitset_is_bool_array",
    "Stdgpu.Props.C10_spec_total"
   ],
   "note": ""
  },
  {
   "property": "C11",
   "status": "proved",
   "theorems": [
    "Stdgpu.Props.C11_count"
   ],
   "note": ""
  },
  {
   "property": "C12",
   "status": "proved",
   "theorems": [
    "Stdgpu.Props.C12_all_any_none",
    "Stdgpu.Props.C12_empty_bitset"
   ],
   "note": "Includes the deviation for size 0 (C12_empty_bitset)."
  },
  {
   "property": "C13",
   "status": "proved",
   "theorems": [
    "Stdgpu.Props.C13_linearizable",
    "Stdgpu.Props.C13_no_interference",
    "Stdgpu.Props.C13_exactly_one_winner"
   ],
   "note": ""
  },
  {
   "property": "C14",
   "status": "proved",
   "theorems": [
    "Stdgpu.Props.C14_mutual_exclusion",
    "Stdgpu.Props.C14_critical_sections_disjoint",
    "Stdgpu.Props.C14_try_lock_iff_free",
    "Stdgpu.Props.C14_valid_after_release",
    "Stdgpu.Props.C14_always_finishes"
   ],
   "note": ""
  },
  {
   "property": "C15",
   "status": "proved",
   "theorems": [
    "Stdgpu.Props.C15_try_lock_sequential",
    "Stdgpu.Props.C15_try_lock_all_or_nothing"
   ],
   "note": ""
  },
  {
   "property": "C16",
   "status": "proved",
   "theorems": [
    "Stdgpu.Props.C16_vector_is_bounded_list",
    "Stdgpu.Props.C16_spec_total",
    "Stdgpu.Props.C16_push_pop",
    "Stdgpu.Props.C16_machine_agrees_push",
    "Stdgpu.Props.C16_machine_agrees_pop"
   ],
   "note": ""
  },
  {
   "property": "C17",
   "status": "partial",
   "theorems": [
    "Stdgpu.Props.C17_range_operations_partial",
    "Stdgpu.Props.C17_erase_past_end"
   ],
   "note": "Proved for begin <= end. erase with a position past the end is not rejected by the code and leaves an invalid vector: C17_erase_past_end proves that the unrestricted statement is false."
  },
  {
   "property": "C18",
   "status": "proved",
   "theorems": [
    "Stdgpu.Props.C18_concurrent_push"
   ],
   "note": ""
  },
  {
   "property": "C19",
   "status": "proved",
   "theorems": [
    "Stdgpu.Props.C19_concurrent_pop"
   ],
   "note": ""
  },
  {
   "property": "C20",
   "status": "proved",
   "theorems": [
    "Stdgpu.Props.C20_conservation"
   ],
   "note": ""
  },
  {
   "property": "C21",
   "status": "proved",
   "theorems": [
    "Stdgpu.Props.C21_no_deadlock"
   ],
   "note": ""
  },
  {
   "property": "C22",
   "status": "partial",
   "theorems": [
    "Stdgpu.Props.C22_all_programs_partial",
    "Stdgpu.Props.C22_no_failure_partial",
    "Stdgpu.Props.C22_valid_after_concurrent_use_partial",
    "Stdgpu.Props.C22_valid_iff_counter_in_range_partial",
    "Stdgpu.Props.C22_counterexample_pops",
    "Stdgpu.Props.C22_counterexample_pushes",
    "Stdgpu.Props.C22_clear_does_not_repair"
   ],
   "note": "The unrestricted property is false of the code (C22_counterexample_*). Proved: programs that cannot cross a boundary keep the vector valid; for all programs valid() is true afterwards exactly when the raw counter is in range, and then the state is proper; C22_all_programs_partial: for all programs size() and the elements are right and the counter is off by at most the failed operations; C22_no_failure_partial: without a failed operation the vector is valid."
  },
  {
   "property": "C23",
   "status": "proved",
   "theorems": [
    "Stdgpu.Props.C23_deque_is_bounded_deque",
    "Stdgpu.Props.C23_spec_total",
    "Stdgpu.Props.C23_push_pop",
    "Stdgpu.Props.C23_capacity_zero",
    "Stdgpu.Props.C23_machine_agrees_push",
    "Stdgpu.Props.C23_machine_agrees_pop"
   ],
   "note": ""
  },
  {
   "property": "C24",
   "status": "proved",
   "theorems": [
    "Stdgpu.Props.C24_device_range_and_clear",
    "Stdgpu.Props.C24_wrapped_order"
   ],
   "note": ""
  },
  {
   "property": "C25",
   "status": "proved",
   "theorems": [
    "Stdgpu.Props.C25_conservation"
   ],
   "note": ""
  },
  {
   "property": "C26",
   "status": "partial",
   "theorems": [
    "Stdgpu.Props.C26_all_programs_partial",
    "Stdgpu.Props.C26_no_failure_partial",
    "Stdgpu.Props.C26_counterexample_clear",
    "Stdgpu.Props.C26_usable_after_concurrent_use_partial",
    "Stdgpu.Props.C26_hang_is_nontermination",
    "Stdgpu.Props.C26_counterexample_pushes",
    "Stdgpu.Props.C26_counterexample_pops"
   ],
   "note": "The unrestricted property is false of the code: C26_counterexample_pushes / _pops give schedules after which the deque is invalid or an operation cannot terminate. Proved for programs that cannot cross a boundary (C26_usable_after_concurrent_use_partial), for executions without a failed operation (C26_no_failure_partial), and for all programs: everything but the size counter is right, the counter is off by at most the failed operations, valid() is true exactly when it is right (C26_all_programs_partial). C26_counterexample_clear: clear() and device_range() then touch objects that do not exist. C53/C54 settle push-only and pop-only programs."
  },
  {
   "property": "C27",
   "status": "proved",
   "theorems": [
    "Stdgpu.Props.C27_queue_fifo"
   ],
   "note": ""
  },
  {
   "property": "C28",
   "status": "proved",
   "theorems": [
    "Stdgpu.Props.C28_stack_lifo"
   ],
   "note": ""
  },
  {
   "property": "C29",
   "status": "proved",
   "theorems": [
    "Stdgpu.Props.C29_map_refinement",
    "Stdgpu.Props.C29_lookup",
    "Stdgpu.Props.C29_transparent_lookup"
   ],
   "note": ""
  },
  {
   "property": "C30",
   "status": "proved",
   "theorems": [
    "Stdgpu.Props.C30_insert_present",
    "Stdgpu.Props.C30_keys_unique",
    "Stdgpu.Props.C30_insert_success",
    "Stdgpu.Props.C30_erase",
    "Stdgpu.Props.C30_erase_then_insert"
   ],
   "note": ""
  },
  {
   "property": "C31",
   "status": "proved",
   "theorems": [
    "Stdgpu.Props.C31_valid"
   ],
   "note": ""
  },
  {
   "property": "C32",
   "status": "proved",
   "theorems": [
    "Stdgpu.Props.C32_walks"
   ],
   "note": ""
  },
  {
   "property": "C33",
   "status": "proved",
   "theorems": [
    "Stdgpu.Props.C33_insert_iff",
    "Stdgpu.Props.C33_insert_few",
    "Stdgpu.Props.C33_constant_hash_limit"
   ],
   "note": ""
  },
  {
   "property": "C34",
   "status": "proved",
   "theorems": [
    "Stdgpu.Props.C34_slot_accounting"
   ],
   "note": ""
  },
  {
   "property": "C35",
   "status": "proved",
   "theorems": [
    "Stdgpu.Props.C35_bucket_statistics"
   ],
   "note": ""
  },
  {
   "property": "C36",
   "status": "proved",
   "theorems": [
    "Stdgpu.Props.C36_device_range",
    "Stdgpu.Props.C36_clear"
   ],
   "note": ""
  },
  {
   "property": "C37",
   "status": "partial",
   "theorems": [
    "Stdgpu.Props.C37_bucket_count_partial",
    "Stdgpu.Props.C37_bucket_count_small",
    "Stdgpu.Props.C37_bucket_count_counterexample",
    "Stdgpu.Props.C37_excess_and_total",
    "Stdgpu.Props.C37_created",
    "Stdgpu.Props.C37_created_device_object",
    "Stdgpu.Props.C37_excess_any_rounding",
    "Stdgpu.Props.C37_created_any_rounding",
    "Stdgpu.Props.C37_exact_is_a_rounding",
    "Stdgpu.Props.C37_rounding_matters"
   ],
   "note": "The library computes bucket counts in single precision. C37_bucket_count_partial characterises exactly the capacities for which the bucket count is at least the capacity; C37_bucket_count_counterexample gives a capacity (>= 2^24) for which it is smaller. excess/total counts: proved without restriction, in exact arithmetic and (C37_excess_any_rounding) for any rounding errors of long double."
  },
  {
   "property": "C38",
   "status": "proved",
   "theorems": [
    "Stdgpu.Props.C38_safe",
    "Stdgpu.Props.C38_keys_distinct",
    "Stdgpu.Props.C38_contents_grow",
    "Stdgpu.Props.C38_at_most_one",
    "Stdgpu.Props.C38_success_stored",
    "Stdgpu.Props.C38_failure",
    "Stdgpu.Props.C38_final",
    "Stdgpu.Props.C38_usable_afterwards",
    "Stdgpu.Props.C38_no_exhaustion",
    "Stdgpu.Props.C38_counterexample_exhaustion"
   ],
   "note": "All hash functions, thread numbers and schedules. The provision of the property (free list not exhausted) is needed: C38_counterexample_exhaustion."
  },
  {
   "property": "C39",
   "status": "proved",
   "theorems": [
    "Stdgpu.Props.C39_safe",
    "Stdgpu.Props.C39_erased_was_stored",
    "Stdgpu.Props.C39_at_most_one",
    "Stdgpu.Props.C39_contents_shrink",
    "Stdgpu.Props.C39_others_stay",
    "Stdgpu.Props.C39_miss",
    "Stdgpu.Props.C39_found",
    "Stdgpu.Props.C39_find_after_erase",
    "Stdgpu.Props.C39_final",
    "Stdgpu.Props.C39_exactly_one",
    "Stdgpu.Props.C39_usable_afterwards",
    "Stdgpu.Props.C39_counterexample_stale_read"
   ],
   "note": "All hash functions, thread numbers and schedules; lookups may run at the same time. The unlocked lookup may compare the key of an object that is just being destroyed: C39_counterexample_stale_read (relevant for types with a non-trivial destructor only)."
  },
  {
   "property": "C40",
   "status": "partial",
   "theorems": [
    "Stdgpu.Props.C40_counterexample_duplicate_key",
    "Stdgpu.Props.C40_counterexample_lost_erase",
    "Stdgpu.Props.C40_counterexample_out_of_bounds",
    "Stdgpu.Props.C40_counterexample_find_hangs",
    "Stdgpu.Props.C40_phases_partial"
   ],
   "note": "The property is false of the code: C40_counterexample_duplicate_key, C40_counterexample_lost_erase, C40_counterexample_out_of_bounds (a later lookup leaves the table) and C40_counterexample_find_hangs (a later lookup never returns) give executions of the modelled code. Insertions only (C38) and erasures only (C39) are proved, and C40_phases_partial: any alternation of such phases is right. C75 proves linearizability of mixed operations when different keys have different buckets."
  },
  {
   "property": "C41",
   "status": "partial",
   "theorems": [
    "Stdgpu.Props.C41_counters_balance_partial",
    "Stdgpu.Props.C41_counters_balance",
    "Stdgpu.Props.C41_live_blocks_disjoint",
    "Stdgpu.Props.C41_bad_deallocation_no_effect",
    "Stdgpu.Props.C41_deallocation",
    "Stdgpu.Props.C41_no_double_free",
    "Stdgpu.Props.C41_failed_allocation_counterexample"
   ],
   "note": "Proved exactly when no backend allocation was refused; a refused allocation (OpenMP) is counted although no block exists: C41_counters_balance_partial gives the exact difference, C41_failed_allocation_counterexample shows that the unrestricted statement is false. Erroneous deallocations: proved without restriction."
  },
  {
   "property": "C42",
   "status": "proved",
   "theorems": [
    "Stdgpu.Props.C42_size_bytes_and_type",
    "Stdgpu.Props.C42_allocation",
    "Stdgpu.Props.C42_register_memory"
   ],
   "note": ""
  },
  {
   "property": "C43",
   "status": "partial",
   "theorems": [
    "Stdgpu.Props.C43_checked_copy_partial",
    "Stdgpu.Props.C43_negative_size_counterexample",
    "Stdgpu.Props.C43_null_counterexample"
   ],
   "note": "Proved for positive sizes in states without refused allocations. The code accepts negative sizes for interior pointers (C43_negative_size_counterexample) and the null pointer after a refused allocation (C43_null_counterexample)."
  },
  {
   "property": "C44",
   "status": "proved",
   "theorems": [
    "Stdgpu.Props.C44_create",
    "Stdgpu.Props.C44_create_via_host",
    "Stdgpu.Props.C44_copy_create",
    "Stdgpu.Props.C44_round_trip",
    "Stdgpu.Props.C44_copy",
    "Stdgpu.Props.C44_empty",
    "Stdgpu.Props.C44_destroy",
    "Stdgpu.Props.C44_destroy_via_host"
   ],
   "note": ""
  },
  {
   "property": "C45",
   "status": "proved",
   "theorems": [
    "Stdgpu.Props.C45_loop_completes",
    "Stdgpu.Props.C45_visits_once",
    "Stdgpu.Props.C45_fill",
    "Stdgpu.Props.C45_iota",
    "Stdgpu.Props.C45_copy",
    "Stdgpu.Props.C45_overlapping_copy_counterexample"
   ],
   "note": ""
  },
  {
   "property": "C46",
   "status": "proved",
   "theorems": [
    "Stdgpu.Props.C46_transform_reduce",
    "Stdgpu.Props.C46_transform_reduce_ordered",
    "Stdgpu.Props.C46_sum_and_conjunction"
   ],
   "note": ""
  },
  {
   "property": "C47",
   "status": "proved",
   "theorems": [
    "Stdgpu.Props.C47_min_max",
    "Stdgpu.Props.C47_clamp"
   ],
   "note": ""
  },
  {
   "property": "C48",
   "status": "partial",
   "theorems": [
    "Stdgpu.Props.C48_integer_hash_injective",
    "Stdgpu.Props.C48_integer_hash_width",
    "Stdgpu.Props.C48_enum_hash_injective",
    "Stdgpu.Props.C48_integer_hash_value",
    "Stdgpu.Props.C48_enum_hash_value",
    "Stdgpu.Props.C48_integer_keys_lawful",
    "Stdgpu.Props.C48_float_hash_partial",
    "Stdgpu.Props.C48_double_hash_partial",
    "Stdgpu.Props.C48_long_double_hash_partial",
    "Stdgpu.Props.C48_float_hash_injective",
    "Stdgpu.Props.C48_zero_counterexample",
    "Stdgpu.Props.C48_zero_stored_twice"
   ],
   "note": "Integers, bool, characters and enums: proved. Floating point: equal keys hash equally except the pair of zeros; C48_zero_counterexample / C48_zero_stored_twice prove that +0.0 and -0.0 are equal keys with different hashes, so one key can be stored twice."
  },
  {
   "property": "C49",
   "status": "proved",
   "theorems": [
    "Stdgpu.Props.C49_size",
    "Stdgpu.Props.C49_range_count",
    "Stdgpu.Props.C49_range_array",
    "Stdgpu.Props.C49_transform"
   ],
   "note": ""
  },
  {
   "property": "C50",
   "status": "proved",
   "theorems": [
    "Stdgpu.Props.C50_vector_lifetimes",
    "Stdgpu.Props.C50_deque_lifetimes",
    "Stdgpu.Props.C50_unordered_lifetimes",
    "Stdgpu.Props.C50_violations_are_faults"
   ],
   "note": ""
  },
  {
   "property": "C51",
   "status": "partial",
   "theorems": [
    "Stdgpu.Props.C51_element_access",
    "Stdgpu.Props.C51_check_partial",
    "Stdgpu.Props.C51_counterexample"
   ],
   "note": "Access to element n is proved; the debug check is wrong in the code: C51_counterexample. C51_check_partial gives the states in which the check is right."
  },
  {
   "property": "C52",
   "status": "proved",
   "theorems": [
    "Stdgpu.Props.C52_back_inserter_vector",
    "Stdgpu.Props.C52_inserters_deque",
    "Stdgpu.Props.C52_inserter_unordered"
   ],
   "note": ""
  },
  {
   "property": "C53",
   "status": "proved",
   "theorems": [
    "Stdgpu.Props.C53_concurrent_push"
   ],
   "note": ""
  },
  {
   "property": "C54",
   "status": "proved",
   "theorems": [
    "Stdgpu.Props.C54_concurrent_pop"
   ],
   "note": ""
  },
  {
   "property": "C55",
   "status": "proved",
   "theorems": [
    "Stdgpu.Props.C55_find_sees_inserted",
    "Stdgpu.Props.C55_found_is_stored"
   ],
   "note": ""
  },
  {
   "property": "C56",
   "status": "proved",
   "theorems": [
    "Stdgpu.Props.C56_inserts_no_deadlock",
    "Stdgpu.Props.C56_erases_no_deadlock"
   ],
   "note": ""
  },
  {
   "property": "C57",
   "status": "proved",
   "theorems": [
    "Stdgpu.Props.C57_bulk_insert",
    "Stdgpu.Props.C57_bulk_insert_size",
    "Stdgpu.Props.C57_bulk_insert_completes",
    "Stdgpu.Props.C57_bulk_erase",
    "Stdgpu.Props.C57_bulk_erase_completes"
   ],
   "note": ""
  },
  {
   "property": "C58",
   "status": "proved",
   "theorems": [
    "Stdgpu.Props.C58_vector_counter",
    "Stdgpu.Props.C58_deque_counter",
    "Stdgpu.Props.C58_vector_no_overflow",
    "Stdgpu.Props.C58_deque_no_overflow",
    "Stdgpu.Props.C58_bound_is_exact"
   ],
   "note": ""
  },
  {
   "property": "C59",
   "status": "proved",
   "theorems": [
    "Stdgpu.Props.C59_no_double_free",
    "Stdgpu.Props.C59_owned_live_disjoint",
    "Stdgpu.Props.C59_size_and_type",
    "Stdgpu.Props.C59_counters_balance",
    "Stdgpu.Props.C59_returned",
    "Stdgpu.Props.C59_stays_owned",
    "Stdgpu.Props.C59_counterexample_racing_deallocations"
   ],
   "note": ""
  },
  {
   "property": "C60",
   "status": "proved",
   "theorems": [
    "Stdgpu.Props.C60_vector_no_race",
    "Stdgpu.Props.C60_deque_no_race",
    "Stdgpu.Props.C60_initial_copy_no_effect",
    "Stdgpu.Props.C60_vector_races",
    "Stdgpu.Props.C60_deque_races",
    "Stdgpu.Props.C60_vector_few_pops",
    "Stdgpu.Props.C60_vector_pop_copies_live",
    "Stdgpu.Props.C60_counterexample_race",
    "Stdgpu.Props.C60_counterexample_empty_vector",
    "Stdgpu.Props.C60_counterexample_deque"
   ],
   "note": ""
  },
  {
   "property": "C61",
   "status": "proved",
   "theorems": [
    "Stdgpu.Props.C61_insert_races",
    "Stdgpu.Props.C61_lookups_no_race",
    "Stdgpu.Props.C61_erase_races",
    "Stdgpu.Props.C61_counterexample_insert_race",
    "Stdgpu.Props.C61_counterexample_erase_race"
   ],
   "note": ""
  },
  {
   "property": "C62",
   "status": "proved",
   "theorems": [
    "Stdgpu.Props.C62_vector_valid_iff",
    "Stdgpu.Props.C62_deque_valid_iff",
    "Stdgpu.Props.C62_mutex_valid_iff",
    "Stdgpu.Props.C62_unordered_valid_sound"
   ],
   "note": ""
  },
  {
   "property": "C63",
   "status": "proved",
   "theorems": [
    "Stdgpu.Props.C63_store_load",
    "Stdgpu.Props.C63_rmw_rmw",
    "Stdgpu.Props.C63_store_rmw",
    "Stdgpu.Props.C63_rmw_load",
    "Stdgpu.Props.C63_counterexample_release",
    "Stdgpu.Props.C63_counterexample_acquire",
    "Stdgpu.Props.C63_counterexample_rmw_release",
    "Stdgpu.Props.C63_counterexample_rmw_acquire"
   ],
   "note": ""
  },
  {
   "property": "C64",
   "status": "proved",
   "theorems": [
    "Stdgpu.Props.C64_insert_linearizable",
    "Stdgpu.Props.C64_insert_linearizable_strict",
    "Stdgpu.Props.C64_erase_linearizable",
    "Stdgpu.Props.C64_counterexample_mixed"
   ],
   "note": ""
  },
  {
   "property": "C65",
   "status": "proved",
   "theorems": [
    "Stdgpu.Props.C65_memory_balance",
    "Stdgpu.Props.C65_all_destroyed",
    "Stdgpu.Props.C65_disjoint",
    "Stdgpu.Props.C65_created_zero",
    "Stdgpu.Props.C65_untouched",
    "Stdgpu.Props.C65_counterexample_unordered_twice"
   ],
   "note": ""
  },
  {
   "property": "C66",
   "status": "proved",
   "theorems": [
    "Stdgpu.Props.C66_ownership",
    "Stdgpu.Props.C66_all_released",
    "Stdgpu.Props.C66_access"
   ],
   "note": ""
  },
  {
   "property": "C67",
   "status": "proved",
   "theorems": [
    "Stdgpu.Props.C67_call_effect",
    "Stdgpu.Props.C67_linearizable",
    "Stdgpu.Props.C67_signed_results"
   ],
   "note": ""
  },
  {
   "property": "C68",
   "status": "proved",
   "theorems": [
    "Stdgpu.Props.C68_vector_wait_free",
    "Stdgpu.Props.C68_deque_wait_free",
    "Stdgpu.Props.C68_vector_fair",
    "Stdgpu.Props.C68_deque_fair",
    "Stdgpu.Props.C68_counterexample_mixed_livelock"
   ],
   "note": ""
  },
  {
   "property": "C69",
   "status": "proved",
   "theorems": [
    "Stdgpu.Props.C69_inserts_fair",
    "Stdgpu.Props.C69_erases_fair",
    "Stdgpu.Props.C69_inserts_complete",
    "Stdgpu.Props.C69_erases_complete",
    "Stdgpu.Props.C69_counterexample_unfair",
    "Stdgpu.Props.C69_counterexample_mixed"
   ],
   "note": ""
  },
  {
   "property": "C70",
   "status": "proved",
   "theorems": [
    "Stdgpu.Props.C70_vector_push",
    "Stdgpu.Props.C70_vector_pop",
    "Stdgpu.Props.C70_deque_push",
    "Stdgpu.Props.C70_deque_pop",
    "Stdgpu.Props.C70_counterexample_mixed_vector",
    "Stdgpu.Props.C70_counterexample_queue_wrap",
    "Stdgpu.Props.C70_counterexample_queue_empty"
   ],
   "note": ""
  },
  {
   "property": "C71",
   "status": "proved",
   "theorems": [
    "Stdgpu.Props.C71_queue_linearizable",
    "Stdgpu.Props.C71_push_never_fails",
    "Stdgpu.Props.C71_queue_strict"
   ],
   "note": ""
  },
  {
   "property": "C72",
   "status": "proved",
   "theorems": [
    "Stdgpu.Props.C72_election",
    "Stdgpu.Props.C72_mask",
    "Stdgpu.Props.C72_lane_ids",
    "Stdgpu.Props.C72_one_at_a_time",
    "Stdgpu.Props.C72_wave_inserts",
    "Stdgpu.Props.C72_wave_erases",
    "Stdgpu.Props.C72_counterexample_no_election"
   ],
   "note": ""
  },
  {
   "property": "C73",
   "status": "proved",
   "theorems": [
    "Stdgpu.Props.C73_lanes_are_threads",
    "Stdgpu.Props.C73_vector_wave_wait_free",
    "Stdgpu.Props.C73_deque_wave_wait_free",
    "Stdgpu.Props.C73_vector_pushes",
    "Stdgpu.Props.C73_vector_pops",
    "Stdgpu.Props.C73_deque_pushes",
    "Stdgpu.Props.C73_deque_pops",
    "Stdgpu.Props.C73_counterexample_vector_deadlock",
    "Stdgpu.Props.C73_counterexample_queue_deadlock"
   ],
   "note": ""
  },
  {
   "property": "C74",
   "status": "proved",
   "theorems": [
    "Stdgpu.Props.C74_insert_bounds",
    "Stdgpu.Props.C74_erase_bounds",
    "Stdgpu.Props.C74_mixed_bounds",
    "Stdgpu.Props.C74_insert_no_overflow",
    "Stdgpu.Props.C74_erase_no_overflow",
    "Stdgpu.Props.C74_mixed_no_overflow",
    "Stdgpu.Props.C74_sizes",
    "Stdgpu.Props.C74_counterexample_capacity",
    "Stdgpu.Props.C74_created_insert",
    "Stdgpu.Props.C74_created_erase",
    "Stdgpu.Props.C74_created_mixed"
   ],
   "note": ""
  },
  {
   "property": "C75",
   "status": "proved",
   "theorems": [
    "Stdgpu.Props.C75_mixed_linearizable",
    "Stdgpu.Props.C75_mixed_linearizable_strict",
    "Stdgpu.Props.C75_mixed_defined",
    "Stdgpu.Props.C75_mixed_final",
    "Stdgpu.Props.C75_mixed_valid",
    "Stdgpu.Props.C75_mixed_then_sequential"
   ],
   "note": ""
  },
  {
   "property": "C76",
   "status": "proved",
   "theorems": [
    "Stdgpu.Props.C76_fill",
    "Stdgpu.Props.C76_copy",
    "Stdgpu.Props.C76_iota",
    "Stdgpu.Props.C76_counterexample_nothing",
    "Stdgpu.Props.C76_counterexample_prefix",
    "Stdgpu.Props.C76_counterexample_fill_n",
    "Stdgpu.Props.C76_uninitialized_fill",
    "Stdgpu.Props.C76_destroy",
    "Stdgpu.Props.C76_uninitialized_copy"
   ],
   "note": ""
  },
  {
   "property": "C77",
   "status": "proved",
   "theorems": [
    "Stdgpu.Props.C77_back_inserter_vector",
    "Stdgpu.Props.C77_back_inserter_vector_full",
    "Stdgpu.Props.C77_inserter_deque",
    "Stdgpu.Props.C77_inserter_unordered"
   ],
   "note": ""
  },
  {
   "property": "C78",
   "status": "proved",
   "theorems": [
    "Stdgpu.Props.C78_mixed_no_deadlock",
    "Stdgpu.Props.C78_mixed_completes",
    "Stdgpu.Props.C78_counterexample_livelock"
   ],
   "note": ""
  },
  {
   "property": "C79",
   "status": "proved",
   "theorems": [
    "Stdgpu.Props.C79_lookup_bounded_inserts",
    "Stdgpu.Props.C79_lookup_bounded_erases",
    "Stdgpu.Props.C79_lookup_bounded_mixed"
   ],
   "note": ""
  },
  {
   "property": "C80",
   "status": "proved",
   "theorems": [
    "Stdgpu.Props.C80_key_balance",
    "Stdgpu.Props.C80_size",
    "Stdgpu.Props.C80_no_leak",
    "Stdgpu.Props.C80_no_phantom_erase"
   ],
   "note": ""
  },
  {
   "property": "C81",
   "status": "proved",
   "theorems": [
    "Stdgpu.Props.C81_vector_create",
    "Stdgpu.Props.C81_deque_create",
    "Stdgpu.Props.C81_representable",
    "Stdgpu.Props.C81_vector",
    "Stdgpu.Props.C81_deque",
    "Stdgpu.Props.C81_valid",
    "Stdgpu.Props.C81_deque_valid",
    "Stdgpu.Props.C81_vector_conservation",
    "Stdgpu.Props.C81_unordered_create",
    "Stdgpu.Props.C81_unordered_representable",
    "Stdgpu.Props.C81_unordered",
    "Stdgpu.Props.C81_unordered_inserts"
   ],
   "note": ""
  },
  {
   "property": "C82",
   "status": "proved",
   "theorems": [
    "Stdgpu.Props.C82_vector_insert",
    "Stdgpu.Props.C82_vector_erase",
    "Stdgpu.Props.C82_counterexample_insert_shrinks",
    "Stdgpu.Props.C82_counterexample_insert_prefix",
    "Stdgpu.Props.C82_counterexample_insert_overflow",
    "Stdgpu.Props.C82_bulk",
    "Stdgpu.Props.C82_counterexample_bulk_nothing",
    "Stdgpu.Props.C82_counterexample_bulk_prefix"
   ],
   "note": ""
  },
  {
   "property": "C83",
   "status": "proved",
   "theorems": [
    "Stdgpu.Props.C83_completes",
    "Stdgpu.Props.C83_bitset_set",
    "Stdgpu.Props.C83_bitset_reset",
    "Stdgpu.Props.C83_bitset_flip",
    "Stdgpu.Props.C83_vector_insert",
    "Stdgpu.Props.C83_vector_erase",
    "Stdgpu.Props.C83_vector_clear",
    "Stdgpu.Props.C83_deque_clear",
    "Stdgpu.Props.C83_deque_device_range",
    "Stdgpu.Props.C83_unordered_clear",
    "Stdgpu.Props.C83_unordered_device_range"
   ],
   "note": ""
  },
  {
   "property": "C84",
   "status": "proved",
   "theorems": [
    "Stdgpu.Props.C84_bit_functions",
    "Stdgpu.Props.C84_bit_access",
    "Stdgpu.Props.C84_bitset",
    "Stdgpu.Props.C84_div_up_32",
    "Stdgpu.Props.C84_counterexample_div_up_32",
    "Stdgpu.Props.C84_vector_concurrent",
    "Stdgpu.Props.C84_deque_concurrent",
    "Stdgpu.Props.C84_vector_access",
    "Stdgpu.Props.C84_deque_access",
    "Stdgpu.Props.C84_counterexample_deque_access",
    "Stdgpu.Props.C84_vector_clear",
    "Stdgpu.Props.C84_deque_clear",
    "Stdgpu.Props.C84_unordered_any",
    "Stdgpu.Props.C84_size_in_range",
    "Stdgpu.Props.C84_unordered_concurrent",
    "Stdgpu.Props.C84_counterexample_mixed",
    "Stdgpu.Props.C84_bucket_size",
    "Stdgpu.Props.C84_unordered_create",
    "Stdgpu.Props.C84_memory",
    "Stdgpu.Props.C84_counterexample_memory"
   ],
   "note": ""
  },
  {
   "property": "C85",
   "status": "proved",
   "theorems": [
    "Stdgpu.Props.C85_exact",
    "Stdgpu.Props.C85_error",
    "Stdgpu.Props.C85_zero_iff_empty",
    "Stdgpu.Props.C85_monotone",
    "Stdgpu.Props.C85_max_load_factor",
    "Stdgpu.Props.C85_counterexample_full"
   ],
   "note": ""
  },
  {
   "property": "C86",
   "status": "proved",
   "theorems": [
    "Stdgpu.Props.C86_memory_balance",
    "Stdgpu.Props.C86_all_destroyed",
    "Stdgpu.Props.C86_creation",
    "Stdgpu.Props.C86_create_destroy",
    "Stdgpu.Props.C86_untouched",
    "Stdgpu.Props.C86_unique_objects",
    "Stdgpu.Props.C86_unique_objects_released",
    "Stdgpu.Props.C86_unique_objects_access",
    "Stdgpu.Props.C86_counterexample_silent"
   ],
   "note": ""
  },
  {
   "property": "C87",
   "status": "proved",
   "theorems": [
    "Stdgpu.Props.C87_in_bounds",
    "Stdgpu.Props.C87_isolated",
    "Stdgpu.Props.C87_variables_apart",
    "Stdgpu.Props.C87_vector_footprint",
    "Stdgpu.Props.C87_deque_footprint",
    "Stdgpu.Props.C87_unordered_footprint",
    "Stdgpu.Props.C87_counterexample_null_vector",
    "Stdgpu.Props.C87_counterexample_null_unordered"
   ],
   "note": ""
  },
  {
   "property": "C88",
   "status": "proved",
   "theorems": [
    "Stdgpu.Props.C88_integer_limits",
    "Stdgpu.Props.C88_counterexample_unspecialized",
    "Stdgpu.Props.C88_float_limits",
    "Stdgpu.Props.C88_round_error",
    "Stdgpu.Props.C88_infinity_float",
    "Stdgpu.Props.C88_infinity_double"
   ],
   "note": ""
  },
  {
   "property": "C89",
   "status": "proved",
   "theorems": [
    "Stdgpu.Props.C89_vector",
    "Stdgpu.Props.C89_deque",
    "Stdgpu.Props.C89_unordered",
    "Stdgpu.Props.C89_vector_conservation",
    "Stdgpu.Props.C89_unordered_insertions",
    "Stdgpu.Props.C89_counterexample_without_fences",
    "Stdgpu.Props.C89_vector_early_reads",
    "Stdgpu.Props.C89_deque_early_reads",
    "Stdgpu.Props.C89_counterexample_early_read"
   ],
   "note": ""
  },
  {
   "property": "C90",
   "status": "proved",
   "theorems": [
    "Stdgpu.Props.C90_mixed_random",
    "Stdgpu.Props.C90_mixed_rate",
    "Stdgpu.Props.C90_vector_random",
    "Stdgpu.Props.C90_vector_rate",
    "Stdgpu.Props.C90_deque_random",
    "Stdgpu.Props.C90_deque_rate",
    "Stdgpu.Props.C90_inserts_random",
    "Stdgpu.Props.C90_erases_random"
   ],
   "note": ""
  },
  {
   "property": "C91",
   "status": "proved",
   "theorems": [
    "Stdgpu.Props.C91_copy",
    "Stdgpu.Props.C91_stale_copy",
    "Stdgpu.Props.C91_stale_at_once",
    "Stdgpu.Props.C91_counterexample_reused"
   ],
   "note": ""
  },
  {
   "property": "C92",
   "status": "proved",
   "theorems": [
    "Stdgpu.Props.C92_vector",
    "Stdgpu.Props.C92_vector_continues",
    "Stdgpu.Props.C92_deque",
    "Stdgpu.Props.C92_deque_continues"
   ],
   "note": ""
  },
  {
   "property": "C93",
   "status": "proved",
   "theorems": [
    "Stdgpu.Props.C93_history",
    "Stdgpu.Props.C93_kernel_keeps_positions",
    "Stdgpu.Props.C93_host_keeps_positions",
    "Stdgpu.Props.C93_continues"
   ],
   "note": ""
  },
  {
   "property": "C94",
   "status": "proved",
   "theorems": [
    "Stdgpu.Props.C94_vector_size",
    "Stdgpu.Props.C94_vector_empty",
    "Stdgpu.Props.C94_vector_full",
    "Stdgpu.Props.C94_vector_monotone",
    "Stdgpu.Props.C94_deque_size",
    "Stdgpu.Props.C94_deque_empty",
    "Stdgpu.Props.C94_deque_full",
    "Stdgpu.Props.C94_deque_monotone",
    "Stdgpu.Props.C94_unordered_size",
    "Stdgpu.Props.C94_unordered_empty",
    "Stdgpu.Props.C94_unordered_monotone_inserts",
    "Stdgpu.Props.C94_unordered_monotone_erases"
   ],
   "note": ""
  },
  {
   "property": "C95",
   "status": "proved",
   "theorems": [
    "Stdgpu.Props.C95_vector_stable",
    "Stdgpu.Props.C95_deque_stable",
    "Stdgpu.Props.C95_deque_index_stable",
    "Stdgpu.Props.C95_counterexample_full_deque",
    "Stdgpu.Props.C95_unordered_stable",
    "Stdgpu.Props.C95_unordered_iterators",
    "Stdgpu.Props.C95_unordered_supported"
   ],
   "note": ""
  },
  {
   "property": "C96",
   "status": "proved",
   "theorems": [
    "Stdgpu.Props.C96_linearization_program_order",
    "Stdgpu.Props.C96_vector_push",
    "Stdgpu.Props.C96_vector_pop",
    "Stdgpu.Props.C96_deque_push",
    "Stdgpu.Props.C96_deque_pop",
    "Stdgpu.Props.C96_queue",
    "Stdgpu.Props.C96_counterexample_queue_wrap"
   ],
   "note": ""
  },
  {
   "property": "C97",
   "status": "proved",
   "theorems": [
    "Stdgpu.Props.C97_operation",
    "Stdgpu.Props.C97_history",
    "Stdgpu.Props.C97_insert_failure",
    "Stdgpu.Props.C97_apart",
    "Stdgpu.Props.C97_valid",
    "Stdgpu.Props.C97_inserts",
    "Stdgpu.Props.C97_inserts_final",
    "Stdgpu.Props.C97_erases",
    "Stdgpu.Props.C97_erases_final",
    "Stdgpu.Props.C97_fair",
    "Stdgpu.Props.C97_random",
    "Stdgpu.Props.C97_unmatched_insert",
    "Stdgpu.Props.C97_unmatched_stays",
    "Stdgpu.Props.C97_nan",
    "Stdgpu.Props.C97_counterexample_nan"
   ],
   "note": ""
  },
  {
   "property": "C98",
   "status": "proved",
   "theorems": [
    "Stdgpu.Props.C98_returns",
    "Stdgpu.Props.C98_schedule_independent",
    "Stdgpu.Props.C98_valid_iff",
    "Stdgpu.Props.C98_chain_check",
    "Stdgpu.Props.C98_threads"
   ],
   "note": ""
  },
  {
   "property": "C99",
   "status": "proved",
   "theorems": [
    "Stdgpu.Props.C99_initialised",
    "Stdgpu.Props.C99_bytes",
    "Stdgpu.Props.C99_round_trip",
    "Stdgpu.Props.C99_injective",
    "Stdgpu.Props.C99_integer_types",
    "Stdgpu.Props.C99_counterexample_padding",
    "Stdgpu.Props.C99_hash",
    "Stdgpu.Props.C99_float_bits",
    "Stdgpu.Props.C99_double_bits"
   ],
   "note": ""
  },
  {
   "property": "C100",
   "status": "proved",
   "theorems": [
    "Stdgpu.Props.C100_max_size",
    "Stdgpu.Props.C100_container_sizes",
    "Stdgpu.Props.C100_call",
    "Stdgpu.Props.C100_histories",
    "Stdgpu.Props.C100_counterexample_overflow",
    "Stdgpu.Props.C100_copy"
   ],
   "note": ""
  }
 ]
}