# Axioms of the theorems in MANIFEST.json

Output of `#print axioms`, grouped (generated by tools/gen_axioms.sh; namespace Stdgpu.Props).

## propext

C08_compare_exchange, C22_counterexample_pushes, C26_counterexample_clear, C26_counterexample_pushes, C41_failed_allocation_counterexample, C43_negative_size_counterexample, C43_null_counterexample, C47_clamp, C47_min_max, C48_zero_counterexample, C58_bound_is_exact, C59_counterexample_racing_deallocations, C60_counterexample_deque, C60_counterexample_empty_vector, C60_counterexample_race, C89_counterexample_early_read, C95_counterexample_full_deque

## propext, Classical.choice, Quot.sound

C01_has_single_bit, C02_bit_ceil, C02_bit_ceil_overflow, C02_bit_floor, C03_bit_mod, C04_bit_width, C04_popcount, C05_bucket_in_range, C05_bucket_surjective, C06_concurrent_mod_counter, C07_final_value_schedule_independent, C07_linearizable_partial, C07_openmp_mixed_kinds_lose_update, C07_unique_tickets, C08_cas_loop_atomic, C08_cas_loop_lock_free, C08_cas_loop_solo, C09_cuda_atomic_sub, C100_call, C100_histories, C10_bitset_is_bool_array, C11_count, C12_all_any_none, C13_exactly_one_winner, C13_linearizable, C13_no_interference, C14_always_finishes, C14_critical_sections_disjoint, C14_mutual_exclusion, C14_try_lock_iff_free, C14_valid_after_release, C15_try_lock_all_or_nothing, C15_try_lock_sequential, C16_machine_agrees_pop, C16_push_pop, C16_vector_is_bounded_list, C17_erase_past_end, C17_range_operations_partial, C18_concurrent_push, C19_concurrent_pop, C20_conservation, C21_no_deadlock, C22_all_programs_partial, C22_clear_does_not_repair, C22_counterexample_pops, C22_no_failure_partial, C22_valid_after_concurrent_use_partial, C22_valid_iff_counter_in_range_partial, C23_capacity_zero, C23_deque_is_bounded_deque, C23_push_pop, C24_device_range_and_clear, C25_conservation, C26_all_programs_partial, C26_hang_is_nontermination, C26_no_failure_partial, C26_usable_after_concurrent_use_partial, C27_queue_fifo, C28_stack_lifo, C29_lookup, C29_map_refinement, C29_transparent_lookup, C30_erase, C30_erase_then_insert, C30_insert_present, C30_insert_success, C30_keys_unique, C31_valid, C32_walks, C33_constant_hash_limit, C33_insert_few, C33_insert_iff, C34_slot_accounting, C35_bucket_statistics, C36_clear, C36_device_range, C37_bucket_count_counterexample, C37_bucket_count_partial, C37_bucket_count_small, C37_created, C37_created_any_rounding, C37_created_device_object, C37_exact_is_a_rounding, C37_excess_and_total, C37_excess_any_rounding, C37_rounding_matters, C38_at_most_one, C38_contents_grow, C38_failure, C38_final, C38_keys_distinct, C38_no_exhaustion, C38_safe, C38_success_stored, C38_usable_afterwards, C39_at_most_one, C39_contents_shrink, C39_erased_was_stored, C39_exactly_one, C39_final, C39_find_after_erase, C39_found, C39_miss, C39_others_stay, C39_safe, C39_usable_afterwards, C40_counterexample_find_hangs, C40_phases_partial, C41_bad_deallocation_no_effect, C41_counters_balance, C41_counters_balance_partial, C41_deallocation, C41_live_blocks_disjoint, C41_no_double_free, C42_allocation, C42_register_memory, C42_size_bytes_and_type, C43_checked_copy_partial, C44_copy, C44_copy_create, C44_create, C44_create_via_host, C44_destroy, C44_destroy_via_host, C44_empty, C44_round_trip, C45_copy, C45_fill, C45_iota, C48_double_hash_partial, C48_enum_hash_injective, C48_enum_hash_value, C48_float_hash_injective, C48_float_hash_partial, C48_integer_hash_injective, C48_integer_hash_value, C48_integer_hash_width, C48_integer_keys_lawful, C48_long_double_hash_partial, C49_range_array, C49_range_count, C49_size, C49_transform, C50_deque_lifetimes, C50_unordered_lifetimes, C50_vector_lifetimes, C50_violations_are_faults, C51_counterexample, C51_element_access, C52_back_inserter_vector, C52_inserter_unordered, C52_inserters_deque, C53_concurrent_push, C54_concurrent_pop, C55_find_sees_inserted, C55_found_is_stored, C56_erases_no_deadlock, C56_inserts_no_deadlock, C57_bulk_erase, C57_bulk_erase_completes, C57_bulk_insert, C57_bulk_insert_completes, C57_bulk_insert_size, C58_deque_counter, C58_deque_no_overflow, C58_vector_counter, C58_vector_no_overflow, C59_counters_balance, C59_no_double_free, C59_owned_live_disjoint, C59_returned, C59_size_and_type, C59_stays_owned, C60_deque_no_race, C60_deque_races, C60_vector_few_pops, C60_vector_no_race, C60_vector_pop_copies_live, C60_vector_races, C61_erase_races, C61_insert_races, C61_lookups_no_race, C62_deque_valid_iff, C62_mutex_valid_iff, C62_unordered_valid_sound, C62_vector_valid_iff, C63_counterexample_acquire, C63_counterexample_release, C63_counterexample_rmw_acquire, C63_counterexample_rmw_release, C64_counterexample_mixed, C64_erase_linearizable, C64_insert_linearizable, C64_insert_linearizable_strict, C65_all_destroyed, C65_created_zero, C65_disjoint, C65_memory_balance, C65_untouched, C66_access, C66_all_released, C66_ownership, C67_linearizable, C67_signed_results, C68_deque_fair, C68_deque_wait_free, C68_vector_fair, C68_vector_wait_free, C69_counterexample_mixed, C69_erases_complete, C69_erases_fair, C69_inserts_complete, C69_inserts_fair, C70_counterexample_mixed_vector, C70_counterexample_queue_empty, C70_counterexample_queue_wrap, C70_deque_pop, C70_deque_push, C70_vector_pop, C70_vector_push, C71_push_never_fails, C71_queue_linearizable, C71_queue_strict, C72_counterexample_no_election, C72_election, C72_mask, C72_one_at_a_time, C72_wave_erases, C72_wave_inserts, C73_counterexample_queue_deadlock, C73_counterexample_vector_deadlock, C73_deque_pops, C73_deque_pushes, C73_deque_wave_wait_free, C73_lanes_are_threads, C73_vector_pops, C73_vector_pushes, C73_vector_wave_wait_free, C74_counterexample_capacity, C74_created_erase, C74_created_insert, C74_created_mixed, C74_erase_bounds, C74_erase_no_overflow, C74_insert_bounds, C74_insert_no_overflow, C74_mixed_bounds, C74_mixed_no_overflow, C74_sizes, C75_mixed_defined, C75_mixed_final, C75_mixed_linearizable, C75_mixed_linearizable_strict, C75_mixed_then_sequential, C75_mixed_valid, C76_copy, C76_counterexample_fill_n, C76_counterexample_nothing, C76_counterexample_prefix, C76_destroy, C76_fill, C76_iota, C76_uninitialized_copy, C76_uninitialized_fill, C77_back_inserter_vector, C77_back_inserter_vector_full, C77_inserter_deque, C77_inserter_unordered, C78_counterexample_livelock, C78_mixed_completes, C78_mixed_no_deadlock, C79_lookup_bounded_erases, C79_lookup_bounded_inserts, C79_lookup_bounded_mixed, C80_key_balance, C80_no_leak, C80_no_phantom_erase, C80_size, C81_deque, C81_deque_create, C81_deque_valid, C81_representable, C81_unordered, C81_unordered_create, C81_unordered_inserts, C81_unordered_representable, C81_valid, C81_vector, C81_vector_conservation, C81_vector_create, C82_counterexample_insert_prefix, C82_counterexample_insert_shrinks, C82_vector_erase, C82_vector_insert, C83_bitset_flip, C83_bitset_reset, C83_bitset_set, C83_completes, C83_deque_clear, C83_deque_device_range, C83_unordered_clear, C83_unordered_device_range, C83_vector_clear, C83_vector_erase, C83_vector_insert, C84_bit_access, C84_bit_functions, C84_bitset, C84_bucket_size, C84_counterexample_div_up_32, C84_counterexample_memory, C84_deque_access, C84_deque_clear, C84_deque_concurrent, C84_div_up_32, C84_memory, C84_size_in_range, C84_unordered_any, C84_unordered_concurrent, C84_unordered_create, C84_vector_access, C84_vector_clear, C84_vector_concurrent, C85_counterexample_full, C85_error, C85_exact, C85_max_load_factor, C85_monotone, C85_zero_iff_empty, C86_all_destroyed, C86_counterexample_silent, C86_create_destroy, C86_creation, C86_memory_balance, C86_unique_objects, C86_unique_objects_access, C86_unique_objects_released, C86_untouched, C87_in_bounds, C87_isolated, C87_variables_apart, C88_counterexample_unspecialized, C88_float_limits, C88_integer_limits, C88_round_error, C89_deque, C89_deque_early_reads, C89_unordered, C89_unordered_insertions, C89_vector, C89_vector_conservation, C89_vector_early_reads, C90_deque_random, C90_deque_rate, C90_erases_random, C90_inserts_random, C90_mixed_random, C90_mixed_rate, C90_vector_random, C90_vector_rate, C91_copy, C91_counterexample_reused, C91_stale_at_once, C91_stale_copy, C92_deque, C92_deque_continues, C92_vector, C92_vector_continues, C93_continues, C93_history, C93_host_keeps_positions, C93_kernel_keeps_positions, C94_deque_empty, C94_deque_full, C94_deque_monotone, C94_deque_size, C94_unordered_empty, C94_unordered_size, C94_vector_empty, C94_vector_full, C94_vector_monotone, C94_vector_size, C95_deque_index_stable, C95_deque_stable, C95_unordered_iterators, C95_unordered_stable, C95_unordered_supported, C95_vector_stable, C96_deque_pop, C96_deque_push, C96_linearization_program_order, C96_queue, C96_vector_pop, C96_vector_push, C97_apart, C97_erases, C97_erases_final, C97_fair, C97_history, C97_insert_failure, C97_inserts, C97_inserts_final, C97_nan, C97_operation, C97_random, C97_unmatched_insert, C97_unmatched_stays, C97_valid, C98_chain_check, C98_returns, C98_schedule_independent, C98_threads, C98_valid_iff

## propext, Quot.sound

C05_bucket_respects_hash, C06_inc_dec_mod_step, C07_fetch_ops_commute, C100_container_sizes, C100_copy, C100_counterexample_overflow, C100_max_size, C10_spec_total, C12_empty_bitset, C16_machine_agrees_push, C16_spec_total, C23_machine_agrees_pop, C23_machine_agrees_push, C23_spec_total, C24_wrapped_order, C26_counterexample_pops, C38_counterexample_exhaustion, C39_counterexample_stale_read, C40_counterexample_duplicate_key, C40_counterexample_lost_erase, C40_counterexample_out_of_bounds, C45_loop_completes, C45_overlapping_copy_counterexample, C45_visits_once, C46_sum_and_conjunction, C46_transform_reduce, C46_transform_reduce_ordered, C48_zero_stored_twice, C51_check_partial, C60_initial_copy_no_effect, C61_counterexample_erase_race, C61_counterexample_insert_race, C63_rmw_load, C63_rmw_rmw, C63_store_load, C63_store_rmw, C65_counterexample_unordered_twice, C67_call_effect, C68_counterexample_mixed_livelock, C69_counterexample_unfair, C72_lane_ids, C82_bulk, C82_counterexample_bulk_nothing, C82_counterexample_bulk_prefix, C82_counterexample_insert_overflow, C84_counterexample_deque_access, C84_counterexample_mixed, C87_counterexample_null_unordered, C87_counterexample_null_vector, C87_deque_footprint, C87_unordered_footprint, C87_vector_footprint, C88_infinity_double, C88_infinity_float, C89_counterexample_without_fences, C94_unordered_monotone_erases, C94_unordered_monotone_inserts, C96_counterexample_queue_wrap, C97_counterexample_nan, C99_bytes, C99_counterexample_padding, C99_double_bits, C99_float_bits, C99_hash, C99_initialised, C99_injective, C99_integer_types, C99_round_trip
