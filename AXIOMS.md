# Axioms of the theorems

Generated by `tools/axioms.py` from what `#print axioms` reports for each theorem in `MANIFEST.json`.
`propext`, `Classical.choice` and `Quot.sound` are the three axioms of Lean's own library; there are no others.

## propext, Classical.choice, Quot.sound (287 theorems)

* `Lsmdb.Props.C01_fixed32`
* `Lsmdb.Props.C01_fixed64`
* `Lsmdb.Props.C02_varint32`
* `Lsmdb.Props.C02_varint64`
* `Lsmdb.Props.C02_stream`
* `Lsmdb.Props.C04_varint32_ptr`
* `Lsmdb.Props.C04_varint64_ptr`
* `Lsmdb.Props.C04_varint_slice`
* `Lsmdb.Props.C04_truncated`
* `Lsmdb.Props.C04_locality`
* `Lsmdb.Props.C05_one`
* `Lsmdb.Props.C05_stream`
* `Lsmdb.Props.C05_safe`
* `Lsmdb.Props.C05_succeeds_iff`
* `Lsmdb.Props.C05_ptr_safe`
* `Lsmdb.Props.C05_overloads_agree`
* `Lsmdb.Props.C06_compare`
* `Lsmdb.Props.C06_total_order`
* `Lsmdb.Props.C06_access`
* `Lsmdb.Props.C08_no_collision_in_block`
* `Lsmdb.Props.C08_four_byte_keys`
* `Lsmdb.Props.C09_lehmer`
* `Lsmdb.Props.C10_full_period`
* `Lsmdb.Props.C11_skewed`
* `Lsmdb.Props.C12_round_trip`
* `Lsmdb.Props.C12_text`
* `Lsmdb.Props.C13_exact`
* `Lsmdb.Props.C15_reports`
* `Lsmdb.Props.C15_construct`
* `Lsmdb.Props.C16_ownership`
* `Lsmdb.Props.C17_no_overlap`
* `Lsmdb.Props.C17_served`
* `Lsmdb.Props.C18_aligned`
* `Lsmdb.Props.C19_accounting`
* `Lsmdb.Props.C19_monotone`
* `Lsmdb.Props.C19_bounded_waste`
* `Lsmdb.Props.C20_contains`
* `Lsmdb.Props.C21_iteration`
* `Lsmdb.Props.C21_valid`
* `Lsmdb.Props.C22_positions`
* `Lsmdb.Props.C23_linearizable`
* `Lsmdb.Props.C23_contains`
* `Lsmdb.Props.C24_no_fault`
* `Lsmdb.Props.C24_readers_end`
* `Lsmdb.Props.C24_height`
* `Lsmdb.Props.C25_insert_partial`
* `Lsmdb.Props.C25_debug_build_aborts`
* `Lsmdb.Props.C26_lookup`
* `Lsmdb.Props.C26_insert_found`
* `Lsmdb.Props.C27_held_handle`
* `Lsmdb.Props.C28_at_most_once`
* `Lsmdb.Props.C28_exactly_when`
* `Lsmdb.Props.C28_destroy`
* `Lsmdb.Props.C29_total_charge`
* `Lsmdb.Props.C29_after_insert`
* `Lsmdb.Props.C29_only_insert_grows`
* `Lsmdb.Props.C29_over_capacity_without_references`
* `Lsmdb.Props.C30_lru`
* `Lsmdb.Props.C31_erase`
* `Lsmdb.Props.C31_lookup_release`
* `Lsmdb.Props.C31_not_found`
* `Lsmdb.Props.C32_prune_shard`
* `Lsmdb.Props.C32_prune`
* `Lsmdb.Props.C33_capacity_zero`
* `Lsmdb.Props.C34_ids_distinct`
* `Lsmdb.Props.C35_lookup_exact`
* `Lsmdb.Props.C35_insert`
* `Lsmdb.Props.C35_remove`
* `Lsmdb.Props.C35_load`
* `Lsmdb.Props.C35_resize_diverges`
* `Lsmdb.Props.C36_capacity_partial`
* `Lsmdb.Props.C36_capacity_lost`
* `Lsmdb.Props.C37_no_fault`
* `Lsmdb.Props.C38_byte_sequence`
* `Lsmdb.Props.C39_partition`
* `Lsmdb.Props.C39_open`
* `Lsmdb.Props.C39_reads_concatenate`
* `Lsmdb.Props.C39_empty_only_at_end`
* `Lsmdb.Props.C40_refines`
* `Lsmdb.Props.C40_continues`
* `Lsmdb.Props.C40_missing`
* `Lsmdb.Props.C40_effects`
* `Lsmdb.Props.C41_survives`
* `Lsmdb.Props.C41_usable`
* `Lsmdb.Props.C41_freed_exactly_when`
* `Lsmdb.Props.C41_no_leak`
* `Lsmdb.Props.C42_new_name_is_poisoned`
* `Lsmdb.Props.C42_existing_partial`
* `Lsmdb.Props.C43_self_rename_deletes`
* `Lsmdb.Props.C43_rename_partial`
* `Lsmdb.Props.C44_children`
* `Lsmdb.Iface.C46_mem_write`
* `Lsmdb.Iface.C46_mem_read`
* `Lsmdb.Iface.C46_mem_missing`
* `Lsmdb.Iface.C46_mem_roundtrip`
* `Lsmdb.Iface.C46_posix_write`
* `Lsmdb.Iface.C46_posix_write_safe`
* `Lsmdb.Iface.C46_posix_failed_write`
* `Lsmdb.Iface.C46_posix_read`
* `Lsmdb.Iface.C46_posix_read_safe`
* `Lsmdb.Iface.C46_posix_roundtrip`
* `Lsmdb.Iface.C46_posix_sync_name_lost`
* `Lsmdb.Posix.C47_stream`
* `Lsmdb.Posix.C47_flushed`
* `Lsmdb.Posix.C47_destroy`
* `Lsmdb.Posix.C47_no_overflow`
* `Lsmdb.Posix.C47_no_spurious_error`
* `Lsmdb.Posix.C48_synced`
* `Lsmdb.Posix.C48_prefix`
* `Lsmdb.Posix.C49_reported`
* `Lsmdb.Posix.C49_prefix`
* `Lsmdb.Posix.C49_later_success`
* `Lsmdb.Posix.C50_append_after_close_lost`
* `Lsmdb.Posix.C50_partial`
* `Lsmdb.Posix.C51_directory_first`
* `Lsmdb.Posix.C51_name_durable`
* `Lsmdb.Posix.C52_partial`
* `Lsmdb.Posix.C52_root_manifest_cannot_sync`
* `Lsmdb.Limiter.C53_never_over`
* `Lsmdb.Limiter.C53_quiet`
* `Lsmdb.Limiter.C53_alone`
* `Lsmdb.Limiter.C53_refused`
* `Lsmdb.Posix.C54_accounting`
* `Lsmdb.Posix.C54_all_released`
* `Lsmdb.Posix.C54_no_undefined_behaviour`
* `Lsmdb.Posix.C55_read_partial`
* `Lsmdb.Posix.C55_bytes_partial`
* `Lsmdb.PLock.C57_excludes`
* `Lsmdb.PLock.C57_no_second`
* `Lsmdb.PLock.C57_again`
* `Lsmdb.PLock.C58_excludes_partial`
* `Lsmdb.Sched.C59_order`
* `Lsmdb.Sched.C59_serial`
* `Lsmdb.Sched.C59_defined`
* `Lsmdb.Sched.C59_awake`
* `Lsmdb.Sched.C59_runs`
* `Lsmdb.Logger.C61_line_partial`
* `Lsmdb.Logger.C61_line_unique`
* `Lsmdb.Logger.C61_sequence`
* `Lsmdb.Logger.C61_late_years`
* `Lsmdb.Logger.C61_year_violated`
* `Lsmdb.Logger.C61_format_error`
* `Lsmdb.Logger.C61_length_overflow`
* `Lsmdb.Props.C65_memenv_reports_io_error`
* `Lsmdb.Props.C66_skip_races_with_truncation`
* `Lsmdb.Props.C66_no_truncation_partial`
* `Lsmdb.MemConc.C66_torn_run`
* `Lsmdb.MemConc.C66_apart_partial`
* `Lsmdb.TestUtil.C68_random_string`
* `Lsmdb.TestUtil.C68_compressible`
* `Lsmdb.Posix.C69_history`
* `Lsmdb.Posix.C69_safe`
* `Lsmdb.Posix.C69_stream`
* `Lsmdb.Posix.C70_read_partial`
* `Lsmdb.Posix.C70_mmap_no_short_read`
* `Lsmdb.Iface.C73_path`
* `Lsmdb.Iface.C74_order`
* `Lsmdb.CacheConc.C76_linearizable`
* `Lsmdb.CacheConc.C76_handles`
* `Lsmdb.CacheConc.C76_not_stale`
* `Lsmdb.CacheConc.C76_insert_distinct`
* `Lsmdb.CacheConc.C76_ids_distinct`
* `Lsmdb.CacheConc.C76_deleter`
* `Lsmdb.CacheConc.C76_deleter_quiet`
* `Lsmdb.CacheConc.C77_undisturbed_partial`
* `Lsmdb.CacheConc.C78_no_fault`
* `Lsmdb.CacheConc.C78_no_deadlock`
* `Lsmdb.CacheConc.C78_terminates`
* `Lsmdb.Iface.C79_files`
* `Lsmdb.MemConc.C80_careful`
* `Lsmdb.MemConc.C80_linearizable`
* `Lsmdb.MemConc.C80_handles_distinct`
* `Lsmdb.MemConc.C80_appends`
* `Lsmdb.MemConc.C81_no_fault`
* `Lsmdb.MemConc.C81_freed`
* `Lsmdb.MemConc.C81_no_leak`
* `Lsmdb.MemConc.C82_no_deadlock`
* `Lsmdb.MemConc.C82_terminates`
* `Lsmdb.MemConc.C82_completes`
* `Lsmdb.Iface.C83_crash_atomic`
* `Lsmdb.Iface.C83_all_or_nothing`
* `Lsmdb.Iface.C83_safe`
* `Lsmdb.MemConc.C84_memenv_no_race`
* `Lsmdb.CacheConc.C84_cache_no_race`
* `Lsmdb.SkipArena.C85_construct`
* `Lsmdb.SkipArena.C85_insert`
* `Lsmdb.SkipArena.C85_contains`
* `Lsmdb.SkipArena.C85_iter`
* `Lsmdb.SkipArena.C85_undisturbed`
* `Lsmdb.LoggerConc.C86_whole_lines`
* `Lsmdb.LoggerConc.C86_quiet`
* `Lsmdb.LoggerConc.C86_no_deadlock`
* `Lsmdb.Props.C87_assignment_dangles`
* `Lsmdb.Props.C87_no_effect_partial`
* `Lsmdb.Props.C88_key_crash`
* `Lsmdb.Props.C88_failed_insert_stays`
* `Lsmdb.Props.C88_no_fault_partial`
* `Lsmdb.Props.C88_lookup_partial`
* `Lsmdb.Props.C88_held_partial`
* `Lsmdb.Props.C89_goes_well_partial`
* `Lsmdb.Props.C89_failed_rename_loses_target`
* `Lsmdb.Props.C89_failed_open_empties`
* `Lsmdb.Props.C89_failed_append_partly`
* `Lsmdb.Props.C89_failed_create_leaks`
* `Lsmdb.Sched.C90_throw_stops`
* `Lsmdb.Sched.C90_returned_lost`
* `Lsmdb.Sched.C90_safety_partial`
* `Lsmdb.Posix.C91_accounting_partial`
* `Lsmdb.Posix.C91_no_undefined_behaviour_partial`
* `Lsmdb.Posix.Conc.C92_accounts`
* `Lsmdb.Posix.Conc.C92_no_interference`
* `Lsmdb.Posix.Conc.C92_no_waiting`
* `Lsmdb.Posix.Conc.C92_quiet`
* `Lsmdb.Posix.Conc.C92_all_released`
* `Lsmdb.Posix.Conc.C93_writable`
* `Lsmdb.Posix.Conc.C93_stream`
* `Lsmdb.Posix.Conc.C93_flushed`
* `Lsmdb.Posix.Conc.C93_crash`
* `Lsmdb.Posix.Conc.C93_synced`
* `Lsmdb.Posix.Conc.C93_reader`
* `Lsmdb.Posix.Conc.C93_reader_alone`
* `Lsmdb.Posix.Conc.C94_reads`
* `Lsmdb.Posix.Conc.C94_reads_fixed`
* `Lsmdb.Posix.Conc.C94_agree`
* `Lsmdb.Posix.Conc.C94_views`
* `Lsmdb.Posix.Conc.C95_untouched`
* `Lsmdb.Posix.Conc.C95_flushed`
* `Lsmdb.Posix.Conc.C95_crash`
* `Lsmdb.Posix.Conc.C95_synced`
* `Lsmdb.Posix.Conc.C95_kept`
* `Lsmdb.Posix.Conc.C95_reads`
* `Lsmdb.Posix.Conc.C95_views`
* `Lsmdb.Posix.Conc.C96_opened`
* `Lsmdb.Posix.Conc.C96_flushed`
* `Lsmdb.Posix.Conc.C96_crash`
* `Lsmdb.Posix.Conc.C96_synced`
* `Lsmdb.Posix.Conc.C96_failed`
* `Lsmdb.Posix.Conc.C97_opened`
* `Lsmdb.Posix.Conc.C97_reads`
* `Lsmdb.Posix.Conc.C97_sequential`
* `Lsmdb.Posix.Conc.C97_size`
* `Lsmdb.Posix.Conc.C98_reads`
* `Lsmdb.Posix.Conc.C98_sequential`
* `Lsmdb.Posix.Conc.C98_size`
* `Lsmdb.Posix.Conc.C99_sequential`
* `Lsmdb.Posix.Conc.C99_random`
* `Lsmdb.Posix.Conc.C100_descriptor_partial`
* `Lsmdb.Posix.Conc.C100_mapped_partial`
* `Lsmdb.Posix.Conc.C100_each_read_partial`
* `Lsmdb.Posix.Conc.C101_crash`
* `Lsmdb.Posix.Conc.C101_reads`
* `Lsmdb.Posix.Conc.C101_installed`
* `Lsmdb.Posix.Conc.C101_size`
* `Lsmdb.Posix.Conc.C102_names`
* `Lsmdb.Posix.Conc.C102_durable`
* `Lsmdb.Posix.Conc.C102_installed`
* `Lsmdb.Posix.Conc.C103_atomic`
* `Lsmdb.Posix.Conc.C103_create_once`
* `Lsmdb.Posix.Conc.C103_remove_once`
* `Lsmdb.Posix.Conc.C103_exists`
* `Lsmdb.Posix.Conc.C103_listed`
* `Lsmdb.Posix.Conc.C104_returns`
* `Lsmdb.Posix.Conc.C104_buffer`
* `Lsmdb.Posix.Conc.C104_interrupted`
* `Lsmdb.CacheReent.C105_no_deadlock_partial`
* `Lsmdb.CacheReent.C105_deadlock_stays`
* `Lsmdb.CacheReent.C105_own_shard`
* `Lsmdb.CacheReent.C105_violated_alone`
* `Lsmdb.CacheReent.C105_violated_two`
* `Lsmdb.CacheConc.C106_in_use_found`
* `Lsmdb.CacheConc.C106_prune`
* `Lsmdb.MemConc.C107_reads`
* `Lsmdb.Sched.C108_schedule`
* `Lsmdb.Sched.C108_schedule_accesses`
* `Lsmdb.CacheConc.C108_cache`
* `Lsmdb.CacheConc.C108_cache_release`
* `Lsmdb.CacheConc.C108_cache_shards`
* `Lsmdb.PLock.C109_lock_publishes`
* `Lsmdb.PLock.C109_sections`
* `Lsmdb.MemConc.C110_race_free`
* `Lsmdb.MemConc.C110_names`
* `Lsmdb.MemConc.C110_bytes`
* `Lsmdb.ArenaConc.C111_read`
* `Lsmdb.ArenaConc.C111_exact`
* `Lsmdb.ArenaConc.C111_no_fault`
* `Lsmdb.Props.C112_history`
* `Lsmdb.Props.C112_set`

## propext, Quot.sound (87 theorems)

* `Lsmdb.Props.C01_decode_any`
* `Lsmdb.Props.C03_length`
* `Lsmdb.Props.C03_bytes`
* `Lsmdb.Props.C06_equality`
* `Lsmdb.Props.C06_starts_with`
* `Lsmdb.Props.C07_hash`
* `Lsmdb.Props.C07_exact_range`
* `Lsmdb.Props.C08_seed_bijective`
* `Lsmdb.Props.C11_uniform`
* `Lsmdb.Props.C11_skewed_31_overflows`
* `Lsmdb.Props.C13_run_is_maximal`
* `Lsmdb.Props.C14_escape`
* `Lsmdb.Props.C14_compositional`
* `Lsmdb.Props.C14_faithful`
* `Lsmdb.Props.C14_not_injective`
* `Lsmdb.Props.C45_lock_does_not_exclude`
* `Lsmdb.Props.C45_lock_object_partial`
* `Lsmdb.Iface.C46_posix_write_blame`
* `Lsmdb.Iface.C46_posix_leftover`
* `Lsmdb.Posix.C47_new_writable`
* `Lsmdb.Posix.C47_new_appendable`
* `Lsmdb.Posix.C47_open`
* `Lsmdb.Posix.C52_split`
* `Lsmdb.Posix.C52_manifest`
* `Lsmdb.Posix.C55_wraps`
* `Lsmdb.Posix.C55_size_race`
* `Lsmdb.Posix.C56_skip_partial`
* `Lsmdb.Posix.C56_skips_past_the_end`
* `Lsmdb.Posix.C56_huge_skip_moves_back`
* `Lsmdb.Posix.C57_env_excludes`
* `Lsmdb.Posix.C57_env_refused`
* `Lsmdb.Posix.C57_env_again`
* `Lsmdb.Posix.C57_env_unlock`
* `Lsmdb.PLock.C58_failed_lock_releases`
* `Lsmdb.PLock.C58_unlock_race`
* `Lsmdb.PLock.C58_other_close_releases`
* `Lsmdb.Posix.C60_every_status`
* `Lsmdb.Iface.C62_memenv`
* `Lsmdb.Posix.C62_posix`
* `Lsmdb.Iface.C63_error_env`
* `Lsmdb.Posix.C64_limit_partial`
* `Lsmdb.Posix.C64_limit_wraps`
* `Lsmdb.Posix.C64_negative_grants_nothing`
* `Lsmdb.Posix.C65_posix_not_found`
* `Lsmdb.Tool.C67_main`
* `Lsmdb.TestUtil.C68_negative`
* `Lsmdb.TestUtil.C68_random_key`
* `Lsmdb.Posix.C69_open`
* `Lsmdb.Posix.C70_open_partial`
* `Lsmdb.Posix.C70_empty_file_fails`
* `Lsmdb.Posix.C71_names`
* `Lsmdb.Posix.C71_exists`
* `Lsmdb.Posix.C71_size`
* `Lsmdb.Posix.C71_children_partial`
* `Lsmdb.Posix.C72_default`
* `Lsmdb.Posix.C72_set_late`
* `Lsmdb.Iface.C73_users_apart`
* `Lsmdb.Iface.C73_same`
* `Lsmdb.Iface.C73_exists_partial`
* `Lsmdb.Iface.C73_no_directory`
* `Lsmdb.Iface.C73_large_uid`
* `Lsmdb.Iface.C74_value`
* `Lsmdb.Posix.C75_reads_change_nothing`
* `Lsmdb.CacheConc.C77_torn`
* `Lsmdb.Iface.C79_lock`
* `Lsmdb.Iface.C79_base`
* `Lsmdb.Iface.C79_posix`
* `Lsmdb.Iface.C83_unsynced_violated`
* `Lsmdb.Posix.C91_throws_only_when_short`
* `Lsmdb.Posix.C91_returned_partial`
* `Lsmdb.Posix.C91_locks_exclude_partial`
* `Lsmdb.Posix.C91_locks_again_partial`
* `Lsmdb.Posix.C91_lock_lost_violated`
* `Lsmdb.Posix.C91_lock_table_lost_violated`
* `Lsmdb.Posix.C91_throws_after_the_fact_violated`
* `Lsmdb.Posix.Conc.C92_sequential`
* `Lsmdb.Posix.Conc.C99_size`
* `Lsmdb.Posix.Conc.C99_exists`
* `Lsmdb.Posix.Conc.C99_opens`
* `Lsmdb.Posix.Conc.C100_violated_by_name`
* `Lsmdb.Posix.Conc.C100_violated_mapped`
* `Lsmdb.Posix.Conc.C101_pool`
* `Lsmdb.Posix.Conc.C101_pool_stays`
* `Lsmdb.Posix.Conc.C101_before`
* `Lsmdb.Props.C112_insert`
* `Lsmdb.Props.C112_contains`
* `Lsmdb.Props.C112_iterator`

## propext (18 theorems)

* `Lsmdb.Props.C15_huge_message_overflows`
* `Lsmdb.Props.C17_huge_aligned_request_escapes`
* `Lsmdb.Limiter.C53_overlapping_calls_fail`
* `Lsmdb.Posix.C60_single_call`
* `Lsmdb.Posix.C60_single_call_ok`
* `Lsmdb.Posix.C60_open`
* `Lsmdb.Posix.C60_logger_reports_close_error`
* `Lsmdb.Iface.C62_default_leaves_result`
* `Lsmdb.Posix.C70_readers_disagree_after_rename`
* `Lsmdb.Posix.C71_truncated_listing`
* `Lsmdb.Iface.C73_memenv`
* `Lsmdb.Iface.C79_unlock`
* `Lsmdb.Iface.C79_unlock_twice`
* `Lsmdb.Iface.C79_logger_testdir`
* `Lsmdb.Posix.C91_random_access_leak_violated`
* `Lsmdb.Posix.C91_flush_twice_violated`
* `Lsmdb.Posix.C91_close_twice_violated`
* `Lsmdb.Posix.C91_delete_ends_violated`

## none (3 theorems)

* `Lsmdb.Iface.C63_wrapper`
* `Lsmdb.Posix.C64_negative_violated`
* `Lsmdb.Posix.C64_stable`
