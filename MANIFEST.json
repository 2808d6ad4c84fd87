{
 "claims": [
  {
   "property": "C01",
   "status": "proved",
   "theorems": [
    "Lsmdb.Props.C01_fixed32",
    "Lsmdb.Props.C01_fixed64",
    "Lsmdb.Props.C01_decode_any"
   ],
   "note": ""
  },
  {
   "property": "C02",
   "status": "proved",
   "theorems": [
    "Lsmdb.Props.C02_varint32",
    "Lsmdb.Props.C02_varint64",
    "Lsmdb.Props.C02_stream"
   ],
   "note": ""
  },
  {
   "property": "C03",
   "status": "proved",
   "theorems": [
    "Lsmdb.Props.C03_length",
    "Lsmdb.Props.C03_bytes"
   ],
   "note": ""
  },
  {
   "property": "C04",
   "status": "proved",
   "theorems": [
    "Lsmdb.Props.C04_varint32_ptr",
    "Lsmdb.Props.C04_varint64_ptr",
    "Lsmdb.Props.C04_varint_slice",
    "Lsmdb.Props.C04_truncated",
    "Lsmdb.Props.C04_locality"
   ],
   "note": ""
  },
  {
   "property": "C05",
   "status": "proved",
   "theorems": [
    "Lsmdb.Props.C05_one",
    "Lsmdb.Props.C05_stream",
    "Lsmdb.Props.C05_safe",
    "Lsmdb.Props.C05_succeeds_iff",
    "Lsmdb.Props.C05_ptr_safe",
    "Lsmdb.Props.C05_overloads_agree"
   ],
   "note": "Round trip for strings shorter than 2^32 bytes; for longer ones C05_one states exactly what is read back (the length is truncated to 32 bits)."
  },
  {
   "property": "C06",
   "status": "proved",
   "theorems": [
    "Lsmdb.Props.C06_compare",
    "Lsmdb.Props.C06_total_order",
    "Lsmdb.Props.C06_equality",
    "Lsmdb.Props.C06_starts_with",
    "Lsmdb.Props.C06_access"
   ],
   "note": ""
  },
  {
   "property": "C07",
   "status": "proved",
   "theorems": [
    "Lsmdb.Props.C07_hash",
    "Lsmdb.Props.C07_exact_range"
   ],
   "note": ""
  },
  {
   "property": "C08",
   "status": "proved",
   "theorems": [
    "Lsmdb.Props.C08_seed_bijective",
    "Lsmdb.Props.C08_no_collision_in_block",
    "Lsmdb.Props.C08_four_byte_keys"
   ],
   "note": ""
  },
  {
   "property": "C09",
   "status": "proved",
   "theorems": [
    "Lsmdb.Props.C09_lehmer"
   ],
   "note": ""
  },
  {
   "property": "C10",
   "status": "proved",
   "theorems": [
    "Lsmdb.Props.C10_full_period"
   ],
   "note": ""
  },
  {
   "property": "C11",
   "status": "proved",
   "theorems": [
    "Lsmdb.Props.C11_uniform",
    "Lsmdb.Props.C11_skewed",
    "Lsmdb.Props.C11_skewed_31_overflows"
   ],
   "note": "C11_skewed_31_overflows shows the bound 30 is tight."
  },
  {
   "property": "C12",
   "status": "proved",
   "theorems": [
    "Lsmdb.Props.C12_round_trip",
    "Lsmdb.Props.C12_text"
   ],
   "note": ""
  },
  {
   "property": "C13",
   "status": "proved",
   "theorems": [
    "Lsmdb.Props.C13_exact",
    "Lsmdb.Props.C13_run_is_maximal"
   ],
   "note": ""
  },
  {
   "property": "C14",
   "status": "proved",
   "theorems": [
    "Lsmdb.Props.C14_escape",
    "Lsmdb.Props.C14_compositional",
    "Lsmdb.Props.C14_faithful",
    "Lsmdb.Props.C14_not_injective"
   ],
   "note": "C14_not_injective is the negative half of the statement: the backslash is not escaped."
  },
  {
   "property": "C15",
   "status": "proved",
   "theorems": [
    "Lsmdb.Props.C15_reports",
    "Lsmdb.Props.C15_construct",
    "Lsmdb.Props.C15_huge_message_overflows"
   ],
   "note": "C15_huge_message_overflows shows why messages of 4 GiB and more are excluded."
  },
  {
   "property": "C16",
   "status": "proved",
   "theorems": [
    "Lsmdb.Props.C16_ownership"
   ],
   "note": ""
  },
  {
   "property": "C17",
   "status": "proved",
   "theorems": [
    "Lsmdb.Props.C17_no_overlap",
    "Lsmdb.Props.C17_served",
    "Lsmdb.Props.C17_huge_aligned_request_escapes"
   ],
   "note": "C17_huge_aligned_request_escapes shows why requests near 2^64 are excluded."
  },
  {
   "property": "C18",
   "status": "proved",
   "theorems": [
    "Lsmdb.Props.C18_aligned"
   ],
   "note": ""
  },
  {
   "property": "C19",
   "status": "proved",
   "theorems": [
    "Lsmdb.Props.C19_accounting",
    "Lsmdb.Props.C19_monotone",
    "Lsmdb.Props.C19_bounded_waste"
   ],
   "note": ""
  },
  {
   "property": "C20",
   "status": "proved",
   "theorems": [
    "Lsmdb.Props.C20_contains"
   ],
   "note": ""
  },
  {
   "property": "C21",
   "status": "proved",
   "theorems": [
    "Lsmdb.Props.C21_iteration",
    "Lsmdb.Props.C21_valid"
   ],
   "note": ""
  },
  {
   "property": "C22",
   "status": "proved",
   "theorems": [
    "Lsmdb.Props.C22_positions"
   ],
   "note": ""
  },
  {
   "property": "C23",
   "status": "proved",
   "theorems": [
    "Lsmdb.Props.C23_linearizable",
    "Lsmdb.Props.C23_contains"
   ],
   "note": ""
  },
  {
   "property": "C24",
   "status": "proved",
   "theorems": [
    "Lsmdb.Props.C24_no_fault",
    "Lsmdb.Props.C24_readers_end",
    "Lsmdb.Props.C24_height"
   ],
   "note": ""
  },
  {
   "property": "C25",
   "status": "partial",
   "theorems": [
    "Lsmdb.Props.C25_insert_partial",
    "Lsmdb.Props.C25_debug_build_aborts"
   ],
   "note": "The property is false of the code: C25_debug_build_aborts proves that in an assertion-enabled build every Insert aborts at assert(height < 0) (db/skiplist.h:249). C25_insert_partial proves it for release builds and for builds with every other assertion enabled."
  },
  {
   "property": "C26",
   "status": "proved",
   "theorems": [
    "Lsmdb.Props.C26_lookup",
    "Lsmdb.Props.C26_insert_found"
   ],
   "note": ""
  },
  {
   "property": "C27",
   "status": "proved",
   "theorems": [
    "Lsmdb.Props.C27_held_handle"
   ],
   "note": ""
  },
  {
   "property": "C28",
   "status": "proved",
   "theorems": [
    "Lsmdb.Props.C28_at_most_once",
    "Lsmdb.Props.C28_exactly_when",
    "Lsmdb.Props.C28_destroy"
   ],
   "note": "C28_exactly_when: deleted exactly when unreferenced and out of the cache; C28_destroy: after the destructor."
  },
  {
   "property": "C29",
   "status": "proved",
   "theorems": [
    "Lsmdb.Props.C29_total_charge",
    "Lsmdb.Props.C29_after_insert",
    "Lsmdb.Props.C29_only_insert_grows",
    "Lsmdb.Props.C29_over_capacity_without_references"
   ],
   "note": "C29_over_capacity_without_references exhibits the behaviour mentioned in the statement."
  },
  {
   "property": "C30",
   "status": "proved",
   "theorems": [
    "Lsmdb.Props.C30_lru"
   ],
   "note": ""
  },
  {
   "property": "C31",
   "status": "proved",
   "theorems": [
    "Lsmdb.Props.C31_erase",
    "Lsmdb.Props.C31_lookup_release",
    "Lsmdb.Props.C31_not_found"
   ],
   "note": ""
  },
  {
   "property": "C32",
   "status": "proved",
   "theorems": [
    "Lsmdb.Props.C32_prune_shard",
    "Lsmdb.Props.C32_prune"
   ],
   "note": ""
  },
  {
   "property": "C33",
   "status": "proved",
   "theorems": [
    "Lsmdb.Props.C33_capacity_zero"
   ],
   "note": ""
  },
  {
   "property": "C34",
   "status": "proved",
   "theorems": [
    "Lsmdb.Props.C34_ids_distinct"
   ],
   "note": ""
  },
  {
   "property": "C35",
   "status": "proved",
   "theorems": [
    "Lsmdb.Props.C35_lookup_exact",
    "Lsmdb.Props.C35_insert",
    "Lsmdb.Props.C35_remove",
    "Lsmdb.Props.C35_load",
    "Lsmdb.Props.C35_resize_diverges"
   ],
   "note": "C35_resize_diverges proves the limit of 2^31 entries is real."
  },
  {
   "property": "C36",
   "status": "partial",
   "theorems": [
    "Lsmdb.Props.C36_capacity_partial",
    "Lsmdb.Props.C36_capacity_lost"
   ],
   "note": "False for the last fifteen values of size_t: C36_capacity_lost proves that a capacity above 2^64-16 gives a cache of capacity 0. C36_capacity_partial proves the claim for all other capacities."
  },
  {
   "property": "C37",
   "status": "proved",
   "theorems": [
    "Lsmdb.Props.C37_no_fault"
   ],
   "note": ""
  },
  {
   "property": "C38",
   "status": "proved",
   "theorems": [
    "Lsmdb.Props.C38_byte_sequence"
   ],
   "note": "Model of the 8 KiB block lists; histories of appends and truncations of any sizes."
  },
  {
   "property": "C39",
   "status": "proved",
   "theorems": [
    "Lsmdb.Props.C39_partition",
    "Lsmdb.Props.C39_open",
    "Lsmdb.Props.C39_reads_concatenate",
    "Lsmdb.Props.C39_empty_only_at_end"
   ],
   "note": ""
  },
  {
   "property": "C40",
   "status": "proved",
   "theorems": [
    "Lsmdb.Props.C40_refines",
    "Lsmdb.Props.C40_continues",
    "Lsmdb.Props.C40_missing",
    "Lsmdb.Props.C40_effects"
   ],
   "note": "C40_refines/C40_continues: refinement of every allowed history to the specification Spec.FS; C40_missing and C40_effects restate the consequences through the interface. Histories using the defects C42, C43 are excluded (Allowed)."
  },
  {
   "property": "C41",
   "status": "proved",
   "theorems": [
    "Lsmdb.Props.C41_survives",
    "Lsmdb.Props.C41_usable",
    "Lsmdb.Props.C41_freed_exactly_when",
    "Lsmdb.Props.C41_no_leak"
   ],
   "note": ""
  },
  {
   "property": "C42",
   "status": "partial",
   "theorems": [
    "Lsmdb.Props.C42_new_name_is_poisoned",
    "Lsmdb.Props.C42_existing_partial"
   ],
   "note": "The property is false of the code: C42_new_name_is_poisoned proves that for a name that does not exist the name becomes a null entry (every later use dereferences null). C42_existing_partial proves the property for names that exist."
  },
  {
   "property": "C43",
   "status": "partial",
   "theorems": [
    "Lsmdb.Props.C43_self_rename_deletes",
    "Lsmdb.Props.C43_rename_partial"
   ],
   "note": "The property is false of the code for equal names: C43_self_rename_deletes. C43_rename_partial proves it for different names."
  },
  {
   "property": "C44",
   "status": "proved",
   "theorems": [
    "Lsmdb.Props.C44_children"
   ],
   "note": ""
  },
  {
   "property": "C45",
   "status": "partial",
   "theorems": [
    "Lsmdb.Props.C45_lock_does_not_exclude",
    "Lsmdb.Props.C45_lock_object_partial"
   ],
   "note": "The property is false of the code: C45_lock_does_not_exclude. C45_lock_object_partial is what remains."
  },
  {
   "property": "C46",
   "status": "proved",
   "theorems": [
    "Lsmdb.Iface.C46_mem_write",
    "Lsmdb.Iface.C46_mem_read",
    "Lsmdb.Iface.C46_mem_missing",
    "Lsmdb.Iface.C46_mem_roundtrip",
    "Lsmdb.Iface.C46_posix_write",
    "Lsmdb.Iface.C46_posix_write_safe",
    "Lsmdb.Iface.C46_posix_write_blame",
    "Lsmdb.Iface.C46_posix_failed_write",
    "Lsmdb.Iface.C46_posix_read",
    "Lsmdb.Iface.C46_posix_read_safe",
    "Lsmdb.Iface.C46_posix_roundtrip",
    "Lsmdb.Iface.C46_posix_leftover",
    "Lsmdb.Iface.C46_posix_sync_name_lost"
   ],
   "note": "Proved on both Envs. POSIX: other processes do not touch the name, the file contents or the descriptors; faults and divergence excluded. C46_posix_leftover and C46_posix_sync_name_lost are witnesses for the two limits named in the statement."
  },
  {
   "property": "C47",
   "status": "proved",
   "theorems": [
    "Lsmdb.Posix.C47_new_writable",
    "Lsmdb.Posix.C47_new_appendable",
    "Lsmdb.Posix.C47_open",
    "Lsmdb.Posix.C47_stream",
    "Lsmdb.Posix.C47_flushed",
    "Lsmdb.Posix.C47_destroy",
    "Lsmdb.Posix.C47_no_overflow",
    "Lsmdb.Posix.C47_no_spurious_error"
   ],
   "note": "Model of the 64 KiB buffer over a model of open/write/close; every pattern of short and interrupted writes. C47_open covers both open calls."
  },
  {
   "property": "C48",
   "status": "proved",
   "theorems": [
    "Lsmdb.Posix.C48_synced",
    "Lsmdb.Posix.C48_prefix"
   ],
   "note": "Crash model: a crash leaves any content the file had since the last successful sync, or a prefix of a write in progress."
  },
  {
   "property": "C49",
   "status": "proved",
   "theorems": [
    "Lsmdb.Posix.C49_reported",
    "Lsmdb.Posix.C49_prefix",
    "Lsmdb.Posix.C49_later_success"
   ],
   "note": "C49_later_success proves the second sentence of the statement; an example exhibits the lost bytes."
  },
  {
   "property": "C50",
   "status": "partial",
   "theorems": [
    "Lsmdb.Posix.C50_append_after_close_lost",
    "Lsmdb.Posix.C50_partial"
   ],
   "note": "The property is false of the code: C50_append_after_close_lost. C50_partial proves what remains: Sync, Close, large Append and Flush of pending data report errors."
  },
  {
   "property": "C51",
   "status": "proved",
   "theorems": [
    "Lsmdb.Posix.C51_directory_first",
    "Lsmdb.Posix.C51_name_durable"
   ],
   "note": "C51_name_durable is the consequence: after the Sync no crash can undo the name."
  },
  {
   "property": "C52",
   "status": "partial",
   "theorems": [
    "Lsmdb.Posix.C52_split",
    "Lsmdb.Posix.C52_manifest",
    "Lsmdb.Posix.C52_partial",
    "Lsmdb.Posix.C52_root_manifest_cannot_sync"
   ],
   "note": "The last sentence is false for files in the root directory: C52_root_manifest_cannot_sync. C52_split, C52_manifest and C52_partial prove the rest."
  },
  {
   "property": "C53",
   "status": "proved",
   "theorems": [
    "Lsmdb.Limiter.C53_never_over",
    "Lsmdb.Limiter.C53_quiet",
    "Lsmdb.Limiter.C53_alone",
    "Lsmdb.Limiter.C53_refused",
    "Lsmdb.Limiter.C53_overlapping_calls_fail"
   ],
   "note": "Any number of threads, every interleaving of the atomic operations; assumes fewer than 2^31 threads (so that failed attempts cannot wrap the counter) and that Release is called only for a granted acquisition. C53_overlapping_calls_fail shows why the last sentence is restricted to calls that overlap no other."
  },
  {
   "property": "C54",
   "status": "proved",
   "theorems": [
    "Lsmdb.Posix.C54_accounting",
    "Lsmdb.Posix.C54_all_released",
    "Lsmdb.Posix.C54_no_undefined_behaviour"
   ],
   "note": "C54_accounting: an invariant over every history of opens, reads, destroys, locks with any system call failing; C54_all_released; C54_no_undefined_behaviour."
  },
  {
   "property": "C55",
   "status": "partial",
   "theorems": [
    "Lsmdb.Posix.C55_read_partial",
    "Lsmdb.Posix.C55_wraps",
    "Lsmdb.Posix.C55_bytes_partial",
    "Lsmdb.Posix.C55_size_race"
   ],
   "note": "False of the code in two ways: C55_wraps (offset + n overflows 64 bits and the bound check passes) and C55_size_race (the size is taken by name after the open, so the mapping may be longer than the file: access beyond the last page is a bus error). C55_read_partial and C55_bytes_partial prove the rest."
  },
  {
   "property": "C56",
   "status": "partial",
   "theorems": [
    "Lsmdb.Posix.C56_skip_partial",
    "Lsmdb.Posix.C56_skips_past_the_end",
    "Lsmdb.Posix.C56_huge_skip_moves_back"
   ],
   "note": "False of the code: C56_skips_past_the_end, C56_huge_skip_moves_back. C56_skip_partial proves it for a skip within the file."
  },
  {
   "property": "C57",
   "status": "proved",
   "theorems": [
    "Lsmdb.Posix.C57_env_excludes",
    "Lsmdb.Posix.C57_env_refused",
    "Lsmdb.Posix.C57_env_again",
    "Lsmdb.Posix.C57_env_unlock",
    "Lsmdb.PLock.C57_excludes",
    "Lsmdb.PLock.C57_no_second",
    "Lsmdb.PLock.C57_again"
   ],
   "note": "Any number of processes and threads, all interleavings of the system calls and table operations; C57_again: no failure leaves a stale table entry behind."
  },
  {
   "property": "C58",
   "status": "partial",
   "theorems": [
    "Lsmdb.PLock.C58_failed_lock_releases",
    "Lsmdb.PLock.C58_unlock_race",
    "Lsmdb.PLock.C58_other_close_releases",
    "Lsmdb.PLock.C58_excludes_partial"
   ],
   "note": "Violated: a process loses its fcntl lock when it closes any descriptor of the file. C58_failed_lock_releases: the holder's own refused second LockFile closes a descriptor and lets another process in. C58_unlock_race: UnlockFile removes the name from the table before closing, so its close takes away a lock that another thread just got. C58_other_close_releases: reading the lock file does it too. C58_excludes_partial: for every interleaving, process end and failure, no two processes hold a file as long as no process makes such calls on a file it holds or is locking or unlocking."
  },
  {
   "property": "C59",
   "status": "proved",
   "theorems": [
    "Lsmdb.Sched.C59_order",
    "Lsmdb.Sched.C59_serial",
    "Lsmdb.Sched.C59_defined",
    "Lsmdb.Sched.C59_awake",
    "Lsmdb.Sched.C59_runs"
   ],
   "note": "C59_order (safety, every interleaving, spurious wakeups, functions that call Schedule themselves), C59_serial, C59_awake, C59_defined; C59_runs is liveness: in every fair infinite execution in which functions return, every call returns and its function runs."
  },
  {
   "property": "C60",
   "status": "proved",
   "theorems": [
    "Lsmdb.Posix.C60_single_call",
    "Lsmdb.Posix.C60_single_call_ok",
    "Lsmdb.Posix.C60_open",
    "Lsmdb.Posix.C60_every_status",
    "Lsmdb.Posix.C60_logger_reports_close_error"
   ],
   "note": "C60_every_status covers every operation of the POSIX Env; C60_logger_reports_close_error is the one place where another call's errno is reported (documented finding)."
  },
  {
   "property": "C61",
   "status": "partial",
   "theorems": [
    "Lsmdb.Logger.C61_line_partial",
    "Lsmdb.Logger.C61_line_unique",
    "Lsmdb.Logger.C61_sequence",
    "Lsmdb.Logger.C61_late_years",
    "Lsmdb.Logger.C61_year_violated",
    "Lsmdb.Logger.C61_format_error",
    "Lsmdb.Logger.C61_length_overflow"
   ],
   "note": "Proved for the years 0 to 9999 and messages up to 2^31-63 characters (both builds), and for later years with short thread ids or NDEBUG. Violations proved: year >= 10000 with a 32-character thread id fails the assertion in debug builds; a message of nearly 2^31 characters overflows int; a message vsnprintf cannot format is dropped. A stream whose fwrite fails is not modelled (Logv ignores it)."
  },
  {
   "property": "C62",
   "status": "partial",
   "theorems": [
    "Lsmdb.Iface.C62_memenv",
    "Lsmdb.Iface.C62_default_leaves_result",
    "Lsmdb.Posix.C62_posix"
   ],
   "note": "Proved for every open call of the POSIX Env and of the in-memory Env. The default NewAppendableFile of the base class (used by an Env that does not override it) fails without storing null: C62_default_leaves_result shows the violation."
  },
  {
   "property": "C63",
   "status": "proved",
   "theorems": [
    "Lsmdb.Iface.C63_wrapper",
    "Lsmdb.Iface.C63_error_env"
   ],
   "note": "Proved for every history of calls and flag settings shorter than 2^31 (the counter is an int)."
  },
  {
   "property": "C64",
   "status": "partial",
   "theorems": [
    "Lsmdb.Posix.C64_limit_partial",
    "Lsmdb.Posix.C64_limit_wraps",
    "Lsmdb.Posix.C64_negative_violated",
    "Lsmdb.Posix.C64_negative_grants_nothing",
    "Lsmdb.Posix.C64_stable"
   ],
   "note": "Proved for every system limit below 5*2^31 and for an unlimited one. Violated above: rlim_cur/5 is converted to int and wraps, so a limit of 5*2^31 gives -2^31 (C64_negative_violated); a negative limit grants no descriptor and is recomputed on each call."
  },
  {
   "property": "C65",
   "status": "partial",
   "theorems": [
    "Lsmdb.Props.C65_memenv_reports_io_error",
    "Lsmdb.Posix.C65_posix_not_found"
   ],
   "note": "False of the in-memory Env: C65_memenv_reports_io_error. C65_posix_not_found proves it for the POSIX Env."
  },
  {
   "property": "C66",
   "status": "partial",
   "theorems": [
    "Lsmdb.Props.C66_skip_races_with_truncation",
    "Lsmdb.Props.C66_no_truncation_partial",
    "Lsmdb.MemConc.C66_torn_run",
    "Lsmdb.MemConc.C66_apart_partial"
   ],
   "note": "False of the code: C66_skip_races_with_truncation exhibits a schedule at call level, C66_torn_run a run of two threads of the statement-level model. C66_no_truncation_partial and C66_apart_partial prove it (Skip atomic) when no NewWritableFile overlaps a Skip."
  },
  {
   "property": "C67",
   "status": "proved",
   "theorems": [
    "Lsmdb.Tool.C67_main"
   ],
   "note": ""
  },
  {
   "property": "C68",
   "status": "proved",
   "theorems": [
    "Lsmdb.TestUtil.C68_random_string",
    "Lsmdb.TestUtil.C68_negative",
    "Lsmdb.TestUtil.C68_random_key",
    "Lsmdb.TestUtil.C68_compressible"
   ],
   "note": "`round` is a parameter of the model (floating point is not modelled): the theorem holds for every period. test_util.h declares RandomString(Random*, int), which test_util.cc does not define; the modelled function is the defined one. A negative len makes std::string::resize throw length_error (C68_negative)."
  },
  {
   "property": "C69",
   "status": "proved",
   "theorems": [
    "Lsmdb.Posix.C69_open",
    "Lsmdb.Posix.C69_history",
    "Lsmdb.Posix.C69_safe",
    "Lsmdb.Posix.C69_stream"
   ],
   "note": "C69_history over every sequence of calls, C69_stream for reads only, C69_open connects it with NewSequentialFile; Skip below 2^63 (C56 for the rest)."
  },
  {
   "property": "C70",
   "status": "partial",
   "theorems": [
    "Lsmdb.Posix.C70_open_partial",
    "Lsmdb.Posix.C70_read_partial",
    "Lsmdb.Posix.C70_mmap_no_short_read",
    "Lsmdb.Posix.C70_empty_file_fails",
    "Lsmdb.Posix.C70_readers_disagree_after_rename"
   ],
   "note": "C70_open_partial and C70_read_partial prove it while name and contents are unchanged. False in general: C70_mmap_no_short_read (a mapped file fails a read across the end with EINVAL, the others return a short read), C70_empty_file_fails, C70_readers_disagree_after_rename."
  },
  {
   "property": "C71",
   "status": "partial",
   "theorems": [
    "Lsmdb.Posix.C71_names",
    "Lsmdb.Posix.C71_exists",
    "Lsmdb.Posix.C71_size",
    "Lsmdb.Posix.C71_children_partial",
    "Lsmdb.Posix.C71_truncated_listing"
   ],
   "note": "C71_names, C71_exists, C71_size are complete for files and directories (renaming a directory is not modelled). C71_truncated_listing: GetChildren returns OK with an incomplete list when readdir fails, so C71_children_partial assumes it does not."
  },
  {
   "property": "C72",
   "status": "proved",
   "theorems": [
    "Lsmdb.Posix.C72_default",
    "Lsmdb.Posix.C72_set_late"
   ],
   "note": ""
  },
  {
   "property": "C73",
   "status": "partial",
   "theorems": [
    "Lsmdb.Iface.C73_path",
    "Lsmdb.Iface.C73_users_apart",
    "Lsmdb.Iface.C73_same",
    "Lsmdb.Iface.C73_exists_partial",
    "Lsmdb.Iface.C73_no_directory",
    "Lsmdb.Iface.C73_large_uid",
    "Lsmdb.Iface.C73_memenv"
   ],
   "note": "Path, sameness and distinctness are proved for all inputs (user numbers of 2^31 and more are printed as negative numbers: C73_large_uid). 'Afterwards the directory exists' is false when mkdir fails, which is ignored: C73_no_directory; C73_exists_partial proves it when mkdir does not fail for a reason of its own (for a path that names nothing, or an existing entry, which is left as it is)."
  },
  {
   "property": "C74",
   "status": "proved",
   "theorems": [
    "Lsmdb.Iface.C74_value",
    "Lsmdb.Iface.C74_order"
   ],
   "note": ""
  },
  {
   "property": "C75",
   "status": "proved",
   "theorems": [
    "Lsmdb.Posix.C75_reads_change_nothing"
   ],
   "note": ""
  },
  {
   "property": "C76",
   "status": "proved",
   "theorems": [
    "Lsmdb.CacheConc.C76_linearizable",
    "Lsmdb.CacheConc.C76_handles",
    "Lsmdb.CacheConc.C76_not_stale",
    "Lsmdb.CacheConc.C76_insert_distinct",
    "Lsmdb.CacheConc.C76_ids_distinct",
    "Lsmdb.CacheConc.C76_deleter",
    "Lsmdb.CacheConc.C76_deleter_quiet"
   ],
   "note": "Proved for every decomposition of the method bodies into steps that satisfies Implements, Steady and Recorded; `code` (one step per statement) is shown to. Histories are shorter than 2^31 events (reference counts are 32 bits). std::mutex is modelled as mutual exclusion with sequentially consistent steps; deleters do not call the cache."
  },
  {
   "property": "C77",
   "status": "partial",
   "theorems": [
    "Lsmdb.CacheConc.C77_torn",
    "Lsmdb.CacheConc.C77_undisturbed_partial"
   ],
   "note": "Violated: the shards are read one after the other; C77_torn gives, for the program's hash function and every implementation of the bodies, a run in which TotalCharge returns 0 although some shard holds charge 10 at every moment of the call. Proved for calls not overlapped by Insert, Erase or Prune (C77_undisturbed_partial)."
  },
  {
   "property": "C78",
   "status": "proved",
   "theorems": [
    "Lsmdb.CacheConc.C78_no_fault",
    "Lsmdb.CacheConc.C78_no_deadlock",
    "Lsmdb.CacheConc.C78_terminates"
   ],
   "note": "No fault and no deadlock for histories shorter than 2^31 events; termination needs no fairness: no infinite sequence of steps without new calls exists."
  },
  {
   "property": "C79",
   "status": "proved",
   "theorems": [
    "Lsmdb.Iface.C79_files",
    "Lsmdb.Iface.C79_lock",
    "Lsmdb.Iface.C79_unlock",
    "Lsmdb.Iface.C79_unlock_twice",
    "Lsmdb.Iface.C79_logger_testdir",
    "Lsmdb.Iface.C79_base",
    "Lsmdb.Iface.C79_posix"
   ],
   "note": ""
  },
  {
   "property": "C80",
   "status": "proved",
   "theorems": [
    "Lsmdb.MemConc.C80_careful",
    "Lsmdb.MemConc.C80_linearizable",
    "Lsmdb.MemConc.C80_handles_distinct",
    "Lsmdb.MemConc.C80_appends"
   ],
   "note": "Statement-level interleaving of all methods. Disciplined quantifies over orders of effects; C80_careful derives it from rules without such a quantifier (right kind of file object, valid slices, fewer than 2^64 bytes and 2^31-2 opens in total, defects C42 and C43 avoided). std::mutex is modelled as mutual exclusion with sequentially consistent steps."
  },
  {
   "property": "C81",
   "status": "proved",
   "theorems": [
    "Lsmdb.MemConc.C81_no_fault",
    "Lsmdb.MemConc.C81_freed",
    "Lsmdb.MemConc.C81_no_leak"
   ],
   "note": "Same model and clients as C80; memory accesses of the model fault on freed objects, a mutex is memory of its object."
  },
  {
   "property": "C82",
   "status": "proved",
   "theorems": [
    "Lsmdb.MemConc.C82_no_deadlock",
    "Lsmdb.MemConc.C82_terminates",
    "Lsmdb.MemConc.C82_completes"
   ],
   "note": "Termination needs no fairness: there is no infinite sequence of steps without new calls."
  },
  {
   "property": "C83",
   "status": "proved",
   "theorems": [
    "Lsmdb.Iface.C83_crash_atomic",
    "Lsmdb.Iface.C83_all_or_nothing",
    "Lsmdb.Iface.C83_safe",
    "Lsmdb.Iface.C83_unsynced_violated"
   ],
   "note": "POSIX Env. C83_crash_atomic (every crash point), C83_all_or_nothing (return values), C83_safe; C83_unsynced_violated shows the sync is needed. The client code is in Spec/Replace (it is not part of the repository; it uses only the API). Assumes nobody else touches the two names or writes to files during the call."
  },
  {
   "property": "C84",
   "status": "proved",
   "theorems": [
    "Lsmdb.MemConc.C84_memenv_no_race",
    "Lsmdb.CacheConc.C84_cache_no_race"
   ],
   "note": "C84_memenv_no_race, C84_cache_no_race. What a statement reads and writes is defined semantically (Spec/Race): a write of a constant is counted even if it happens to be the old value, copying a location to itself is not; a read counts if the value makes a difference to anything. Locations: per FileState refs_ / blocks_+size_, file_map_, file objects, mutexes; per shard the hash and value fields of each entry and the rest of the shard as one location. The deleter's own code is the client's and not covered."
  },
  {
   "property": "C85",
   "status": "proved",
   "theorems": [
    "Lsmdb.SkipArena.C85_construct",
    "Lsmdb.SkipArena.C85_insert",
    "Lsmdb.SkipArena.C85_contains",
    "Lsmdb.SkipArena.C85_iter",
    "Lsmdb.SkipArena.C85_undisturbed"
   ],
   "note": "Model/SkipArena: pointers are addresses in the arena's memory, members of a node at byte offsets. Assertions other than that of line 249 may be on or off (line 249 makes every insertion abort, C25). sizeof(Key) at least 1, alignment of Key at most 8, a node of 12 links shorter than 2^64-8 bytes. One call at a time (readers beside the writer: C23, C24 on Model/SkipList)."
  },
  {
   "property": "C86",
   "status": "proved",
   "theorems": [
    "Lsmdb.LoggerConc.C86_whole_lines",
    "Lsmdb.LoggerConc.C86_quiet",
    "Lsmdb.LoggerConc.C86_no_deadlock"
   ],
   "note": ""
  },
  {
   "property": "C87",
   "status": "partial",
   "theorems": [
    "Lsmdb.Props.C87_assignment_dangles",
    "Lsmdb.Props.C87_no_effect_partial"
   ],
   "note": "False of the code: operator= deletes the left side's buffer before it allocates the copy, so when the allocation throws the left side keeps a dangling pointer (C87_assignment_dangles: reads of deleted memory, double free in the destructor). C87_no_effect_partial: everything else holds, for every sequence in which no such assignment (error over another error) fails."
  },
  {
   "property": "C88",
   "status": "partial",
   "theorems": [
    "Lsmdb.Props.C88_key_crash",
    "Lsmdb.Props.C88_failed_insert_stays",
    "Lsmdb.Props.C88_no_fault_partial",
    "Lsmdb.Props.C88_lookup_partial",
    "Lsmdb.Props.C88_held_partial"
   ],
   "note": "False of the code in two ways. C88_key_crash: the result of malloc for the key is not tested. C88_failed_insert_stays: the table is grown after the entry was linked, so an Insert that throws there has inserted; the entry is pinned for ever. Proved: no other faults, Lookup returns only values the key may have and the exact handle for keys no Insert of which threw since, held handles stay valid, nothing is deleted twice, and a failure of the first allocation has no effect (C88_no_fault_partial, C88_lookup_partial, C88_held_partial)."
  },
  {
   "property": "C89",
   "status": "partial",
   "theorems": [
    "Lsmdb.Props.C89_goes_well_partial",
    "Lsmdb.Props.C89_failed_rename_loses_target",
    "Lsmdb.Props.C89_failed_open_empties",
    "Lsmdb.Props.C89_failed_append_partly",
    "Lsmdb.Props.C89_failed_create_leaks"
   ],
   "note": "False of the code in four ways. C89_failed_rename_loses_target: the target is removed before its new entry is allocated. C89_failed_open_empties: an existing file is emptied before the file object is allocated. C89_failed_append_partly: blocks are allocated while copying. C89_failed_create_leaks: the storage of a new file is lost when its entry cannot be allocated. Proved for every history and every pattern of failures (C89_goes_well_partial): no fault, every call answers rightly or throws with no other effect than those four (or an empty file created), nothing else changes, storage in use is never released nor any twice, calls throw only when memory runs out. The rules of the client exclude the defects C42 and C43 as in C40."
  },
  {
   "property": "C90",
   "status": "partial",
   "theorems": [
    "Lsmdb.Sched.C90_throw_stops",
    "Lsmdb.Sched.C90_returned_lost",
    "Lsmdb.Sched.C90_safety_partial"
   ],
   "note": "False of the code: Schedule locks its mutex by hand and an exception leaves it locked. C90_throw_stops: after an exception no later call returns or is run, at most one more function runs (none if the thread could not be made). C90_returned_lost: a function whose call had returned is lost. Proved for every history with exceptions (C90_safety_partial): the functions run are the first of an order explaining the history, without the calls that threw, each once, with its own argument, one at a time. Exceptions of std::function copies in the background thread (they end the process) are not modelled."
  },
  {
   "property": "C91",
   "status": "partial",
   "theorems": [
    "Lsmdb.Posix.C91_throws_only_when_short",
    "Lsmdb.Posix.C91_returned_partial",
    "Lsmdb.Posix.C91_accounting_partial",
    "Lsmdb.Posix.C91_no_undefined_behaviour_partial",
    "Lsmdb.Posix.C91_locks_exclude_partial",
    "Lsmdb.Posix.C91_locks_again_partial",
    "Lsmdb.Posix.C91_lock_lost_violated",
    "Lsmdb.Posix.C91_lock_table_lost_violated",
    "Lsmdb.Posix.C91_throws_after_the_fact_violated",
    "Lsmdb.Posix.C91_random_access_leak_violated",
    "Lsmdb.Posix.C91_flush_twice_violated",
    "Lsmdb.Posix.C91_close_twice_violated",
    "Lsmdb.Posix.C91_delete_ends_violated"
   ],
   "note": "False of the code: open calls throw after the fact (C91_throws_after_the_fact_violated: the file is emptied, the lock taken), NewRandomAccessFile loses descriptor, mapping and slot, a LockFile that threw locks its name for ever (C91_lock_lost_violated) or all names (C91_lock_table_lost_violated), Flush writes bytes twice, Close leads to another file's descriptor being closed, delete ends the process. Proved for every history with exceptions: calls throw only when memory is short (C91_throws_only_when_short), a call that returns did what it does with memory (C91_returned_partial), each call that threw loses at most one descriptor and, NewRandomAccessFile only, one slot and mapping, all else is accounted for (C91_accounting_partial), no undefined behaviour (C91_no_undefined_behaviour_partial; both need memory for the status of Close), locks exclude each other and unaffected names can be locked (C91_locks_exclude_partial, C91_locks_again_partial)."
  },
  {
   "property": "C92",
   "status": "proved",
   "theorems": [
    "Lsmdb.Posix.Conc.C92_accounts",
    "Lsmdb.Posix.Conc.C92_no_interference",
    "Lsmdb.Posix.Conc.C92_no_waiting",
    "Lsmdb.Posix.Conc.C92_quiet",
    "Lsmdb.Posix.Conc.C92_all_released",
    "Lsmdb.Posix.Conc.C92_sequential"
   ],
   "note": "Machine of threads at the granularity of system calls and atomic operations. C92_accounts and C92_no_interference hold at every moment of every run; C92_quiet gives the accounts of C54 when no call runs, C92_all_released when nothing is left; C92_no_waiting: a running call can always take its next step; C92_sequential: every history of the one-thread model is a run of the machine. Assumes the limits leave one decrement per thread in an int."
  },
  {
   "property": "C93",
   "status": "proved",
   "theorems": [
    "Lsmdb.Posix.Conc.C93_writable",
    "Lsmdb.Posix.Conc.C93_stream",
    "Lsmdb.Posix.Conc.C93_flushed",
    "Lsmdb.Posix.Conc.C93_crash",
    "Lsmdb.Posix.Conc.C93_synced",
    "Lsmdb.Posix.Conc.C93_reader",
    "Lsmdb.Posix.Conc.C93_reader_alone"
   ],
   "note": "In the machine of threads of C92. C93_writable is the general statement (finished calls, and a moment inside the last call); C93_stream, C93_flushed, C93_crash and C93_synced are C47 and C48 for threads; C93_reader and C93_reader_alone are C69 for threads. The hypothesis is that no step but those of calls on the object changes the inode (CarefulRun); descriptors, buffers and positions need no hypothesis, that nobody else touches them is proved (C92)."
  },
  {
   "property": "C94",
   "status": "proved",
   "theorems": [
    "Lsmdb.Posix.Conc.C94_reads",
    "Lsmdb.Posix.Conc.C94_reads_fixed",
    "Lsmdb.Posix.Conc.C94_agree",
    "Lsmdb.Posix.Conc.C94_views"
   ],
   "note": "In the machine of threads of C92. The hypotheses are that the file only grows and, for an object without permanent descriptor, that its name keeps meaning the same file (StillRun), and that nobody outside of the process touches its descriptors and mappings (Private)."
  },
  {
   "property": "C95",
   "status": "proved",
   "theorems": [
    "Lsmdb.Posix.Conc.C95_untouched",
    "Lsmdb.Posix.Conc.C95_flushed",
    "Lsmdb.Posix.Conc.C95_crash",
    "Lsmdb.Posix.Conc.C95_synced",
    "Lsmdb.Posix.Conc.C95_kept",
    "Lsmdb.Posix.Conc.C95_reads",
    "Lsmdb.Posix.Conc.C95_views"
   ],
   "note": "In the machine of threads of C92. Which calls are about other files (Elsewhere) is a condition on the paths they name; two different paths name different files (flat name space of Model/Kernel: no links, no different spellings of one path; renaming a directory fails). Other processes leave the file, its name, and the descriptors and mappings of this process alone (Respects). C95_flushed/crash/synced/reads/views are C93 and C94 with this condition instead of one on the kernel states of the run."
  },
  {
   "property": "C96",
   "status": "proved",
   "theorems": [
    "Lsmdb.Posix.Conc.C96_opened",
    "Lsmdb.Posix.Conc.C96_flushed",
    "Lsmdb.Posix.Conc.C96_crash",
    "Lsmdb.Posix.Conc.C96_synced",
    "Lsmdb.Posix.Conc.C96_failed"
   ],
   "note": "In the machine of threads of C92, with the conditions on paths and other processes of C95. The call is described by CallIn: what happens before it, the call, what happens while it runs, its return. Before the call the file is not open anywhere in the process and has one name, or does not exist (Unused); other processes may create and remove other files."
  },
  {
   "property": "C97",
   "status": "proved",
   "theorems": [
    "Lsmdb.Posix.Conc.C97_opened",
    "Lsmdb.Posix.Conc.C97_reads",
    "Lsmdb.Posix.Conc.C97_sequential",
    "Lsmdb.Posix.Conc.C97_size"
   ],
   "note": "In the machine of threads of C92, with the conditions on paths and other processes of C95. Before the call nobody has the file open for writing and it has one name (ReadOnly). Links C92 (what the opening calls do) with C93 and C94 (what objects that are attached to a file read)."
  },
  {
   "property": "C98",
   "status": "proved",
   "theorems": [
    "Lsmdb.Posix.Conc.C98_reads",
    "Lsmdb.Posix.Conc.C98_sequential",
    "Lsmdb.Posix.Conc.C98_size"
   ],
   "note": "End to end: C96 (the writer) followed by C97 (the readers), without any quiet moment between them; only the first moment must be quiet. Conditions on paths and other processes as in C95."
  },
  {
   "property": "C99",
   "status": "proved",
   "theorems": [
    "Lsmdb.Posix.Conc.C99_sequential",
    "Lsmdb.Posix.Conc.C99_size",
    "Lsmdb.Posix.Conc.C99_exists",
    "Lsmdb.Posix.Conc.C99_opens",
    "Lsmdb.Posix.Conc.C99_random"
   ],
   "note": "rename is one atomic step of the kernel model (as POSIX says); what is proved is that RenameFile, RemoveFile and the readers built on the system calls keep that. The way of CURRENT and its temporary file."
  },
  {
   "property": "C100",
   "status": "partial",
   "theorems": [
    "Lsmdb.Posix.Conc.C100_descriptor_partial",
    "Lsmdb.Posix.Conc.C100_mapped_partial",
    "Lsmdb.Posix.Conc.C100_each_read_partial",
    "Lsmdb.Posix.Conc.C100_violated_by_name",
    "Lsmdb.Posix.Conc.C100_violated_mapped"
   ],
   "note": "False of the code, in two ways: an object that opens the file for each read (limits exhausted) reads another file after a rename (C100_violated_by_name); a rename between open and stat in NewRandomAccessFile yields a mapping of one file with the length of another, reads beyond the end are OK and return a slice without bytes (C100_violated_mapped; SIGBUS in reality). Proved: objects with a descriptor of their own read one file (C100_descriptor_partial), mapped ones too if all the files have the same length (C100_mapped_partial), and each single read of a by-name object returns bytes of one of the files (C100_each_read_partial)."
  },
  {
   "property": "C101",
   "status": "proved",
   "theorems": [
    "Lsmdb.Posix.Conc.C101_pool",
    "Lsmdb.Posix.Conc.C101_pool_stays",
    "Lsmdb.Posix.Conc.C101_before",
    "Lsmdb.Posix.Conc.C101_crash",
    "Lsmdb.Posix.Conc.C101_reads",
    "Lsmdb.Posix.Conc.C101_installed",
    "Lsmdb.Posix.Conc.C101_size"
   ],
   "note": "Extends C83 (one thread) to many threads. Other processes leave the two names and the files that exist alone (Bystander). What a crash keeps is the kernel model of Model/Kernel: file contents not synced may be any earlier version since the last sync; names changed and not synced may be any earlier one."
  },
  {
   "property": "C102",
   "status": "proved",
   "theorems": [
    "Lsmdb.Posix.Conc.C102_names",
    "Lsmdb.Posix.Conc.C102_durable",
    "Lsmdb.Posix.Conc.C102_installed"
   ],
   "note": "Extends C51_name_durable (one thread) to many threads and to all names of the directory. The directory part of the manifest's path is not empty (for \"/MANIFEST\" see C52). Other processes do not change what the names mean (LeavesNames). What a crash keeps is the kernel model of Model/Kernel: fsync of a directory makes the names in it durable."
  },
  {
   "property": "C103",
   "status": "proved",
   "theorems": [
    "Lsmdb.Posix.Conc.C103_atomic",
    "Lsmdb.Posix.Conc.C103_create_once",
    "Lsmdb.Posix.Conc.C103_remove_once",
    "Lsmdb.Posix.Conc.C103_exists",
    "Lsmdb.Posix.Conc.C103_listed"
   ],
   "note": "Extends C71 (one thread) to many threads. What other processes do to the names is a parameter (R) and appears in the history as moments of its own; whether system calls may fail without a reason is a parameter too (faulty). Contents of files are not part of this statement (see C94-C98). In the kernel model opendir takes the whole listing at once; C103_listed asks only for files that nobody touches, for which POSIX promises the same. NewRandomAccessFile: nothing is said about when it fails (it names the file twice, C70). Renaming a directory is not modelled."
  },
  {
   "property": "C104",
   "status": "proved",
   "theorems": [
    "Lsmdb.Posix.Conc.C104_returns",
    "Lsmdb.Posix.Conc.C104_buffer",
    "Lsmdb.Posix.Conc.C104_interrupted"
   ],
   "note": "The loops of the code have no bound of their own; in the model they have a fuel, and the theorem says how much is enough. A single system call is one step: that the kernel itself answers (e.g. a read from a pipe) is not part of the statement. The mutex of the lock table is held for one insert or erase only and is one step (its critical sections make no calls)."
  },
  {
   "property": "C105",
   "status": "partial",
   "theorems": [
    "Lsmdb.CacheReent.C105_no_deadlock_partial",
    "Lsmdb.CacheReent.C105_deadlock_stays",
    "Lsmdb.CacheReent.C105_own_shard",
    "Lsmdb.CacheReent.C105_violated_alone",
    "Lsmdb.CacheReent.C105_violated_two"
   ],
   "note": "The property is false of the code (C105_violated_alone, C105_violated_two). Proved: deleters that use only shards with a larger number than that of their entry (or NewId, Value) never cause a deadlock, at any depth; a circle of waiting threads stays for ever; a deleter that uses a shard whose mutex its thread holds never returns."
  },
  {
   "property": "C106",
   "status": "proved",
   "theorems": [
    "Lsmdb.CacheConc.C106_in_use_found",
    "Lsmdb.CacheConc.C106_prune"
   ],
   "note": ""
  },
  {
   "property": "C107",
   "status": "proved",
   "theorems": [
    "Lsmdb.MemConc.C107_reads"
   ],
   "note": ""
  },
  {
   "property": "C108",
   "status": "proved",
   "theorems": [
    "Lsmdb.Sched.C108_schedule",
    "Lsmdb.Sched.C108_schedule_accesses",
    "Lsmdb.CacheConc.C108_cache",
    "Lsmdb.CacheConc.C108_cache_release",
    "Lsmdb.CacheConc.C108_cache_shards"
   ],
   "note": "C108_schedule, C108_schedule_accesses, C108_cache, C108_cache_release, C108_cache_shards. The order is the one of Spec/HappensBefore; who locks and unlocks is read off the state (Spec/SchedSync, Spec/CacheSync). The clients' own synchronization is not in the order, so what is claimed holds whatever they do beyond the rules of C76. C108_cache is stated for handles that some call returned."
  },
  {
   "property": "C109",
   "status": "proved",
   "theorems": [
    "Lsmdb.PLock.C109_lock_publishes",
    "Lsmdb.PLock.C109_sections"
   ],
   "note": "For every execution of any number of processes and threads (the model of C57, in which every statement of LockFile and UnlockFile that other threads can notice is a step). The happens-before order has only program order and the mutexes of the lock tables."
  },
  {
   "property": "C110",
   "status": "proved",
   "theorems": [
    "Lsmdb.MemConc.C110_race_free",
    "Lsmdb.MemConc.C110_names",
    "Lsmdb.MemConc.C110_bytes"
   ],
   "note": "For every execution of any number of threads (the model of C80-C82, in which every statement of memenv.cc that other threads can notice is a step, and Append and Read copy block by block). Happens-before has only program order and the mutexes. Not covered: the creation and the freeing of a FileState and ~InMemoryEnv, which walks through the map without mutex_ (the client may call it only when no other call is in progress), and pos_ of a SequentialFile (it belongs to one client)."
  },
  {
   "property": "C111",
   "status": "proved",
   "theorems": [
    "Lsmdb.ArenaConc.C111_read",
    "Lsmdb.ArenaConc.C111_exact",
    "Lsmdb.ArenaConc.C111_no_fault"
   ],
   "note": "For every execution of any number of reading threads. One allocating thread (the class needs external synchronization for the rest). The memory model is that of one atomic object: modification order, coherence, and what threads tell each other by release and acquire (messages); memory_usage_ does not overflow. new[] may fail; push_back of the vector of blocks does not."
  },
  {
   "property": "C112",
   "status": "proved",
   "theorems": [
    "Lsmdb.Props.C112_insert",
    "Lsmdb.Props.C112_contains",
    "Lsmdb.Props.C112_iterator",
    "Lsmdb.Props.C112_history",
    "Lsmdb.Props.C112_set"
   ],
   "note": "C112_insert, C112_contains and C112_iterator hold for any state of the list, any comparator and both builds; C112_history is about the release build (an assertion-enabled build cannot insert, C25). Keys are copied only into nodes; a copy constructor of keys that throws is not modelled, an arena whose new[] throws is C85."
  }
 ]
}