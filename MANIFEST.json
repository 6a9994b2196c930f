{
 "claims": [
  {
   "property": "C01",
   "status": "proved",
   "theorems": [
    "Verif.FastCdc.C01_chunking_lossless"
   ],
   "note": "Every block list, gear table, hash width and valid configuration; includes termination."
  },
  {
   "property": "C02",
   "status": "proved",
   "theorems": [
    "Verif.FastCdc.C02_chunk_sizes",
    "Verif.FastCdc.C02_chunk_sizes_any_blocks"
   ],
   "note": "Size limits for all streams; the minimum for every chunk but the last of a stream of non-empty blocks."
  },
  {
   "property": "C03",
   "status": "proved",
   "theorems": [
    "Verif.FastCdc.C03_split_independent"
   ],
   "note": ""
  },
  {
   "property": "C04",
   "status": "proved",
   "theorems": [
    "Verif.FastCdc.C04_resync"
   ],
   "note": ""
  },
  {
   "property": "C05",
   "status": "proved",
   "theorems": [
    "Verif.FastCdc.C05_cut_point",
    "Verif.FastCdc.C05_hash_window"
   ],
   "note": "IsCut in FastCdc/Spec.lean is the independent description; holds for every chunk of every stream."
  },
  {
   "property": "C06",
   "status": "partial",
   "theorems": [
    "Verif.FastCdc.C06_accepted_params_diverge_violated",
    "Verif.FastCdc.C06_accepted_params_terminate_partial",
    "Verif.FastCdc.C06_accepted_params_exactly"
   ],
   "note": "False of the code: min=avg=0 is accepted by ValidateCdcParams and the chunking loop then never advances (C06_accepted_params_diverge_violated). C06_accepted_params_exactly: an accepted parameter set chunks every file to its end if and only if its average is not 0."
  },
  {
   "property": "C07",
   "status": "proved",
   "theorems": [
    "Verif.Delta.C07_delta_sync_exact"
   ],
   "note": "All block partitions, all signature/diff schedules, no hash collision between different chunks (NoCollision hypothesis), files under 2^63 bytes."
  },
  {
   "property": "C08",
   "status": "partial",
   "theorems": [
    "Verif.Delta.C08_patch_bounds_violated",
    "Verif.Delta.C08_patch_bounds_partial",
    "Verif.Delta.C08_patch_bounds_exactly"
   ],
   "note": "False of the code: the bound check adds offset and size in 64 bits and wraps (C08_patch_bounds_violated). C08_patch_bounds_exactly: the exact condition under which the server reads out of bounds, for all message sequences."
  },
  {
   "property": "C09",
   "status": "proved",
   "theorems": [
    "Verif.Delta.C09_signature_stream",
    "Verif.Delta.C09_patch_stream"
   ],
   "note": "Both directions: exactly one empty terminator, no empty message before it."
  },
  {
   "property": "C10",
   "status": "proved",
   "theorems": [
    "Verif.Delta.C10_executable_bit_delta",
    "Verif.Delta.C10_executable_bit_copy"
   ],
   "note": "Copy path for all read-block sizes >= 4, delta path for all configurations with minimum chunk size >= 4."
  },
  {
   "property": "C11",
   "status": "proved",
   "theorems": [
    "Verif.Pump.C11_roundtrip",
    "Verif.Pump.C11_truncated_stream"
   ],
   "note": "All packet lists, all truncation points."
  },
  {
   "property": "C12",
   "status": "proved",
   "theorems": [
    "Verif.Pump.C12_all_delivered",
    "Verif.Pump.C12_delivered_prefix_of_queued",
    "Verif.Pump.C12_quiescent_means_all_delivered",
    "Verif.Pump.C12_no_spurious_receive_error"
   ],
   "note": "All schedules of application, sender, network and receiver, arbitrary packet list, arbitrary queue limit, with failures at any step; plus no lost wake-up (quiescent implies all delivered) and no spurious receive error."
  },
  {
   "property": "C13",
   "status": "proved",
   "theorems": [
    "Verif.Pump.C13_sender_releases",
    "Verif.Pump.C13_wake_up",
    "Verif.Pump.C13_errors_reported",
    "Verif.Pump.C13_flush_waits_for_all",
    "Verif.Pump.C13_queues_bounded",
    "Verif.Pump.C13_error_after_all_packets",
    "Verif.Pump.C13_redirect_does_not_divert"
   ],
   "note": "RedirectOutput modelled as one atomic step as required by its header comment."
  },
  {
   "property": "C14",
   "status": "proved",
   "theorems": [
    "Verif.Pump.C14_malformed_packets_rejected",
    "Verif.Pump.C14_oversized_refused",
    "Verif.Pump.C14_type_checked"
   ],
   "note": ""
  },
  {
   "property": "C15",
   "status": "proved",
   "theorems": [
    "Verif.Store.C15_hex_bijection"
   ],
   "note": ""
  },
  {
   "property": "C16",
   "status": "proved",
   "theorems": [
    "Verif.Store.C16_path_injective_invertible",
    "Verif.Store.C16_directories_exist"
   ],
   "note": "All depths."
  },
  {
   "property": "C17",
   "status": "proved",
   "theorems": [
    "Verif.Store.C17_disk_store_refines_map",
    "Verif.Store.C17_last_put_returned",
    "Verif.Store.C17_list"
   ],
   "note": "Refinement of an abstract map for every history including failing writes and removals, interrupts and any enumeration order."
  },
  {
   "property": "C18",
   "status": "proved",
   "theorems": [
    "Verif.Store.C18_cleanup_keeps_most_recent",
    "Verif.Store.C18_lru_order_always",
    "Verif.Store.C18_rank_is_last_use"
   ],
   "note": "Every directory the store may find and every history; order also for interrupted and failing cleanups."
  },
  {
   "property": "C19",
   "status": "proved",
   "theorems": [
    "Verif.Store.C19_disk_prune_exact",
    "Verif.Store.C19_mem_prune_exact"
   ],
   "note": ""
  },
  {
   "property": "C20",
   "status": "proved",
   "theorems": [
    "Verif.Provider.C20_multi_chunk_read_right_bytes"
   ],
   "note": "Under interference, I/O errors, torn writes and crashes."
  },
  {
   "property": "C21",
   "status": "proved",
   "theorems": [
    "Verif.Provider.C21_no_deadlock",
    "Verif.Provider.C21_batch_locks_missing"
   ],
   "note": "Any number of threads, reader/writer locks, condition-variable waits, join of the cleanup thread."
  },
  {
   "property": "C22",
   "status": "partial",
   "theorems": [
    "Verif.Provider.C22_range_reads_partial",
    "Verif.Provider.C22_provider_range",
    "Verif.Provider.C22_grpc_range_violated"
   ],
   "note": "False of GrpcReader through the common interface: its override declares (size, offset) where the base class has (offset, size)."
  },
  {
   "property": "C23",
   "status": "proved",
   "theorems": [
    "Verif.Store.C23_mem_store_refines_map",
    "Verif.Store.C23_added"
   ],
   "note": ""
  },
  {
   "property": "C24",
   "status": "proved",
   "theorems": [
    "Verif.ChunkMap.C24_lookup_reflects_flushed",
    "Verif.ChunkMap.C24_lookup_finds_bytes",
    "Verif.ChunkMap.C24_count"
   ],
   "note": "Any history, any hash map iteration order; plus correctness of the bytes found."
  },
  {
   "property": "C25",
   "status": "proved",
   "theorems": [
    "Verif.Asset.C25_read_right_bytes",
    "Verif.Asset.C25_read_through_provider"
   ],
   "note": "Any number of concurrent readers; composed with the chunk provider (C20) in C25_read_through_provider."
  },
  {
   "property": "C26",
   "status": "proved",
   "theorems": [
    "Verif.Asset.C26_lookup",
    "Verif.Asset.C26_lookup_independent_of_history",
    "Verif.Asset.C26_listing_complete"
   ],
   "note": "Any number of threads; completeness of lookups for a thread that is alone at that moment, after any concurrent history."
  },
  {
   "property": "C27",
   "status": "proved",
   "theorems": [
    "Verif.Manifest.C27_same_chunks",
    "Verif.Manifest.C27_lists_fit",
    "Verif.Manifest.C27_direct_fits",
    "Verif.Manifest.C27_reads_the_same",
    "Verif.Manifest.Enc.C27_encoded_length"
   ],
   "note": "Every chunk list and limit, no hash collision between different chunk lists in the store; composed with the reader of C25 (C27_reads_the_same)."
  },
  {
   "property": "C28",
   "status": "proved",
   "theorems": [
    "Verif.Manifest.C28_same_entries",
    "Verif.Manifest.C28_lists_fit",
    "Verif.Manifest.C28_list_shortened",
    "Verif.Manifest.C28_directory_fits",
    "Verif.Manifest.Enc.C28_encoded_length"
   ],
   "note": "The directory itself fits as long as no new list is needed for it: the ids of the new lists are added after the size was enforced, and the code has no second level of lists."
  },
  {
   "property": "C29",
   "status": "proved",
   "theorems": [
    "Verif.Manifest.Iter.C29_visits_everything_once",
    "Verif.Manifest.Iter.C29_no_silent_gaps"
   ],
   "note": "Arbitrary allocator: addresses of freed nodes may be reused."
  },
  {
   "property": "C30",
   "status": "partial",
   "theorems": [
    "Verif.Manifest.Alias.C30_changes_stay_local_violated",
    "Verif.Manifest.C30_changes_stay_local_partial",
    "Verif.Manifest.C30_changes_to_saved_manifests_partial"
   ],
   "note": "False of the code when two directories have identical overflow lists: the in-memory list is shared by content id (C30_changes_stay_local_violated). Proved for manifests without indirect asset lists (C30_changes_stay_local_partial), and for any saved manifest, with asset lists, when no stored list could be one of two directories (C30_changes_to_saved_manifests_partial)."
  },
  {
   "property": "C31",
   "status": "proved",
   "theorems": [
    "Verif.Updater.C31_scan_brings_up_to_date"
   ],
   "note": "Directory level: every directory content, every manifest directory, any enumeration order; names compared as byte strings."
  },
  {
   "property": "C32",
   "status": "proved",
   "theorems": [
    "Verif.Manifest.C32_written_manifests_complete",
    "Verif.Manifest.C32_flushed_manifest_complete"
   ],
   "note": "Every history of edits, flushes and loads; every prefix of the store operations is a crash point."
  },
  {
   "property": "C33",
   "status": "proved",
   "theorems": [
    "Verif.Updater.C33_nothing_lost",
    "Verif.Updater.C33_order_kept",
    "Verif.Updater.C33_prioritised_gets_deadline"
   ],
   "note": ""
  },
  {
   "property": "C34",
   "status": "proved",
   "theorems": [
    "Verif.Sync.C34_files_classified",
    "Verif.Sync.C34_dirs_classified",
    "Verif.Sync.C34_options"
   ],
   "note": "Every client and server list, any order of elements with equal paths after std::sort."
  },
  {
   "property": "C35",
   "status": "proved",
   "theorems": [
    "Verif.Sync.C35_destination_wins",
    "Verif.Sync.C35_destination_wins_dirs"
   ],
   "note": "Any listing of both directories."
  },
  {
   "property": "C36",
   "status": "proved",
   "theorems": [
    "Verif.Sync.C36_client_told",
    "Verif.Sync.C36_order"
   ],
   "note": "Any listing and size limit."
  },
  {
   "property": "C37",
   "status": "proved",
   "theorems": [
    "Verif.Sync.C37_file_list",
    "Verif.Sync.C37_indices"
   ],
   "note": "Any list of found entries, any batch size."
  },
  {
   "property": "C38",
   "status": "proved",
   "theorems": [
    "Verif.Sync.C38_never_mistaken",
    "Verif.Sync.C38_later_sync_repairs"
   ],
   "note": "Every crash point and interleaving of all transfers in small steps, destination without links."
  },
  {
   "property": "C39",
   "status": "proved",
   "theorems": [
    "Verif.Protocol.C39_no_wrong_message",
    "Verif.Protocol.C39_bounded"
   ],
   "note": "Every option combination, comparison outcome, message count, CanReceive timing and interleaving of the three threads, with back-pressure."
  },
  {
   "property": "C40",
   "status": "proved",
   "theorems": [
    "Verif.Text.Demux.C40_demux",
    "Verif.Text.Demux.C40_split_independent",
    "Verif.Text.Demux.C40_roundtrip",
    "Verif.Text.Demux.C40_example",
    "Verif.Text.Demux.C40_nul_matters"
   ],
   "note": "Every NUL-free stream and every split; C40_nul_matters shows why NUL bytes are excluded (the handler treats a read as a C string). What atoi does with the port field is a parameter."
  },
  {
   "property": "C41",
   "status": "partial",
   "theorems": [
    "Verif.Text.Filter.C41_first_match_partial",
    "Verif.Text.Filter.C41_simple_rules",
    "Verif.Text.Filter.C41_example"
   ],
   "note": "Every rule list and non-empty path for which the matcher does not leave the path (C42); always answers for simple patterns."
  },
  {
   "property": "C42",
   "status": "partial",
   "theorems": [
    "Verif.Text.Filter.C42_wildcards_partial",
    "Verif.Text.Filter.C42_simple_patterns",
    "Verif.Text.Filter.C42_example",
    "Verif.Text.Filter.C42_out_of_bounds_violated",
    "Verif.Text.Filter.C42_every_long_prefix_violated",
    "Verif.Text.Filter.C42_empty_path_violated"
   ],
   "note": "False of the code: the remaining length is not reduced when characters are consumed, so for patterns with two or more fixed characters before an inner star the matcher reads behind the end of every non-matching path (C42_every_long_prefix_violated; even the unit test does). Matching paths are always recognised, answers are always right; the empty path is wrong for ** (C42_empty_path_violated)."
  },
  {
   "property": "C43",
   "status": "proved",
   "theorems": [
    "Verif.Threads.Pool.C43_at_most_once",
    "Verif.Threads.Pool.C43_wait",
    "Verif.Threads.Pool.C43_wait_at_most",
    "Verif.Threads.Pool.C43_fetch_order",
    "Verif.Threads.Pool.C43_single_fifo",
    "Verif.Threads.Pool.C43_wait_returns",
    "Verif.Threads.Pool.C43_shutdown",
    "Verif.Threads.Pool.C43_shutdown_strands_waiters"
   ],
   "note": "Every number of threads, schedule and client. Tasks are taken to return. After shutdown with tasks still queued a waiter is never released (C43_shutdown_strands_waiters), so progress is stated for pools not shut down."
  },
  {
   "property": "C44",
   "status": "proved",
   "theorems": [
    "Verif.Threads.Opener.C44_order",
    "Verif.Threads.Opener.C44_call_returns",
    "Verif.Threads.Opener.C44_open_files_bounded"
   ],
   "note": "Every completion order, number of files and threads; at most 257 files are in flight."
  },
  {
   "property": "C45",
   "status": "proved",
   "theorems": [
    "Verif.Text.Quote.C45_windows_roundtrip",
    "Verif.Text.Quote.C45_example"
   ],
   "note": "Every byte string."
  },
  {
   "property": "C46",
   "status": "proved",
   "theorems": [
    "Verif.Text.Path.C46_split_path",
    "Verif.Text.Path.C46_split_keeps_root",
    "Verif.Text.Path.C46_join_components",
    "Verif.Text.Path.C46_basename_of_join",
    "Verif.Text.Path.C46_dirname_of_join",
    "Verif.Text.Path.C46_split_path_windows",
    "Verif.Text.Path.C46_normalise"
   ],
   "note": "Byte strings, Linux and Windows separators; the exact split is given without relying on the helpers of the model."
  },
  {
   "property": "C47",
   "status": "partial",
   "theorems": [
    "Verif.Text.Flags.C47_size_partial",
    "Verif.Text.Flags.C47_size_exactly",
    "Verif.Text.Flags.C47_size_overflow_violated",
    "Verif.Text.Flags.C47_hex_violated"
   ],
   "note": "False of the code: sizes over 2^64 wrap around, a hexadecimal size ending in b is cut. Proved for all other texts."
  },
  {
   "property": "C48",
   "status": "proved",
   "theorems": [
    "Verif.Threads.Semaphore.C48_permits",
    "Verif.Threads.Semaphore.C48_no_lost_wakeup",
    "Verif.Threads.Semaphore.C48_blocked_only_without_permit",
    "Verif.Threads.Semaphore.C48_settles"
   ],
   "note": "Every schedule with spurious wakeups and barging. count_ as an unbounded integer."
  },
  {
   "property": "C49",
   "status": "proved",
   "theorems": [
    "Verif.Threads.Zstd.C49_read_back",
    "Verif.Threads.Zstd.C49_end_to_end",
    "Verif.Threads.Zstd.C49_in_order",
    "Verif.Threads.Zstd.C49_finish",
    "Verif.Threads.Zstd.C49_finish_all",
    "Verif.Threads.Zstd.C49_finish_returns",
    "Verif.Threads.Zstd.C49_write_returns"
   ],
   "note": "Every schedule, buffer size, write size and compressor behaviour allowed by the zstd documentation (structures Codec and Decoder, not proved about zstd itself), including the receiving side: end to end."
  },
  {
   "property": "C50",
   "status": "proved",
   "theorems": [
    "Verif.Sessions.C50_shutdown_iff",
    "Verif.Sessions.C50_at_most_one",
    "Verif.Sessions.C50_start",
    "Verif.Sessions.C50_stop",
    "Verif.Sessions.C50_shutdown",
    "Verif.Sessions.C50_filter"
   ],
   "note": "Every history of start/stop/exit requests with arbitrary failures and hash map orders. The filter is the wildcard matcher of C42, so mount directories containing * or ? stop more sessions."
  },
  {
   "property": "C51",
   "status": "proved",
   "theorems": [
    "Verif.FuseFs.C51_no_use_after_free",
    "Verif.FuseFs.C51_needed_exist"
   ],
   "note": "All histories."
  },
  {
   "property": "C52",
   "status": "proved",
   "theorems": [
    "Verif.Text.CachePath.C52_cache_path",
    "Verif.Text.CachePath.C52_no_split_characters",
    "Verif.Text.CachePath.C52_example"
   ],
   "note": "Every directory, base directory and limit; GetFullPath is not modelled. The assertion at multi_session.cc:637 holds (the hash is never cut)."
  },
  {
   "property": "C53",
   "status": "proved",
   "theorems": [
    "Verif.Delta.C53_only_missing_chunks_sent"
   ],
   "note": ""
  },
  {
   "property": "C54",
   "status": "partial",
   "theorems": [
    "Verif.Manifest.Reflush.C54_flush_always_works_violated",
    "Verif.Manifest.Reflush.C54_first_split_works_partial"
   ],
   "note": "False of the code: a file already cut to its share of the limit is over it again by its list references (C54_flush_always_works_violated). Holds when no file of the directory has indirect lists."
  },
  {
   "property": "C55",
   "status": "partial",
   "theorems": [
    "Verif.Updater.C55_missing_entries_repaired_partial",
    "Verif.Updater.ScanExample.C55_missing_chunks_repaired_violated"
   ],
   "note": "Missing entries of directories are repaired; a lost indirect chunk list of an otherwise unchanged file is not noticed (C55_missing_chunks_repaired_violated)."
  },
  {
   "property": "C56",
   "status": "partial",
   "theorems": [
    "Verif.Updater.Loop.C56_never_stuck_partial",
    "Verif.Updater.Loop.C56_update_loop_bounded",
    "Verif.Updater.Loop.C56_deadline_race_violated",
    "Verif.Updater.Loop.C56_skipped_directory_violated"
   ],
   "note": "Bounded number of iterations for all runs. The loop can wait for ever for a task that was never queued: a deadline that passes between two checks, or a directory that is not found (C56_*_violated)."
  },
  {
   "property": "C57",
   "status": "partial",
   "theorems": [
    "Verif.Sync.C57_temp_name_violated",
    "Verif.Sync.C57_sync_result"
   ],
   "note": "All options, trees and finalisation orders, destination without symbolic links. False of the code for a client file that has the name of the temporary file of another client file (C57_temp_name_violated); the theorem excludes such names."
  },
  {
   "property": "C58",
   "status": "partial",
   "theorems": [
    "Verif.Sync.C58_confined_partial",
    "Verif.Sync.C58_symlink_violated"
   ],
   "note": "False of the code with symbolic links in the destination: they are followed when a client file of the same name is written (C58_symlink_violated). Proved without links."
  },
  {
   "property": "C59",
   "status": "partial",
   "theorems": [
    "Verif.Sync.C59_lost_data_violated",
    "Verif.Sync.C59_success_means_written_partial"
   ],
   "note": "False of the code: the result of fclose is ignored, so buffered data can be lost without an error (C59_lost_data_violated). Holds if closing loses nothing."
  },
  {
   "property": "C60",
   "status": "partial",
   "theorems": [
    "Verif.Text.CachePath.C60_distinct_partial",
    "Verif.Text.CachePath.C60_example",
    "Verif.Text.CachePath.C60_backslash_violated",
    "Verif.Text.CachePath.C60_backslashes_violated"
   ],
   "note": "False of the code on Linux for every path with a backslash (C60_backslashes_violated); proved for all other paths."
  },
  {
   "property": "C61",
   "status": "partial",
   "theorems": [
    "Verif.Sessions.C61_start_succeeds_partial",
    "Verif.Sessions.C61_failed_directory_violated"
   ],
   "note": "False of the code: the status of a failed runner is kept for ever and its MultiSession can never be removed. Proved when the directories involved have not failed and everything works."
  },
  {
   "property": "C62",
   "status": "partial",
   "theorems": [
    "Verif.Fuse.C62_crash_iff",
    "Verif.Fuse.C62_ok_iff",
    "Verif.Fuse.C62_survives_partial",
    "Verif.Fuse.C62_broken_violated",
    "Verif.Fuse.C62_outdated_violated",
    "Verif.Fuse.C62_service_violated"
   ],
   "note": "False of the code: exact conditions for a null pointer crash (C62_crash_iff). Assertions are taken to be compiled out; with them the crash is an abort."
  },
  {
   "property": "C63",
   "status": "partial",
   "theorems": [
    "Verif.Sessions.C63_first_exit_partial",
    "Verif.Sessions.C63_exit_violated",
    "Verif.Sessions.C63_crash_after_exit_violated"
   ],
   "note": "False of the code: Exit runs its callback only once, and after a failed exit the already shut down directories crash the service when streamed again. The first exit works if all sessions can be stopped and no directory has failed."
  },
  {
   "property": "C64",
   "status": "proved",
   "theorems": [
    "Verif.Fuse.C64_port",
    "Verif.Fuse.C64_outdated"
   ],
   "note": "Every split, port and surrounding text without earlier markers. atoi without leading blanks or sign."
  },
  {
   "property": "C65",
   "status": "partial",
   "theorems": [
    "Verif.FuseFs.C65_use_after_free_violated",
    "Verif.FuseFs.C65_safe_partial",
    "Verif.FuseFs.C65_result_partial",
    "Verif.FuseFs.C65_fetch_failure_violated"
   ],
   "note": "False of the code: if a loaded node is in an indirect list of a directory other than the root, every complete run of the update accesses a freed proto (C65_use_after_free_violated), and a fetch failure invalidates nodes. Safety and the exact result are proved otherwise, for all schedules."
  },
  {
   "property": "C66",
   "status": "partial",
   "theorems": [
    "Verif.FuseFs.Queue.C66_wrong_name_violated",
    "Verif.FuseFs.Queue.C66_right_partial"
   ],
   "note": "False of the code: the queue keeps a pointer to the name in the buffer of the worker thread. Proved for histories in which such a thread receives nothing meanwhile."
  },
  {
   "property": "C67",
   "status": "proved",
   "theorems": [
    "Verif.FuseFs.Queue.C67_answered",
    "Verif.FuseFs.Queue.C67_once",
    "Verif.FuseFs.Queue.C67_update_ends"
   ],
   "note": "All interleavings of arrivals with the phases of SetManifest."
  },
  {
   "property": "C68",
   "status": "partial",
   "theorems": [
    "Verif.FuseFs.Cache.C68_stale_violated",
    "Verif.FuseFs.Cache.C68_mixture_violated",
    "Verif.FuseFs.Cache.C68_fresh_partial",
    "Verif.FuseFs.Cache.C68_one_version_partial",
    "Verif.FuseFs.Cache.C68_reopen_needed"
   ],
   "note": "False of the code: a second manifest after a change resets the mark that makes the kernel drop its pages (stale content for ever), and opening a file clears the mark for all who have it open (mixture of versions). Proved if a changed file is opened before the next manifest arrives. Pages of one file of constant size; the kernel as in fs/fuse/file.c without automatic invalidation."
  },
  {
   "property": "C69",
   "status": "proved",
   "theorems": [
    "Verif.FuseFs.Listing.C69_listing",
    "Verif.FuseFs.Listing.C69_resume"
   ],
   "note": "Byte-exact model of the buffer and of the kernel parser."
  },
  {
   "property": "C70",
   "status": "partial",
   "theorems": [
    "Verif.FuseFs.Access.C70_not_denied_partial",
    "Verif.FuseFs.Access.C70_exact_partial",
    "Verif.FuseFs.Access.C70_owner_violated",
    "Verif.FuseFs.Access.C70_root_group_violated",
    "Verif.FuseFs.Access.C70_context_violated"
   ],
   "note": "False of the code: classes of rights are united, the group of root is allowed everything, and the caller is taken from fuse_get_context(), which is not set in a low-level session. Equal to POSIX for usual modes given the right context."
  },
  {
   "property": "C71",
   "status": "proved",
   "theorems": [
    "Verif.Manifest.C71_operations_work",
    "Verif.Manifest.C71_reads_back_as_built",
    "Verif.Manifest.C71_flush_works"
   ],
   "note": "Refinement of the builder's operations to a map from paths to assets for trees without indirect lists, and preservation of the read-back view by Flush (which creates the lists). Covers the first flush of a manifest; for later flushes see C30."
  },
  {
   "property": "C72",
   "status": "partial",
   "theorems": [
    "Verif.Watch.C72_collected_changes_complete_iff_partial",
    "Verif.Watch.C72_collected_changes_complete_violated"
   ],
   "note": "False of the code for a file that existed, is deleted, written and deleted again: the entry is erased (C72_collected_changes_complete_violated). C72_collected_changes_complete_iff_partial says exactly when it fails."
  },
  {
   "property": "C73",
   "status": "proved",
   "theorems": [
    "Verif.Watch.C73_no_lost_wakeup"
   ],
   "note": "All interleavings of directory, watcher thread and runner thread, including failures."
  },
  {
   "property": "C74",
   "status": "partial",
   "theorems": [
    "Verif.Watch.C74_file_deleted_twice_violated",
    "Verif.Watch.C74_temporary_file_scanned_violated",
    "Verif.Watch.C74_directory_moved_violated",
    "Verif.Watch.C74_change_before_watching_violated",
    "Verif.Watch.C74_unreadable_file_violated",
    "Verif.Watch.C74_failed_update_violated",
    "Verif.Watch.C74_catches_up_partial"
   ],
   "note": "False of the code for five independent reasons, each with a run (C74_*_violated): entries erased for known files (two scenarios), directories moved with contents, changes between the callback and the first ReadDirectoryChanges call, unreadable files, failed updates. Proved for every run without these five kinds of steps (C74_catches_up_partial), including lost notifications, re-created directories and scans that run concurrently with changes."
  },
  {
   "property": "C75",
   "status": "proved",
   "theorems": [
    "Verif.Config.C75_in_order",
    "Verif.Config.C75_told",
    "Verif.Config.C75_progress",
    "Verif.Config.C75_bounded"
   ],
   "note": "All interleavings with any number of clients. gRPC delivers written messages in order (assumed)."
  },
  {
   "property": "C76",
   "status": "partial",
   "theorems": [
    "Verif.Config.C76_acked_partial",
    "Verif.Config.C76_acked_one_partial",
    "Verif.Config.C76_restart_violated",
    "Verif.Config.C76_complete_partial"
   ],
   "note": "False of the code when a client is restarted on an instance: the old acknowledgement counts (C76_restart_violated). Proved with one client per instance, in both directions."
  },
  {
   "property": "C77",
   "status": "partial",
   "theorems": [
    "Verif.Config.C77_settled_partial",
    "Verif.Config.C77_load_violated",
    "Verif.Config.C77_write_violated"
   ],
   "note": "False of the code after a failed load or a failed write: neither is repeated (C77_*_violated). Proved if these do not fail."
  },
  {
   "property": "C78",
   "status": "partial",
   "theorems": [
    "Verif.Content.C78_content_right_partial",
    "Verif.Content.C78_shorter_file_violated",
    "Verif.Content.C78_edited_file_violated"
   ],
   "note": "False of the code for files that changed after chunking: short reads are padded with zeros and answered as success. Proved for unchanged files."
  },
  {
   "property": "C79",
   "status": "partial",
   "theorems": [
    "Verif.ChunkIndex.C79_index_partial",
    "Verif.ChunkIndex.C79_nested_delete_violated",
    "Verif.ChunkIndex.C79_dir_delete_violated",
    "Verif.ChunkIndex.C79_replaced_violated"
   ],
   "note": "False of the code for deletions below the top level (backslashes), of directories, and for files replaced by directories (C79_*_violated). Proved for the remaining changes."
  },
  {
   "property": "C80",
   "status": "partial",
   "theorems": [
    "Verif.Manifest.C80_setters_set",
    "Verif.Manifest.C80_every_saved_manifest_reads_back_partial",
    "Verif.Manifest.C80_operations_work_any_time_partial"
   ],
   "note": "Every history of edits, deletions, flushes and loads with one store, with directories moved to asset lists and lists split again. Proved for histories in which, at each flush, no list in the store could be a list of two directories (Unshared: so it is if no two directories have an identical entry, and if no directory is split); without that it is false of the code (C30_changes_stay_local_violated). Success of Flush itself is a premise of each flush step (see C54). AppendChunk is excluded: on a file with chunk lists it appends in the wrong place."
  },
  {
   "property": "C81",
   "status": "partial",
   "theorems": [
    "Verif.Updater.C81_equal_directories_violated",
    "Verif.Updater.C81_manifest_mirrors_source_partial",
    "Verif.Updater.C81_pushed_manifests_partial",
    "Verif.Updater.C81_updates_can_finish_partial",
    "Verif.Updater.C81_permissions"
   ],
   "note": "UpdateAll with the builder, the store, the scanner and the chunking tasks in one model; the tree the manifest must have is defined from the source directory alone (want). Proved when the source does not change during an update, all tasks succeed, a changed file differs in time or size, and no asset list in the store could be a list of two directories, which is so if no two directories have an entry with the same name, kind, time and size, or if no directory is large enough to be split (twins_example: twins and a split directory); otherwise in-memory lists may be shared, see C30. Without the condition on asset lists it is false of the code (C81_equal_directories_violated: two equal directories that are split, a change to a file in one shows up in the other)."
  },
  {
   "property": "C82",
   "status": "partial",
   "theorems": [
    "Verif.Updater.C82_attributes_partial",
    "Verif.Updater.C82_contents_partial",
    "Verif.Updater.C82_lookup_partial",
    "Verif.Updater.C82_listing_partial",
    "Verif.Updater.C82_everything_is_there_partial",
    "Verif.Updater.C82_equal_directories_violated"
   ],
   "note": "End to end: composes C01, C81, C25 and C26 on one store. Partial for the reasons of C81 (no changes during an update, all tasks succeed, no asset list that could be one of two directories); the completeness of lookups needs that no other thread uses the same directory at the same time (C86_lookup_race_violated). Without the condition on asset lists it is false of the code (C82_equal_directories_violated: two equal directories that are split, a change to a file in one shows up in the other)."
  },
  {
   "property": "C83",
   "status": "partial",
   "theorems": [
    "Verif.Store.C83_recognised_names_partial",
    "Verif.Store.C83_stray_file_mistaken_violated"
   ],
   "note": "False of the code: separators are ignored at any position, so a stray file is taken for a chunk and pruning then deletes a chunk that was to be kept (C83_stray_file_mistaken_violated). The exact set of recognised names is proved."
  },
  {
   "property": "C84",
   "status": "partial",
   "theorems": [
    "Verif.Store.C84_failed_write_violated",
    "Verif.Store.C84_enforced_again_partial"
   ],
   "note": "False of the code (C84_failed_write_violated): the bytes are on disk but not counted. Without such a failure: C18."
  },
  {
   "property": "C85",
   "status": "partial",
   "theorems": [
    "Verif.Provider.C85_whole_chunk_read_partial",
    "Verif.Provider.C85_whole_chunk_read_violated",
    "Verif.Provider.C85_every_torn_file_violated"
   ],
   "note": "False of the code after a torn cache write (C85_whole_chunk_read_violated): the short file is returned as success. Proved: always a prefix, and the right chunk if no write was torn."
  },
  {
   "property": "C86",
   "status": "partial",
   "theorems": [
    "Verif.Asset.C86_lookup_race_violated",
    "Verif.Asset.C86_loaded_partial"
   ],
   "note": "False of the code (C86_lookup_race_violated): a lookup can report an existing name as missing if another thread loads the last indirect list in between. Proved otherwise: C26."
  },
  {
   "property": "C87",
   "status": "partial",
   "theorems": [
    "Verif.Updater.Prune.C87_prune_keeps_manifest_partial",
    "Verif.Updater.Prune.Example.C87_prune_after_failed_scan_violated",
    "Verif.Updater.Prune.Example.C87_prune_after_skipped_directory_violated"
   ],
   "note": "False of the code after a failed or skipped directory scan: only the status of the last task counts. Proved if every directory is found and every scan can be applied."
  },
  {
   "property": "C88",
   "status": "partial",
   "theorems": [
    "Verif.Sync.C88_existing_partial",
    "Verif.Sync.C88_existing_creates_files_violated"
   ],
   "note": "False of the code with --copy-dest: a file found only in the copy-dest directory is still created (C88_existing_creates_files_violated). Proved without."
  },
  {
   "property": "C89",
   "status": "partial",
   "theorems": [
    "Verif.Sync.C89_all_deleted_partial",
    "Verif.Sync.C89_excluded_file_violated"
   ],
   "note": "False of the code when an extraneous directory contains an excluded file: its deletion fails and with it the sync (C89_excluded_file_violated). Proved if everything below an extraneous directory is extraneous."
  },
  {
   "property": "C90",
   "status": "partial",
   "theorems": [
    "Verif.Sync.C90_patched_violated",
    "Verif.Sync.C90_patched_partial"
   ],
   "note": "False of the code if closing the patched file fails: the error is ignored and the truncated file replaces the old one (C90_patched_violated). Proved otherwise for every crash point."
  },
  {
   "property": "C91",
   "status": "partial",
   "theorems": [
    "Verif.Protocol.C91_finishes_bytes_partial",
    "Verif.Protocol.C91_deadlock_violated",
    "Verif.Protocol.C91_finishes_partial",
    "Verif.Protocol.C91_finishes_iff"
   ],
   "note": "False of the code: for very large files both sides block for ever (C91_deadlock_violated). The exact condition under which sessions finish is proved (C91_finishes_iff), also in bytes. Each direction is one bounded FIFO."
  },
  {
   "property": "C92",
   "status": "partial",
   "theorems": [
    "Verif.Threads.Opener.C92_failed_open_aborts_violated",
    "Verif.Threads.Opener.C92_aborts_only_then"
   ],
   "note": "False of the code in every schedule: the process aborts instead of returning null (C92_failed_open_aborts_violated). C92_aborts_only_then: it aborts at the first file that cannot be opened and nowhere else; all calls before return their files."
  },
  {
   "property": "C93",
   "status": "partial",
   "theorems": [
    "Verif.Text.Quote.C93_ssh_roundtrip_partial",
    "Verif.Text.Quote.C93_ssh_literal_partial",
    "Verif.Text.Quote.C93_ssh_exactly",
    "Verif.Text.Quote.C93_expansion_violated"
   ],
   "note": "False of the code for arguments with $ or backtick, which are not escaped. C93_ssh_exactly: the argument arrives as meant if and only if there is neither."
  },
  {
   "property": "C94",
   "status": "partial",
   "theorems": [
    "Verif.Text.Flags.C94_port_range_partial",
    "Verif.Text.Flags.C94_port_example",
    "Verif.Text.Flags.C94_port_violated",
    "Verif.Text.Flags.C94_always_valid",
    "Verif.Text.Flags.C94_more_dashes",
    "Verif.Text.Flags.C94_garbage_violated"
   ],
   "note": "Every accepted range is valid (C94_always_valid), numbers are read rightly (C94_port_range_partial). False of the code: what follows a number is ignored, for every number (C94_garbage_violated), and numbers over 2^32 are accepted (C94_port_violated)."
  },
  {
   "property": "C95",
   "status": "proved",
   "theorems": [
    "Verif.Text.Flags.C95_ansi",
    "Verif.Text.Flags.C95_plain_text",
    "Verif.Text.Flags.C95_sublist",
    "Verif.Text.Flags.C95_ansi_example"
   ],
   "note": "Every input made of text and complete sequences; sublist for every input."
  },
  {
   "property": "C96",
   "status": "partial",
   "theorems": [
    "Verif.Text.Flags.C96_exactly",
    "Verif.Text.Flags.C96_utf8_violated"
   ],
   "note": "False of the code: characters with bytes 0x90, 0x9B or 0x9D are taken for introducers (C96_utf8_violated). C96_exactly: the exact condition under which a text is left unchanged. Text and sequences mixed: C95."
  },
  {
   "property": "C97",
   "status": "partial",
   "theorems": [
    "Verif.Threads.Zstd.C97_startup_error_lost_violated",
    "Verif.Threads.Zstd.C97_dead_thread_reported_partial"
   ],
   "note": "False of the code in one case: an error of the thread before the constructor assigns status_ is lost and Finish hangs (C97_startup_error_lost_violated). Later errors are reported."
  },
  {
   "property": "C98",
   "status": "partial",
   "theorems": [
    "Verif.FuseFs.C98_exists_iff_partial",
    "Verif.FuseFs.C98_exists_update_partial",
    "Verif.FuseFs.C98_listing_violated",
    "Verif.FuseFs.C98_removed_violated"
   ],
   "note": "False of the code: each directory listing counts a reference the kernel does not know, and a removed directory that was forgotten before its last child stays in invalid_inodes for ever. The exact statement is proved for histories of lookups and forgets, and with updates for everything but such leftovers."
  },
  {
   "property": "C99",
   "status": "proved",
   "theorems": [
    "Verif.Fuse.C99_processes"
   ],
   "note": "Every combination of failures of the steps."
  },
  {
   "property": "C100",
   "status": "proved",
   "theorems": [
    "Verif.Sessions.C100_exit_clean",
    "Verif.Sessions.C100_no_crash_before_exit"
   ],
   "note": "Every history of calls, failures and hash map orders."
  },
  {
   "property": "C101",
   "status": "partial",
   "theorems": [
    "Verif.FuseFs.Listing.C101_changed_violated",
    "Verif.FuseFs.Listing.C101_error_violated",
    "Verif.FuseFs.Listing.C101_growing_partial"
   ],
   "note": "False of the code: entries are lost and repeated, or the listing fails with EIO. Without changes: C69."
  },
  {
   "property": "C102",
   "status": "proved",
   "theorems": [
    "Verif.Watch.C102_temporary_files_leave_no_trace",
    "Verif.Watch.C102_untouched_paths_have_no_entry"
   ],
   "note": "All sequences of changes and notifications."
  },
  {
   "property": "C103",
   "status": "proved",
   "theorems": [
    "Verif.Content.C103_content_available",
    "Verif.Content.C103_content_missing"
   ],
   "note": "All index contents, requests and readers."
  },
  {
   "property": "C104",
   "status": "proved",
   "theorems": [
    "Verif.FuseFs.Queue.C104_others"
   ],
   "note": "All histories."
  },
  {
   "property": "C105",
   "status": "proved",
   "theorems": [
    "Verif.Text.Params.C105_command_line",
    "Verif.Text.Params.C105_remote_destination",
    "Verif.Text.Params.C105_local_destination",
    "Verif.Text.Params.C105_example"
   ],
   "note": "All command lines of the grammar, all file systems and environments; warnings are not modelled."
  },
  {
   "property": "C106",
   "status": "partial",
   "theorems": [
    "Verif.Text.Params.C106_documented_partial",
    "Verif.Text.Params.C106_example",
    "Verif.Text.Params.C106_verbose_violated"
   ],
   "note": "False of the code: --verbose is documented, but only --verbosity and -v are known. All other options of the help text are proved to work."
  },
  {
   "property": "C107",
   "status": "partial",
   "theorems": [
    "Verif.Text.Params.C107_nothing_ignored_partial",
    "Verif.Text.Params.C107_flag_value_violated",
    "Verif.Text.Params.C107_delete_false_violated",
    "Verif.Text.Params.C107_number_violated",
    "Verif.Text.Params.C107_empty_violated",
    "Verif.Text.Params.C107_example"
   ],
   "note": "False of the code: a value given to a flag is ignored (--delete=false deletes), numbers are read with atoi, empty arguments and lone dashes are dropped. Proved for command lines without these."
  },
  {
   "property": "C108",
   "status": "partial",
   "theorems": [
    "Verif.Sync.Client.C108_with_connection_partial",
    "Verif.Sync.Client.C108_never_succeeds_violated"
   ],
   "note": "False of the code at this commit: the socket the client sends to is never connected (Connect is only called on a temporary socket in WaitForConnection), so no run exits with code 0. With that connection assumed the equivalence is proved."
  },
  {
   "property": "C109",
   "status": "proved",
   "theorems": [
    "Verif.Sync.Client.C109_deployment",
    "Verif.Sync.Client.C109_first_server",
    "Verif.Sync.Client.C109_deploys_if_needed"
   ],
   "note": "All environments."
  },
  {
   "property": "C110",
   "status": "proved",
   "theorems": [
    "Verif.Sync.Client.C110_exit_codes"
   ],
   "note": "All environments."
  },
  {
   "property": "C111",
   "status": "partial",
   "theorems": [
    "Verif.Sync.Client.C111_port_partial",
    "Verif.Sync.Client.C111_stale_port_violated"
   ],
   "note": "False of the code if an earlier server of the same run announced a port before it exited: the port is not reset. Proved if earlier servers announced nothing."
  },
  {
   "property": "C112",
   "status": "partial",
   "theorems": [
    "Verif.Text.Components.C112_roundtrip_partial",
    "Verif.Text.Components.C112_exactly",
    "Verif.Text.Components.C112_time_violated",
    "Verif.Text.Components.C112_example"
   ],
   "note": "False where long has 32 bits (Windows server) for files modified after January 2038: std::stol throws. C112_exactly: components arrive if and only if all sizes and times are in the range of long, otherwise none arrives."
  },
  {
   "property": "C113",
   "status": "partial",
   "theorems": [
    "Verif.Text.Components.C113_check_partial",
    "Verif.Text.Components.C113_exactly",
    "Verif.Text.Components.C113_dev_server_violated"
   ],
   "note": "False of the code: operator== looks at its own build version twice. C113_exactly: accepted if and only if fresh and there is no local server that is compared with a released client; nothing that is not fresh is accepted."
  },
  {
   "property": "C114",
   "status": "proved",
   "theorems": [
    "Verif.Text.Components.C114_released",
    "Verif.Text.Components.C114_deployed",
    "Verif.Text.Components.C114_example"
   ],
   "note": "All histories; two binaries with the same release version are assumed to be the same."
  },
  {
   "property": "C115",
   "status": "partial",
   "theorems": [
    "Verif.Text.Components.C115_local_partial",
    "Verif.Text.Components.C115_replaced_violated"
   ],
   "note": "False if the file is replaced between the start of the process and its check. Proved otherwise."
  },
  {
   "property": "C116",
   "status": "partial",
   "theorems": [
    "Verif.Text.Components.C116_local_partial",
    "Verif.Text.Components.C116_library_violated",
    "Verif.Text.Components.C116_example"
   ],
   "note": "False for releases: the version compared for libfuse.so is that of the running program, and files are written in place. Proved for local builds."
  },
  {
   "property": "C117",
   "status": "proved",
   "theorems": [
    "Verif.Pump.Sockets.C117_server_to_client",
    "Verif.Pump.Sockets.C117_example"
   ],
   "note": "All scripts of kernel answers; a script that ends is a call that blocks."
  },
  {
   "property": "C118",
   "status": "partial",
   "theorems": [
    "Verif.Pump.Sockets.C118_client_to_server_partial",
    "Verif.Pump.Sockets.C118_short_send_violated",
    "Verif.Pump.Sockets.C118_exactly",
    "Verif.Pump.Sockets.C118_whole_iff",
    "Verif.Pump.Sockets.C118_example"
   ],
   "note": "False of the code: the client makes one call of send and ignores how many bytes it accepted. Proved if whole buffers are accepted. C118_exactly: what can be on the way to the server if all calls succeed; C118_whole_iff: it is right if and only if no buffer was cut."
  },
  {
   "property": "C119",
   "status": "partial",
   "theorems": [
    "Verif.Commands.C119_start",
    "Verif.Commands.C119_stop_partial",
    "Verif.Commands.C119_start_stop",
    "Verif.Commands.C119_stop_pattern",
    "Verif.Commands.C119_stop_all",
    "Verif.Commands.C119_example",
    "Verif.Commands.C119_wildcard_violated",
    "Verif.Commands.C119_stop_all_gamelet_violated"
   ],
   "note": "False of the code for directories with * or ? in their names (stop takes them for patterns) and for * if sessions were started by resource name. Proved for all histories of commands otherwise; patterns are those the matcher decides (C42)."
  },
  {
   "property": "C120",
   "status": "partial",
   "theorems": [
    "Verif.Commands.C120_one_source_partial",
    "Verif.Commands.C120_spelling_violated",
    "Verif.Commands.C120_every_spelling_violated"
   ],
   "note": "False of the code for every place and every two different ways to write it (C120_every_spelling_violated; trailing slash, user name left out). Proved for the same spelling."
  },
  {
   "property": "C121",
   "status": "proved",
   "theorems": [
    "Verif.Commands.C121_names",
    "Verif.Commands.C121_target",
    "Verif.Commands.C121_example"
   ],
   "note": "All names and outputs; an empty host is accepted."
  },
  {
   "property": "C122",
   "status": "partial",
   "theorems": [
    "Verif.Updater.C122_recovers_partial",
    "Verif.Updater.C122_can_recover_partial",
    "Verif.Updater.C122_example",
    "Verif.Updater.C122_empty_file_violated",
    "Verif.Updater.C122_equal_directories_violated"
   ],
   "note": "False of the code for empty files that once could not be read: they stay executable. Proved otherwise for all histories, if no asset list in the store could be a list of two directories, which is so if no two directories have an entry with the same name, kind, time and size, or if no directory is large enough to be split (twins_example: twins and a split directory), and if a file seen with its present time had its present content from then on; the store is not pruned (C87). Without the condition on asset lists it is false of the code (C122_equal_directories_violated: two equal directories that are split, a change to a file in one shows up in the other)."
  },
  {
   "property": "C123",
   "status": "partial",
   "theorems": [
    "Verif.Updater.C123_nothing_invented_partial",
    "Verif.Updater.C123_equal_directories_violated"
   ],
   "note": "All histories and schedules, pushes at any moment, if no asset list in the store could be a list of two directories, which is so if no two directories have an entry with the same name, kind, time and size, or if no directory is large enough to be split (twins_example: twins and a split directory) (C30); the store is not pruned (C87). Without the condition on asset lists it is false of the code (C123_equal_directories_violated: two equal directories that are split, a change to a file in one shows up in the other)."
  },
  {
   "property": "C124",
   "status": "partial",
   "theorems": [
    "Verif.Updater.C124_untouched_right_partial",
    "Verif.Updater.C124_example",
    "Verif.Updater.C124_equal_directories_violated"
   ],
   "note": "As C123; a file that once had its present time and size has its present content (see C122). Without the condition on asset lists it is false of the code (C124_equal_directories_violated: two equal directories that are split, a change to a file in one shows up in the other)."
  },
  {
   "property": "C125",
   "status": "proved",
   "theorems": [
    "Verif.Progress.C125_total_never_goes_back",
    "Verif.Progress.C125_file_never_goes_back"
   ],
   "note": "All sequences of calls, times and settings. Floating point: any rounding that is monotone, exact on integers up to 2^53 and does not round the numbers just below 1 and 100 up to these. Counters are natural numbers (no overflow)."
  },
  {
   "property": "C126",
   "status": "partial",
   "theorems": [
    "Verif.Progress.C126_file_ends_at_100",
    "Verif.Progress.C126_ends_at_100_partial",
    "Verif.Progress.C126_empty_files_violated",
    "Verif.Progress.C126_dry_run_violated",
    "Verif.Progress.C126_example"
   ],
   "note": "False of the code if all transferred files are empty (0/0 is shown as 0%) and in a dry run with new files. Proved otherwise."
  },
  {
   "property": "C127",
   "status": "proved",
   "theorems": [
    "Verif.Progress.C127_100_percent_means_all"
   ],
   "note": "If less than 2^53 bytes were announced and no more than announced are reported."
  },
  {
   "property": "C128",
   "status": "proved",
   "theorems": [
    "Verif.Progress.C128_not_too_often",
    "Verif.Progress.C128_often_enough",
    "Verif.Progress.C128_quiet"
   ],
   "note": "All sequences of calls. The clock does not go back."
  },
  {
   "property": "C129",
   "status": "proved",
   "theorems": [
    "Verif.Progress.C129_sizes",
    "Verif.Progress.C129_width"
   ],
   "note": "Bytes, not characters (the code has a TODO about UTF-8). Speeds, times and the whole text are C214."
  },
  {
   "property": "C130",
   "status": "partial",
   "theorems": [
    "Verif.Ports.C130_exclusive_partial",
    "Verif.Ports.C130_one_by_one_partial",
    "Verif.Ports.C130_exhausted_violated",
    "Verif.Ports.C130_unavailable_violated",
    "Verif.Ports.C130_example"
   ],
   "note": "False of the code: if no port is marked as unused the one reserved the longest time ago is given away, and ports that were not available for a moment stay marked because the arguments of the second exchange are swapped. Proved for all interleavings if only ports marked as unused are returned, and for reservations one after the other if all ports are available and enough."
  },
  {
   "property": "C131",
   "status": "proved",
   "theorems": [
    "Verif.Ports.C131_available"
   ],
   "note": "All interleavings and crashes. Availability is what netstat showed (C133)."
  },
  {
   "property": "C132",
   "status": "proved",
   "theorems": [
    "Verif.Ports.C132_alone",
    "Verif.Ports.C132_ends"
   ],
   "note": "All states; the times are those in the shared memory."
  },
  {
   "property": "C133",
   "status": "partial",
   "theorems": [
    "Verif.Text.Netstat.C133_used_partial",
    "Verif.Text.Netstat.C133_exact_partial",
    "Verif.Text.Netstat.C133_windows_violated",
    "Verif.Text.Netstat.C133_linux_violated",
    "Verif.Text.Netstat.C133_short_violated",
    "Verif.Text.Netstat.C133_example"
   ],
   "note": "False of the code: only one address is looked for (127.0.0.1 on Windows, 0.0.0.0 on Linux), and a port number that is the beginning of another is mistaken for it. Proved exact for this address and ports of five digits."
  },
  {
   "property": "C134",
   "status": "partial",
   "theorems": [
    "Verif.DirIter.C134_complete_partial",
    "Verif.DirIter.C134_prefix_partial",
    "Verif.DirIter.C134_error_partial",
    "Verif.DirIter.C134_terminates",
    "Verif.DirIter.C134_socket_violated",
    "Verif.DirIter.C134_unknown_violated",
    "Verif.DirIter.C134_example"
   ],
   "note": "False of the code for sockets and block devices (the iteration ends with an error, because the type is tested with a bit mask) and for file systems that do not give the types of entries (nothing is found). Proved for trees of files, symlinks, FIFOs, character devices and directories. The tree does not change during the iteration."
  },
  {
   "property": "C135",
   "status": "partial",
   "theorems": [
    "Verif.DirIter.C135_isDir_partial",
    "Verif.DirIter.C135_symlink_violated"
   ],
   "note": "False of the code: the types are tested as bit masks, so every regular file is said to be a symlink and every symlink a regular file. Directories are told right."
  },
  {
   "property": "C136",
   "status": "partial",
   "theorems": [
    "Verif.Indexer.C136_statistics_partial",
    "Verif.Indexer.C136_threads_violated",
    "Verif.Indexer.C136_unknown_violated",
    "Verif.Indexer.C136_example"
   ],
   "note": "False of the code if the number of threads is not given and hardware_concurrency() is 0 (Run succeeds, nothing was read), and on file systems without entry types (C134). Proved otherwise, for hashes without collisions; the counters do not reach 2^64."
  },
  {
   "property": "C137",
   "status": "partial",
   "theorems": [
    "Verif.Indexer.C137_returns",
    "Verif.Indexer.C137_error_partial",
    "Verif.Indexer.C137_symlink_violated"
   ],
   "note": "Symlinks to directories and files without permission end the whole run, though directories without permission are skipped. Proved to be exact for trees as in C134."
  },
  {
   "property": "C138",
   "status": "proved",
   "theorems": [
    "Verif.Indexer.C138_bucket"
   ],
   "note": "All sizes up to 2^63."
  },
  {
   "property": "C139",
   "status": "proved",
   "theorems": [
    "Verif.Indexer.C139_table"
   ],
   "note": "All distributions with sizes up to 2 GB."
  },
  {
   "property": "C140",
   "status": "partial",
   "theorems": [
    "Verif.Indexer.C140_row_partial",
    "Verif.Indexer.C140_minimum_violated",
    "Verif.Indexer.C140_maximum_violated",
    "Verif.Indexer.C140_empty_violated"
   ],
   "note": "False of the code if the minimum or the maximum chunk size is not a power of two or a bucket (chunks are left out or counted twice), and if there are no chunks (division by 0)."
  },
  {
   "property": "C141",
   "status": "partial",
   "theorems": [
    "Verif.Indexer.C141_fits",
    "Verif.Indexer.C141_huge_violated",
    "Verif.Indexer.C141_hangs_violated",
    "Verif.Indexer.C141_ends",
    "Verif.Indexer.C141_config",
    "Verif.Indexer.C141_defaults"
   ],
   "note": "Partial: with 64 bit sizes C141_config holds for every average below 2^63 (C141_fits); for larger ones doubling overflows and the chunker gets parameters it does not accept (C141_huge_violated), with exactly 2^63 it never ends (C141_hangs_violated)."
  },
  {
   "property": "C142",
   "status": "partial",
   "theorems": [
    "Verif.Settings.C142_override_partial",
    "Verif.Settings.C142_text_violated",
    "Verif.Settings.C142_root_violated",
    "Verif.Settings.C142_range_violated",
    "Verif.Settings.C142_ignored_violated",
    "Verif.Settings.C142_exactly",
    "Verif.Settings.C142_negative_violated"
   ],
   "note": "False of the code: a value of another type, or JSON that is no object, ends the service with an exception; numbers that do not fit are cut to 16 or 32 bits; the documented settings forward-port-first and -last are ignored. C142_exactly: the exact behaviour for every object of the file. jsoncpp is not modelled."
  },
  {
   "property": "C143",
   "status": "partial",
   "theorems": [
    "Verif.Settings.C143_exit_code_partial",
    "Verif.Settings.C143_fails_after",
    "Verif.Settings.C143_failed_violated"
   ],
   "note": "False of the code: arguments that are not accepted by the argument parser lead to exit code 0, because \"no command was run\" is taken for a call without arguments. Proved for accepted arguments; the parser (lyra) is not modelled."
  },
  {
   "property": "C144",
   "status": "partial",
   "theorems": [
    "Verif.Asset.Check.C144_accepted_partial",
    "Verif.Asset.Check.C144_lists_partial",
    "Verif.Asset.Check.C144_no_false_alarm",
    "Verif.Asset.Check.C144_directory",
    "Verif.Asset.Check.C144_symlink",
    "Verif.Asset.Check.C144_start_violated",
    "Verif.Asset.Check.C144_unloaded_violated"
   ],
   "note": "False of the code for a first chunk that does not start at 0 and for lists of chunks that are not loaded (both accepted). No false alarms: proved for all well-formed entries and all loaded states."
  },
  {
   "property": "C145",
   "status": "partial",
   "theorems": [
    "Verif.Sync.Search.C145_directory",
    "Verif.Sync.Search.C145_named_directory",
    "Verif.Sync.Search.C145_pattern",
    "Verif.Sync.Search.C145_not_recursive",
    "Verif.Sync.Search.C145_once_partial",
    "Verif.Sync.Search.C145_twice_violated",
    "Verif.Sync.Search.C145_question_mark_violated"
   ],
   "note": "False of the code: what is in a directory whose own name matches the pattern is found twice, and a pattern with ? but without * is not searched for in subdirectories. Proved exactly otherwise. The matching of names (FindFirstFile) is a parameter; the tree does not change during the search."
  },
  {
   "property": "C146",
   "status": "partial",
   "theorems": [
    "Verif.Sync.Search.C146_unreadable_violated",
    "Verif.Sync.Search.C146_readable_partial"
   ],
   "note": "False of the code: proved that for all trees and sources the search gives the same for a directory that cannot be read as for an empty one. Proved complete if all can be read."
  },
  {
   "property": "C147",
   "status": "partial",
   "theorems": [
    "Verif.Sync.Sources.C147_directory",
    "Verif.Sync.Sources.C147_special_directory",
    "Verif.Sync.Sources.C147_name_partial",
    "Verif.Sync.Sources.C147_drive_relative_violated",
    "Verif.Sync.Sources.C147_doubled_separator_violated"
   ],
   "note": "False of the code for a name directly behind a drive letter (C:f crashes the client) and for doubled separators (the file is announced under a name that begins with a separator). Proved for all other sources, in both kinds of separators."
  },
  {
   "property": "C148",
   "status": "partial",
   "theorems": [
    "Verif.Sync.Sources.C148_marker_partial",
    "Verif.Sync.Sources.C148_files_from_partial",
    "Verif.Sync.Sources.C148_whole_path_partial",
    "Verif.Sync.Sources.C148_dot_violated",
    "Verif.Sync.Sources.C148_outside_violated",
    "Verif.Sync.Sources.C148_drive_relative_violated"
   ],
   "note": "False of the code for sources that begin with . or .. (taken literally by the server: never equal to what is there, or outside the destination) and for C:f (crash). Proved for all other sources in the three ways."
  },
  {
   "property": "C149",
   "status": "partial",
   "theorems": [
    "Verif.Sync.SearchLinux.C149_found_partial",
    "Verif.Sync.SearchLinux.C149_missing",
    "Verif.Sync.SearchLinux.C149_symlink_violated",
    "Verif.Sync.SearchLinux.C149_file_violated",
    "Verif.Sync.SearchLinux.C149_slashes_violated"
   ],
   "note": "False of the code: proved that for every destination that is a symlink to a directory nothing is found, that the server crashes if the destination is a file, or written with two or more slashes at its end and has a file as its first entry. Proved exactly for directories written with one slash. The behaviour of nftw is that of glibc."
  },
  {
   "property": "C150",
   "status": "partial",
   "theorems": [
    "Verif.Sync.Expand.C150_literal_partial",
    "Verif.Sync.Expand.C150_blank_violated",
    "Verif.Sync.Expand.C150_reserved_violated"
   ],
   "note": "False of the code: proved that every destination with a blank is refused and that every destination with a shell-reserved character leads to undefined behaviour (the return value of wordexp is ignored). Proved for all destinations of ordinary characters. Expansions of wordexp are not modelled."
  },
  {
   "property": "C151",
   "status": "proved",
   "theorems": [
    "Verif.Util.Buffer.C151_bytes",
    "Verif.Util.Buffer.C151_equal"
   ],
   "note": "Heap model with arbitrary placement by realloc; realloc never fails and sizes do not overflow."
  },
  {
   "property": "C152",
   "status": "proved",
   "theorems": [
    "Verif.Util.Buffer.C152_memory",
    "Verif.Util.Buffer.C152_all_free",
    "Verif.Util.Buffer.C152_appending",
    "Verif.Util.Buffer.C152_in_place"
   ],
   "note": "Same model; the cost is counted in bytes realloc has to keep."
  },
  {
   "property": "C153",
   "status": "proved",
   "theorems": [
    "Verif.Text.Split.C153_split",
    "Verif.Text.Split.C153_split_empty",
    "Verif.Text.Split.C153_cut",
    "Verif.Text.Split.C153_join",
    "Verif.Text.Split.C153_join_split",
    "Verif.Text.Split.C153_split_join",
    "Verif.Text.Split.C153_path",
    "Verif.Text.Split.C153_path_roundtrip"
   ],
   "note": "The loop over positions is modelled; reserved capacity is not."
  },
  {
   "property": "C154",
   "status": "partial",
   "theorems": [
    "Verif.Store.Stdio.C154_room_partial",
    "Verif.Store.Stdio.C154_success_violated",
    "Verif.Store.Stdio.C154_cache_violated",
    "Verif.Store.Stdio.C154_put_partial",
    "Verif.Store.Stdio.C154_loss_partial",
    "Verif.Store.Stdio.C154_put_loss_partial"
   ],
   "note": "False of the code: the result of fclose is ignored, so every data that fits into the stdio buffer but not on the disk is cut off with success reported (proved, also for the chunk cache). Proved: with room everything is written."
  },
  {
   "property": "C155",
   "status": "proved",
   "theorems": [
    "Verif.Store.Stdio.C155_read",
    "Verif.Store.Stdio.C155_range"
   ],
   "note": "Contents are those at two moments: size and read."
  },
  {
   "property": "C156",
   "status": "partial",
   "theorems": [
    "Verif.Text.ExeDir.C156_clean_stack_partial",
    "Verif.Text.ExeDir.C156_stack_violated"
   ],
   "note": "False of the code: readlink does not terminate the string and the buffer is not initialised; proved for all left-over memory without a separator before its first zero, and violated for all with a separator followed by a name."
  },
  {
   "property": "C157",
   "status": "partial",
   "theorems": [
    "Verif.Util.FileTime.C157_read",
    "Verif.Util.FileTime.C157_round_trip_partial",
    "Verif.Util.FileTime.C157_early_violated",
    "Verif.Util.FileTime.C157_order"
   ],
   "note": "False of the code only before 1601 (clamped). Proved for all later times and all FILETIMEs."
  },
  {
   "property": "C158",
   "status": "partial",
   "theorems": [
    "Verif.Process.C158_output_in_order",
    "Verif.Process.C158_all_output_partial",
    "Verif.Process.C158_output_lost_violated"
   ],
   "note": "False of the code: the thread stops as soon as it sees the exit of the process, also with output in the pipes (any output can be lost as a whole, C158_output_lost_violated). Proved: at any time what was handed over is a prefix, in pieces of 1 to 4095 bytes; and it is everything once the end of the stream was found. Pipes, overlapped reads, WaitForMultipleObjects and job objects are modelled as documented; writes of zero bytes are not."
  },
  {
   "property": "C159",
   "status": "proved",
   "theorems": [
    "Verif.Process.C159_exit_code",
    "Verif.Process.C159_running",
    "Verif.Process.C159_run_until_exit",
    "Verif.Process.C159_stays",
    "Verif.Process.C159_factory"
   ],
   "note": "All histories of one process: one Start, any number of RunUntilExit, one Terminate or destructor, with all failures of reads and waits. RunUntil with another exit condition is not modelled."
  },
  {
   "property": "C160",
   "status": "partial",
   "theorems": [
    "Verif.Process.C160_exit_noticed_partial",
    "Verif.Process.C160_never_noticed_violated"
   ],
   "note": "False of the code if another process that has the pipe keeps writing to it (C160_never_noticed_violated); proved if nothing is written any more."
  },
  {
   "property": "C161",
   "status": "partial",
   "theorems": [
    "Verif.Process.C161_terminated_partial",
    "Verif.Process.C161_detached",
    "Verif.Process.C161_start_failed_violated"
   ],
   "note": "False of the code if the process cannot be assigned to the job: Start fails, the process goes on and Terminate does not end it (C161_start_failed_violated). Proved for processes whose Start succeeded, also if TerminateProcess fails, because the job is closed."
  },
  {
   "property": "C162",
   "status": "partial",
   "theorems": [
    "Verif.Text.LogOutput.C162_lines_partial",
    "Verif.Text.LogOutput.C162_level",
    "Verif.Text.LogOutput.C162_own_level",
    "Verif.Text.LogOutput.C162_nothing_lost_partial",
    "Verif.Text.LogOutput.C162_exactly",
    "Verif.Text.LogOutput.C162_lost_exactly",
    "Verif.Text.LogOutput.C162_zero_violated",
    "Verif.Text.LogOutput.C162_cut_line_violated"
   ],
   "note": "False of the code for output with zeros (C162_exactly: only the part before the first zero is logged; C162_lost_exactly) and for lines that are read in two pieces (logged as two, the second one with another level). Proved for all other output."
  },
  {
   "property": "C163",
   "status": "partial",
   "theorems": [
    "Verif.Text.CommandLine.C163_ssh_arguments",
    "Verif.Text.CommandLine.C163_forward_arguments",
    "Verif.Text.CommandLine.C163_forward_command_arguments",
    "Verif.Text.CommandLine.C163_sftp_arguments",
    "Verif.Text.CommandLine.C163_chmod_partial",
    "Verif.Text.CommandLine.C163_example"
   ],
   "note": "Splitting by the Microsoft rules; the program name itself is split by slightly simpler rules on Windows, which the configured command has to fit. Chmod: as in C93, only for arguments without $ and backticks."
  },
  {
   "property": "C164",
   "status": "partial",
   "theorems": [
    "Verif.Text.CommandLine.C164_host_partial",
    "Verif.Text.CommandLine.C164_option_violated",
    "Verif.Text.CommandLine.C164_exactly",
    "Verif.Text.CommandLine.C164_example"
   ],
   "note": "False of the code for a host that begins with a dash: there is no -- before the host. C164_exactly: ssh connects to the host if and only if it does not begin with a dash, else to the first word of the remote command."
  },
  {
   "property": "C165",
   "status": "partial",
   "theorems": [
    "Verif.Text.CommandLine.C165_scp_arguments",
    "Verif.Text.CommandLine.C165_local_partial",
    "Verif.Text.CommandLine.C165_colon_violated",
    "Verif.Text.CommandLine.C165_exactly",
    "Verif.Text.CommandLine.C165_example"
   ],
   "note": "False of the code for a local path with a colon before the first slash that is no drive prefix; C165_exactly: the exact condition for all paths that are not UNC paths. IPv6 addresses in brackets are not part of the specification of remote files."
  },
  {
   "property": "C166",
   "status": "proved",
   "theorems": [
    "Verif.Text.CommandLine.C166_first",
    "Verif.Text.CommandLine.C166_none",
    "Verif.Text.CommandLine.C166_directory_example",
    "Verif.Text.CommandLine.C166_quoted_example",
    "Verif.Text.CommandLine.C166_example"
   ],
   "note": ""
  },
  {
   "property": "C167",
   "status": "partial",
   "theorems": [
    "Verif.Stream.Handshake.C167_started_partial",
    "Verif.Stream.Handshake.C167_waits_for_itself_violated"
   ],
   "note": "False of the code if a second manifest is pushed between the first acknowledgement and the check of StartSession: the server then knows the instance, looks up its session before it sends the chunk, and waits for the lock that StartSession holds; StartSession fails after five seconds (C167_waits_for_itself_violated). Proved as long as no other manifest is pushed after the file system connects over a connection not seen before: StartSession has succeeded, or a few more steps without any failure make it succeed."
  },
  {
   "property": "C168",
   "status": "partial",
   "theorems": [
    "Verif.Stream.Handshake.C168_started_partial",
    "Verif.Stream.Handshake.C168_old_acknowledgement_violated"
   ],
   "note": "False of the code for a session that is started again: acknowledgements are never forgotten, and StartSession succeeds before the new file system has connected (C168_old_acknowledgement_violated). Proved for the first session of an instance."
  },
  {
   "property": "C169",
   "status": "partial",
   "theorems": [
    "Verif.Stream.Handshake.C169_answered_partial",
    "Verif.Stream.Handshake.C169_other_instance_violated"
   ],
   "note": "False of the code: StartSession and StopSession keep the lock that every chunk sent to a known instance needs (C169_other_instance_violated). Proved for the time when no session is started or stopped, and for instances that are not known yet."
  },
  {
   "property": "C170",
   "status": "partial",
   "theorems": [
    "Verif.Stream.Handshake.C170_live_partial",
    "Verif.Stream.Handshake.C170_freed_session_violated"
   ],
   "note": "False of the code: FindSession returns a raw pointer and releases the lock (C170_freed_session_violated). Proved for sessions that are not stopped between the lookup and the use."
  },
  {
   "property": "C171",
   "status": "partial",
   "theorems": [
    "Verif.FuseFs.Ops.C171_one_reply_partial",
    "Verif.FuseFs.Ops.C171_retrieve_violated",
    "Verif.FuseFs.Ops.C171_once_partial"
   ],
   "note": "Proved for every request other than retrieve_reply, which the kernel sends only on demand and which is answered with an error where no answer is allowed (C171_retrieve_violated). Requests arriving during an update are ordered before or after it here; their interleaving is in C67."
  },
  {
   "property": "C172",
   "status": "partial",
   "theorems": [
    "Verif.FuseFs.Ops.C172_unchanged_partial",
    "Verif.FuseFs.Ops.C172_statfs_violated"
   ],
   "note": "Names, attributes, listings, and bytes of files opened since they were last changed. False of statfs: most of the answer is uninitialised memory (C172_statfs_violated)."
  },
  {
   "property": "C173",
   "status": "partial",
   "theorems": [
    "Verif.FuseFs.Ops.C173_refused_partial",
    "Verif.FuseFs.Ops.C173_setattr_violated"
   ],
   "note": "False of chmod, chown, truncate and changes of times: they report success and change nothing (C173_setattr_violated). Proved for all other requests."
  },
  {
   "property": "C174",
   "status": "partial",
   "theorems": [
    "Verif.Pump.Listen.C174_server_closes",
    "Verif.Pump.Listen.C174_retry",
    "Verif.Pump.Listen.C174_client_closes_partial",
    "Verif.Pump.Listen.C174_connected_twice_violated"
   ],
   "note": "Proved for server sockets, and for client sockets that are not connected again while connected; then the first connection is leaked (C174_connected_twice_violated)."
  },
  {
   "property": "C175",
   "status": "partial",
   "theorems": [
    "Verif.Pump.Listen.C175_listens_partial",
    "Verif.Pump.Listen.C175_no_fallback_violated",
    "Verif.Pump.Listen.C175_accept"
   ],
   "note": "False if there is an address of IPv6 but IPv6 does not work: IPv4 is not tried (C175_no_fallback_violated). Proved otherwise."
  },
  {
   "property": "C176",
   "status": "partial",
   "theorems": [
    "Verif.Pump.Listen.C176_port",
    "Verif.Pump.Listen.C176_find_closes",
    "Verif.Pump.Listen.C176_same_port_violated"
   ],
   "note": "The returned port is right (C176_port); a port that was found is not reserved, two searches can find the same one (C176_same_port_violated)."
  },
  {
   "property": "C177",
   "status": "proved",
   "theorems": [
    "Verif.Pump.Listen.C177_waiting",
    "Verif.Pump.Listen.C177_ends"
   ],
   "note": "Time is what the clock shows after each attempt; a call of connect that never returns is not modelled."
  },
  {
   "property": "C178",
   "status": "partial",
   "theorems": [
    "Verif.Text.Url.C178_accepts",
    "Verif.Text.Url.C178_reads_partial",
    "Verif.Text.Url.C178_user_violated",
    "Verif.Text.Url.C178_others_violated"
   ],
   "note": "Accepted strings are characterised exactly (C178_accepts). False for URLs with user information, IPv6 hosts, fragments, and ports with trailing characters (C178_user_violated, C178_others_violated)."
  },
  {
   "property": "C179",
   "status": "partial",
   "theorems": [
    "Verif.Util.Status.C179_handed_on",
    "Verif.Util.Status.C179_ok",
    "Verif.Util.Status.C179_grpc_partial",
    "Verif.Util.Status.C179_grpc_violated"
   ],
   "note": "Proved within a process; tags are lost when a status is sent over gRPC (C179_grpc_violated), code and message are not."
  },
  {
   "property": "C180",
   "status": "proved",
   "theorems": [
    "Verif.Util.Handle.C180_closed_once",
    "Verif.Util.Handle.C180_no_leak",
    "Verif.Util.Handle.C180_assign",
    "Verif.Util.Handle.C180_last_error"
   ],
   "note": "Handles are fresh numbers; reuse of numbers by the system is not modelled."
  },
  {
   "property": "C181",
   "status": "partial",
   "theorems": [
    "Verif.Text.LogOutput.C181_levels_partial",
    "Verif.Text.LogOutput.C181_two_lines_violated"
   ],
   "note": "False for messages with several lines: the lines after the first get level info (C181_two_lines_violated). Output read in one piece; for cut lines see C162."
  },
  {
   "property": "C182",
   "status": "proved",
   "theorems": [
    "Verif.FastCdc.C182_before_edit",
    "Verif.FastCdc.C182_isolated_cut",
    "Verif.FastCdc.C182_behind_edit"
   ],
   "note": "How often isolated cut points occur depends on the data and the gear table, about which nothing is assumed."
  },
  {
   "property": "C183",
   "status": "partial",
   "theorems": [
    "Verif.Store.C183_new_partial",
    "Verif.Store.C183_listed_partial",
    "Verif.Store.C183_set_right",
    "Verif.Store.C183_twice_violated",
    "Verif.Store.C183_others_violated",
    "Verif.Store.C183_example"
   ],
   "note": "False of the code when a stored chunk is written again (counted twice), removed by Remove, half written by a failing Put, or present before the first listing (C183_twice_violated, C183_others_violated). Proved otherwise."
  },
  {
   "property": "C184",
   "status": "proved",
   "theorems": [
    "Verif.Provider.C184_batch",
    "Verif.Provider.C184_single",
    "Verif.Provider.C184_example"
   ],
   "note": "Partial correctness: a call that returns has succeeded; that it does not block forever is C21. For single chunks only success; which bytes is C22 and C85."
  },
  {
   "property": "C185",
   "status": "proved",
   "theorems": [
    "Verif.FuseFs.Ops.C185_open",
    "Verif.FuseFs.Ops.C185_dir",
    "Verif.FuseFs.Ops.C185_read",
    "Verif.FuseFs.Ops.C185_example"
   ],
   "note": "Requests are handled one after the other here; what other handles of a changed file see is C68."
  },
  {
   "property": "C186",
   "status": "proved",
   "theorems": [
    "Verif.Sync.C186_file_list",
    "Verif.Sync.C186_deletions",
    "Verif.Sync.C186_indices",
    "Verif.Sync.C186_signatures",
    "Verif.Sync.C186_patches",
    "Verif.Sync.C186_raw",
    "Verif.Sync.Enc.C186_encoded_length"
   ],
   "note": "Protobuf sizes follow the wire format, not the library (C186_encoded_length: they are the lengths of the messages encoded in it). The options message, which holds whatever is on the command line, and messages with a fixed number of numbers are not covered."
  },
  {
   "property": "C187",
   "status": "partial",
   "theorems": [
    "Verif.Updater.Prompt.C187_not_forgotten_partial",
    "Verif.Updater.Prompt.C187_next_push",
    "Verif.Updater.Prompt.C187_deadline",
    "Verif.Updater.Prompt.C187_answered",
    "Verif.Updater.Prompt.C187_no_wakeup_violated",
    "Verif.Updater.Prompt.C187_same_manifest_violated"
   ],
   "note": "False of the code if an asset is queued twice (an earlier failed Update leaves entries behind): a push of an unchanged manifest clears the deadline without reaching the file system. No time bound holds: GetCompletedTask has no timeout. Both proved as _violated; the rest proved."
  },
  {
   "property": "C188",
   "status": "partial",
   "theorems": [
    "Verif.ChunkMap.C188_marks",
    "Verif.ChunkMap.C188_totals",
    "Verif.ChunkMap.C188_safe",
    "Verif.ChunkMap.C188_line",
    "Verif.ChunkMap.C188_twice_violated",
    "Verif.ChunkMap.C188_same_content_violated"
   ],
   "note": "Marks, amounts, memory safety and the line layout proved for all histories. False of the code: a chunk first cached and later streamed counts twice and changes its mark at the next flush; of equal contents only one place is shown as loaded (both _violated)."
  },
  {
   "property": "C189",
   "status": "proved",
   "theorems": [
    "Verif.FuseFs.Check.C189_no_false_alarm",
    "Verif.FuseFs.Check.C189_table_complete"
   ],
   "note": "For updates that come to their end, i.e. not those of C65_use_after_free_violated; entries that make sense by themselves (C144) are assumed. No step of the update misses the table (proved if no node is in a list fetched by a directory other than the root). Texts of warnings are not modelled."
  },
  {
   "property": "C190",
   "status": "partial",
   "theorems": [
    "Verif.FuseFs.Check.C190_success",
    "Verif.FuseFs.Check.C190_two_problems_violated",
    "Verif.FuseFs.Check.C190_problem_noticed"
   ],
   "note": "Soundness proved for every graph of nodes with distinct addresses. False of the code: problems of two kinds at once (e.g. a lost node and a node not updated) end the program instead of being logged, since the report is both an array and an object (C190_two_problems_violated)."
  },
  {
   "property": "C191",
   "status": "partial",
   "theorems": [
    "Verif.FuseFs.Life.C191_clean_partial",
    "Verif.FuseFs.Life.C191_left_mounted_violated"
   ],
   "note": "Holds if the process does not end because the cache, the connection or the list of cached chunks fails; in these three cases main returns without Shutdown and the directory stays mounted (C191_left_mounted_violated)."
  },
  {
   "property": "C192",
   "status": "partial",
   "theorems": [
    "Verif.FuseFs.Life.C192_threads_partial",
    "Verif.FuseFs.Life.C192_loop_fails_violated",
    "Verif.FuseFs.Life.C192_terminated_violated"
   ],
   "note": "Holds if the loop of the session does not fail. If it fails, Run returns without stopping the thread that receives manifests: the process never ends regularly, the destructor of the thread terminates it or the thread uses the destroyed session (both _violated)."
  },
  {
   "property": "C193",
   "status": "proved",
   "theorems": [
    "Verif.Pump.Switch.C193_in_order"
   ],
   "note": ""
  },
  {
   "property": "C194",
   "status": "partial",
   "theorems": [
    "Verif.Pump.Switch.C194_fails_only_then",
    "Verif.Pump.Switch.C194_all_delivered_partial",
    "Verif.Pump.Switch.C194_read_too_far_violated",
    "Verif.Pump.Switch.C194_answered_too_early_violated"
   ],
   "note": "Everything arrives unless the stream fails (C194_all_delivered_partial), which happens only after a complete part when the client has gone on (C194_fails_only_then). False of the code: the server answers when it has the last packet of the part, perhaps before it has read the end of the frame; if that end and the next bytes then come in one read, the decompressor reports trailing data and the session ends in an error (C194_answered_too_early_violated, C194_read_too_far_violated)."
  },
  {
   "property": "C195",
   "status": "partial",
   "theorems": [
    "Verif.Sync.Ends.C195_accepted_partial",
    "Verif.Sync.Ends.C195_never_connected_violated"
   ],
   "note": "False of the code at this commit: StartServer only probes the port with a temporary socket (ClientSocket::WaitForConnection is static and disconnects), and nothing ever calls socket_.Connect, so the message pump sends on an unconnected socket and the one connection the server accepts is the closed probe (C195_never_connected_violated). C195_accepted_partial is what does hold. All other properties of the sync are stated for a client and a server that are connected."
  },
  {
   "property": "C196",
   "status": "partial",
   "theorems": [
    "Verif.Sync.Ends.C196_both_end_partial",
    "Verif.Sync.Ends.C196_hangs_violated"
   ],
   "note": "Holds unless the client fails by itself. If it does, Run returns without StopServer and the destructor joins the receiver thread, which waits for the server, which waits for the client: both hang (C196_hangs_violated)."
  },
  {
   "property": "C197",
   "status": "proved",
   "theorems": [
    "Verif.Sync.Ends.C197_result"
   ],
   "note": ""
  },
  {
   "property": "C198",
   "status": "partial",
   "theorems": [
    "Verif.Stream.Usage.C198_reported_partial",
    "Verif.Stream.Usage.C198_early_violated"
   ],
   "note": "Holds but for what is sent to an instance while its session is being started (the instance loads the manifest before it acknowledges it): that is never counted (C198_early_violated)."
  },
  {
   "property": "C199",
   "status": "partial",
   "theorems": [
    "Verif.Stream.Usage.C199_end_recorded_partial",
    "Verif.Stream.Usage.C199_twice_violated"
   ],
   "note": "An end is recorded when it should be and not before, but for every session that is stopped it is recorded twice: by StopSession and again by the destructor (C199_twice_violated)."
  },
  {
   "property": "C200",
   "status": "partial",
   "theorems": [
    "Verif.Stream.Usage.C200_shutdown_partial",
    "Verif.Stream.Usage.C200_terminates_violated"
   ],
   "note": "Holds if all sessions can be stopped. Otherwise Shutdown returns at the first failure without joining its threads, and the destructor calls std::terminate unless Shutdown was called at least once per failing session (C200_terminates_violated)."
  },
  {
   "property": "C201",
   "status": "partial",
   "theorems": [
    "Verif.Watch.Restart.C201_restart_partial",
    "Verif.Watch.Restart.C201_untouched",
    "Verif.Watch.Restart.C201_started_twice_violated"
   ],
   "note": "Holds with the exceptions of C72, unless the watcher is started while it is running: then everything collected and not yet handed out is lost (C201_started_twice_violated)."
  },
  {
   "property": "C202",
   "status": "partial",
   "theorems": [
    "Verif.Manifest.Counts.C202_counts_partial",
    "Verif.Manifest.Counts.C202_silent_violated"
   ],
   "note": "Holds if all lists can be read. If one cannot, the counts of what was read are reported, and nothing in the event tells so: the status of the iterator is not looked at (C202_silent_violated)."
  },
  {
   "property": "C203",
   "status": "partial",
   "theorems": [
    "Verif.ChunkMap.Picture.C203_line_partial",
    "Verif.ChunkMap.Picture.C203_looks_different",
    "Verif.ChunkMap.Picture.C203_order_violated"
   ],
   "note": "Holds if the compiler reads line.size() before it moves line in the same call; the order is unspecified, and in the other order the line is cut within a colour code (C203_order_violated). Names must consist of printable ASCII characters."
  },
  {
   "property": "C204",
   "status": "partial",
   "theorems": [
    "Verif.ChunkMap.Picture.C204_in_place_partial",
    "Verif.ChunkMap.Picture.C204_moves_violated"
   ],
   "note": "Holds on Windows, where the width used is one less than that of the terminal. On Linux the line of every file is one column too long, takes two rows, and the display moves down one row per file with every drawing (C204_moves_violated)."
  },
  {
   "property": "C205",
   "status": "partial",
   "theorems": [
    "Verif.Updater.SourceDir.C205_valid_partial",
    "Verif.Updater.SourceDir.C205_root_violated",
    "Verif.Updater.SourceDir.C205_backslash_violated",
    "Verif.Updater.SourceDir.C205_exactly"
   ],
   "note": "Holds except for roots (/ and C:\\\\), which are refused as relative because the separator that makes them absolute is removed first (C205_root_violated), and on Linux for names that end in a backslash (C205_backslash_violated). C205_exactly: the exact condition for all paths and file systems, on both operating systems."
  },
  {
   "property": "C206",
   "status": "partial",
   "theorems": [
    "Verif.Util.Errno.C206_errno",
    "Verif.Util.Errno.C206_open",
    "Verif.Util.Errno.C206_stat",
    "Verif.Util.Errno.C206_exists",
    "Verif.Util.Errno.C206_filesystem_partial",
    "Verif.Util.Errno.C206_linux_violated",
    "Verif.Util.Errno.C206_windows_violated",
    "Verif.Util.Errno.C206_indexer_violated"
   ],
   "note": "Holds for opening a file and looking at it. For operations of std::filesystem only that an error is an error holds: on Linux the code is always unknown (C206_linux_violated), on Windows the number of GetLastError is read as an errno, e.g. write protected is not found (C206_windows_violated). The indexer converts the result of ferror instead of errno (C206_indexer_violated)."
  },
  {
   "property": "C207",
   "status": "proved",
   "theorems": [
    "Verif.Text.CachePath.C207_valid_name"
   ],
   "note": ""
  },
  {
   "property": "C208",
   "status": "partial",
   "theorems": [
    "Verif.Stream.ServiceEnd.C208_end_partial",
    "Verif.Stream.ServiceEnd.C208_one_thread_partial",
    "Verif.Stream.ServiceEnd.C208_no_deadlock_partial",
    "Verif.Stream.ServiceEnd.C208_terminates_partial",
    "Verif.Stream.ServiceEnd.C208_return_violated",
    "Verif.Stream.ServiceEnd.C208_race_violated",
    "Verif.Stream.ServiceEnd.C208_overlap_violated"
   ],
   "note": "Proved: order of the end, one thread as long as exits do not overlap, no deadlock, termination. Violated: the function that shuts down ends without returning its status in every run (C208_return_violated); the server may be destroyed before the other thread calls Wait on it (C208_race_violated); two exits at the same time may terminate the process while streaming goes on (C208_overlap_violated)."
  },
  {
   "property": "C209",
   "status": "partial",
   "theorems": [
    "Verif.Stream.WatchTimes.C209_settled_partial",
    "Verif.Stream.WatchTimes.C209_prompt",
    "Verif.Stream.WatchTimes.C209_no_sleep",
    "Verif.Stream.WatchTimes.C209_shutdown",
    "Verif.Stream.WatchTimes.C209_early_violated",
    "Verif.Stream.WatchTimes.C209_busy_violated"
   ],
   "note": "Holds for changes notified while the runner sleeps. Violated for changes notified while it is awake, which may be handed over in the moment they are notified (C209_early_violated); and the runner does not sleep while it waits for changes to settle, because the condition it waits for holds already (C209_busy_violated)."
  },
  {
   "property": "C210",
   "status": "partial",
   "theorems": [
    "Verif.Updater.EndToEnd.C210_bytes_arrive_partial"
   ],
   "note": "Composition of C81, C82, C78, C20 and C24 with the conditions of C81 (no two lists shared between directories, changes visible in time or size) and the one of C78 (a chunked file does not change before it is chunked again). The content ids are assumed to be unique among the data that occur."
  },
  {
   "property": "C211",
   "status": "partial",
   "theorems": [
    "Verif.Sync.Wire.C211_changed_batch_partial",
    "Verif.Sync.Wire.C211_never_stuck_partial",
    "Verif.Sync.Wire.C211_separate_directories_partial",
    "Verif.Sync.Wire.C211_ends_partial",
    "Verif.Sync.Wire.C211_changed_batch_violated"
   ],
   "note": "False of the code if the copy directory is inside the destination or the other way round: a file can be patched from a file that the same batch replaces, and gets bytes that neither side ever had while every step reports success (C211_changed_batch_violated; another order of the same threads gives the right bytes). Proved for all other batches, in bytes, with progress and termination; the content hash is assumed not to collide between an old and a new chunk of one file (C07)."
  },
  {
   "property": "C212",
   "status": "proved",
   "theorems": [
    "Verif.Progress.C212_counted",
    "Verif.Progress.C212_totals",
    "Verif.Progress.C212_nothing"
   ],
   "note": ""
  },
  {
   "property": "C213",
   "status": "partial",
   "theorems": [
    "Verif.Util.StatsCollector.C213_shown_once_partial",
    "Verif.Util.StatsCollector.C213_lines",
    "Verif.Util.StatsCollector.C213_ends",
    "Verif.Util.StatsCollector.C213_lost_violated",
    "Verif.Util.StatsCollector.C213_never_shown_violated"
   ],
   "note": "False of the code: what was recorded since the last line is lost when the collector is destroyed (C213_lost_violated), and since the condition that waits for the time is only looked at when somebody releases the mutex (as documented by absl), nothing is shown as long as nothing more is recorded (C213_never_shown_violated). Counters are modulo 2^64; the formatting of durations is not modelled."
  },
  {
   "property": "C214",
   "status": "partial",
   "theorems": [
    "Verif.Progress.C214_time",
    "Verif.Progress.C214_speed",
    "Verif.Progress.C214_columns_partial",
    "Verif.Progress.C214_hours_violated",
    "Verif.Progress.C214_contents"
   ],
   "note": "Partial: the length of the text is constant only while all times are below an hour; C214_hours_violated shows that it is at least three characters longer otherwise. Rounding of exact halves (%.1f of a binary double), the nearest double of 999.9 and the cast of times of 2^31 seconds or more to int are not modelled. C214_contents says what every line contains, field by field."
  },
  {
   "property": "C215",
   "status": "partial",
   "theorems": [
    "Verif.ManifestStreams.C215_in_order",
    "Verif.ManifestStreams.C215_current",
    "Verif.ManifestStreams.C215_gone_clients_violated",
    "Verif.ManifestStreams.C215_shutdown_partial",
    "Verif.ManifestStreams.C215_delivered"
   ],
   "note": "Partial: C215_in_order, C215_current, C215_delivered and C215_shutdown_partial are full; C215_gone_clients_violated shows that before the shutdown no call ever ends, in any history. grpc is assumed to run every call in a thread of its own; whether Write succeeds is not used by the code."
  },
  {
   "property": "C216",
   "status": "partial",
   "theorems": [
    "Verif.Util.FileTime.C216_from_1970_partial",
    "Verif.Util.FileTime.C216_before_1970_violated",
    "Verif.Util.FileTime.C216_exactly"
   ],
   "note": "Partial: proved for all times from 1970 on; C216_before_1970_violated shows that earlier ones differ by a second unless they are full seconds; C216_exactly says exactly when both agree."
  },
  {
   "property": "C217",
   "status": "partial",
   "theorems": [
    "Verif.Text.LocalStart.C217_description_partial",
    "Verif.Text.LocalStart.C217_own_server_partial",
    "Verif.Text.LocalStart.C217_blank_violated",
    "Verif.Text.LocalStart.C217_example",
    "Verif.Text.LocalStart.C217_blank_example"
   ],
   "note": "Proved for paths without blanks and quotes (description_partial, own_server_partial). The path of the server is not quoted: from a directory like C:\\Program Files every server ends by an exception of std::stol (blank_violated)."
  }
 ]
}