{
 "claims": [
  {
   "property": "C01",
   "status": "proved",
   "theorems": [
    "HS.Blk.C01_to_integer_roundtrip",
    "HS.Blk.C01_integer_layout",
    "HS.Blk.C01_to_integer_injective",
    "HS.Blk.C01_of_integer_roundtrip"
   ],
   "note": "All in-range field values; also the exact bit layout."
  },
  {
   "property": "C02",
   "status": "proved",
   "theorems": [
    "HS.Blk.C02_serialize_roundtrip"
   ],
   "note": "All piece lists of 1..6 non-empty pieces of one chunk."
  },
  {
   "property": "C03",
   "status": "partial",
   "theorems": [
    "HS.Blk.C03_iteration_yields_added_pieces",
    "HS.Blk.C03_blk_count_partial",
    "HS.Blk.C03_blk_count_violated",
    "HS.Blk.C03_add_rejects"
   ],
   "note": "Iteration and num_pieces() are proved in full. blk_count() is proved modulo 2^16; the unrestricted claim is false (16-bit sum), C03_blk_count_violated."
  },
  {
   "property": "C04",
   "status": "proved",
   "theorems": [
    "HS.Blk.C04_multi_zero",
    "HS.Blk.C04_multi_antisymm",
    "HS.Blk.C04_multi_trans",
    "HS.Blk.C04_multi_single",
    "HS.Blk.C04_compare_lexicographic",
    "HS.Blk.C04_compare_trans",
    "HS.Blk.C04_compare_total"
   ],
   "note": "All ids, one piece or several. boost::icl::interval_set is outside the code base and enters by its documented behaviour (maximal intervals in ascending order, compared like words), stated in Blk/Order.lean."
  },
  {
   "property": "C05",
   "status": "proved",
   "theorems": [
    "HS.Append.C05_disjoint_in_range",
    "HS.Append.C05_accounting_and_failure"
   ],
   "note": "All sequential histories with crashes."
  },
  {
   "property": "C06",
   "status": "partial",
   "theorems": [
    "HS.Append.C06_committed_survives",
    "HS.Append.C06_concurrent_commit_violated",
    "HS.Append.C06_concurrent_commit_partial"
   ],
   "note": "Proved for sequential histories (C06_committed_survives). Concurrent commits: proved when no flush starts between a commit's compare-exchange and its dirty flag; false otherwise (C06_concurrent_commit_violated)."
  },
  {
   "property": "C07",
   "status": "partial",
   "theorems": [
    "HS.Append.C07_concurrent_alloc_violated",
    "HS.Append.C07_concurrent_alloc_wrap_violated",
    "HS.Append.C07_single_writer_partial"
   ],
   "note": "False of the code: the space check and the cursor increment are separate. Proved for one allocating thread at a time, with concurrent commits and flushes."
  },
  {
   "property": "C08",
   "status": "partial",
   "theorems": [
    "HS.Fixed.C08_no_double_alloc_partial",
    "HS.Fixed.C08_space_full_means_all_owned_partial",
    "HS.Fixed.C08_available_partial",
    "HS.Fixed.C08_double_alloc_violated"
   ],
   "note": "Proved unless a block reserved by log replay is freed before recovery_completed; false in that case (C08_double_alloc_violated)."
  },
  {
   "property": "C09",
   "status": "partial",
   "theorems": [
    "HS.Vdev.C09_durable_partial",
    "HS.Vdev.C09_image_exact_partial",
    "HS.Vdev.C09_frees_not_persisted_violated",
    "HS.Vdev.C09_image_on_disk_before_free_partial"
   ],
   "note": "Every committed block is in the persisted bitmap and the image taken is exact. The converse for frees is false (free_on_disk does not set the dirty flag); executions with immediate frees racing with a flush are excluded (C10)."
  },
  {
   "property": "C10",
   "status": "partial",
   "theorems": [
    "HS.Vdev.C10_no_abort_partial",
    "HS.Vdev.C10_not_in_image_partial",
    "HS.Vdev.C10_present_after_flush_partial",
    "HS.Vdev.C10_racy_free_violated",
    "HS.Vdev.C10_racy_free_resurrects_violated"
   ],
   "note": "Proved for all interleavings without immediate frees that race with a flush; false for these (two witnesses)."
  },
  {
   "property": "C11",
   "status": "partial",
   "theorems": [
    "HS.Varsize.C11_alloc_partial",
    "HS.Varsize.C11_history_partial",
    "HS.Varsize.C11_min_piece_violated"
   ],
   "note": "Proved for all requests of 1..65535 blocks with min_blks_per_piece <= n; false outside (C11_min_piece_violated). The bitset search is any function meeting FindOk."
  },
  {
   "property": "C12",
   "status": "partial",
   "theorems": [
    "HS.Varsize.C12_free_partial",
    "HS.Varsize.C12_free_violated"
   ],
   "note": "Proved for ids all of whose pieces fit the largest slab if the first does; false otherwise (C12_free_violated)."
  },
  {
   "property": "C13",
   "status": "partial",
   "theorems": [
    "HS.Slab.C13_find_slab",
    "HS.Slab.C13_round_down_partial",
    "HS.Slab.C13_round_down_violated"
   ],
   "note": "Allocation: all 16-bit counts. Caching: all counts but 65535, for which the code has undefined behaviour."
  },
  {
   "property": "C14",
   "status": "partial",
   "theorems": [
    "HS.VAlloc.C14_alloc_partial",
    "HS.VAlloc.C14_vector_partial",
    "HS.VAlloc.C14_stale_id_violated",
    "HS.VAlloc.C14_stale_id_abort_violated",
    "HS.VAlloc.C14_vector_leak_violated",
    "HS.VAlloc.C14_vector_ub_violated"
   ],
   "note": "Single-id overload: contiguous, or partial allowed, or one chunk; scattered all-or-nothing over several chunks is false (two witnesses). Vector overload: success proved; failure leaks or is undefined (two witnesses)."
  },
  {
   "property": "C15",
   "status": "proved",
   "theorems": [
    "HS.Vdev.C15_no_early_reuse"
   ],
   "note": "All interleavings; immediate frees included."
  },
  {
   "property": "C16",
   "status": "partial",
   "theorems": [
    "HS.Pdev.C16_areas_partial",
    "HS.Pdev.C16_create_partial"
   ],
   "note": "All histories with crashes, except that no restart follows a create_chunk that failed for lack of data space (false then, C17_failed_create_violated)."
  },
  {
   "property": "C17",
   "status": "partial",
   "theorems": [
    "HS.Pdev.C17_crash_partial",
    "HS.Pdev.C17_restart_partial",
    "HS.Pdev.C17_create_many_partial",
    "HS.Pdev.C17_failed_create_violated",
    "HS.Pdev.C17_failed_create_abort_violated"
   ],
   "note": "All crash points of every call; histories in which a create_chunk failed for lack of data space are excluded, for which the property is false (two witnesses)."
  },
  {
   "property": "C18",
   "status": "proved",
   "theorems": [
    "HS.DevMgr.C18_unique_ids",
    "HS.DevMgr.C18_new_device"
   ],
   "note": "All boot histories with crashes inside the header writes and device replacement."
  },
  {
   "property": "C19",
   "status": "partial",
   "theorems": [
    "HS.DevMgr.C19_static_partial",
    "HS.DevMgr.C19_dynamic",
    "HS.DevMgr.C19_accepts",
    "HS.DevMgr.C19_again",
    "HS.DevMgr.C19_large_violated",
    "HS.DevMgr.C19_empty_violated"
   ],
   "note": "Fixed size below 2^48 bytes that gets at least one chunk; devices of dynamic size; acceptance; idempotence. False above 2^48 bytes and below one chunk (two witnesses)."
  },
  {
   "property": "C20",
   "status": "partial",
   "theorems": [
    "HS.Meta.C20_crash_atomic_partial",
    "HS.Meta.C20_restart_idempotent",
    "HS.Meta.C20_overrun_violated"
   ],
   "note": "Every crash point of every operation after every history, crashes inside restart included. Excluded: removal of the only record and overflow chains with (multiple of ids per header)+1 data ids (false, C20_overrun_violated, C23). Compression is any codec that round-trips; block contents are symbolic per block."
  },
  {
   "property": "C21",
   "status": "partial",
   "theorems": [
    "HS.Meta.C21_roundtrip_partial",
    "HS.Meta.C21_violated",
    "HS.Meta.C21_read_api_violated"
   ],
   "note": "All contents except the overflow chains of C21_violated. read_sub_sb returns compressed bytes (C21_read_api_violated)."
  },
  {
   "property": "C22",
   "status": "partial",
   "theorems": [
    "HS.Topo.C22_sort_correct",
    "HS.Topo.C22_recovery_order_partial",
    "HS.Topo.C22_deregister_partial",
    "HS.Topo.C22_empty_deps_violated",
    "HS.Topo.C22_deregister_violated"
   ],
   "note": "Sorting: all graphs and hash orders. Recovery order: all registrations except empty dependency lists and deregistered dependencies (false, two witnesses)."
  },
  {
   "property": "C23",
   "status": "partial",
   "theorems": [
    "HS.Meta.C23_no_abort_partial",
    "HS.Meta.C23_reuse_violated",
    "HS.Meta.C23_empty_restart_violated"
   ],
   "note": "False of the code: reuse after the last removal dereferences null and an empty store cannot be restarted. Proved as long as one record remains."
  },
  {
   "property": "C24",
   "status": "partial",
   "theorems": [
    "HS.Cp.C24_partial",
    "HS.Cp.C24_progress_partial",
    "HS.Cp.C24_race_violated",
    "HS.Cp.C24_race_double_violated",
    "HS.Cp.C24_race_uaf_violated"
   ],
   "note": "All schedules in which no thread is between the decrement and the status read of cp_io_exit while another enters and a trigger happens (Quiet); false otherwise (three witnesses: early flush, double flush, use after free)."
  },
  {
   "property": "C25",
   "status": "partial",
   "theorems": [
    "HS.Cp.C25_partial",
    "HS.Cp.C25_failure_violated"
   ],
   "note": "Quiet schedules without a consumer whose flush reports failure (the failure is ignored: C25_failure_violated)."
  },
  {
   "property": "C26",
   "status": "partial",
   "theorems": [
    "HS.Cp.C26_partial"
   ],
   "note": "Same restrictions as C25."
  },
  {
   "property": "C27",
   "status": "partial",
   "theorems": [
    "HS.Cp.C27_violated"
   ],
   "note": "False of the code for every input: the condition of line 466 is always true, the watchdog never reacts. Nothing else to prove."
  },
  {
   "property": "C28",
   "status": "proved",
   "theorems": [
    "HS.Tracker.C28_free_waits_for_reads"
   ],
   "note": "All interleavings of the tracker's steps."
  },
  {
   "property": "C29",
   "status": "proved",
   "theorems": [
    "HS.Tracker.C29_free_runs_once"
   ],
   "note": "All interleavings of the tracker's steps."
  },
  {
   "property": "C30",
   "status": "partial",
   "theorems": [
    "HS.DataSvc.C30_alloc_partial",
    "HS.DataSvc.C30_violated"
   ],
   "note": "Sizes up to 65535 blocks, under the conditions of C14; false from 65536 blocks on (16-bit count), with data of another owner overwritten."
  },
  {
   "property": "C31",
   "status": "proved",
   "theorems": [
    "HS.Journal.C31_mapping",
    "HS.Journal.C31_reservation",
    "HS.Journal.C31_read_back",
    "HS.Journal.C31_no_abort"
   ],
   "note": "All histories of reservations, writes, truncations, removals and restarts of any number of streams."
  },
  {
   "property": "C32",
   "status": "partial",
   "theorems": [
    "HS.Journal.C32_truncate_partial",
    "HS.Journal.C32_hole_violated"
   ],
   "note": "All truncation points that are not strictly inside the unused end of a chunk; false there (C32_hole_violated)."
  },
  {
   "property": "C33",
   "status": "partial",
   "theorems": [
    "HS.Journal.C33_crash_truncate_partial",
    "HS.Journal.C33_crash_append",
    "HS.Journal.C33_crash_destroy",
    "HS.Journal.C33_restart",
    "HS.Journal.C33_rest_dropped",
    "HS.Journal.C33_old_start_violated"
   ],
   "note": "Every crash point of reservation, truncation and removal: chunk lists. False for the data when the log device's old start offset meets the shortened list (C33_old_start_violated)."
  },
  {
   "property": "C34",
   "status": "partial",
   "theorems": [
    "HS.Log.C34_histories_partial",
    "HS.Log.C34_append_read_back_partial",
    "HS.Log.C34_group_read_back_partial",
    "HS.Log.C34_empty_flush_overreads_violated"
   ],
   "note": "All allowed histories (spec refinement) with one thread appending at a time; the flush of an empty batch after 408 reserved indices reads past the buffer (C34_empty_flush_overreads_violated)."
  },
  {
   "property": "C35",
   "status": "partial",
   "theorems": [
    "HS.Log.C35_replays_all_flushed",
    "HS.Log.C35_torn_group_partial",
    "HS.Log.C35_only_intact_groups",
    "HS.Log.C35_torn_middle_aborts_violated"
   ],
   "note": "Everything flushed is replayed; nothing but intact consecutive groups is ever delivered; a torn group gives nothing or an abort. False: a torn middle sector aborts every restart."
  },
  {
   "property": "C36",
   "status": "partial",
   "theorems": [
    "HS.Log.C36_truncation_keeps_partial",
    "HS.Log.C36_racing_appends_violated",
    "HS.Log.C36_out_of_order_violated"
   ],
   "note": "All allowed histories; false with racing appends and with out-of-order writes (two witnesses)."
  },
  {
   "property": "C37",
   "status": "partial",
   "theorems": [
    "HS.Log.C37_rollback_is_final_partial",
    "HS.Log.C37_rollback_undone_violated",
    "HS.Log.C37_pending_append_survives_violated",
    "HS.Log.C37_racing_appends_violated"
   ],
   "note": "All allowed histories with a rollback target in the flushed range that no later truncation point meets; false otherwise (three witnesses)."
  },
  {
   "property": "C38",
   "status": "partial",
   "theorems": [
    "HS.Btree.C38_leaf_put",
    "HS.Btree.C38_leaf_remove",
    "HS.Btree.C38_search",
    "HS.Btree.C38_leaf_range_remove",
    "HS.Btree.C38_leaf_range_get",
    "HS.Btree.C38_split",
    "HS.Btree.C38_copy",
    "HS.Btree.C38_leaf_range_update_partial"
   ],
   "note": "put, remove, search, range remove, range get, split, copy: proved in full on sorted nodes. Range update: filters that never decide remove (false otherwise, C51_update_filter_remove_violated)."
  },
  {
   "property": "C39",
   "status": "partial",
   "theorems": [
    "HS.Btree.C39_history_partial",
    "HS.Btree.C39_fixed_no_merge_completes_partial",
    "HS.Btree.C39_merge_hangs_violated",
    "HS.Btree.C39_var_update_aborts_violated"
   ],
   "note": "Every history whose calls return equals the ordered map's. Completion proved for fixed nodes without merge; with merge a call can hang and with variable-size values abort (two witnesses). One thread at a time."
  },
  {
   "property": "C40",
   "status": "partial",
   "theorems": [
    "HS.Btree.C40_pages_partial",
    "HS.Btree.C40_sweep_default_key_violated",
    "HS.Btree.C40_traversal_same_vector_violated"
   ],
   "note": "All trees built by histories, all page sizes, both query types, no filter. False for signed keys with the default key in the interval, and for a reused result vector with traversal queries."
  },
  {
   "property": "C41",
   "status": "partial",
   "theorems": [
    "HS.Varsize.C41_refill_partial",
    "HS.Varsize.C41_short_session_violated",
    "HS.Varsize.C41_wrong_slab_violated"
   ],
   "note": "Proved when every slab needs blocks; false as soon as one slab needs none (index out of range or wrong slab charged)."
  },
  {
   "property": "C42",
   "status": "partial",
   "theorems": [
    "HS.Varsize.C42_space_partial",
    "HS.Varsize.C42_cached_violated"
   ],
   "note": "Requests up to the largest slab; false above it when the free blocks are in the cache (C42_cached_violated). The bitset search meets FindOk and FindFirst."
  },
  {
   "property": "C43",
   "status": "partial",
   "theorems": [
    "HS.Crc.C43_chunk",
    "HS.Crc.C43_vdev_partial",
    "HS.Crc.C43_vdev_violated"
   ],
   "note": "Chunk records: in full. Vdev records: checksum not zero; false for the zero checksum (C43_vdev_violated)."
  },
  {
   "property": "C44",
   "status": "partial",
   "theorems": [
    "HS.DevMgr.C44_unique_partial",
    "HS.DevMgr.C44_known_partial",
    "HS.DevMgr.C44_missing_device_violated",
    "HS.DevMgr.C44_crash_in_create_violated"
   ],
   "note": "Starts with all formatted devices. False with a missing device; a crash inside create_vdev makes every restart fail."
  },
  {
   "property": "C45",
   "status": "partial",
   "theorems": [
    "HS.Cp.C45_trigger_partial",
    "HS.Cp.C45_partial"
   ],
   "note": "Quiet schedules (see C24)."
  },
  {
   "property": "C46",
   "status": "partial",
   "theorems": [
    "HS.Cp.C46_count_partial",
    "HS.Cp.C46_assign_violated",
    "HS.Cp.C46_nest_partial",
    "HS.Cp.C46_order_violated"
   ],
   "note": "No guard assignment, LIFO destruction; both restrictions are necessary (two witnesses)."
  },
  {
   "property": "C47",
   "status": "proved",
   "theorems": [
    "HS.DataSvc.C47_write_read",
    "HS.DataSvc.C47_write_frame",
    "HS.DataSvc.C47_result"
   ],
   "note": "All ids, buffers and completion orders."
  },
  {
   "property": "C48",
   "status": "partial",
   "theorems": [
    "HS.DataSvc.C48_alloc_write_partial",
    "HS.DataSvc.C48_partial_hint_violated"
   ],
   "note": "Without partial_alloc_ok, under the conditions of C14; false with it (C48_partial_hint_violated)."
  },
  {
   "property": "C49",
   "status": "partial",
   "theorems": [
    "HS.Meta.C49_space_exact_partial"
   ],
   "note": "All states reachable under the restrictions of C20."
  },
  {
   "property": "C50",
   "status": "partial",
   "theorems": [
    "HS.Journal.C50_sequential_read_partial",
    "HS.Journal.C50_dev_offset",
    "HS.Journal.C50_end_of_chunk_violated"
   ],
   "note": "Sequential reading from the start of the stream; from a cursor exactly at the end of a chunk's data it is false (C50_end_of_chunk_violated)."
  },
  {
   "property": "C51",
   "status": "partial",
   "theorems": [
    "HS.Btree.C51_range_remove_partial",
    "HS.Btree.C51_empty_interval_violated",
    "HS.Btree.C51_range_update_partial",
    "HS.Btree.C51_update_filter_remove_violated",
    "HS.Btree.C51_update_stops_violated"
   ],
   "note": "Range remove: non-degenerate intervals, calls that return. Range update: filters that never remove; stops at leaves without keys of the interval (false, witness)."
  },
  {
   "property": "C52",
   "status": "partial",
   "theorems": [
    "HS.Btree.C52_get_any_partial",
    "HS.Btree.C52_remove_any_partial",
    "HS.Btree.C52_get_other_leaf_violated",
    "HS.Btree.C52_get_open_end_violated",
    "HS.Btree.C52_get_right_most_violated",
    "HS.Btree.C52_get_mid_violated",
    "HS.Btree.C52_remove_wrong_child_violated"
   ],
   "note": "get_any (DO_NOT_CARE, LEFT_MOST) and remove_any: what is returned is right and exactly that is removed. That a key is found whenever there is one is false (five witnesses)."
  },
  {
   "property": "C53",
   "status": "partial",
   "theorems": [
    "HS.Btree.C53_filtered_query_partial",
    "HS.Btree.C53_filter_skips_violated"
   ],
   "note": "Intervals of at most one page; false for more (C53_filter_skips_violated)."
  },
  {
   "property": "C54",
   "status": "partial",
   "theorems": [
    "HS.Log.C54_new_store_is_its_own_partial",
    "HS.Log.C54_removed_store_comes_back_violated"
   ],
   "note": "All allowed histories in which the last index at removal is not a truncation point; false otherwise (C54_removed_store_comes_back_violated)."
  },
  {
   "property": "C55",
   "status": "partial",
   "theorems": [
    "HS.DevMgr.C55_refreshed_partial",
    "HS.DevMgr.C55_stale_header_violated",
    "HS.DevMgr.C55_same_id_violated",
    "HS.DevMgr.C55_duplicate_not_noticed_violated"
   ],
   "note": "Boots with a new device; without one a stale header may stay (three witnesses)."
  },
  {
   "property": "C56",
   "status": "partial",
   "theorems": [
    "HS.DevMgr.C56_found_partial",
    "HS.DevMgr.C56_replaced_first_violated",
    "HS.DevMgr.C56_journal_forgotten_violated"
   ],
   "note": "Histories in which a committed device is never replaced and listed first, or without a vdev of dynamic size; false for the journal when the first-listed device is replaced."
  },
  {
   "property": "C57",
   "status": "proved",
   "theorems": [
    "HS.Append.C57_freed_count"
   ],
   "note": "All histories; the counter is 32 bits wide and the statement is modulo 2^32."
  },
  {
   "property": "C58",
   "status": "partial",
   "theorems": [
    "HS.Cp.C58_quiescent_partial",
    "HS.Cp.C58_terminates_partial",
    "HS.Cp.C58_completes_partial"
   ],
   "note": "Quiet schedules (see C24). Termination of all internal schedules, state at rest, and existence of a completing schedule."
  },
  {
   "property": "C59",
   "status": "partial",
   "theorems": [
    "HS.RaftLog.C59_raft_log_partial",
    "HS.RaftLog.C59_log_entries_compacted_violated",
    "HS.RaftLog.C59_log_entries_unflushed_violated",
    "HS.RaftLog.C59_compacted_entry_violated",
    "HS.RaftLog.C59_write_at_unflushed_violated",
    "HS.RaftLog.C59_durable_hint_violated"
   ],
   "note": "All histories of supported calls (RaftLog.Legal) and crashes. False for ranges below the start or beyond the durable part, for compacted entries still cached, for overwriting an unflushed entry, for a durable hint beyond the end (five witnesses)."
  },
  {
   "property": "C60",
   "status": "partial",
   "theorems": [
    "HS.RaftLog.C60_durable_index_partial",
    "HS.RaftLog.C60_flushed_partial",
    "HS.RaftLog.C60_torn_write_at_partial",
    "HS.RaftLog.C60_compact_limit"
   ],
   "note": "All histories of supported calls (RaftLog.Legal) and crashes."
  },
  {
   "property": "C61",
   "status": "partial",
   "theorems": [
    "HS.RaftLog.C61_pack_apply_partial",
    "HS.RaftLog.C61_apply_over_violated",
    "HS.RaftLog.C61_apply_gap_violated",
    "HS.RaftLog.C61_short_pack_violated"
   ],
   "note": "Packs of durable entries applied at the end of the other log; false elsewhere (three witnesses)."
  },
  {
   "property": "C62",
   "status": "partial",
   "theorems": [
    "HS.Repl.C62_solo_entry_roundtrip_partial",
    "HS.Repl.C62_solo_multi_piece_violated",
    "HS.Repl.C62_raft_entry_roundtrip_partial",
    "HS.Repl.C62_raft_two_ids_violated",
    "HS.Repl.C62_localize_roundtrip_partial",
    "HS.Repl.C62_localize_smaller_violated",
    "HS.Repl.C62_localize_larger_violated"
   ],
   "note": "Ids of one run (single copy), at most one id (Raft), ids of equal size (follower); false otherwise (four witnesses, two of them general)."
  },
  {
   "property": "C63",
   "status": "partial",
   "theorems": [
    "HS.Repl.Solo.C63_solo_recovery_partial",
    "HS.Repl.Solo.C63_solo_replay_order",
    "HS.Repl.Solo.C63_first_write_lost_violated",
    "HS.Repl.Solo.C63_commit_during_checkpoint_violated",
    "HS.Repl.Solo.C63_never_delivered_violated"
   ],
   "note": "Histories in which commits and checkpoint flushes do not overlap, and without a crash before the first checkpoint for the first write; false otherwise (three witnesses)."
  },
  {
   "property": "C64",
   "status": "proved",
   "theorems": [
    "HS.Repl.Solo.C64_solo_journal_retention"
   ],
   "note": "All histories."
  },
  {
   "property": "C65",
   "status": "partial",
   "theorems": [
    "HS.Repl.Raft.C65_raft_recovery_partial",
    "HS.Repl.Raft.C65_saved_commit_monotone_partial",
    "HS.Repl.Raft.C65_raft_replay_order",
    "HS.Repl.Raft.C65_timer_checkpoint_race_violated",
    "HS.Repl.Raft.C65_checkpoint_recorded"
   ],
   "note": "Histories in which the timer's save of the commit number and a checkpoint's superblock write do not cross; false when they do (C65_timer_checkpoint_race_violated). Snapshots and membership changes are not modelled."
  },
  {
   "property": "C66",
   "status": "partial",
   "theorems": [
    "HS.Repl.Raft.C66_truncation_safe_partial",
    "HS.Repl.Raft.C66_race_violated",
    "HS.Repl.Raft.C66_compaction_reaches_boundary"
   ],
   "note": "The histories of C65."
  },
  {
   "property": "C67",
   "status": "partial",
   "theorems": [
    "HS.Index.Flush.C67_flush_order_partial",
    "HS.Index.Flush.C67_flush_progress_partial",
    "HS.Index.Flush.C67_two_fibers_violated"
   ],
   "note": "One flush fiber (the default); false for two (C67_two_fibers_violated). Contents of nodes are left out."
  },
  {
   "property": "C68",
   "status": "partial",
   "theorems": [
    "HS.Index.Link.C68_history_flushes_partial",
    "HS.Index.Link.C68_order_partial",
    "HS.Index.Link.C68_failed_root_split_violated",
    "HS.Index.Link.C68_collapse_order_violated"
   ],
   "note": "All histories without a root split that fails half way (the checkpoint then hangs, C68_failed_root_split_violated); for a root collapse only if the child took part in no other change of the checkpoint (false otherwise, C68_collapse_order_violated). Operations of one checkpoint are executed one after the other."
  },
  {
   "property": "C69",
   "status": "partial",
   "theorems": [
    "HS.Index.Cow.C69_read_partial",
    "HS.Index.Cow.C69_checkpoint_partial",
    "HS.Index.Cow.C69_progress_partial",
    "HS.Index.Cow.C69_touch_evict_violated"
   ],
   "note": "Histories in which a node is not evicted while an older copy of it is still to be written; false otherwise (C69_touch_evict_violated). One node; a node in use by an operation is not evicted."
  },
  {
   "property": "C70",
   "status": "proved",
   "theorems": [
    "HS.Index.Journal.C70_round_trip"
   ],
   "note": "All journals up to 2^30 bytes with changes of at most 255 nodes."
  },
  {
   "property": "C71",
   "status": "partial",
   "theorems": [
    "HS.Index.Space.C71_no_double_use_partial",
    "HS.Index.Space.C71_no_leak_partial",
    "HS.Index.Space.C71_second_crash_violated",
    "HS.Index.Space.C71_leak_violated",
    "HS.Index.Space.C71_next_leak_violated",
    "HS.Index.Space.C71_recovery_leak_violated"
   ],
   "note": "No double use: histories without a crash between a recovery and the next writing of the bitmap. No loss: histories without a crash. Both false otherwise (four witnesses)."
  },
  {
   "property": "C72",
   "status": "partial",
   "theorems": [
    "HS.Fixed.Race.C72_concurrent_free_partial",
    "HS.Fixed.Race.C72_commit_aborts_violated",
    "HS.Fixed.Race.C72_bit_lost_violated"
   ],
   "note": "Interleavings in which no allocation takes a block whose free is still running; false otherwise (two witnesses)."
  },
  {
   "property": "C73",
   "status": "partial",
   "theorems": [
    "HS.Index.Root.C73_superblock_root_partial",
    "HS.Index.Root.C73_late_root_violated",
    "HS.Index.Root.C73_recovery_crash_violated",
    "HS.Index.Root.C73_old_root_again_violated",
    "HS.Index.Root.C73_lost_root_violated"
   ],
   "note": "Histories without the steps excluded by Root.Good: a root change of the next checkpoint during a flush (table 0), a second root change in the checkpoint of a recovery that changed it, a crash between recovery's superblock write and the root, the repair of a node under the superblock that is no longer the root. False in each case (four witnesses)."
  },
  {
   "property": "C74",
   "status": "partial",
   "theorems": [
    "HS.Index.Recover.C74_new_leaf_emptied_violated",
    "HS.Index.Recover.C74_split_leaf_emptied_violated",
    "HS.Index.Recover.C74_recover_partial",
    "HS.Index.Recover.C74_all_written_partial",
    "HS.Index.Recover.C74_repair_partial"
   ],
   "note": "repair_links and the whole of recover (reading the journal, three passes, sanity check) for splits and merges of leaves under one node, which has room for all new leaves; merging a leaf that was itself changed before in the checkpoint is covered only for a leaf made in it from the same old leaf; no leaf that was split or made is empty (false otherwise: the process aborts at every start, two witnesses)."
  },
  {
   "property": "C75",
   "status": "partial",
   "theorems": [
    "HS.Index.Recover.C75_leaf_not_written_partial",
    "HS.Index.Recover.C75_interior_not_written_partial",
    "HS.Index.Recover.C75_superblock_written_partial",
    "HS.Index.Recover.C75_root_block_violated",
    "HS.Index.Recover.C75_leaf_keys_lost_violated",
    "HS.Index.Recover.C75_interior_abort_violated"
   ],
   "note": "The whole of recover for the journal of one root split. Old root not on disk after the split: proved for leaf roots and for roots above leaves. Superblock written: proved that nothing changes, but the block of the new root is not marked as used (violated). Old root and its other half written, superblock not: violated, the keys in the other half are lost (leaf) or the process aborts at every start (interior)."
  },
  {
   "property": "C76",
   "status": "partial",
   "theorems": [
    "HS.Varlen.C76_large_node_violated",
    "HS.Varlen.C76_move_all_count_violated",
    "HS.Varlen.C76_split_nothing_violated",
    "HS.Varlen.C76_history_partial",
    "HS.Varlen.C76_results_partial",
    "HS.Varlen.C76_room_partial"
   ],
   "note": "The node's data area byte by byte, in nodes below 16 KiB: every history on any number of nodes equals the history on lists, including when an operation cannot be done; results and free space; has_room_for_put. Larger nodes lose entries (14-bit offsets), moving all entries reports one less, and a node whose last entry is larger than half of it cannot be split: the process aborts. Generation numbers and next pointers are left out."
  },
  {
   "property": "C77",
   "status": "partial",
   "theorems": [
    "HS.Prefix.C77_update_leaks_violated",
    "HS.Prefix.C77_remove_range_violated",
    "HS.Prefix.C77_range_update_skips_violated",
    "HS.Prefix.C77_shifted_put_violated",
    "HS.Prefix.C77_merge_destroys_violated",
    "HS.Prefix.C77_copy_short_violated",
    "HS.Prefix.C77_bits_violated",
    "HS.Prefix.C77_entries_by_size",
    "HS.Prefix.C77_history_partial",
    "HS.Prefix.C77_no_corruption_partial",
    "HS.Prefix.C77_split_moves_partial"
   ],
   "note": "Histories in which puts are made when the node reports room and range updates name keys that are there: as long as no operation destroys a node, results and contents are those of lists; under further conditions (Safe) none does. False otherwise: updates leak prefix slots, range updates skip keys, range puts with shifted values and merges into nodes with holes let the areas overlap, the bitset may be too small for the slots, removal of an index range removes the wrong entries (seven witnesses). Leaf nodes; 16-bit counters are unbounded."
  },
  {
   "property": "C78",
   "status": "partial",
   "theorems": [
    "HS.Repl.Data.C78_late_fetch_violated",
    "HS.Repl.Data.C78_timeout_race_violated",
    "HS.Repl.Data.C78_timeout_abort_violated",
    "HS.Repl.Data.C78_gc_committed_violated",
    "HS.Repl.Data.C78_gc_committed_overwritten_violated",
    "HS.Repl.Data.C78_rollback_committed_violated",
    "HS.Repl.Data.C78_clear_durable_violated",
    "HS.Repl.Data.C78_free_shared_violated",
    "HS.Repl.Data.C78_durable_data_violated",
    "HS.Repl.Data.C78_durable_data_partial",
    "HS.Repl.Data.C78_commit_partial",
    "HS.Repl.Data.C78_no_abort_partial"
   ],
   "note": "Histories in which Fair holds at each step; every other condition of Fair has a witness of data lost without it (late fetch response, data between timeout and handle_error, garbage collection, rollback and free of a block that the listener shares, clear_chunk_req), and one of an abort. One block per write; NuRaft's part is a contract."
  },
  {
   "property": "C79",
   "status": "partial",
   "theorems": [
    "HS.Repl.Data.C79_double_free_violated",
    "HS.Repl.Data.C79_clear_reject_violated",
    "HS.Repl.Data.C79_no_leak_partial",
    "HS.Repl.Data.C79_idle_partial",
    "HS.Repl.Data.C79_exclusive_partial",
    "HS.Repl.Data.C79_committed_kept_partial"
   ],
   "note": "Histories in which Fair holds at each step; two witnesses of double frees otherwise. One block per write."
  },
  {
   "property": "C80",
   "status": "proved",
   "theorems": [
    "HS.Conc.C80_concurrent_calls_linearizable",
    "HS.Conc.C80_quiet_tree"
   ],
   "note": "Single-key calls; whether, where and how nodes are split and merged is free. Steps are what a thread does between two waits for a lock. Node reads and transact_nodes succeed; filters, range calls and queries are left out."
  },
  {
   "property": "C81",
   "status": "partial",
   "theorems": [
    "HS.Conc.C81_some_call_goes_on_partial",
    "HS.Conc.C81_some_call_goes_on_violated"
   ],
   "note": "Holds if no checkpoint is begun or no remove is called; false otherwise: a remove that gets cp_mismatch for a root leaf jumps behind the release of the tree lock, and a later root split or collapse waits for ever (witness, and proof that no continuation helps)."
  },
  {
   "property": "C82",
   "status": "partial",
   "theorems": [
    "HS.Member.C82_quorum_of_a_call_partial",
    "HS.Member.C82_quorum_restored_partial",
    "HS.Member.C82_quorum_in_force_partial",
    "HS.Member.C82_flip_keeps_quorum_violated",
    "HS.Member.C82_replace_again_keeps_quorum_violated",
    "HS.Member.C82_refused_keeps_quorum_violated",
    "HS.Member.C82_reaper_resets_quorum_violated"
   ],
   "note": "Proved: an override is always that of a call in progress on the node, or of one that returned by one of three paths (replace with NOT_LEADER after setting it, as the code's comment intends; replace with OK because there was nothing to do; flip with OK); otherwise the majority is restored; a call alone on its node keeps its override. Refuted for these paths, and for a call during which the reaper resets the quorum."
  },
  {
   "property": "C83",
   "status": "partial",
   "theorems": [
    "HS.Member.C83_task_is_open_task_partial",
    "HS.Member.C83_nodes_agree_partial",
    "HS.Member.C83_status_partial",
    "HS.Member.C83_checks_partial",
    "HS.Member.C83_long_id_violated",
    "HS.Member.C83_long_id_stuck_violated",
    "HS.Member.C83_empty_id_violated",
    "HS.Member.C83_snapshot_violated"
   ],
   "note": "Holds for nodes that never got a snapshot and ids of 1 to 63 characters without NUL, over all histories, leader changes and restarts. Refuted for longer ids (status, retry and cleaning give TASK_MISMATCH for ever), for the empty id (never cleared), and after snapshots (the record is not transferred)."
  },
  {
   "property": "C84",
   "status": "partial",
   "theorems": [
    "HS.Member.C84_replacement_partial",
    "HS.Member.C84_two_replacements_violated",
    "HS.Member.C84_snapshot_removes_member_violated",
    "HS.Member.C84_cleaned_then_removed_violated"
   ],
   "note": "Holds for any history in which the only changes asked for are replacements of this member by this one, and cleanings. Refuted: two replacements that both pass the check before either start is applied; a stale record after a snapshot makes the reaper remove a member nobody asked to remove; a replacement that was cleaned with success is still carried out."
  },
  {
   "property": "C85",
   "status": "partial",
   "theorems": [
    "HS.Member.C85_effect_seen_partial",
    "HS.Member.C85_flip_to_voter_checks_the_opposite_violated",
    "HS.Member.C85_flip_to_voter_lost_violated",
    "HS.Member.C85_flip_to_voter_never_verified_violated",
    "HS.Member.C85_flip_null_violated"
   ],
   "note": "Holds for removals, completions, replacements, and flips to learner. Refuted for flips to voter: the check looks for the learner flag whatever was asked, so it returns OK for a change that is lost, and never succeeds once the change has happened; a member removed meanwhile is a null dereference."
  },
  {
   "property": "C86",
   "status": "partial",
   "theorems": [
    "HS.Scan.C86_query_answers_partial",
    "HS.Scan.C86_calls_linearizable",
    "HS.Scan.C86_pages_partial",
    "HS.Scan.C86_filter_violated",
    "HS.Scan.C86_unreadable_violated",
    "HS.Scan.C86_snapshot_violated"
   ],
   "note": "Holds for both kinds of query, beside gets, puts and removes with splits, merges and root changes; also page after page. Refuted: with a filter, a leaf with more entries in the range than wanted returns too few and the answer says success; a traversal that cannot read a node goes on in the next subtree and says success; an answer is not a picture of one moment."
  },
  {
   "property": "C87",
   "status": "partial",
   "theorems": [
    "HS.Scan.C87_some_call_or_query_goes_on_partial",
    "HS.Scan.C87_some_call_or_query_goes_on_violated"
   ],
   "note": "Holds if no checkpoint is begun or no remove is called: what is awaited lies below or to the right of what is held, for sweeps, traversals and merges. False otherwise, as C81: the lock leaked by a remove makes a root split wait for ever, whatever queries do."
  },
  {
   "property": "C88",
   "status": "partial",
   "theorems": [
    "HS.Snap.C88_nothing_missed_partial",
    "HS.Snap.C88_on_commit_in_order_partial",
    "HS.Snap.C88_completed_survives_partial",
    "HS.Snap.C88_retry_completes_partial",
    "HS.Snap.C88_abandoned_violated",
    "HS.Snap.C88_commit_passed_over_violated",
    "HS.Snap.C88_older_snapshot_violated"
   ],
   "note": "Holds for histories in which an announced snapshot is followed, before later entries, by a transfer that completes, numbers of snapshots do not decrease, and the timer and the checkpoint do not cross (C65). False otherwise: the number of the snapshot is saved when its first message arrives, so after an abandoned transfer committed entries up to it are passed over for ever; an older snapshot leads to a null request."
  },
  {
   "property": "C89",
   "status": "proved",
   "theorems": [
    "HS.Pool.C89_each_chunk_in_one_place",
    "HS.Pool.C89_no_chunk_twice"
   ],
   "note": ""
  },
  {
   "property": "C90",
   "status": "partial",
   "theorems": [
    "HS.Pool.C90_never_stuck_partial",
    "HS.Pool.C90_every_call_returns_partial",
    "HS.Pool.C90_one_call_more_violated",
    "HS.Pool.C90_default_capacity_violated",
    "HS.Pool.C90_stuck_for_good_violated"
   ],
   "note": "Holds, with a bound on the steps, for histories in which never more calls than half the capacity of the pool are in progress at the same time. False with one call more, for every capacity: the pool's thread and the calls wait on one condition variable and notify_one may wake the wrong one. With the default capacity 5, three journals are enough."
  },
  {
   "property": "C91",
   "status": "partial",
   "theorems": [
    "HS.Life.C91_removed_for_good",
    "HS.Life.C91_removal_not_undone",
    "HS.Life.C91_collected_partial",
    "HS.Life.C91_application_told_partial",
    "HS.Life.C91_application_not_told_violated",
    "HS.Life.C91_failure_in_collection_violated",
    "HS.Life.C91_checkpoint_beside_collection_violated"
   ],
   "note": "That the group does not come back, and that nothing of it is on disk after the next start, is proved of all histories. That the collector completes and the application is told is proved of fair histories (no crash with the group half on disk, no call to remove a removed group, no checkpoint that races with the removal of the superblock, no crash between the record and the collection). False otherwise, with witnesses: the application is never told if the machine fails before the collection; a crash between the two blocks of the log device makes every later start fail; a checkpoint may follow a null pointer."
  },
  {
   "property": "C92",
   "status": "partial",
   "theorems": [
    "HS.Life.C92_start_finds_whole_or_nothing_partial",
    "HS.Life.C92_never_dies_partial",
    "HS.Life.C92_running_whole_or_nothing_partial",
    "HS.Life.C92_failure_between_log_blocks_violated",
    "HS.Life.C92_failure_before_configuration_violated"
   ],
   "note": "Proved of fair histories (see C91). False otherwise: a crash between the two blocks of the log device, or between the superblock and the Raft configuration of the group, makes every later start of the member fail."
  },
  {
   "property": "C93",
   "status": "partial",
   "theorems": [
    "HS.Life.C93_writes_only_before_removal_partial",
    "HS.Life.C93_refused_call_changes_nothing_partial",
    "HS.Life.C93_call_gets_its_future_partial",
    "HS.Life.C93_refused_call_revives_violated",
    "HS.Life.C93_overlapping_call_revives_violated",
    "HS.Life.C93_failed_call_locks_violated",
    "HS.Life.C93_second_removal_violated"
   ],
   "note": "Proved of fair histories (see C91). False otherwise: a refused call revives a removed group; a call that fails because of quiescing leaves the group without writes; a second removal ends the process."
  },
  {
   "property": "C94",
   "status": "partial",
   "theorems": [
    "HS.Pipe.C94_callback_once",
    "HS.Pipe.C94_found_as_given",
    "HS.Pipe.C94_found_once",
    "HS.Pipe.C94_acknowledged_survives_partial",
    "HS.Pipe.C94_failed_write_violated"
   ],
   "note": "Callbacks at most once, records as given and once: proved of every history. Survival of acknowledged appends: proved of histories without failed writes; false with them: records after the hole of a failed write are acknowledged and never found."
  },
  {
   "property": "C95",
   "status": "proved",
   "theorems": [
    "HS.Pipe.C95_earlier_appends_survive",
    "HS.Pipe.C95_found_stays"
   ],
   "note": "Proved of every history with crashes and failed writes."
  },
  {
   "property": "C96",
   "status": "partial",
   "theorems": [
    "HS.Pipe.C96_write_and_flush_partial",
    "HS.Pipe.C96_flush_partial",
    "HS.Pipe.C96_unfiled_neighbour_violated",
    "HS.Pipe.C96_unfiled_neighbour_flush_violated",
    "HS.Pipe.C96_failed_write_violated"
   ],
   "note": "Proved when no write fails and no append with a lower index is between taking its index and creating its record at the time records are collected. False otherwise: flush finds a hole, returns false, and the callers ignore it."
  },
  {
   "property": "C97",
   "status": "partial",
   "theorems": [
    "HS.Pipe.C97_start_reads_partial",
    "HS.Pipe.C97_start_stops_violated",
    "HS.Pipe.C97_never_stops_partial",
    "HS.Pipe.C97_quiet_flush_partial",
    "HS.Pipe.C97_failed_write_stops_violated",
    "HS.Pipe.C97_failed_write_stays_violated"
   ],
   "note": "Proved when no write fails. False with failed writes: the sizes of the records are subtracted twice and the process stops itself (or, with fault containment, flushes nothing any more); a write reported as failed that is on disk makes every later start stop once the log has another chunk."
  },
  {
   "property": "C98",
   "status": "partial",
   "theorems": [
    "HS.Stop.C98_not_touched_after_stop_partial",
    "HS.Stop.C98_reaper_counts_first",
    "HS.Stop.C98_not_touched_after_stop_violated",
    "HS.Stop.C98_read_completion_violated",
    "HS.Stop.C98_write_issue_violated",
    "HS.Stop.C98_free_violated",
    "HS.Stop.C98_let_in_after_stop_violated"
   ],
   "note": "Proved for the calls that are counted while they touch an object, in histories in which no stop begins while a call is between looking at the flag and counting itself; without that condition for the group reaper, which counts first. False in that window, and for reads, one-piece writes and frees of the data service, queries of index tables and writes of replication devices without peers, which are not counted or not refused."
  },
  {
   "property": "C99",
   "status": "partial",
   "theorems": [
    "HS.Stop.C99_counts_stay_right",
    "HS.Stop.C99_stops_return_partial",
    "HS.Stop.C99_journal_partial",
    "HS.Stop.C99_lost_count_blocks_stop",
    "HS.Stop.C99_stops_return_violated",
    "HS.Stop.C99_journal_violated"
   ],
   "note": "Counts never go below zero: proved of all calls. Stops return: proved of all histories of the calls that give back what they take (journal writes without peers: as long as the services below are not stopping). False after write_and_flush on a thread that cannot block, destroy_log_dev / remove_log_store of a device that is not there, a failed read of the log, a replicated write of the wrong size, and a journal write that is refused: no stop of the object ever returns."
  },
  {
   "property": "C100",
   "status": "partial",
   "theorems": [
    "HS.Fetch.C100_data_on_disk_partial",
    "HS.Fetch.C100_elsewhere_untouched_partial",
    "HS.Fetch.C100_fetch_brings_data",
    "HS.Fetch.C100_push",
    "HS.Fetch.C100_reused_violated",
    "HS.Fetch.C100_ragged_violated",
    "HS.Fetch.C100_large_violated"
   ],
   "note": "Proved of all histories for requests that keep their blocks, of at most 65535 blocks and 4 GB, that fill their blocks, with an originator whose blocks hold the data when they are read. False of larger requests (the answer is empty), of data that does not fill the blocks with several local pieces (reads past the buffer) and of blocks that were used again. Not part of the model: requests that fail (C78), flatbuffers (a pair of functions with dec (enc h) = h)."
  },
  {
   "property": "C101",
   "status": "partial",
   "theorems": [
    "HS.Fetch.C101_batches",
    "HS.Fetch.C101_one_server",
    "HS.Fetch.C101_only_missing_violated"
   ],
   "note": "Proved in full but for 'no other': a write whose data has come in the meantime is asked for again, because the test compares the whole state with one flag. Requests of several servers in one call end the process (C101_one_server)."
  },
  {
   "property": "C102",
   "status": "partial",
   "theorems": [
    "HS.Lock.C102_no_deadlock_partial",
    "HS.Lock.C102_calls_finish_partial",
    "HS.Lock.C102_nothing_held",
    "HS.Lock.C102_violated_list_truncate_create",
    "HS.Lock.C102_violated_stop_open",
    "HS.Lock.C102_violated_callback_flush",
    "HS.Lock.C102_violated_callback_flush_stop",
    "HS.Lock.C102_violated_callback_lookup"
   ],
   "note": "Proved, with termination, of all schedules of all these calls when callbacks only append and no device is stopped, destroyed or listed beside calls that create, open or remove its stores. False otherwise, with five witnesses: listing beside truncation and creation; stop beside open; callbacks that flush (synchronous ones wait for themselves, asynchronous ones for a stop); callbacks that look up a device while one is destroyed."
  },
  {
   "property": "C103",
   "status": "partial",
   "theorems": [
    "HS.Quiesce.C103_quiesced_partial",
    "HS.Quiesce.C103_returns",
    "HS.Quiesce.C103_requests_end",
    "HS.Quiesce.C103_store_delayed_violated"
   ],
   "note": "Proved with store buffers (as on x86) for all threads and schedules if the store to the flag is in memory when the counter is last read; quiesce_reqs does not ensure that (release store, acquire load), and the witness gives a request blocks after it has returned. Missing: that requests initialized without init_req_ctx (remove_member, clean_replace_member_task) have no data is taken from the code."
  },
  {
   "property": "C104",
   "status": "partial",
   "theorems": [
    "HS.Quiesce.Latch.C104_told",
    "HS.Quiesce.Latch.C104_latched",
    "HS.Quiesce.Latch.C104_control_aborts_violated",
    "HS.Quiesce.Latch.C104_remove_member_aborts_violated",
    "HS.Quiesce.Latch.C104_write_cleared_aborts_violated",
    "HS.Quiesce.Latch.C104_latch_reset_aborts_violated",
    "HS.Quiesce.Latch.C104_no_abort_partial"
   ],
   "note": "The latch proved without conditions on the application. No abort proved if requests are cleared only after on_no_space_left with no rollback or change of leader since, when the entries before are committed, with no own proposal on the chunk or control request on its way. Four witnesses of aborts otherwise: control request, remove_member, a leader's cleared write, and the case the latch is for after become_leader. Requests collected as garbage are not modelled."
  },
  {
   "property": "C105",
   "status": "partial",
   "theorems": [
    "HS.Quiesce.Latch.C105_commit_keeps_blocks_partial",
    "HS.Quiesce.Latch.C105_cleared_partial",
    "HS.Quiesce.Latch.C105_commits_freed_blocks_violated",
    "HS.Quiesce.Latch.C105_clear_misses_write_violated"
   ],
   "note": "Proved if all entries of the log are committed when requests are cleared, and no write is between allocating blocks and the map. False otherwise: an uncommitted entry at the lsn without space is committed with freed blocks; a write being started is missed."
  },
  {
   "property": "C106",
   "status": "partial",
   "theorems": [
    "HS.Ready.C106_no_abort",
    "HS.Ready.C106_ready_partial",
    "HS.Ready.C106_becomes_ready",
    "HS.Ready.C106_early_violated"
   ],
   "note": "Proved for calls made after raft's callback with no change of role before the answer, and that the check of the gate never fails. False between raft's change of role and the callback: the gate is still 0 (witness). Raft's order of role change, callback, appends and truncations is a contract."
  },
  {
   "property": "C107",
   "status": "partial",
   "theorems": [
    "HS.DevMgr.C107_nothing_partial",
    "HS.DevMgr.C107_all_partial",
    "HS.DevMgr.C107_one_device",
    "HS.DevMgr.C107_half_violated"
   ],
   "note": "Proved for one device, and for several if the interruption comes before the first device is marked or after the last. False in between: the next start is not a first one but formats the devices not marked again, under new ids (witness)."
  },
  {
   "property": "C108",
   "status": "partial",
   "theorems": [
    "HS.Reserve.C108_reserve_partial",
    "HS.Reserve.C108_reclaims",
    "HS.Reserve.C108_lost_lead_violated",
    "HS.Reserve.C108_after_snapshot_violated",
    "HS.Reserve.C108_new_member_violated"
   ],
   "note": "Proved for members that stay in the group, logs cut only to the leaders' boundaries, and leaders that still lead when they read their peers' status; what is reclaimed is proved without these. False otherwise: a leader that loses and regains the lead proposes its own commit index; a member that got a snapshot lacks the entries before it; new members do not find the first entries. Raft is a contract: what a member acknowledged stays."
  },
  {
   "property": "C109",
   "status": "partial",
   "theorems": [
    "HS.Vote.C109_saved_partial",
    "HS.Vote.C109_one_vote_partial",
    "HS.Vote.C109_legacy",
    "HS.Vote.C109_new_member",
    "HS.Vote.C109_missing_field_violated",
    "HS.Vote.C109_config_round_trip",
    "HS.Vote.C109_undecodable_violated",
    "HS.Vote.C109_rollback_violated"
   ],
   "note": "Proved for superblocks that can be read, with NuRaft's codec and its rule of voting as contracts and the write of a superblock atomic (C20). False otherwise: a state of an older version that lacks a field makes the start throw, where the code means to take the default; a state that NuRaft cannot deserialize is replaced by the default, and the vote is forgotten; so it is when an older version has run in between, whose state is not read. Saves after permanent_destroy are not modelled."
  },
  {
   "property": "C110",
   "status": "partial",
   "theorems": [
    "HS.Spread.C110_at_most_partial",
    "HS.Spread.C110_close_partial",
    "HS.Spread.C110_added",
    "HS.Spread.C110_even_partial",
    "HS.Spread.C110_equal_devices_violated",
    "HS.Spread.C110_missing_violated",
    "HS.Spread.C110_uneven_violated"
   ],
   "note": "Proved with the rounding of 32-bit floats modelled exactly: never more than asked for or than fits, no abort, at most one chunk per device missing, and none on one, two, four, ... equal devices that share the number evenly. False in full: three equal devices of 64 GiB and 4 KiB get no chunk of three; with sizes that do not divide evenly chunks are missing too. The recorded size of the virtual device is that of all the chunks."
  },
  {
   "property": "C111",
   "status": "partial",
   "theorems": [
    "HS.Format.C111_formats_partial",
    "HS.Format.C111_refused_partial",
    "HS.Format.C111_hundred_violated",
    "HS.Format.C111_no_fast_violated",
    "HS.Format.C111_small_violated",
    "HS.Format.C111_tiny_violated",
    "HS.Format.C111_third_lost_violated",
    "HS.Format.C111_none_violated"
   ],
   "note": "Proved for systems of at most 1 TiB with at most 99.75 percent asked for on the devices (on all devices together if there are no fast ones), 410 pages of room for each service and sane parameters; and exactly when it is refused. False in full: a hundred percent can fail because sizes are rounded up to pages; without fast devices the sums are not checked together; services with less than one percent on each type are refused as none; a service smaller than the smallest chunk divides by zero; chunks (a third of a small service, or all) are missing after the spreading."
  },
  {
   "property": "C112",
   "status": "partial",
   "theorems": [
    "HS.Member.C112_check_partial",
    "HS.Member.C112_stays_partial",
    "HS.Member.C112_learner_counts_violated"
   ],
   "note": "Proved if all members that are up to date have a vote: the check passes exactly if the leader and those that neither leave nor come are a majority, and then they are one in every configuration of the replacement. False in full: learners that are up to date are counted too, though they have no vote. Whether a member answers at all is not checked (a TODO in the code); up to date means its index is not too far behind."
  },
  {
   "property": "C113",
   "status": "partial",
   "theorems": [
    "HS.Dirty.C113_counter_partial",
    "HS.Dirty.C113_asked_partial",
    "HS.Dirty.C113_bound_partial",
    "HS.Dirty.C113_unbounded_violated",
    "HS.Dirty.C113_left_over_violated"
   ],
   "note": "Proved over the model of the checkpoint manager, for the schedules of C24 and with the index service taking part in every checkpoint: the counter is exact; a change that goes over the limit asks for a checkpoint, can do so, and then one is in progress; when none is, the memory is within the limit or at most what was dirtied during the last flush. False in full: during a flush nothing bounds it, and what a flush leaves over the limit asks for none."
  },
  {
   "property": "C114",
   "status": "partial",
   "theorems": [
    "HS.Drop.C114_frees_all_partial",
    "HS.Drop.C114_frees_only",
    "HS.Drop.C114_read_fails_violated",
    "HS.Drop.C114_root_read_fails_violated",
    "HS.Drop.C114_whole_or_gone_partial",
    "HS.Drop.C114_space_partial",
    "HS.Drop.C114_no_use_after_partial",
    "HS.Drop.C114_skipped_violated",
    "HS.Drop.C114_between_violated",
    "HS.Drop.C114_leak_violated",
    "HS.Drop.C114_idle_violated",
    "HS.Drop.C114_meta_violated",
    "HS.Drop.C114_null_violated",
    "HS.Drop.C114_order_violated"
   ],
   "note": "Proved: without failing reads the traversal frees every node once, and whatever fails nothing else and none twice; whole or gone, and no use of the superblock after its end, if the index was taken off the service, no checkpoint is being flushed when the nodes begin to be freed and none completes before the superblock is removed; the blocks are free once the checkpoint is completed, if it has dirty buffers. False in full, with a witness for each condition, and for the blocks lost by a crash after the superblock is removed."
  },
  {
   "property": "C115",
   "status": "partial",
   "theorems": [
    "HS.Catalog.C115_found_partial",
    "HS.Catalog.C115_restart_partial",
    "HS.Catalog.C115_removed_partial",
    "HS.Catalog.C115_reuse_violated",
    "HS.Catalog.C115_given_violated",
    "HS.Catalog.C115_twice_violated",
    "HS.Catalog.C115_failed_violated",
    "HS.Catalog.C115_order_violated"
   ],
   "note": "Proved for proper use: fresh uuids, numbers that are free, no creation between the removal of an index and its destruction, removal before destruction. False in full, with a witness for each condition, and for a constructor that throws."
  },
  {
   "property": "C116",
   "status": "partial",
   "theorems": [
    "HS.Usage.C116_never_less",
    "HS.Usage.C116_exact_partial",
    "HS.Usage.C116_log_partial",
    "HS.Usage.C116_replay_violated",
    "HS.Usage.C116_log_violated",
    "HS.Usage.C116_index_violated",
    "HS.Usage.C116_index_sum_violated"
   ],
   "note": "Proved: never less than what is in use, in all histories; exact, with used and available adding up to the chunk, and the capacity of the data service the sum over its chunks, if recovery commits no block that is in use already. False in full: replayed commits are counted twice; the log service returns 32 bits; indexes report nothing."
  },
  {
   "property": "C117",
   "status": "partial",
   "theorems": [
    "HS.Reset.C117_bitmap_freed_partial",
    "HS.Reset.C117_bitmap_kept_partial",
    "HS.Reset.C117_bitmap_empty_partial",
    "HS.Reset.C117_bitmap_distinct_partial",
    "HS.Reset.C117_bitmap_safe_partial",
    "HS.Reset.C117_bitmap_back_violated",
    "HS.Reset.C117_bitmap_lost_violated",
    "HS.Reset.C117_bitmap_twice_violated",
    "HS.Reset.C117_bitmap_release_violated",
    "HS.Reset.C117_bitmap_restart_violated",
    "HS.Reset.C117_bitmap_window_violated",
    "HS.Reset.C117_bitmap_update_violated",
    "HS.Reset.C117_append_release_violated",
    "HS.Reset.C117_pointer_violated",
    "HS.Reset.C117_append_freed",
    "HS.Reset.C117_append_kept",
    "HS.Reset.C117_append_empty",
    "HS.Reset.C117_append_safe_partial",
    "HS.Reset.C117_append_distinct_partial"
   ],
   "note": "Proved for the append allocator: what counts as used after a restart and what is kept, for every schedule; no use of memory that is gone and no block given twice, if the I/O of the chunk is held back during a reset. Proved for the bitmap allocators if checkpoints are held back too, no release is waiting and no crash comes before the next checkpoint. False in full: see the witnesses."
  },
  {
   "property": "C118",
   "status": "partial",
   "theorems": [
    "HS.SoloSvc.C118_starts_partial",
    "HS.SoloSvc.C118_found_partial",
    "HS.SoloSvc.C118_gone_partial",
    "HS.SoloSvc.C118_whole_partial",
    "HS.SoloSvc.C118_clean_partial",
    "HS.SoloSvc.C118_exists_violated",
    "HS.SoloSvc.C118_create_violated",
    "HS.SoloSvc.C118_remove_violated",
    "HS.SoloSvc.C118_half_violated",
    "HS.SoloSvc.C118_checkpoint_violated",
    "HS.SoloSvc.C118_twice_violated",
    "HS.SoloSvc.C118_returns_violated",
    "HS.SoloSvc.C118_leak_violated",
    "HS.SoloSvc.C118_own",
    "HS.SoloSvc.C118_apart"
   ],
   "note": "Proved for any history: a journal holds only entries of its group and no two groups share one. The rest is proved of careful histories: no creation of a group that is there or being created, no two removals of one group at a time, no checkpoint in the last window of a removal, no failure in two windows (and for the last sentence not in a third). False in full: see the witnesses."
  },
  {
   "property": "C119",
   "status": "partial",
   "theorems": [
    "HS.Btree.C119_node_count",
    "HS.Btree.C119_count_keys",
    "HS.Btree.C119_count_keys_same_root_partial",
    "HS.Btree.C119_counters_partial",
    "HS.Btree.C119_recounted",
    "HS.Btree.C119_depth",
    "HS.Btree.C119_restart_ordinal_zero_partial",
    "HS.Btree.C119_same_calls",
    "HS.Btree.C119_restart_other_ordinal_violated",
    "HS.Btree.C119_restart_after_shutdown_violated",
    "HS.Btree.C119_counter_wraps_violated",
    "HS.Btree.C119_count_keys_root_split_violated"
   ],
   "note": "count_keys, compute_node_count and get_btree_depth are proved in full for quiet moments. get_num_nodes is proved for every history of single puts and removes in one run, after a recount in any run, and for the index with ordinal 0 after restarts if a shutdown's checkpoint follows an ordinary one. Range calls are not part of the counters' model. False in full: see the witnesses for other ordinals, shutdowns, counters that wrap, and count_keys beside a split of the root."
  },
  {
   "property": "C120",
   "status": "partial",
   "theorems": [
    "HS.MetaCheck.C120_accepts",
    "HS.MetaCheck.C120_sound",
    "HS.MetaCheck.C120_broken_link",
    "HS.MetaCheck.C120_broken_overflow",
    "HS.MetaCheck.C120_broken_record_violated",
    "HS.MetaCheck.C120_deregister_violated",
    "HS.MetaCheck.C120_links_only_violated",
    "HS.MetaCheck.C120_first_link_violated",
    "HS.MetaCheck.C120_empty_violated",
    "HS.MetaCheck.C120_content_violated"
   ],
   "note": "Proved of every history without deregistration and without the removal of the only record (as C20): the check accepts; what it accepts on any device has the records of the service with the same types, ids, order and links and with proper overflow headers; a damaged overflow header is rejected. False in full: a damaged record and a deregistered type end the process; contents, checksums, sizes and the first link on the device are not looked at, so that a store that does not start is accepted; so is a store whose only record was removed."
  },
  {
   "property": "C121",
   "status": "partial",
   "theorems": [
    "HS.SbObj.C121_stored",
    "HS.SbObj.C121_exact_partial",
    "HS.SbObj.C121_crash_partial",
    "HS.SbObj.C121_create",
    "HS.SbObj.C121_move_violated",
    "HS.SbObj.C121_orphan_stays",
    "HS.SbObj.C121_copy_violated",
    "HS.SbObj.C121_no_name_violated",
    "HS.SbObj.C121_json_revived_violated",
    "HS.SbObj.C121_json_unnamed_violated"
   ],
   "note": "What an object has stored is proved of every execution with the operations of C20. That the store holds nothing else, and the crash in a call, are proved if no object is moved onto one with a record. False in full: such a move leaves a record that no call ever touches again; copies of a json_superblk, objects without a registered name, and writes of a json_superblk after its destruction (which revive the record, or end the process after a restart). Names set later and shared buffers are not modelled."
  },
  {
   "property": "C122",
   "status": "partial",
   "theorems": [
    "HS.MultiWrite.C122_split_partial",
    "HS.MultiWrite.C122_service_split_partial",
    "HS.MultiWrite.C122_frame",
    "HS.MultiWrite.C122_refused_partial",
    "HS.MultiWrite.C122_refused_writes_violated",
    "HS.MultiWrite.C122_dropped_violated",
    "HS.MultiWrite.C122_unaligned_violated",
    "HS.MultiWrite.C122_service_short_violated",
    "HS.MultiWrite.C122_wrap_violated",
    "HS.MultiWrite.C122_no_ids_violated"
   ],
   "note": "Proved for ids of fewer than 65536 blocks and 4 GiB each: the split, for values that fill the ids, through both calls; the frame for every value; the replication device refuses exactly the values that are too short. False in full: a refused call has written the ids before, bytes beyond the ids are dropped, sizes that are no multiple of a block are refused on the ids allocated for them, the data service accepts short values, and ids of 65536 blocks or more are counted modulo 65536."
  },
  {
   "property": "C123",
   "status": "partial",
   "theorems": [
    "HS.Prio.C123_choice",
    "HS.Prio.C123_quiet",
    "HS.Prio.C123_never_lower_partial",
    "HS.Prio.C123_reached_partial",
    "HS.Prio.C123_stable_partial",
    "HS.Prio.C123_request",
    "HS.Prio.C123_tie_violated",
    "HS.Prio.C123_above_violated",
    "HS.Prio.C123_silent_violated",
    "HS.Prio.C123_unable_violated",
    "HS.Prio.C123_created",
    "HS.Prio.C123_zero_rounds_violated",
    "HS.Prio.C123_rounds"
   ],
   "note": "NuRaft is a contract. Proved: the choice of a leader for every status; which groups are quiet, exactly; that the priority of the leader never falls and that a sole highest stays, without priorities above 100; that a created group goes back to its creator for every setting but 0; the rounds of an election. False in full: ties at 100, setting 0, priorities above 100, highest priorities other than 100, and a highest member that does not answer or vote."
  },
  {
   "property": "C124",
   "status": "partial",
   "theorems": [
    "HS.Active.C124_active",
    "HS.Active.C124_majority_partial",
    "HS.Active.C124_refused",
    "HS.Active.C124_learner_violated",
    "HS.Active.C124_silent_violated",
    "HS.Active.C124_again_violated"
   ],
   "note": "NuRaft's status is a contract. Proved: who is active, exactly; when a replacement is refused, exactly; the majority at every stage of a first try without active learners. False in full: learners count, silent members count, and a repeated try may go on without a majority."
  },
  {
   "property": "C125",
   "status": "partial",
   "theorems": [
    "HS.Batch.C125_never_past",
    "HS.Batch.C125_prefix_partial",
    "HS.Batch.C125_stays",
    "HS.Batch.C125_recovers",
    "HS.Batch.C125_all",
    "HS.Batch.C125_latched_violated",
    "HS.Batch.C125_latched_reached",
    "HS.Batch.C125_late_violated"
   ],
   "note": "What NuRaft does with the hint is a contract taken from the comments in the code. Proved: what is taken, exactly; all entries before a refused one, within a bound, from any hint, as long as no latch was set before; the whole log and full batches afterwards. False in full: with the latch set, a hint that reaches beyond it is never lowered, so that after a change of leader the entries before the latch may never come; a late entry holds up those before it."
  },
  {
   "property": "C126",
   "status": "partial",
   "theorems": [
    "HS.Rr.C126_each_once",
    "HS.Rr.C126_refused_partial",
    "HS.Rr.C126_served_partial",
    "HS.Rr.C126_device_full_partial",
    "HS.Rr.C126_even",
    "HS.Rr.C126_threads_violated"
   ],
   "note": "Proved over the allocator model of C14 with the round-robin selector in place of an arbitrary one: each chunk is asked exactly once, in the state the allocation found it; the calls of one thread are even; with C42, a request that may be served in pieces and in part is refused only when no block of the device is free. Missing: scattered all-or-nothing requests (C14). False in full: the index belongs to the thread, so over many threads with few calls each the first chunks get everything."
  }
 ]
}