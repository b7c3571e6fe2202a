{
 "claims": [
  {
   "property": "C01",
   "status": "proved",
   "theorems": [
    "Verif.RowSet.C01_parts_roundtrip",
    "Verif.RowSet.C01_addr_roundtrip",
    "Verif.RowSet.C01_order",
    "Verif.RowSet.C01_address_range"
   ],
   "note": "All 64-bit addresses; the last fragment id has no address range (the code overflows there)."
  },
  {
   "property": "C02",
   "status": "partial",
   "theorems": [
    "Verif.RowSet.C02_violated",
    "Verif.RowSet.C02_empty_range_violated",
    "Verif.RowSet.C02_set_semantics_partial",
    "Verif.RowSet.C02_run_total",
    "Verif.RowSet.C02_union_exact",
    "Verif.RowSet.C02_union_all",
    "Verif.RowSet.C02_row_ids",
    "Verif.RowSet.C02_len"
   ],
   "note": "The full claim is false: `Partial |= Full` is a no-op and the range `..0` inserts row 0. Proved for every operation sequence without those two cases; union_exact characterises the first defect exactly."
  },
  {
   "property": "C03",
   "status": "proved",
   "theorems": [
    "Verif.RowSet.C03_roundtrip",
    "Verif.RowSet.C03_size",
    "Verif.RowSet.C03_truncated_header",
    "Verif.RowSet.C03_mask_roundtrip"
   ],
   "note": "For every row set and any bitmap codec that decodes its own output."
  },
  {
   "property": "C04",
   "status": "partial",
   "theorems": [
    "Verif.RowSet.C04_not_violated",
    "Verif.RowSet.C04_not_violated_both",
    "Verif.RowSet.C04_not_partial",
    "Verif.RowSet.C04_and_violated",
    "Verif.RowSet.C04_and_partial",
    "Verif.RowSet.C04_or_violated",
    "Verif.RowSet.C04_or_violated_all",
    "Verif.RowSet.C04_or_violated_both",
    "Verif.RowSet.C04_or_partial",
    "Verif.RowSet.C04_also_block",
    "Verif.RowSet.C04_also_allow",
    "Verif.RowSet.C04_selected_indices"
   ],
   "note": "The full claim is false for NOT (no list or both lists), AND (whole fragment blocked on the right) and OR (allow list with block list). Each operator is proved under the exact guard."
  },
  {
   "property": "C05",
   "status": "partial",
   "theorems": [
    "Verif.Deletion.C05_membership",
    "Verif.Deletion.C05_sorted_iter_len",
    "Verif.Deletion.C05_range_cardinality",
    "Verif.Deletion.C05_contains_range",
    "Verif.Deletion.C05_build_predicate",
    "Verif.Deletion.C05_eq_violated",
    "Verif.Deletion.C05_eq_partial"
   ],
   "note": "All extension histories with truthful size hints. Equality of deletion vectors is representation dependent (NoDeletions differs from an empty set)."
  },
  {
   "property": "C06",
   "status": "proved",
   "theorems": [
    "Verif.Deletion.C06_offset_mapper",
    "Verif.Deletion.C06_mapper_needs_order",
    "Verif.Deletion.C06_fragment_take",
    "Verif.Deletion.C06_take_without_deletions",
    "Verif.Deletion.C06_take_bound",
    "Verif.Deletion.C06_range_read"
   ],
   "note": "Offset mapper, fragment take and range reads agree with the n-th live row for every deletion set; the mapper terminates and does not panic."
  },
  {
   "property": "C07",
   "status": "proved",
   "theorems": [
    "Verif.Bits.C07_padding",
    "Verif.Bits.C07_padding_small",
    "Verif.Bits.C07_is_pwr_two",
    "Verif.Bits.C07_bit_width",
    "Verif.Bits.C07_bit_width_zero"
   ],
   "note": "All bit positions and widths."
  },
  {
   "property": "C08",
   "status": "proved",
   "theorems": [
    "Verif.RowIds.C08_encoded_roundtrip",
    "Verif.RowIds.C08_encoded_slice",
    "Verif.RowIds.C08_encoded_search",
    "Verif.RowIds.C08_encoded_search_insertion",
    "Verif.RowIds.C08_encoded_range"
   ],
   "note": "All lists of u64 values; the representation is chosen as in the code."
  },
  {
   "property": "C09",
   "status": "proved",
   "theorems": [
    "Verif.RowIds.C09_bitmap",
    "Verif.RowIds.C09_slice_copy",
    "Verif.RowIds.C09_from_bools"
   ],
   "note": "Every sequence of bit writes and every sub-range."
  },
  {
   "property": "C10",
   "status": "partial",
   "theorems": [
    "Verif.RowIds.Seg.C10_from_slice_violated",
    "Verif.RowIds.Seg.C10_from_slice_partial",
    "Verif.RowIds.Seg.C10_access",
    "Verif.RowIds.Seg.C10_delete",
    "Verif.RowIds.Seg.C10_mask",
    "Verif.RowIds.Seg.C10_bounds"
   ],
   "note": "The full claim fails only for ids of u64::MAX or a spread of 2^61 and more (overflow). All edits preserve the segment invariant."
  },
  {
   "property": "C11",
   "status": "partial",
   "theorems": [
    "Verif.RowIds.Seq.C11_segment_slice_violated",
    "Verif.RowIds.Seq.C11_segment_slice_partial",
    "Verif.RowIds.Seq.C11_bitmap_slice_partial",
    "Verif.RowIds.Seq.C11_slice",
    "Verif.RowIds.Seq.C11_get",
    "Verif.RowIds.Seq.C11_select",
    "Verif.RowIds.Seq.C11_rechunk_violated",
    "Verif.RowIds.Seq.C11_rechunk_empty_segment_violated",
    "Verif.RowIds.Seq.C11_rechunk_partial"
   ],
   "note": "Sequence slices, positional reads and selections hold for every sequence. Slicing a range-with-holes or bitmap segment is wrong in the code, so re-chunking is proved for ranges and arrays and refuted otherwise."
  },
  {
   "property": "C12",
   "status": "partial",
   "theorems": [
    "Verif.RowIds.Seq.C12_extend",
    "Verif.RowIds.Seq.C12_delete_violated",
    "Verif.RowIds.Seq.C12_delete_partial",
    "Verif.RowIds.Seq.C12_mask",
    "Verif.RowIds.Seq.C12_row_set_violated",
    "Verif.RowIds.Seq.C12_row_set_empty_violated",
    "Verif.RowIds.Seq.C12_row_set_partial"
   ],
   "note": "Extension and masking hold for every sequence; deletion is refuted for repeated ids and proved for distinct ones; the row set conversion is refuted for interleaved segments and proved otherwise."
  },
  {
   "property": "C13",
   "status": "partial",
   "theorems": [
    "Verif.RowIds.Index.C13_lookup_violated",
    "Verif.RowIds.Index.C13_lookup_partial",
    "Verif.RowIds.Index.C13_builds_iff"
   ],
   "note": "Lookup is exact whenever the index is built; the code refuses interleaved id ranges."
  },
  {
   "property": "C14",
   "status": "proved",
   "theorems": [
    "Verif.RowIds.Serde.C14_roundtrip",
    "Verif.RowIds.Serde.C14_injective",
    "Verif.RowIds.Serde.C14_wf_typed",
    "Verif.RowIds.Serde.C14_bytes"
   ],
   "note": "The conversions to and from the stored messages, including little-endian bytes; protobuf wire coding is trusted."
  },
  {
   "property": "C15",
   "status": "partial",
   "theorems": [
    "Verif.Txn.C15_unique_ids_partial",
    "Verif.Txn.C15_same_fragment_partial",
    "Verif.Txn.C15_restore_violated",
    "Verif.Txn.C15_overwrite_violated",
    "Verif.Txn.C15_zero_violated"
   ],
   "note": "Over all reachable histories of the writer system. Uniqueness within a version is proved for clean histories (no cleanup of the checked versions); reuse is excluded between versions without restore/overwrite in between and with a non-zero counter. Violated by restore, overwrite and the counter 0."
  },
  {
   "property": "C16",
   "status": "partial",
   "theorems": [
    "Verif.Txn.C16_distinct_partial",
    "Verif.Txn.C16_every_row_partial",
    "Verif.Txn.C16_never_reused_partial",
    "Verif.Txn.C16_stays_enabled_partial",
    "Verif.Txn.C16_restore_violated",
    "Verif.Txn.C16_delete_all_violated"
   ],
   "note": "Distinctness, presence and non-reuse proved over histories without restore in which stable ids stay enabled; violated by restore and by re-enabling after all fragments are gone."
  },
  {
   "property": "C17",
   "status": "partial",
   "theorems": [
    "Verif.Txn.C17_snapshot_partial",
    "Verif.Txn.C17_one_sees_the_other_partial",
    "Verif.Txn.C17_untouched_partial",
    "Verif.Txn.C17_delete_effect_partial",
    "Verif.Txn.C17_reported_partial",
    "Verif.Txn.C17_replacement_violated",
    "Verif.Txn.C17_cleanup_violated",
    "Verif.Txn.C17_reported_violated"
   ],
   "note": "Rows of touched fragments are unchanged between read and commit for delete/update/rewrite/merge; missing: DataReplacement, cleanup of checked versions, lost acknowledgements (violations proved)."
  },
  {
   "property": "C18",
   "status": "partial",
   "theorems": [
    "Verif.Txn.C18_update_semantics",
    "Verif.Txn.C18_value_kept",
    "Verif.Txn.C18_no_lost_update_partial",
    "Verif.Txn.C18_overwrite_violated"
   ],
   "note": "Value semantics and carried-over keys proved in full; no-lost-update proved except for keys upserted by Overwrite (violated)."
  },
  {
   "property": "C19",
   "status": "partial",
   "theorems": [
    "Verif.Stored.C19_reread_partial",
    "Verif.Stored.C19_fragment_ids",
    "Verif.Stored.C19_overwrite_config_violated",
    "Verif.Stored.C19_lost_conflict_violated",
    "Verif.Stored.C19_other_violated"
   ],
   "note": "Every operation's fields are shown to survive, guarded by the conditions the code needs; the inverted emptiness test of overwrite config, groupless rewrites, empty tags and schema metadata violate the full claim (witnesses)."
  },
  {
   "property": "C20",
   "status": "partial",
   "theorems": [
    "Verif.Naming.C20_name_roundtrip",
    "Verif.Naming.C20_name_injective",
    "Verif.Naming.C20_name_order",
    "Verif.Naming.C20_staging_scheme",
    "Verif.Naming.C20_latest_local",
    "Verif.Naming.C20_latest_listed_partial",
    "Verif.Naming.C20_detached_violated",
    "Verif.Naming.C20_unordered_violated",
    "Verif.Naming.C20_violated",
    "Verif.Naming.C20_half_migrated_violated",
    "Verif.Naming.C20_resolve_version",
    "Verif.Naming.C20_migrate"
   ],
   "note": "Names: all versions. Latest: every listing in any order for local directories; object stores guarded (no detached file, ordered listing, one scheme), with witnesses for what the guards exclude."
  },
  {
   "property": "C21",
   "status": "partial",
   "theorems": [
    "Verif.Handlers.C21_rename",
    "Verif.Handlers.C21_lock_partial",
    "Verif.Handlers.C21_lock_exclusive",
    "Verif.Handlers.C21_solo",
    "Verif.Handlers.C21_naive_violated",
    "Verif.Handlers.C21_expire_violated"
   ],
   "note": "Any number of writers, any schedule, faults with and without effect, crashes. Rename: full claim. Lock: while leases do not time out. The unsafe handler violates the claim (witness)."
  },
  {
   "property": "C22",
   "status": "partial",
   "theorems": [
    "Verif.Handlers.C22_external_partial",
    "Verif.Handlers.C22_reader_completes",
    "Verif.Handlers.C22_reader_legacy",
    "Verif.Handlers.C22_lost_answer_violated",
    "Verif.Handlers.C22_latest_back_violated",
    "Verif.Handlers.C22_location_violated"
   ],
   "note": "Any number of writers and readers, any schedule, crashes, all faults except an external put that lands but reports an error (witness shows a lost version). Datasets with earlier manifests are covered as long as no writer reuses their numbers (witness shows it can)."
  },
  {
   "property": "C23",
   "status": "partial",
   "theorems": [
    "Verif.Cleanup.C23_safe",
    "Verif.Cleanup.C23_newest_kept",
    "Verif.Cleanup.C23_in_progress",
    "Verif.Cleanup.C23_reclaims",
    "Verif.Cleanup.C23_manifests",
    "Verif.Cleanup.C23_only_listed",
    "Verif.Cleanup.C23_concurrent_partial",
    "Verif.Cleanup.C23_concurrent_violated",
    "Verif.Cleanup.C23_tagged_violated",
    "Verif.Cleanup.C23_tagged_partial",
    "Verif.Cleanup.C23_tag_error_violated",
    "Verif.Cleanup.C23_tag_error_partial",
    "Verif.Cleanup.C23_leftover_violated",
    "Verif.Cleanup.C23_leftover_partial",
    "Verif.Cleanup.C23_foreign_violated",
    "Verif.Cleanup.C23_foreign_partial"
   ],
   "note": "Proved: no file a kept version needs is removed (C23_safe), which versions are kept, new unverified files are left alone, what is reclaimed, which manifests go. Violated forms: commits concurrent with cleanup that reuse files of dropped versions, tags created meanwhile, the default error on tagged versions, staging leftovers, foreign directories sharing a prefix; each with a partial."
  },
  {
   "property": "C24",
   "status": "partial",
   "theorems": [
    "Verif.Cleanup.C24_refines",
    "Verif.Cleanup.C24_stable",
    "Verif.Cleanup.C24_create",
    "Verif.Cleanup.C24_update",
    "Verif.Cleanup.C24_delete",
    "Verif.Cleanup.C24_create_fails",
    "Verif.Cleanup.C24_failed_call",
    "Verif.Cleanup.C24_inside",
    "Verif.Cleanup.C24_names",
    "Verif.Cleanup.C24_list_partial",
    "Verif.Cleanup.C24_list_violated",
    "Verif.Cleanup.C24_race_violated",
    "Verif.Cleanup.C24_race_partial"
   ],
   "note": "Proved over every history: tags refine a map from names to versions; create/update/delete results; names. Listing holds for ASCII names only (violated for others); concurrent creation is violated."
  },
  {
   "property": "C25",
   "status": "partial",
   "theorems": [
    "Verif.Compact.C25_runs",
    "Verif.Compact.C25_same_cover",
    "Verif.Compact.C25_worth",
    "Verif.Compact.C25_single",
    "Verif.Compact.C25_sizes",
    "Verif.Compact.C25_minimal",
    "Verif.Compact.C25_complete",
    "Verif.Compact.C25_adjacent",
    "Verif.Compact.C25_ends_violated",
    "Verif.Compact.C25_ends_partial",
    "Verif.Compact.C25_legacy_violated",
    "Verif.Compact.C25_legacy_partial"
   ],
   "note": "Planner: runs of adjacent fragments, same index coverage, nothing rewritten for nothing, sizes, completeness. Termination needs a target > 0 (violated at 0); indices without fragment bitmap violated."
  },
  {
   "property": "C26",
   "status": "partial",
   "theorems": [
    "Verif.Compact.C26_moved",
    "Verif.Compact.C26_live",
    "Verif.Compact.C26_deleted",
    "Verif.Compact.C26_outside",
    "Verif.Compact.C26_tasks",
    "Verif.Compact.C26_violated",
    "Verif.Compact.C26_stable_violated",
    "Verif.Compact.C26_stable_partial"
   ],
   "note": "Map of a task and of several tasks for live, deleted and foreign addresses. Violated when a task starts with fragment 0 and has no live row. Stable row ids: violated for masked segments that are ranges with holes or bitmaps, partial otherwise."
  },
  {
   "property": "C27",
   "status": "proved",
   "theorems": [
    "Verif.Txn.C27_recalculate",
    "Verif.Txn.C27_compaction_coverage"
   ],
   "note": "recalculate_fragment_bitmap and the index part of every committed compaction in every reachable clean history."
  },
  {
   "property": "C28",
   "status": "partial",
   "theorems": [
    "Verif.Read.C28_violated",
    "Verif.Read.C28_indices_panic",
    "Verif.Read.C28_rows_partial",
    "Verif.Read.C28_position",
    "Verif.Read.C28_nulls_partial",
    "Verif.Read.C28_no_columns",
    "Verif.Read.C28_legacy_partial",
    "Verif.Read.C28_legacy_violated",
    "Verif.Read.C28_offset_scan_violated"
   ],
   "note": "Rows, values, addresses and row ids proved for every read shape and batching when row ids are addresses, and for reads from the first row with stable row ids; exact behaviour otherwise in C28_position. Violated for stable row ids in other reads (C28_violated, C28_offset_scan_violated, C28_legacy_violated, C28_indices_panic)."
  },
  {
   "property": "C29",
   "status": "partial",
   "theorems": [
    "Verif.Chunk.C29_chunk",
    "Verif.Chunk.C29_chunk_concat",
    "Verif.Chunk.C29_chunk_violated",
    "Verif.Chunk.C29_break",
    "Verif.Chunk.C29_break_zero",
    "Verif.Chunk.C29_writer_rows",
    "Verif.Chunk.C29_limit_violated",
    "Verif.Chunk.C29_limit_legacy_violated",
    "Verif.Chunk.C29_zero_group_violated",
    "Verif.Chunk.C29_wide_limit_violated",
    "Verif.Chunk.C29_limit_partial",
    "Verif.Chunk.C29_exact_files_partial"
   ],
   "note": "Lossless re-batching is proved for chunking, breaking and the writing loop; chunk sizes are exact. The row limit of files is violated (byte limit closing, group size not dividing the limit, 2^32); the bounds that hold are in C29_limit_partial and C29_exact_files_partial."
  },
  {
   "property": "C30",
   "status": "partial",
   "theorems": [
    "Verif.Read.C30_offsets",
    "Verif.Read.C30_to_offsets",
    "Verif.Read.C30_slice_offsets",
    "Verif.Read.C30_slice_error",
    "Verif.Read.C30_slice_error_violated",
    "Verif.Read.C30_slice_slice",
    "Verif.Read.C30_valid",
    "Verif.Read.C30_empty_range",
    "Verif.Read.C30_file_params"
   ],
   "note": "Expansion, slicing, composition of slices, validity and conversion to file parameters proved for all kinds below 2^32 rows. The documented error of slice does not exist for RangeFull and RangeFrom (C30_slice_error_violated)."
  },
  {
   "property": "C31",
   "status": "partial",
   "theorems": [
    "Verif.Take.C31_take_addresses",
    "Verif.Take.C31_take_live",
    "Verif.Take.C31_offset_error",
    "Verif.Take.C31_missing_violated",
    "Verif.Take.C31_missing_panic",
    "Verif.Take.C31_missing_partial",
    "Verif.Take.C31_with_addresses",
    "Verif.Take.C31_take_ids",
    "Verif.Take.C31_fragment_take",
    "Verif.Take.C31_fragment_range",
    "Verif.Take.C31_take",
    "Verif.Take.C31_range_violated",
    "Verif.Take.C31_range_panic",
    "Verif.Take.C31_range_partial"
   ],
   "note": "Take by position, address, row id and within one fragment returns the requested live rows in order, duplicates kept. Out-of-range positions are an error only in strictly increasing requests; otherwise rows are dropped or the process panics."
  },
  {
   "property": "C32",
   "status": "partial",
   "theorems": [
    "Verif.Merge.C32_null_in_first_column",
    "Verif.Merge.C32_null_in_target",
    "Verif.Merge.C32_null_keys_dropped",
    "Verif.Merge.C32_duplicate_source_keys",
    "Verif.Merge.C32_index_changes_nulls",
    "Verif.Merge.C32_stable_ids_duplicate",
    "Verif.Merge.C32_violated",
    "Verif.Merge.C32_merge_partial",
    "Verif.Merge.C32_example",
    "Verif.Merge.C32_refused"
   ],
   "note": "Violated: nulls in the first |on| columns (not the key columns) hide rows, null keys are dropped, duplicate source keys are both written, an index changes what null keys do, stable row ids leave the old rows in place (six witnesses). Proved: without stable ids, with a value among the first |on| columns of every row, no null source key if an index is used and at most one partner per target row, the result is the SQL MERGE, the surviving rows keep order, ids and addresses, and the statistics are exact; any join order, batch cut, file cut, task order."
  },
  {
   "property": "C33",
   "status": "partial",
   "theorems": [
    "Verif.Update.C33_swap",
    "Verif.Update.C33_violated",
    "Verif.Update.C33_stable_ids_duplicate",
    "Verif.Update.C33_stable_ids_refused",
    "Verif.Update.C33_update_partial",
    "Verif.Update.C33_error_partial",
    "Verif.Update.C33_order_partial",
    "Verif.Update.C33_unsorted_ids_error"
   ],
   "note": "Proved without stable row ids for assignments that do not read each other's columns: unselected rows keep data, id, address and order, selected rows get the new values, the count is right, the hash map order does not matter, for every cut into batches and files and every task order; failing expressions and unsorted ids give an error. Missing: assignments are applied one after the other (SET a = b, b = a gives (2,2) or (1,1)), and stable row ids are used as addresses (old rows stay), both shown by witnesses."
  },
  {
   "property": "C34",
   "status": "partial",
   "theorems": [
    "Verif.Join.C34_violated",
    "Verif.Join.C34_merge_partial",
    "Verif.Join.C34_some_match_partial",
    "Verif.Join.C34_success_partial",
    "Verif.Join.C34_duplicates_depend_on_schedule",
    "Verif.Join.C34_null_keys_match",
    "Verif.Join.C34_right_null_refused",
    "Verif.Join.C34_last_in_batch"
   ],
   "note": "Every successful merge gives each live row the values of the right row with its key (or nulls), for every interleaving of the concurrent build and every batch split (C34_merge_partial); exact success conditions for v2 files (C34_success_partial). The full statement is false: unmatched rows are an error for column types not listed by lance_supports_nulls (C34_violated); duplicates depend on the schedule."
  },
  {
   "property": "C35",
   "status": "partial",
   "theorems": [
    "Verif.Sched.C35_violated",
    "Verif.Sched.C35_dropped_future_stalls",
    "Verif.Sched.C35_iops_limit_partial",
    "Verif.Sched.C35_bytes_exact_partial",
    "Verif.Sched.C35_priority_order_partial",
    "Verif.Sched.C35_admission_partial",
    "Verif.Sched.C35_buffer_partial",
    "Verif.Sched.C35_no_panic",
    "Verif.Sched.C35_no_duplicates",
    "Verif.Sched.C35_answer_complete",
    "Verif.Sched.C35_quiescent_partial",
    "Verif.Sched.C35_terminates",
    "Verif.Sched.C35_every_schedule_completes_partial",
    "Verif.Sched.C35_can_complete_partial",
    "Verif.Sched.C35_in_order_partial",
    "Verif.Sched.C35_no_lost_wakeup",
    "Verif.Sched.C35_file_priority"
   ],
   "note": "Byte-budget clause violated by ever more urgent requests, stall clause by dropped futures. Proved for every schedule: iops limit, exact counters, admission rule, buffer bound for reads admitted within the budget, priority order, no panic, no duplicates, no lost wake-up, and (no dropped futures) every schedule ends with all requests consumed."
  },
  {
   "property": "C36",
   "status": "partial",
   "theorems": [
    "Verif.Sched.C36_violated",
    "Verif.Sched.C36_empty_range_loses_the_rest",
    "Verif.Sched.C36_unsorted_overlap_panics",
    "Verif.Sched.C36_single_empty_panics",
    "Verif.Sched.C36_follows_partial",
    "Verif.Sched.C36_sorted_partial",
    "Verif.Sched.C36_out_of_file_partial",
    "Verif.Sched.C36_single"
   ],
   "note": "Violated for unsorted and for empty ranges (answers missing or panic). Proved for non-empty ranges that do not start before the merged read they go into (sorted ranges in particular), every block size, file and completion order; reads outside the file give an error."
  },
  {
   "property": "C37",
   "status": "partial",
   "theorems": [
    "Verif.Scalar.C37_search_exact_violated",
    "Verif.Scalar.C37_btree_crossed_violated",
    "Verif.Scalar.C37_null_in_list_violated",
    "Verif.Scalar.C37_bitmap_partial",
    "Verif.Scalar.C37_flat_partial",
    "Verif.Scalar.C37_btree_partial",
    "Verif.Scalar.C37_btree_null_list",
    "Verif.Scalar.C37_labels_violated",
    "Verif.Scalar.C37_labels_partial"
   ],
   "note": "Bitmap, flat, btree and label-list search are proved exact for all data, page sizes and batch cuts, for every query outside the listed exceptions. Exceptions proved as violations: crossed ranges panic (bitmap and btree), a list with NULL loses the NULL rows in flat and btree, an empty label list panics."
  },
  {
   "property": "C38",
   "status": "partial",
   "theorems": [
    "Verif.Scalar.C38_remap_violated",
    "Verif.Scalar.C38_bitmap_nulls_violated",
    "Verif.Scalar.C38_btree_removed_violated",
    "Verif.Scalar.C38_btree_null_page_violated",
    "Verif.Scalar.C38_bitmap_exact_partial",
    "Verif.Scalar.C38_bitmap_partial",
    "Verif.Scalar.C38_btree_partial"
   ],
   "note": "Violated for the bitmap index (rows outside the address map and NULL rows are dropped) and for the btree index (removed rows or an all-NULL page shift the pages). Proved: exact characterisation of the remapped bitmap; the btree if all rows are on one page, or no row is removed and there are fewer NULLs than a page holds."
  },
  {
   "property": "C39",
   "status": "partial",
   "theorems": [
    "Verif.Expr.C39_not_equal_null_violated",
    "Verif.Expr.C39_not_null_violated",
    "Verif.Expr.C39_in_null_violated",
    "Verif.Expr.C39_mixed_or_violated",
    "Verif.Expr.C39_crossed_violated",
    "Verif.Expr.C39_filter_violated",
    "Verif.Expr.C39_filter_partial",
    "Verif.Expr.C39_positive_partial",
    "Verif.Expr.C39_no_nulls_partial",
    "Verif.Expr.C39_no_index",
    "Verif.Expr.C39_bitmap_partial"
   ],
   "note": "Violated: negations return NULL rows, IN with NULL, OR of an allow and a block mask, crossed ranges. Proved for any exact indices: rows on which nothing negated is NULL and masks combined reliably; filters without negation on all rows including NULLs; rows without NULLs; end to end with bitmap and label list indices built from the table. Datafusion's optimizer is outside the model."
  },
  {
   "property": "C40",
   "status": "partial",
   "theorems": [
    "Verif.Sampler.C40_filtered_violated",
    "Verif.Sampler.C40_short_batch_fails",
    "Verif.Sampler.C40_filtered_partial",
    "Verif.Sampler.C40_fragments",
    "Verif.Sampler.C40_balanced",
    "Verif.Sampler.C40_global_rank",
    "Verif.Sampler.C40_ranges",
    "Verif.Sampler.C40_rows"
   ],
   "note": "Proved without a filter: fragments, ranges, and end to end the rows of the dataset. With a filter: exact whenever all ranks return, and they return if there are at least as many matching rows as ranks (and no short batches, if Arrow refuses negative slices); a rank without rows raises."
  },
  {
   "property": "C41",
   "status": "partial",
   "theorems": [
    "Verif.Sampler.C41_too_few_violated",
    "Verif.Sampler.C41_too_many_violated",
    "Verif.Sampler.C41_leftover_violated",
    "Verif.Sampler.C41_nothing_violated",
    "Verif.Sampler.C41_zero_violated",
    "Verif.Sampler.C41_sample_partial",
    "Verif.Sampler.C41_reservoir_violated",
    "Verif.Sampler.C41_reservoir_partial"
   ],
   "note": "Distinct and valid rows always; count exact for n <= max_takes or a multiple of it, bounded otherwise; filtered samples exact only if one batch holds the sample. Five witnesses show the rest is false. Reservoir sampling proved for k > 0."
  },
  {
   "property": "C42",
   "status": "proved",
   "theorems": [
    "Verif.Txn.C42_unknown_refused",
    "Verif.Txn.C42_flags_describe"
   ],
   "note": "Decision logic for all flag words, and invariant that the flags of every committed version describe its features."
  },
  {
   "property": "C43",
   "status": "partial",
   "theorems": [
    "Verif.Stored.C43_fragment_partial",
    "Verif.Stored.C43_fragment_rest",
    "Verif.Stored.C43_violated",
    "Verif.Stored.C43_index"
   ],
   "note": "Round trip holds exactly when counts are not zero (iff); the rest of the metadata always survives."
  },
  {
   "property": "C44",
   "status": "partial",
   "theorems": [
    "Verif.Prefilter.C44_hidden_violated",
    "Verif.Prefilter.C44_empty_violated",
    "Verif.Prefilter.C44_empty_range_violated",
    "Verif.Prefilter.C44_by_offset_partial",
    "Verif.Prefilter.C44_no_empty_partial"
   ],
   "note": "Exact if no fragment is empty and the range is not; with empty fragments, right for fragments with rows if the binary search finds the last match. Three witnesses show the rest is false."
  },
  {
   "property": "C45",
   "status": "partial",
   "theorems": [
    "Verif.Prefilter.C45_addresses",
    "Verif.Prefilter.C45_legacy_violated",
    "Verif.Prefilter.C45_legacy_partial",
    "Verif.Prefilter.C45_bitmaps",
    "Verif.Prefilter.C45_hash_order_violated",
    "Verif.Prefilter.C45_row_ids_partial",
    "Verif.Prefilter.C45_final_violated",
    "Verif.Prefilter.C45_final_partial",
    "Verif.Prefilter.C45_final_no_filter",
    "Verif.Prefilter.C45_final_allow_list",
    "Verif.Prefilter.C45_query"
   ],
   "note": "Exact for addresses of covered fragments; for stable row ids if the deleted offsets are iterated in order (bitmaps) and sequences convert. False for hash-set deletion vectors, for legacy indices at the largest fragment id, and for block-list filters on dropped fragments."
  },
  {
   "property": "C46",
   "status": "partial",
   "theorems": [
    "Verif.Txn.C46_reservations_disjoint_partial",
    "Verif.Txn.C46_not_given_to_others_partial",
    "Verif.Txn.C46_committed_rewrite_partial",
    "Verif.Txn.C46_violated"
   ],
   "note": "Proved for histories without restore between the reservation and its use; violated with restore."
  },
  {
   "property": "C47",
   "status": "proved",
   "theorems": [
    "Verif.Txn.C47_restore_content",
    "Verif.Txn.C47_versions_immutable"
   ],
   "note": "All reachable histories; older versions are immutable under every step."
  },
  {
   "property": "C48",
   "status": "proved",
   "theorems": [
    "Verif.Deletion.C48_delete_exact",
    "Verif.Deletion.C48_untouched_and_dropped"
   ],
   "note": "Every dataset, predicate and batching of the scan; the filtered scan itself is trusted."
  },
  {
   "property": "C49",
   "status": "partial",
   "theorems": [
    "Verif.Txn.C49_schema_partial",
    "Verif.Txn.C49_metadata_violated",
    "Verif.Txn.C49_overwrite_violated"
   ],
   "note": "Proved when no Overwrite and no schema/field metadata update was committed in between; violated otherwise."
  },
  {
   "property": "C50",
   "status": "partial",
   "theorems": [
    "Verif.Txn.C50_indexed_fields_exist_partial",
    "Verif.Txn.C50_merge_violated"
   ],
   "note": "Proved when no index creation is committed over a concurrent Merge; violated otherwise."
  },
  {
   "property": "C51",
   "status": "proved",
   "theorems": [
    "Verif.Stored.C51_schema_tree",
    "Verif.Stored.C51_schema_injective",
    "Verif.Stored.C51_schema_order"
   ],
   "note": "All schema trees with distinct, assigned ids."
  },
  {
   "property": "C52",
   "status": "partial",
   "theorems": [
    "Verif.Stored.C52_manifest_partial",
    "Verif.Stored.C52_flag_checked",
    "Verif.Stored.C52_inferred_format",
    "Verif.Stored.C52_format_of_written",
    "Verif.Stored.C52_version_text_violated",
    "Verif.Stored.C52_schema_metadata_violated"
   ],
   "note": "Round trip for manifests without zero/empty placeholders; flag check and format inference for all manifests; update_schema_metadata leaves the scanner's schema unchanged (witness)."
  },
  {
   "property": "C53",
   "status": "partial",
   "theorems": [
    "Verif.Compact.C53_contents_partial",
    "Verif.Compact.C53_order_partial",
    "Verif.Compact.C53_order_violated",
    "Verif.Compact.C53_handle_violated"
   ],
   "note": "Contents as a multiset for every reachable clean history; order violated in general and partial when the rewritten fragments are the last; commits through a newer handle violated."
  },
  {
   "property": "C54",
   "status": "partial",
   "theorems": [
    "Verif.Read.C54_read_range",
    "Verif.Read.C54_read_range_violated",
    "Verif.Read.C54_scan_all",
    "Verif.Read.C54_scan_range",
    "Verif.Read.C54_order_violated",
    "Verif.Read.C54_zero_violated",
    "Verif.Read.C54_limit_partial"
   ],
   "note": "Range reads, full scans and scan ranges proved for all fragments, deletions and batchings; limit and offset proved except for a sort after a pushed-down limit (C54_order_violated) and limit 0 without offset in scans that keep the limit node (C54_zero_violated)."
  },
  {
   "property": "C55",
   "status": "partial",
   "theorems": [
    "Verif.Take.C55_unknown_id_violated",
    "Verif.Take.C55_duplicate_violated",
    "Verif.Take.C55_beyond_panic",
    "Verif.Take.C55_filter_partial"
   ],
   "note": "Holds if every id is known, none lies beyond the last fragment and no deleted row is requested twice; each condition is shown necessary by a witness."
  },
  {
   "property": "C56",
   "status": "proved",
   "theorems": [
    "Verif.Sampler.C56_buffer",
    "Verif.Sampler.C56_full",
    "Verif.Sampler.C56_tensor"
   ],
   "note": "Re-batching and tensor items, all streams and sizes."
  },
  {
   "property": "C57",
   "status": "partial",
   "theorems": [
    "Verif.Sampler.C57_cached",
    "Verif.Sampler.C57_epochs_violated",
    "Verif.Sampler.C57_epochs_partial"
   ],
   "note": "All interleavings of any number of iterators; epochs proved for non-empty streams, false for empty ones."
  },
  {
   "property": "C58",
   "status": "partial",
   "theorems": [
    "Verif.Join.C58_violated",
    "Verif.Join.C58_aligned_partial",
    "Verif.Join.C58_v2_partial",
    "Verif.Join.C58_v1_partial"
   ],
   "note": "Every successful update lines up, for all deletion vectors, batch splits and both file versions (C58_aligned_partial). Success is characterised exactly: v2 files fail only if the first batch is deleted entirely, v1 files if any row group is. The full statement (always succeeds) is false (C58_violated)."
  },
  {
   "property": "C59",
   "status": "partial",
   "theorems": [
    "Verif.Merge.C59_update_if_panics",
    "Verif.Merge.C59_duplicates_overwrite",
    "Verif.Merge.C59_duplicates_lose_updates",
    "Verif.Merge.C59_null_in_first_column",
    "Verif.Merge.C59_violated",
    "Verif.Merge.C59_patched_partial",
    "Verif.Merge.C59_succeeds_partial",
    "Verif.Merge.C59_groups",
    "Verif.Merge.C59_empty_batch_panics",
    "Verif.Merge.C59_fields",
    "Verif.Merge.C59_example",
    "Verif.Merge.C59_refused"
   ],
   "note": "Violated: conditional updates panic, duplicate source keys overwrite or lose other rows' updates, nulls in the first columns hide rows. Proved for every file version, batch cut and task order: whenever the job succeeds under the stated conditions (no condition, values in the first columns, at most one partner) it patches exactly the given columns in place, adds the new rows, and counts correctly; with v2 files and a live row in each fragment's first batch it succeeds. The grouping of the stream is proved independent of the batch cuts; tombstones leave each rewritten field in the newest file only."
  },
  {
   "property": "C60",
   "status": "partial",
   "theorems": [
    "Verif.Scalar.C60_btree_update_violated",
    "Verif.Scalar.C60_page_size_violated",
    "Verif.Scalar.C60_bitmap_update",
    "Verif.Scalar.C60_labels_update",
    "Verif.Scalar.C60_btree_update_partial",
    "Verif.Scalar.C60_btree_history_partial",
    "Verif.Scalar.C60_bitmap_history_partial"
   ],
   "note": "Proved for bitmap and label-list indices. Violated for the btree index (page 0 is read twice if it has NULLs and is not the only page). Partial: btree exact if the old rows have no NULL or fit on one page; histories of updates and remaps by induction."
  },
  {
   "property": "C61",
   "status": "partial",
   "theorems": [
    "Verif.Coerce.C61_coerce_violated",
    "Verif.Coerce.C61_timestamp_filter_violated",
    "Verif.Coerce.C61_date_violated",
    "Verif.Coerce.C61_float_violated",
    "Verif.Coerce.C61_float_overflow_violated",
    "Verif.Coerce.C61_timezone_violated",
    "Verif.Coerce.C61_coerce_partial",
    "Verif.Coerce.C61_accepts",
    "Verif.Coerce.C61_integers",
    "Verif.Coerce.C61_timestamp_finer",
    "Verif.Coerce.C61_timestamp_coarser_partial",
    "Verif.Coerce.C61_idempotent",
    "Verif.Coerce.C61_feeds_C39"
   ],
   "note": "Full statement C61_coerce_statement is false of the code (C61_coerce_violated and the other *_violated witnesses). Proved: every value that the column type can hold is accepted (floats for integer columns excepted) and converted exactly, integers are accepted exactly if in range, finer timestamp units are exact or refused, comparisons with coarser units that stay right, idempotence."
  },
  {
   "property": "C62",
   "status": "proved",
   "theorems": [
    "Verif.ListCol.C62_take",
    "Verif.ListCol.C62_ranges",
    "Verif.ListCol.C62_pages"
   ],
   "note": "Proved for the page level of flat columns: arrays to pages, ascending takes with repetition and ordered ranges. A page is the list of its values; the physical encodings are not part of this model."
  },
  {
   "property": "C63",
   "status": "partial",
   "theorems": [
    "Verif.ListCol.C63_take_violated",
    "Verif.ListCol.C63_take_panic_violated",
    "Verif.ListCol.C63_empty_range_violated",
    "Verif.ListCol.C63_ranges_partial",
    "Verif.ListCol.C63_take_partial",
    "Verif.ListCol.C63_nested_partial",
    "Verif.ListCol.C63_drain_partial",
    "Verif.ListCol.C63_loaded",
    "Verif.ListCol.C63_wait"
   ],
   "note": "The full statement fails for a row number that comes twice and for an empty range at the end (witnesses). Proved for rising row numbers and ordered ranges, any depth, any page cuts, any batch sizes, and for the count of loaded lists."
  },
  {
   "property": "C64",
   "status": "partial",
   "theorems": [
    "Verif.Phys.C64_flat_page_partial",
    "Verif.Phys.C64_flat_scan",
    "Verif.Phys.C64_flat_take",
    "Verif.Phys.C64_flat_page_violated",
    "Verif.Phys.C64_flat_page_nonvacuous"
   ],
   "note": "The full statement fails when a batch begins inside one range and ends in a later one (bits of booleans and validity, witness). Proved for batches that begin at a range or end in the range they begin in; so for every scan of a page and every take of single rows, in any batches."
  },
  {
   "property": "C65",
   "status": "partial",
   "theorems": [
    "Verif.Phys.C65_string_page_partial",
    "Verif.Phys.C65_string_scan",
    "Verif.Phys.C65_string_take",
    "Verif.Phys.C65_string_page_violated",
    "Verif.Phys.C65_string_page_nonvacuous"
   ],
   "note": "The full statement fails when a range other than the first begins at row 0 (witness: take 0, 0, 1). Proved for all other ranges in any order, all batches, with and without a lossless codec, for pages with fewer than 2^63 bytes."
  },
  {
   "property": "C66",
   "status": "partial",
   "theorems": [
    "Verif.Phys.C66_dictionary_page_partial",
    "Verif.Phys.C66_low_cardinality_partial",
    "Verif.Phys.C66_dictionary_page_violated",
    "Verif.Phys.C66_large_items_violated",
    "Verif.Phys.C66_low_cardinality_violated",
    "Verif.Phys.C66_dictionary_page_nonvacuous",
    "Verif.Phys.C66_low_cardinality_nonvacuous"
   ],
   "note": "The full statement fails when the null index does not fit in the key type (widened keys are read with the old width), for LargeUtf8 items (not readable) and for more than 255 different strings (index wraps to null); witnesses. Proved for all ranges and batches when the dictionaries fit in the key type, and for up to 255 different strings."
  },
  {
   "property": "C67",
   "status": "partial",
   "theorems": [
    "Verif.Phys.C67_packed_page_partial",
    "Verif.Phys.C67_packed_page_violated",
    "Verif.Phys.C67_packed_page_nonvacuous",
    "Verif.Phys.C67_written_readable_violated",
    "Verif.Phys.C67_written_readable_partial"
   ],
   "note": "The full statement fails for fixed size lists of strings (written, never readable) and for packed structs with nulls (writer panics); witnesses. Proved: packed structs without nulls for all ranges and batches, and whole pages of all supported types."
  },
  {
   "property": "C68",
   "status": "proved",
   "theorems": [
    "Verif.Blob.C68_blob_column",
    "Verif.Blob.C68_one_description_each",
    "Verif.Blob.C68_nonvacuous"
   ],
   "note": "Proved in full for the blob writer, the layout of the out-of-line buffers and the blob decoder (C68_blob_column, C68_one_description_each)."
  },
  {
   "property": "C69",
   "status": "partial",
   "theorems": [
    "Verif.Blob.C69_violated",
    "Verif.Blob.C69_reads_another_value_violated",
    "Verif.Blob.C69_read_to_end_then_on_violated",
    "Verif.Blob.C69_partial",
    "Verif.Blob.C69_chunks",
    "Verif.Blob.C69_null_reads_empty",
    "Verif.Blob.C69_nonvacuous"
   ],
   "note": "The full statement is false: readall leaves the cursor at a position of the data file (C69_violated), a read that starts after the end returns bytes of other values because size - cursor wraps (C69_reads_another_value_violated), and a copy loop after readall can raise (C69_read_to_end_then_on_violated). C69_partial: every history without these two faults agrees with a plain file; C69_chunks: reading in pieces; C69_null_reads_empty: what happens to nulls."
  },
  {
   "property": "C70",
   "status": "partial",
   "theorems": [
    "Verif.Resume.C70_violated",
    "Verif.Resume.C70_stale_values_violated",
    "Verif.Resume.C70_same_batches_partial",
    "Verif.Resume.C70_other_batches_partial",
    "Verif.Resume.C70_no_recomputation",
    "Verif.Resume.C70_ends",
    "Verif.Resume.C70_nonvacuous",
    "Verif.Resume.C70_other_batch_size_refused"
   ],
   "note": "The full statement is false: rows deleted between the calls come back (C70_violated) and values changed in place are not seen (C70_stale_values_violated). Proved when the fragments did not change: same batch size, any function, equal results and errors (C70_same_batches_partial); any batch sizes, row-wise function, aligned columns (C70_other_batches_partial); nothing is computed twice (C70_no_recomputation); a call that is not stopped ends (C70_ends)."
  },
  {
   "property": "C71",
   "status": "partial",
   "theorems": [
    "Verif.Stats.C71_partial",
    "Verif.Stats.C71_int_exact",
    "Verif.Stats.C71_utf8_lower",
    "Verif.Stats.C71_binary_short",
    "Verif.Stats.C71_nan_violated",
    "Verif.Stats.C71_bool_violated",
    "Verif.Stats.C71_utf8_violated",
    "Verif.Stats.C71_violated",
    "Verif.Stats.C71_nonvacuous",
    "Verif.Stats.C71_zero_nonvacuous",
    "Verif.Stats.C71_bool_nonvacuous"
   ],
   "note": "False for floats with NaN (C71_nan_violated), for booleans with nulls in arrays after both values were seen (C71_bool_violated) and for strings cut before byte 64 (C71_utf8_violated). C71_partial proves it for integers, dates, decimals and binary values without condition, and for the others under exactly these exclusions (for strings: values longer than 64 bytes have a character boundary at byte 64). C71_int_exact: bounds are attained and nulls counted exactly. C71_utf8_lower: the lower bound and the null count of strings need no condition, and collection does not panic."
  },
  {
   "property": "C72",
   "status": "partial",
   "theorems": [
    "Verif.Stats.C72_partial",
    "Verif.Stats.C72_without_statistics",
    "Verif.Stats.C72_batch",
    "Verif.Stats.C72_nan_violated",
    "Verif.Stats.C72_bool_violated",
    "Verif.Stats.C72_utf8_violated",
    "Verif.Stats.C72_violated",
    "Verif.Stats.C72_nonvacuous"
   ],
   "note": "False on the pages that violate C71 (C72_nan_violated, C72_bool_violated, C72_utf8_violated, with a simplifier proved sound). C72_partial proves it for every filter, sound simplifier and evaluator when the filter columns with statistics meet the condition of C71_partial; C72_without_statistics needs no condition. DataFusion's simplifier and evaluator are parameters with the stated hypotheses; simpSome and evalAll are instances proved to meet them."
  },
  {
   "property": "C73",
   "status": "proved",
   "theorems": [
    "Verif.Fts.C73_wand",
    "Verif.Fts.C73_search",
    "Verif.Fts.C73_all",
    "Verif.Fts.C73_nonvacuous"
   ],
   "note": "Proved for the posting lists (C73_wand: WAND with any bounds that are bounds is exact, ends, does not panic) and end to end for every reachable index (C73_search, C73_all). Scores are natural numbers added exactly, the code uses f32; wand_factor is any monotone function that does not increase the threshold (factor at most 1)."
  },
  {
   "property": "C74",
   "status": "partial",
   "theorems": [
    "Verif.Fts.C74_phrase_violated",
    "Verif.Fts.C74_phrase_partial",
    "Verif.Fts.C74_unknown_token",
    "Verif.Fts.C74_nonvacuous",
    "Verif.Fts.C74_same_text_violated",
    "Verif.Fts.C74_same_text_partial"
   ],
   "note": "Violated: C74_phrase_violated (lists without a selected document are dropped before the tokens of the phrase are counted, so a row with only a part of the phrase is returned); C74_same_text_violated (removed stop words leave gaps in documents, not in queries). Proved: C74_phrase_partial if every token of the phrase has a selected document; C74_unknown_token; C74_same_text_partial for a tokenizer that removes nothing."
  },
  {
   "property": "C75",
   "status": "proved",
   "theorems": [
    "Verif.Fts.C75_posting_lists",
    "Verif.Fts.C75_documents",
    "Verif.Fts.C75_max_scores",
    "Verif.Fts.C75_order_independent",
    "Verif.Fts.C75_nonvacuous",
    "Verif.Fts.C75_chained_mapping_order_matters"
   ],
   "note": "Proved for every history and schedule. Mono wt (the weight does not decrease with the total number of tokens) is needed because remap computes maximal scores with the old total. New row ids are not among the old ones; C75_chained_mapping_order_matters shows why."
  },
  {
   "property": "C76",
   "status": "partial",
   "theorems": [
    "Verif.Fts.C76_flat_rows",
    "Verif.Fts.C76_ranking_partial",
    "Verif.Fts.C76_nonvacuous",
    "Verif.Fts.C76_offset_violated",
    "Verif.Fts.C76_postfilter_violated",
    "Verif.Fts.C76_prefilter_violated",
    "Verif.Fts.C76_prefilter_always_fails",
    "Verif.Fts.C76_phrase_violated"
   ],
   "note": "Violated: C76_offset_violated, C76_postfilter_violated, C76_prefilter_violated (with C76_prefilter_always_fails), C76_phrase_violated. Proved: C76_ranking_partial, without offset, filters and phrases; C76_flat_rows."
  },
  {
   "property": "C77",
   "status": "partial",
   "theorems": [
    "Verif.Vec.C77_row_once_partial",
    "Verif.Vec.C77_row_partition_partial",
    "Verif.Vec.C77_other_rows_partial",
    "Verif.Vec.C77_entries_covered_partial",
    "Verif.Vec.C77_optimize_covers",
    "Verif.Vec.C77_create_succeeds",
    "Verif.Vec.C77_optimize_succeeds_partial",
    "Verif.Vec.C77_compact_succeeds_partial",
    "Verif.Vec.C77_violated",
    "Verif.Vec.C77_optimize_violated",
    "Verif.Vec.C77_compact_violated",
    "Verif.Vec.C77_nonvacuous"
   ],
   "note": "Violated: optimize_indices without new data puts every row into the merged delta twice; it fails when a row of a merged delta was deleted; compaction fails for a created index with one partition. Proved: exactly-once and right partition for every history where optimize is called with an uncovered fragment, exact conditions for the success of create, optimize and compact."
  },
  {
   "property": "C78",
   "status": "partial",
   "theorems": [
    "Verif.Vec.C78_flat_exact",
    "Verif.Vec.C78_index_exact_partial",
    "Verif.Vec.C78_fast_exact_partial",
    "Verif.Vec.C78_approximate_sound_partial",
    "Verif.Vec.C78_probed_exact_partial",
    "Verif.Vec.C78_violated",
    "Verif.Vec.C78_nonvacuous"
   ],
   "note": "Violated after an optimize_indices without new data (a row is returned twice). Proved for all histories that call optimize only with an uncovered fragment: exactness with all partitions, with fewer probes, with fast_search; soundness for any quantizer; the flat search in any state."
  },
  {
   "property": "C79",
   "status": "partial",
   "theorems": [
    "Verif.Vec.C79_flat_partial",
    "Verif.Vec.C79_filtered_partial",
    "Verif.Vec.C79_violated",
    "Verif.Vec.C79_unindexed_violated",
    "Verif.Vec.C79_nonvacuous"
   ],
   "note": "Violated: the index ignores the chosen fragments if there is no filter, and uncovered fragments are searched always. Proved without an index, and with an index if there is a filter and all fragments are covered."
  },
  {
   "property": "C80",
   "status": "partial",
   "theorems": [
    "Verif.Vec.C80_codes_partial",
    "Verif.Vec.C80_no_merge_partial",
    "Verif.Vec.C80_plain_partial",
    "Verif.Vec.C80_violated",
    "Verif.Vec.C80_search_after_merge_violated",
    "Verif.Vec.C80_nonvacuous"
   ],
   "note": "Violated: merged rows are quantized from their plain vectors, not from residuals. Proved: the code is one of the two; it is the fresh one without merges or if normalization and residual do not matter."
  },
  {
   "property": "C81",
   "status": "partial",
   "theorems": [
    "Verif.Evolve.C81_history_reads_back_partial",
    "Verif.Evolve.C81_reads_well_formed_partial",
    "Verif.Evolve.C81_drop_in_list_violated",
    "Verif.Evolve.C81_compute_from_null_column_violated",
    "Verif.Evolve.C81_cast_null_column_violated",
    "Verif.Evolve.C81_rename_to_sibling_violated",
    "Verif.Evolve.C81_append_without_item_field_violated",
    "Verif.Evolve.C81_legacy_append_violated",
    "Verif.Evolve.C81_drop_stored_part_violated",
    "Verif.Evolve.C81_append_without_struct_violated",
    "Verif.Evolve.C81_history_reads_back_violated",
    "Verif.Evolve.C81_nonvacuous"
   ],
   "note": "Partial: proved for all histories in which every accepted operation is fine where it is carried out (FineRun), with well-formed arguments. The excluded ones are violated, each with a history: drop in a list, compute or cast from a column stored nowhere after deletes, rename to a sibling's name, append without an item field / in the legacy format / without a struct with a non-null field, drop of the only stored part of a struct. Struct validity is not modelled."
  },
  {
   "property": "C82",
   "status": "partial",
   "theorems": [
    "Verif.Evolve.C82_accepts_what_makes_sense_partial",
    "Verif.Evolve.C82_cast_two_columns_violated",
    "Verif.Evolve.C82_cast_nested_violated",
    "Verif.Evolve.C82_rename_to_sibling_violated",
    "Verif.Evolve.C82_compute_from_nothing_violated",
    "Verif.Evolve.C82_compute_after_delete_violated",
    "Verif.Evolve.C82_legacy_nulls_violated",
    "Verif.Evolve.C82_accepts_what_makes_sense_violated",
    "Verif.Evolve.C82_nonvacuous"
   ],
   "note": "Partial: proved for all versions reached by fine operations and all operations without casts, reads of parts of lists or missing paths (FineIf). Violated for two casts in another order, nested casts, rename to a sibling's name, missing paths next to existing ones, null columns in the legacy format."
  },
  {
   "property": "C83",
   "status": "partial",
   "theorems": [
    "Verif.Evolve.C83_reads_by_path_partial",
    "Verif.Evolve.C83_part_of_nested_list_violated",
    "Verif.Evolve.C83_missing_path_violated",
    "Verif.Evolve.C83_reads_by_path_violated",
    "Verif.Evolve.C83_nonvacuous"
   ],
   "note": "Partial: proved for all versions reached by fine operations, when lists are read whole, and for paths whose first name does not exist. Violated: part of a list inside a struct cannot be read; a missing path next to an existing one is no error."
  },
  {
   "property": "C84",
   "status": "proved",
   "theorems": [
    "Verif.Fsst.C84_fsst_round_trip",
    "Verif.Fsst.C84_small_never_refused",
    "Verif.Fsst.C84_nonvacuous_table",
    "Verif.Fsst.C84_nonvacuous_codes",
    "Verif.Fsst.C84_nonvacuous"
   ],
   "note": "compress, the symbol table (clear, add, hash_insert, finalize), compress_bulk, export, the decoder's init and decompress_bulk are modelled as they are; the sample, the counters and the heap are replaced by an arbitrary oracle, so the theorem holds for every table the code may build. A write through a raw pointer outside the buffer counts as a crash. C84_small_never_refused: below 4 MiB the bytes are copied."
  },
  {
   "property": "C85",
   "status": "partial",
   "theorems": [
    "Verif.Mini.C85_flat_pages_round_trip",
    "Verif.Mini.C85_pages_round_trip_partial",
    "Verif.Mini.C85_fixed_width_codec",
    "Verif.Mini.C85_write_lists_partial",
    "Verif.Mini.C85_range_after_long_list_violated",
    "Verif.Mini.C85_full_chunk_violated",
    "Verif.Mini.C85_many_empty_lists_violated",
    "Verif.Mini.C85_nested_lists_violated",
    "Verif.Mini.C85_pages_round_trip_violated",
    "Verif.Mini.C85_lists_round_trip_violated",
    "Verif.Mini.C85_nonvacuous",
    "Verif.Mini.C85_flat_nonvacuous"
   ],
   "note": "Proved in full for columns without lists (any nullability, any fixed width below 4093 bytes, any ranges, any batches). For lists the claim fails in four ways (see the _violated theorems): a range starting right after a list that fills a chunk, values that exactly fill the chunks, thousands of empty or null lists, and null or empty lists inside of lists. The partial theorem covers lists of any length over any number of chunks, with null and empty lists as whole rows, for any codec that gives its values back, where the range does not start after a chunk-filling row."
  },
  {
   "property": "C86",
   "status": "partial",
   "theorems": [
    "Verif.Mini.C86_flat_strings_round_trip",
    "Verif.Mini.C86_flat_fsst_round_trip",
    "Verif.Mini.C86_string_lists_partial",
    "Verif.Mini.C86_string_codecs",
    "Verif.Mini.C86_wide_strings_violated",
    "Verif.Mini.C86_strings_round_trip_violated",
    "Verif.Mini.C86_nonvacuous",
    "Verif.Mini.C86_lists_nonvacuous"
   ],
   "note": "Proved in full for columns without lists: strings up to 2042 bytes (the writer chooses mini-blocks below 256) stored as they are, and strings up to 1021 bytes compressed with FSST, whatever symbol table is found. Lists of strings without null or empty lists are always written and read back except for ranges right after a list that fills a chunk; lists with null and empty lists are covered by C85_pages_round_trip_partial with the codecs of C86_string_codecs. Fails for wide nullable strings when the user asks for mini-blocks (C86_wide_strings_violated). 64 bit offsets are a todo! in the code."
  },
  {
   "property": "C87",
   "status": "partial",
   "theorems": [
    "Verif.Mini.C87_fastlanes_round_trip",
    "Verif.Mini.C87_packed_fits",
    "Verif.Mini.C87_fixed_codecs",
    "Verif.Mini.C87_flat_fixed_width_round_trip",
    "Verif.Mini.C87_integer_lists_partial",
    "Verif.Mini.C87_nested_lists_violated",
    "Verif.Mini.C87_fixed_width_round_trip_violated",
    "Verif.Mini.C87_nonvacuous",
    "Verif.Mini.C87_lists_nonvacuous"
   ],
   "note": "Proved in full for FastLanes (all four types, all widths, all values) and for columns without lists with the codec the writer chooses (any width below 4093 bytes). Lists of integers without null or empty lists are always written (if no chunk is all zeros) and read back except for ranges right after a list that fills a chunk; lists with null and empty lists are covered by C85_pages_round_trip_partial with C87_fixed_codecs. Lists of lists fail as in C85."
  },
  {
   "property": "C88",
   "status": "partial",
   "theorems": [
    "Verif.RepDef.C88_vectors_round_trip_partial",
    "Verif.RepDef.C88_vector_page_round_trip",
    "Verif.RepDef.C88_vectors_nonvacuous",
    "Verif.RepDef.C88_flat_round_trip_partial",
    "Verif.RepDef.C88_flat_page_round_trip",
    "Verif.RepDef.C88_lists_round_trip_partial",
    "Verif.RepDef.C88_list_page_round_trip_partial",
    "Verif.RepDef.C88_list_starting_with_null",
    "Verif.RepDef.C88_empty_lists_in_lists",
    "Verif.RepDef.C88_null_struct_around_list",
    "Verif.RepDef.C88_pages_with_and_without_nulls",
    "Verif.RepDef.C88_struct_nulls_between_pages",
    "Verif.RepDef.C88_fixed_size_lists_in_lists",
    "Verif.RepDef.C88_arrays_round_trip_violated",
    "Verif.RepDef.C88_flat_nonvacuous",
    "Verif.RepDef.C88_lists_nonvacuous"
   ],
   "note": "Proved for columns without lists (values in any nesting of structs and fixed size lists, any arrays, any pages that have bitmaps at the same layers; a single page without that restriction) and for one layer of lists in and around any number of structs (null and empty lists, sliced arrays, null lists with values), where structs around lists are not null and a list may start with a null element only if the lists have levels of their own. Where the claim fails is proved by examples: see DESIGN.md section 4."
  },
  {
   "property": "C89",
   "status": "partial",
   "theorems": [
    "Verif.RepDef.C89_flat_fixed_width_round_trip",
    "Verif.RepDef.C89_flat_strings_round_trip",
    "Verif.RepDef.C89_lists_round_trip_partial",
    "Verif.RepDef.C89_integer_lists_partial",
    "Verif.RepDef.C89_list_starting_with_null",
    "Verif.RepDef.C89_columns_round_trip_violated",
    "Verif.RepDef.C89_flat_nonvacuous",
    "Verif.RepDef.C89_lists_nonvacuous"
   ],
   "note": "Proved end to end (arrays to bytes of a page to arrays) for columns without lists, of fixed width values and of strings, with no restriction but sizes; for lists with any codec if the page was written and no list is longer than a chunk; for lists of integers that are neither null nor empty also that the page is written. Missing: what C85, C87 and C88 lack for lists (nested lists, null structs around lists, lists starting with a null element without levels of their own, long lists)."
  },
  {
   "property": "C90",
   "status": "partial",
   "theorems": [
    "Verif.Zip.C90_fixed_width_partial",
    "Verif.Zip.C90_strings_partial",
    "Verif.Zip.C90_zero_levels_misread",
    "Verif.Zip.C90_null_list_in_struct_panics",
    "Verif.Zip.C90_deep_levels_panic",
    "Verif.Zip.C90_fixed_width_violated",
    "Verif.Zip.C90_strings_violated",
    "Verif.Zip.C90_fixed_width_nonvacuous",
    "Verif.Zip.C90_strings_nonvacuous"
   ],
   "note": "Proved for all pages (fixed width and strings, any layers of lists, any ranges and batches) that meet `Plain`: fewer than 256 levels, not all definition levels 0, null and empty lists not inside of something nullable. The statement itself is violated in each of these three cases, with witnesses."
  },
  {
   "property": "C91",
   "status": "partial",
   "theorems": [
    "Verif.Zip.C91_flat_fixed_width_partial",
    "Verif.Zip.C91_flat_strings_partial",
    "Verif.Zip.C91_lists_fixed_width_partial",
    "Verif.Zip.C91_lists_strings_partial",
    "Verif.Zip.C91_all_valid_bitmap_unreadable",
    "Verif.Zip.C91_string_lists_without_nulls_panic",
    "Verif.Zip.C91_null_list_in_nullable_struct_panics",
    "Verif.Zip.C91_fixed_width_violated",
    "Verif.Zip.C91_strings_violated",
    "Verif.Zip.C91_flat_nonvacuous",
    "Verif.Zip.C91_lists_nonvacuous",
    "Verif.Zip.C91_vectors_partial",
    "Verif.Zip.C91_vectors_nonvacuous"
   ],
   "note": "Proved for values of a fixed width in any nesting (below 255 layers) of structs and fixed size lists, for strings in any number of structs, and for one layer of lists with structs around and inside, provided something is null or there are no bitmaps (lists of strings: something is null or a list is empty) and structs around lists have no bitmaps. Missing: lists of lists, fixed size lists in lists, and the cases shown to fail (all-valid bitmaps, lists of strings without nulls, nullable structs around lists)."
  },
  {
   "property": "C92",
   "status": "partial",
   "theorems": [
    "Verif.Iscan.C92_rows_partial",
    "Verif.Iscan.C92_addresses_partial",
    "Verif.Iscan.C92_positive_partial",
    "Verif.Iscan.C92_bitmap_positive_partial",
    "Verif.Iscan.C92_no_nulls_partial",
    "Verif.Iscan.C92_row_ids_partial",
    "Verif.Iscan.C92_no_index",
    "Verif.Iscan.C92_same_rows_partial",
    "Verif.Iscan.C92_null_rows_violated",
    "Verif.Iscan.C92_is_true_violated",
    "Verif.Iscan.C92_capacity_violated",
    "Verif.Iscan.C92_violated",
    "Verif.Iscan.C92_nonvacuous",
    "Verif.Iscan.C92_stable_nonvacuous",
    "Verif.Iscan.C92_negated_nonvacuous",
    "Verif.Iscan.C92_query_as_filter",
    "Verif.Iscan.C92_whole_fragments",
    "Verif.Iscan.C92_whole_fragments_nonvacuous"
   ],
   "note": "Fails for NULLs (`x != 5` returns NULL rows of covered fragments but not of others; `NOT (b IS TRUE)` loses NULL rows of fragments not covered) and panics with stable row ids when fragments are chosen and more rows are blocked than they have. Proved: the answer is exact whenever the scan completes if nothing negated is NULL, no IS TRUE below a NOT meets a NULL and the index query combines masks of the same kind; it completes without stable row ids if the query can be evaluated, with them if blocked rows are rows of the scanned fragments; for filters without negations nothing is assumed of NULLs and it completes in both modes (also stated with bitmap and label list indices built over older versions); without indices it always holds. Taking rows by id is abstracted (C31), and so is reading a fragment (C28, C62)."
  },
  {
   "property": "C93",
   "status": "partial",
   "theorems": [
    "Verif.Upload.C93_content_partial",
    "Verif.Upload.C93_invisible_before_shutdown",
    "Verif.Upload.C93_all_or_nothing",
    "Verif.Upload.C93_tell",
    "Verif.Upload.C93_parts_in_flight",
    "Verif.Upload.C93_part_sizes_partial",
    "Verif.Upload.C93_wakes_partial",
    "Verif.Upload.C93_completes_partial",
    "Verif.Upload.C93_retried_never_completes",
    "Verif.Upload.C93_wakes_violated",
    "Verif.Upload.C93_retries_violated",
    "Verif.Upload.C93_no_concurrency_violated",
    "Verif.Upload.C93_violated",
    "Verif.Upload.C93_lenient_store_reorders",
    "Verif.Upload.C93_write_after_shutdown",
    "Verif.Upload.C93_empty_write_hangs",
    "Verif.Upload.C93_nonvacuous",
    "Verif.Upload.C93_small_nonvacuous"
   ],
   "note": "Violated: a write whose buffer is full can be pending with nothing left to wake it (C93_wakes_violated); after one reset of a connection the upload can never be completed (C93_retries_violated, C93_retried_never_completes for every run); with LANCE_UPLOAD_CONCURRENCY=0 the shutdown leaves out what is in the buffer (C93_no_concurrency_violated). Proved for every sequence of polls and every order of answers: contents, all or nothing, tell, number and sizes of parts, wake-ups of flush and shutdown and of writes into a buffer with room, completion without resets."
  },
  {
   "property": "C94",
   "status": "partial",
   "theorems": [
    "Verif.File.C94_open_partial",
    "Verif.File.C94_bytes",
    "Verif.File.C94_any_block",
    "Verif.File.C94_only_lance_files",
    "Verif.File.C94_external",
    "Verif.File.C94_external_flush",
    "Verif.File.C94_external_finish_partial",
    "Verif.File.C94_column_buffers_violated",
    "Verif.File.C94_external_violated",
    "Verif.File.C94_external_positions_violated",
    "Verif.File.C94_never_panics_violated",
    "Verif.File.C94_open_nonvacuous",
    "Verif.File.C94_case"
   ],
   "note": "Every run of write_batch, add_global_buffer and finish, every block size of at least 40: schema, rows, pages, encodings and global buffers are read back, buffers outside of pages of batches and of the last flush are where encoders were told, statistics add up. Not full: the second buffer of a column is looked for at the wrong place unless the first is a multiple of 64 bytes (violated); buffers outside of pages at the end are not padded, so that a 2.1 file cannot be opened (violated); a corrupt file can make the reader panic (violated). Protobuf is a codec that reads what it wrote; what is in the pages is C86 to C91."
  },
  {
   "property": "C95",
   "status": "partial",
   "theorems": [
    "Verif.File.C95_page_table",
    "Verif.File.C95_self_described_partial",
    "Verif.File.C95_mini_partial",
    "Verif.File.C95_round_trip_partial",
    "Verif.File.C95_round_trip_violated",
    "Verif.File.C95_rows_violated",
    "Verif.File.C95_external_violated",
    "Verif.File.C95_external_partial",
    "Verif.File.C95_nonvacuous"
   ],
   "note": "The page table is right for every batch, and batches of 2.0 pages are read back with and without schema. Not full: a batch of 2.1 pages is marked as 2.0 and reading it panics (violated), the number of rows is lost without columns (violated), and buffers outside of pages are not where encoders were told (violated)."
  },
  {
   "property": "C96",
   "status": "partial",
   "theorems": [
    "Verif.Proj.C96_whole_partial",
    "Verif.Proj.C96_whole_violated",
    "Verif.Proj.C96_any_projection_partial",
    "Verif.Proj.C96_field_ids_partial",
    "Verif.Proj.C96_field_ids_violated",
    "Verif.Proj.C96_names_partial",
    "Verif.Proj.C96_names_violated",
    "Verif.Proj.C96_import_partial",
    "Verif.Proj.C96_import_violated",
    "Verif.Proj.C96_nonvacuous",
    "Verif.Proj.C96_case_21",
    "Verif.Proj.C96_names_nonvacuous"
   ],
   "note": "Proved for whole schemas on which the encoder and the reader agree about packing, for selections by field id (2.0 always, 2.1 without packed structs), for selections by name where every field has a column, and for files put into a dataset under the same conditions. Violated: packed structs cannot be read through field ids in 2.1; by name a field is silently read from another field's column in nested 2.1 files and after packed structs in 2.0; create_fragment_from_file records wrong columns for nested 2.1 files and after packed structs; the keys that mean packed differ between encoder and projection; nested packed structs, empty structs (2.1), LargeUtf8/LargeBinary/dictionary columns (2.1) and 2.0 files of 2^32 rows cannot be read."
  },
  {
   "property": "C97",
   "status": "partial",
   "theorems": [
    "Verif.Session.C97_by_version_partial",
    "Verif.Session.C97_partial",
    "Verif.Session.C97_no_row_ids_partial",
    "Verif.Session.C97_index_and_mask_partial",
    "Verif.Session.C97_missing_row_ids_partial",
    "Verif.Session.C97_overwrite_violated",
    "Verif.Session.C97_restore_violated",
    "Verif.Session.C97_violated",
    "Verif.Session.C97_remake_violated",
    "Verif.Session.C97_transaction_violated",
    "Verif.Session.C97_nonvacuous"
   ],
   "note": "Every reachable state of a dataset and a session (any writers, loads, interrupted computations, evictions). Indices, deletions and transactions are right for every history (transactions up to what the transaction file loses); everything is right for histories without restores and overwrites, and for every history without stable row ids. Violated: row id sequences are cached by fragment id only, so after an overwrite or a restore with stable row ids a session reads the row ids of another fragment; a dataset removed and made again at one path is read through the old entries; the cached transaction of a commit differs from the stored one. Assumes that two deletion files of one fragment never get the same random name."
  },
  {
   "property": "C98",
   "status": "partial",
   "theorems": [
    "Verif.Train.C98_ranges",
    "Verif.Train.C98_sample",
    "Verif.Train.C98_error_partial",
    "Verif.Train.C98_violated",
    "Verif.Train.C98_nonvacuous"
   ],
   "note": "C98_ranges and C98_sample hold for every outcome of the random choices in which every bin comes up (the loop that draws bins goes on until then). Missing: success on every dataset; C98_violated: a nullable column that has only nulls and more rows than the sample makes the concatenation of zero batches fail. C98_error_partial says exactly when it fails."
  },
  {
   "property": "C99",
   "status": "partial",
   "theorems": [
    "Verif.Sampler.C99_passes_partial",
    "Verif.Sampler.C99_violated",
    "Verif.Sampler.C99_skip",
    "Verif.Sampler.C99_nonvacuous",
    "Verif.Sampler.C99_sharded_iterator"
   ],
   "note": "C99_passes_partial covers every number of passes over an iterable that starts over, and the first pass over an iterator; C99_skip and C99_sharded_iterator are complete. Missing: later passes over an iterator, as in the example of the documentation, which are empty (C99_violated)."
  },
  {
   "property": "C100",
   "status": "partial",
   "theorems": [
    "Verif.Conv.C100_cast_to",
    "Verif.Conv.C100_bf16_numpy_partial",
    "Verif.Conv.C100_bf16_round_trip",
    "Verif.Conv.C100_cast_from_partial",
    "Verif.Conv.C100_slice_violated",
    "Verif.Conv.C100_tensor_partial",
    "Verif.Conv.C100_null_vectors_violated",
    "Verif.Conv.C100_vectors_partial",
    "Verif.Conv.C100_vectors_violated",
    "Verif.Conv.C100_nonvacuous"
   ],
   "note": "Casting to bfloat16 and between other floats is complete (C100_cast_to), also for slices. From bfloat16, C100_bf16_numpy_partial and C100_cast_from_partial say that the result is right exactly if the array is all of its buffer (C100_slice_violated). C100_tensor_partial: all slices, lists that are not null (C100_null_vectors_violated). C100_vectors_partial: casts of vectors and the KMeans input are right for whole arrays without null lists (C100_vectors_violated)."
  },
  {
   "property": "C101",
   "status": "partial",
   "theorems": [
    "Verif.Fmt.C101_one_version",
    "Verif.Fmt.C101_readers",
    "Verif.Fmt.C101_insert",
    "Verif.Fmt.C101_fragments_partial",
    "Verif.Fmt.C101_fragments_violated",
    "Verif.Fmt.C101_asked_partial",
    "Verif.Fmt.C101_asked_violated",
    "Verif.Fmt.C101_names",
    "Verif.Fmt.C101_nonvacuous"
   ],
   "note": "C101_one_version, C101_readers and C101_insert are complete for every history. Missing: fragments written separately in version 2.1 are in 2.0 (C101_fragments_partial, C101_fragments_violated), and an overwrite committed as legacy with 2.0 files becomes 2.0 instead of being refused (C101_asked_partial, C101_asked_violated)."
  },
  {
   "property": "C102",
   "status": "partial",
   "theorems": [
    "Verif.Legacy.C102_read_kept",
    "Verif.Legacy.C102_read_partial",
    "Verif.Legacy.C102_beyond",
    "Verif.Legacy.C102_bool_lists_violated",
    "Verif.Legacy.C102_read_violated",
    "Verif.Legacy.C102_unsorted_violated",
    "Verif.Legacy.C102_nonvacuous"
   ],
   "note": "Proved: what is read is exactly what the page keeps of the rows (read_kept), faithful without nulls (read_partial), requests beyond the page fail. Violated in general: nulls of fixed-width columns are read as the value below (booleans as false), takes on fixed-size lists of booleans panic, unsorted indices fail."
  },
  {
   "property": "C103",
   "status": "partial",
   "theorems": [
    "Verif.Legacy.C103_read_kept",
    "Verif.Legacy.C103_read_partial",
    "Verif.Legacy.C103_empty_violated",
    "Verif.Legacy.C103_null_violated",
    "Verif.Legacy.C103_repeated_violated",
    "Verif.Legacy.C103_read_violated",
    "Verif.Legacy.C103_nonvacuous"
   ],
   "note": "Proved: every request gives the bytes of the rows, empty ones being null if the column is nullable (read_kept), faithful for arrays that can be told apart from what is stored and increasing indices. Violated: empty strings in nullable columns read as null, a null with bytes below reads as those bytes, a repeated first index cannot be read."
  },
  {
   "property": "C104",
   "status": "partial",
   "theorems": [
    "Verif.Legacy.C104_range_kept",
    "Verif.Legacy.C104_take_kept",
    "Verif.Legacy.C104_read_partial",
    "Verif.Legacy.C104_search_total",
    "Verif.Legacy.C104_beyond",
    "Verif.Legacy.C104_count",
    "Verif.Legacy.C104_null_list_violated",
    "Verif.Legacy.C104_null_struct_violated",
    "Verif.Legacy.C104_dictionary_violated",
    "Verif.Legacy.C104_order_violated",
    "Verif.Legacy.C104_read_violated",
    "Verif.Legacy.C104_rows_distinct",
    "Verif.Legacy.C104_nonvacuous"
   ],
   "note": "Proved for all column types by induction on the type, over all write calls: ranges and takes give what the file keeps of the rows, faithful for arrays without nulls and with the dictionary of the schema; every result of the search; requests beyond the file fail; the row count. Violated: null lists become empty, null structs become structs, dictionary keys of later batches are read with the first dictionary, takes return rows in file order and repeated indices of strings fail."
  },
  {
   "property": "C105",
   "status": "partial",
   "theorems": [
    "Verif.Pq.C105_reported_partial",
    "Verif.Pq.C105_l2_partial",
    "Verif.Pq.C105_fourbit_partial",
    "Verif.Pq.C105_dot_violated",
    "Verif.Pq.C105_few_rows_violated",
    "Verif.Pq.C105_offset_violated",
    "Verif.Pq.C105_wrap_violated",
    "Verif.Pq.C105_violated",
    "Verif.Pq.C105_nonvacuous"
   ],
   "note": "Proved for the exact arithmetic of integers: rows are quantized to the nearest vector of centroids (all metrics, 8 and 4 bits); searches with a filter report the distance of the quantized vector, for dot plus the number of further sub-vectors; with 8 bits the same holds without a filter, and with L2 the statement holds in full; with 4 bits, L2 and 15 rows or more, distances without a filter are right up to a constant of the query and the precision of the table if sums of two entries fit in a byte. False in general: dot distances are one too large for every further sub-vector, 4-bit searches of fewer than 15 rows panic, sums wrap on x86-64, and 4-bit distances with and without a filter differ. Not modelled: floating-point rounding, NaN, training of the codebook, SIMD lookups beyond their meaning on bytes."
  },
  {
   "property": "C106",
   "status": "partial",
   "theorems": [
    "Verif.Pq.C106_first_format",
    "Verif.Pq.C106_batch",
    "Verif.Pq.C106_survivors",
    "Verif.Pq.C106_remap_partial",
    "Verif.Pq.C106_byte_partial",
    "Verif.Pq.C106_mixed_violated",
    "Verif.Pq.C106_violated",
    "Verif.Pq.C106_nonvacuous",
    "Verif.Pq.C106_byte_nonvacuous"
   ],
   "note": "Violated in the third format: if a row is removed, codes are mixed up (C106_mixed_violated). Proved in full for the first format and any number of compactions (C106_first_format); in the third format if no row is removed (C106_remap_partial) or if the code of a row is one byte (C106_byte_partial)."
  },
  {
   "property": "C107",
   "status": "partial",
   "theorems": [
    "Verif.Pq.C107_first_format",
    "Verif.Pq.C107_merge_partial",
    "Verif.Pq.C107_new_partial",
    "Verif.Pq.C107_residual_violated",
    "Verif.Pq.C107_deleted_violated",
    "Verif.Pq.C107_violated",
    "Verif.Pq.C107_nonvacuous"
   ],
   "note": "Violated in the third format: existing rows are quantized without the centroid of their partition (C107_residual_violated), and a deleted row makes the merge fail (C107_deleted_violated). Proved in full for the first format (C107_first_format); in the third format for dot without deleted rows (C107_merge_partial), and for all metrics the new rows are right (C107_new_partial)."
  },
  {
   "property": "C108",
   "status": "partial",
   "theorems": [
    "Verif.Pq.C108_search_partial",
    "Verif.Pq.C108_l2_partial",
    "Verif.Pq.C108_nearest_mem",
    "Verif.Pq.C108_farthest_violated",
    "Verif.Pq.C108_violated",
    "Verif.Pq.C108_sorts",
    "Verif.Pq.C108_nonvacuous"
   ],
   "note": "Proved for both formats with 8 bits and for 4 bits with a filter, for L2 with exact distances, for dot with the constant that C105 describes. False for 4 bits without a filter, where the nearest rows are not found (C105). In the first format a limit of zero with a bound returns one row; Python rejects it. A bound that is not given is no bound in the model, in the third format it is the least or largest finite float."
  },
  {
   "property": "C109",
   "status": "partial",
   "theorems": [
    "Verif.Sq.C109_clamped_partial",
    "Verif.Sq.C109_l2_partial",
    "Verif.Sq.C109_self_partial",
    "Verif.Sq.C109_dot_partial",
    "Verif.Sq.C109_outside_violated",
    "Verif.Sq.C109_constant_violated",
    "Verif.Sq.C109_dot_violated",
    "Verif.Sq.C109_cosine_violated",
    "Verif.Sq.C109_cosine_partial",
    "Verif.Sq.C109_cosine_twice",
    "Verif.Sq.C109_nonvacuous"
   ],
   "note": "Violated: numbers outside the sample are clamped (C109_outside_violated), a constant sample makes the build panic (C109_constant_violated), dot uses products of shifted bytes (C109_dot_violated), cosine reports twice the distance (C109_cosine_violated). Proved: the error bound for L2 for all rows and queries after clamping (C109_clamped_partial), without clamping inside the sample (C109_l2_partial), zero for equal vectors (C109_self_partial), dot if the least number is zero (C109_dot_partial), cosine against the L2 distance of normalized vectors (C109_cosine_partial). Missing: dimensions above 66051, where sums of 32 bits wrap. Floats are integers in the model."
  },
  {
   "property": "C110",
   "status": "partial",
   "theorems": [
    "Verif.Sq.C110_merge_partial",
    "Verif.Sq.C110_cosine_violated",
    "Verif.Sq.C110_new_rows_partial",
    "Verif.Sq.C110_deleted_violated",
    "Verif.Sq.C110_violated",
    "Verif.Sq.C110_nonvacuous"
   ],
   "note": "Violated for cosine (C110_cosine_violated) and with deleted rows (C110_deleted_violated). Proved for L2 and dot without deleted rows (C110_merge_partial)."
  },
  {
   "property": "C111",
   "status": "proved",
   "theorems": [
    "Verif.Hnsw.C111_search",
    "Verif.Hnsw.C111_query",
    "Verif.Hnsw.C111_few",
    "Verif.Hnsw.C111_nonvacuous"
   ],
   "note": "Proved for built and loaded graphs, any order of ties (C111_search, C111_query), and exact nearest rows for filters that select less than a tenth (C111_few). Nodes are inserted one after another in the model; the search part holds for any graph whose links are in range."
  },
  {
   "property": "C112",
   "status": "partial",
   "theorems": [
    "Verif.Hnsw.C112_connected_partial",
    "Verif.Hnsw.C112_lost_violated",
    "Verif.Hnsw.C112_bounds_violated",
    "Verif.Hnsw.C112_violated",
    "Verif.Hnsw.C112_nonvacuous"
   ],
   "note": "Violated: a far row may be linked by no other and is never found (C112_lost_violated); bounds are ignored (C112_bounds_violated). Proved for graphs in which all rows can be reached from all at level 0, for built and loaded graphs, without bounds (C112_connected_partial)."
  },
  {
   "property": "C113",
   "status": "partial",
   "theorems": [
    "Verif.Hnsw.C113_bottom_partial",
    "Verif.Hnsw.C113_violated",
    "Verif.Hnsw.C113_shifted_violated",
    "Verif.Hnsw.C113_nonvacuous"
   ],
   "note": "Violated: the counts of nodes of upper levels do not count node 0, so the offsets are shifted (C113_violated, C113_shifted_violated). Proved: loading does not fail and level 0 is as it was (C113_bottom_partial)."
  },
  {
   "property": "C114",
   "status": "partial",
   "theorems": [
    "Verif.PageTable.C114_first_kept_partial",
    "Verif.PageTable.C114_written",
    "Verif.PageTable.C114_first_replaced_shifts_violated",
    "Verif.PageTable.C114_violated",
    "Verif.PageTable.C114_cached_partial",
    "Verif.PageTable.C114_cache_partial",
    "Verif.PageTable.C114_empty_struct_violated",
    "Verif.PageTable.C114_table",
    "Verif.PageTable.C114_stats",
    "Verif.PageTable.C114_nonvacuous",
    "Verif.PageTable.C114_tombstone"
   ],
   "note": "Violated: once the column with the smallest id of a legacy file is replaced, a column f is read at the page of column f+2+lo, or the file cannot be opened. Partial: as long as that column is not replaced, and for sessions that have the table in the cache. Also violated: a schema whose largest id is an empty struct."
  },
  {
   "property": "C115",
   "status": "partial",
   "theorems": [
    "Verif.Validate.C115_exact",
    "Verif.Validate.C115_history_partial",
    "Verif.Validate.C115_replaced_violated",
    "Verif.Validate.C115_violated",
    "Verif.Validate.C115_replaced_error_violated",
    "Verif.Validate.C115_only_nulls_violated",
    "Verif.Validate.C115_documented_violated",
    "Verif.Validate.C115_nonvacuous"
   ],
   "note": "Exactness is proved. Violated: after merge_insert replaces some columns every version is rejected; adding an all-null column and dropping all others leaves fragments without files, on which validate panics. Partial: histories without these two."
  },
  {
   "property": "C116",
   "status": "partial",
   "theorems": [
    "Verif.Fix.C116_newest",
    "Verif.Fix.C116_one_file",
    "Verif.Fix.C116_repaired_partial",
    "Verif.Fix.C116_dropped_violated",
    "Verif.Fix.C116_three_violated",
    "Verif.Fix.C116_violated",
    "Verif.Fix.C116_legacy_violated",
    "Verif.Fix.C116_legacy_test_violated",
    "Verif.Fix.C116_legacy_single_partial",
    "Verif.Fix.C116_nonvacuous"
   ],
   "note": "What the repair does to columns and files is proved for all manifests. Violated: it panics if the duplicate column was dropped; with three files of the same id each later commit panics; legacy files with a new id for a column other than the first cannot be opened. Partial: at most two files with the id and the column in the schema; legacy files of one column."
  },
  {
   "property": "C117",
   "status": "partial",
   "theorems": [
    "Verif.Replace.C117_replaced_partial",
    "Verif.Replace.C117_columns_violated",
    "Verif.Replace.C117_violated",
    "Verif.Replace.C117_twice_violated",
    "Verif.Replace.C117_twice_witness_violated",
    "Verif.Replace.C117_index_violated",
    "Verif.Replace.C117_index_witness_violated",
    "Verif.Replace.C117_length_violated",
    "Verif.Replace.C117_formats_violated",
    "Verif.Replace.C117_layout",
    "Verif.Replace.C117_accepted",
    "Verif.Replace.C117_missing_null",
    "Verif.Replace.C117_nonvacuous"
   ],
   "note": "Violated: the column indices of the new file are ignored, a fragment given twice is then there twice, indices go on to cover replaced fragments, lengths and formats are not checked. Partial: each fragment given once and new files with the columns in the order of the replaced ones. When the operation is accepted and refused is proved."
  },
  {
   "property": "C118",
   "status": "partial",
   "theorems": [
    "Verif.Tfrecord.C118_tensor_partial",
    "Verif.Tfrecord.C118_unaligned_violated",
    "Verif.Tfrecord.C118_double_violated",
    "Verif.Tfrecord.C118_column_partial",
    "Verif.Tfrecord.C118_read_partial",
    "Verif.Tfrecord.C118_inferred_partial",
    "Verif.Tfrecord.C118_flat_violated",
    "Verif.Tfrecord.C118_shift_violated",
    "Verif.Tfrecord.C118_lost_violated",
    "Verif.Tfrecord.C118_features_violated",
    "Verif.Tfrecord.C118_list_missing_violated",
    "Verif.Tfrecord.C118_double_rows_violated",
    "Verif.Tfrecord.C118_unaligned_rows_violated",
    "Verif.Tfrecord.C118_violated",
    "Verif.Tfrecord.C118_nonvacuous",
    "Verif.Tfrecord.C118_mismatch_refused"
   ],
   "note": "Proved for whole files, all batch sizes and all four shapes of columns, for features that fit the column and are safe (C118_read_partial); safe excludes three faults of the code, each with its own theorem: tensor content that is not aligned in memory (C118_unaligned_violated), doubles in double_val (C118_double_violated), and lists of tensors that are missing in a record (C118_list_missing_violated). Features without values shift or lose rows (C118_shift_violated, C118_lost_violated). Parsing of records and protobuf messages is not modelled."
  },
  {
   "property": "C119",
   "status": "partial",
   "theorems": [
    "Verif.Shared.C119_items",
    "Verif.Shared.C119_bounded",
    "Verif.Shared.C119_waits_partial",
    "Verif.Shared.C119_one_task_partial",
    "Verif.Shared.C119_parallel_violated",
    "Verif.Shared.C119_dropped_violated",
    "Verif.Shared.C119_dropped_polling_violated",
    "Verif.Shared.C119_violated",
    "Verif.Shared.C119_nonvacuous"
   ],
   "note": "Safety (C119_items, C119_bounded) is proved for all schedules, capacities and drops. That no reader waits for nothing is proved without drops, for all capacities but zero and one with parallel tasks (C119_waits_partial), and for all capacities but zero if one task polls both halves (C119_one_task_partial). Violated with a capacity of one and parallel tasks (C119_parallel_violated), and whenever a half is dropped (C119_dropped_violated, C119_dropped_polling_violated): a write of blobs hangs if one of its writers fails."
  },
  {
   "property": "C120",
   "status": "partial",
   "theorems": [
    "Verif.Bitpack.C120_read_partial",
    "Verif.Bitpack.C120_one_range_partial",
    "Verif.Bitpack.C120_one_batch_partial",
    "Verif.Bitpack.C120_take_partial",
    "Verif.Bitpack.C120_skipped_again",
    "Verif.Bitpack.C120_skipped_again_violated",
    "Verif.Bitpack.C120_violated",
    "Verif.Bitpack.C120_nonvacuous"
   ],
   "note": "Partial. Proved for every width, sign, page and range: the loop that moves bits between bytes gives exactly the bits of the value and the sign (C120_read_partial rests on it), so every batch that starts at the start of a range or lies in one range is right; in particular one range in batches of any sizes (C120_one_range_partial), single rows in batches of any sizes (C120_take_partial), and any ranges in one batch (C120_one_batch_partial). False otherwise: rows_to_skip is not reset after the buffer in which it was used, so a batch that starts k rows inside a range and goes on to the next one skips k rows of that one as well and ends with zeros (C120_skipped_again says exactly what comes out; C120_skipped_again_violated, C120_violated)."
  },
  {
   "property": "C121",
   "status": "partial",
   "theorems": [
    "Verif.Lanes.C121_read_partial",
    "Verif.Lanes.C121_in_order_partial",
    "Verif.Lanes.C121_twice_violated",
    "Verif.Lanes.C121_violated",
    "Verif.Lanes.C121_nonvacuous"
   ],
   "note": "Violated as stated: the last row of a chunk, asked for twice, is there only once, so a batch with both panics (C121_twice_violated, for every page; C121_violated). Proved from writing to reading: any ranges in any order with repetitions unless a range starts in the chunk at whose end the range before it ends (C121_read_partial), hence all ranges in order that do not overlap (C121_in_order_partial), in batches of any sizes. Missing: the bytes of the packed words, the statistics of other encodings, the choice of this encoding."
  },
  {
   "property": "C122",
   "status": "partial",
   "theorems": [
    "Verif.Nest.C122_late_partial",
    "Verif.Nest.C122_late_violated",
    "Verif.Nest.C122_union_partial",
    "Verif.Nest.C122_whole",
    "Verif.Nest.C122_some_children_violated",
    "Verif.Nest.C122_violated",
    "Verif.Nest.C122_two_steps_violated",
    "Verif.Nest.C122_nonvacuous",
    "Verif.Nest.C122_nonvacuous_parts"
   ],
   "note": "Violated as stated: a null struct with parts from both steps (C122_late_violated, at every depth), or of which only some children are asked for (C122_some_children_violated), is not null any more. Proved for all rows, schemas and divisions: all values at every depth, all structs that are not null, null structs that come from one step only, and that nothing else appears (C122_late_partial, C122_union_partial); a struct that is taken whole is as stored, with its children in the stored order (C122_whole). Missing: structs inside lists, types, metadata; get_field and named_struct of DataFusion are trusted."
  },
  {
   "property": "C123",
   "status": "partial",
   "theorems": [
    "Verif.Optim.C123_rule_partial",
    "Verif.Optim.C123_simplify",
    "Verif.Optim.C123_both_partial",
    "Verif.Optim.C123_scan_partial",
    "Verif.Optim.C123_lost",
    "Verif.Optim.C123_lost_silently",
    "Verif.Optim.C123_order_violated",
    "Verif.Optim.C123_violated",
    "Verif.Optim.C123_nonvacuous"
   ],
   "note": "Violated as stated: a scan with a filter that an index answers and an order by columns none of which is asked for panics when it is planned (C123_order_violated, for all datasets and columns); a column that the inner take reads and the outer one does not ask for is lost or the rule panics (C123_lost), and it is lost without a panic if the outer take asks for nothing new (C123_lost_silently). Proved: every plan in which takes ask for what the takes directly below them ask for gives the same columns in the same order (C123_rule_partial), scans ordered by columns that are asked for (C123_scan_partial), the rule that removes projections for every plan (C123_simplify), and both together (C123_both_partial). Missing: nested columns, expressions of filters and sorts that refer to columns by index."
  }
 ]
}