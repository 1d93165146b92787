{
 "claims": [
  {
   "property": "C01",
   "status": "proved",
   "theorems": [
    "Tonbo.Props.C01.commit_ts_strictly_increase",
    "Tonbo.Props.C01.commit_ts_unique",
    "Tonbo.Props.C01.next_above_allocated",
    "Tonbo.Props.C01.advance_effective",
    "Tonbo.Props.C01.clock_monotone",
    "Tonbo.Props.C01.a_snapshot_divides_the_timestamps"
   ],
   "note": ""
  },
  {
   "property": "C02",
   "status": "proved",
   "theorems": [
    "Tonbo.Props.C02.mutable_scan",
    "Tonbo.Props.C02.mutable_scan_in_range",
    "Tonbo.Props.C02.mutable_rows_in_range"
   ],
   "note": ""
  },
  {
   "property": "C03",
   "status": "proved",
   "theorems": [
    "Tonbo.Props.C03.seal_preserves_reads",
    "Tonbo.Props.C03.frozen_run_panics_on_inverted_range"
   ],
   "note": "Range scans: for ranges that are not inverted; a frozen run panics on an inverted one."
  },
  {
   "property": "C04",
   "status": "partial",
   "theorems": [
    "Tonbo.Props.C04.runs_cover_partial",
    "Tonbo.Props.C04.inserts_never_fail",
    "Tonbo.Props.C04.zero_capacity_errors",
    "Tonbo.Props.C04.rejected_batch_no_effect",
    "Tonbo.Props.C04.failed_insert_drops_frozen_run",
    "Tonbo.Props.C04.empty_batches_wedge",
    "Tonbo.Props.C04.runs_cover_failures_partial",
    "Tonbo.Props.C04.failing_with_room_changes_nothing",
    "Tonbo.Props.C04.failing_on_a_full_table_loses_it",
    "Tonbo.Props.C04.bad_timestamps_change_nothing"
   ],
   "note": "Holds for all calls, failing ones included, as long as a failing call finds a free slot or a table without rows. Refuted for a failing call on a full table (all rows of the table are lost, proved for every such call) and for zero-row batches (table wedges)."
  },
  {
   "property": "C05",
   "status": "partial",
   "theorems": [
    "Tonbo.Props.C05.merged_entries",
    "Tonbo.Props.C05.merged_scan",
    "Tonbo.Props.C05.readiness_irrelevant",
    "Tonbo.Props.C05.equal_timestamps_older_run_wins"
   ],
   "note": "merged_scan needs that sources agree on equal (key, timestamp); equal_timestamps_older_run_wins shows the claim fails without it. Read errors of the sources are the subject of C67."
  },
  {
   "property": "C06",
   "status": "proved",
   "theorems": [
    "Tonbo.Props.C06.scan_batches",
    "Tonbo.Props.C06.limit_is_prefix",
    "Tonbo.Props.C06.limit_with_error"
   ],
   "note": "All sources, all limits, all filters, including filters whose evaluation fails."
  },
  {
   "property": "C07",
   "status": "partial",
   "theorems": [
    "Tonbo.Props.C07.filtered_scan_partial",
    "Tonbo.Props.C07.filtered_scan_by_key_partial",
    "Tonbo.Props.C07.filtered_scan_memory",
    "Tonbo.Props.C07.canonCodec_ok",
    "Tonbo.Props.C07.stale_row_returned",
    "Tonbo.Props.C07.filtered_scan_of_lasting_predicate_partial"
   ],
   "note": "Exact from plan to batches for every history in memory and files, given that visible file rows of a matching key match (automatic for predicates on key columns) and that deletions are covered in pruned runs; both conditions are necessary: stale_row_returned and deletion_skipped_with_its_run are counterexamples on the unchanged code. Row-group selection and the Parquet row filter are hypotheses about foreign crates."
  },
  {
   "property": "C08",
   "status": "proved",
   "theorems": [
    "Tonbo.Props.C08.split_loses_nothing",
    "Tonbo.Props.C08.split_whole",
    "Tonbo.Props.C08.split_true_iff",
    "Tonbo.Props.C08.pushed_is_typed",
    "Tonbo.Props.C08.memory_split_loses_nothing"
   ],
   "note": "For every assignment of three-valued values to leaves, both for the Parquet split and the split used for the memtables."
  },
  {
   "property": "C09",
   "status": "partial",
   "theorems": [
    "Tonbo.Props.C09.key_range_sound_partial",
    "Tonbo.Props.C09.empty_range_matches_nothing_partial",
    "Tonbo.Props.C09.source_not_skipped_partial",
    "Tonbo.Props.C09.memory_range_exact_partial",
    "Tonbo.Props.C09.range_never_inverted",
    "Tonbo.Props.C09.narrow_key_column_drops_rows",
    "Tonbo.Props.C09.narrow_key_column_keeps_wrong_rows",
    "Tonbo.Props.C09.null_literal_keeps_all_rows",
    "Tonbo.Props.C09.false_matches_composite_keys"
   ],
   "note": "Sound and exact for key columns whose literals convert to the column's own cell type (Int64, UInt64, Float64, strings, binary, bool). narrow_key_column_drops_rows: for Int32 (also UInt32, Float32) key columns the derived range excludes every matching row, so the unrestricted property is false of the code."
  },
  {
   "property": "C10",
   "status": "proved",
   "theorems": [
    "Tonbo.Props.C10.prefix_range",
    "Tonbo.Props.C10.prefix_range_unbounded",
    "Tonbo.Props.C10.byte_order_is_code_point_order",
    "Tonbo.Props.C10.the_bytes_are_utf8"
   ],
   "note": "For all strings over Unicode scalar values."
  },
  {
   "property": "C11",
   "status": "proved",
   "theorems": [
    "Tonbo.Props.C11.int_float_exact"
   ],
   "note": "For every i128 and every f64 bit pattern, against exact rational values."
  },
  {
   "property": "C12",
   "status": "partial",
   "theorems": [
    "Tonbo.Props.C12.skipped_run_is_silent_partial",
    "Tonbo.Props.C12.skipped_memtable_is_silent",
    "Tonbo.Props.C07.deletion_skipped_with_its_run"
   ],
   "note": "A skipped run or memtable would have contributed neither row nor tombstone, except when a run holds visible deletions but only newer rows: refuted by deletion_skipped_with_its_run."
  },
  {
   "property": "C13",
   "status": "proved",
   "theorems": [
    "Tonbo.Props.C13.sst_scan"
   ],
   "note": "For files sorted as the writer sorts them."
  },
  {
   "property": "C14",
   "status": "partial",
   "theorems": [
    "Tonbo.Props.C14.flush_preserves_reads_partial",
    "Tonbo.Props.C14.flush_equals_merge_partial",
    "Tonbo.Props.C14.flush_of_nothing_fails",
    "Tonbo.Props.C14.flush_changes_equal_timestamps"
   ],
   "note": "Proved for every call sequence whose writes do not disagree about one key at one timestamp. For the rest the property is false: flush_changes_equal_timestamps gives the witness."
  },
  {
   "property": "C15",
   "status": "partial",
   "theorems": [
    "Tonbo.Props.C15.compaction_preserves_latest_reads_partial",
    "Tonbo.Props.C15.compaction_equals_scan_partial",
    "Tonbo.Props.C15.scan_of_files",
    "Tonbo.Props.C15.compaction_succeeds",
    "Tonbo.Props.C15.compaction_loses_a_row",
    "Tonbo.Props.C15.compaction_revives_a_deleted_row"
   ],
   "note": "False in general: compaction_loses_a_row (for every batch size, one sorted file with more rows than a batch and a later deletion loses a row) and compaction_revives_a_deleted_row. Proved for files whose batches pair up (Fits: no deletions, no rows, or everything in one batch, ...) and inputs that agree about each key and timestamp."
  },
  {
   "property": "C16",
   "status": "partial",
   "theorems": [
    "Tonbo.Props.C16.outputs_sorted_and_disjoint",
    "Tonbo.Props.C16.outputs_lose_no_key_partial",
    "Tonbo.Props.C16.output_ids",
    "Tonbo.Props.C15.compaction_loses_a_row",
    "Tonbo.Props.C16.limits_in_histories",
    "Tonbo.Props.C16.outputs_split_at_the_limits"
   ],
   "note": "Sortedness, disjointness, caps and origin of every version are proved for all inputs, caps and heaps. That no key is lost is false (C15.compaction_loses_a_row) and proved for files that satisfy Fits."
  },
  {
   "property": "C17",
   "status": "partial",
   "theorems": [
    "Tonbo.Props.C17.compaction_drops_history",
    "Tonbo.Props.C17.newest_versions_survive_partial"
   ],
   "note": "False: the merge keeps only the newest version of a key (compaction_drops_history, for every input with two versions of a key). The newest versions survive. Reads through older manifest versions whose files still exist are not part of this."
  },
  {
   "property": "C18",
   "status": "proved",
   "theorems": [
    "Tonbo.Props.C18.flush_stats_exact",
    "Tonbo.Props.C18.compaction_stats_exact"
   ],
   "note": "Statistics of flushed and of compacted files are exact in both directions."
  },
  {
   "property": "C19",
   "status": "partial",
   "theorems": [
    "Tonbo.Props.C19.a_held_snapshot_is_stable_partial",
    "Tonbo.Props.C19.a_snapshot_shows_what_was_committed_partial",
    "Tonbo.Props.C19.a_flush_empties_a_held_snapshot",
    "Tonbo.Props.C19.a_commit_appears_in_an_older_snapshot",
    "Tonbo.Props.C19.the_first_write_appears_in_an_older_snapshot",
    "Tonbo.Props.C74.snapshot_opens",
    "Tonbo.Props.C74.held_snapshot_query_partial",
    "Tonbo.Props.C74.repeatable_query_partial",
    "Tonbo.Props.C74.drain_hides_rows_from_a_snapshot"
   ],
   "note": "Over every interleaving of threads, freezes, flush and compaction steps, without a drain while the snapshot is held, with no write in flight when it is opened. The last three theorems show the unrestricted claim is false of the code. Also for queries with predicates, projections and limits (C74)."
  },
  {
   "property": "C20",
   "status": "partial",
   "theorems": [
    "Tonbo.Props.C19.a_snapshot_shows_what_was_committed_partial",
    "Tonbo.Props.C19.a_flush_during_opening_hides_rows",
    "Tonbo.Props.C19.a_commit_appears_in_an_older_snapshot",
    "Tonbo.Props.C19.a_snapshot_sees_half_a_commit",
    "Tonbo.Props.C19.the_first_write_appears_in_an_older_snapshot"
   ],
   "note": "Proved for snapshots opened while no write is between its timestamp and its return; false otherwise (last four theorems)."
  },
  {
   "property": "C21",
   "status": "partial",
   "theorems": [
    "Tonbo.Props.C21.no_lost_updates_partial",
    "Tonbo.Props.C21.commits_see_earlier_commits_partial",
    "Tonbo.Props.C21.a_conflict_is_a_newer_write_partial",
    "Tonbo.Props.C21.flush_hides_a_conflict",
    "Tonbo.Props.C21.snapshot_during_commit_hides_a_conflict",
    "Tonbo.Props.C21.first_commit_is_no_conflict"
   ],
   "note": "Proved without drains and with quietly opened snapshots; the last three theorems show each condition is needed, so the unrestricted claim is false of the code."
  },
  {
   "property": "C22",
   "status": "proved",
   "theorems": [
    "Tonbo.Props.C21.failed_transactions_leave_no_trace",
    "Tonbo.Props.C21.open_transactions_change_nothing"
   ],
   "note": "A history with a thread that never reaches its commit timestamp ends in the same database, log, clock and conflict decisions as the history without that thread."
  },
  {
   "property": "C23",
   "status": "partial",
   "theorems": [
    "Tonbo.Props.C19.a_transaction_reads_its_own_writes_partial",
    "Tonbo.Props.C19.get_of_a_staged_key_partial",
    "Tonbo.Props.C19.get_of_another_key_partial",
    "Tonbo.Props.C19.get_does_not_see_tables",
    "Tonbo.Props.C19.get_returns_a_deleted_row",
    "Tonbo.Props.C19.get_returns_an_old_row"
   ],
   "note": "Scans under the conditions of C19; get of staged keys without conditions; get of other keys only while everything is in the mutable table. The last three theorems refute get otherwise."
  },
  {
   "property": "C24",
   "status": "proved",
   "theorems": [
    "Tonbo.Props.C21.someone_can_go_on",
    "Tonbo.Props.C21.all_calls_can_finish",
    "Tonbo.Props.C21.a_step_is_progress",
    "Tonbo.Props.C21.lock_holders_differ"
   ],
   "note": "For any number of threads in any reachable state."
  },
  {
   "property": "C25",
   "status": "partial",
   "theorems": [
    "Tonbo.Props.C25.frame_round_trip_partial",
    "Tonbo.Props.C25.log_round_trip_partial",
    "Tonbo.Props.C25.encoding_is_injective_partial",
    "Tonbo.Props.C25.long_payload_does_not_round_trip",
    "Tonbo.Props.C25.zero_sequence_is_refused"
   ],
   "note": "Round trip for every sequence of frames with payloads shorter than 2^32 bytes; the length field is 32 bits wide and longer payloads are proved not to round-trip. The Arrow IPC payload codec is a parameter with a stated law."
  },
  {
   "property": "C26",
   "status": "partial",
   "theorems": [
    "Tonbo.Props.C26.torn_log_is_a_prefix_partial",
    "Tonbo.Props.C26.zero_filled_tail_is_an_error"
   ],
   "note": "Every cut of a log at every byte is proved to read as a prefix of its frames. A zero-filled tail is proved to make recovery fail instead of keeping the prefix."
  },
  {
   "property": "C27",
   "status": "proved",
   "theorems": [
    "Tonbo.Props.C27.payload_burst_is_detected",
    "Tonbo.Props.C27.payload_bit_flip_is_detected",
    "Tonbo.Props.C27.four_bytes_burst",
    "Tonbo.Props.C27.wrong_magic_is_refused",
    "Tonbo.Props.C27.wrong_version_is_refused",
    "Tonbo.Props.C27.unknown_type_is_refused",
    "Tonbo.Props.C27.zero_sequence_field_is_refused",
    "Tonbo.Props.C27.changed_checksum_is_refused",
    "Tonbo.Props.C27.changed_sequence_is_not_detected",
    "Tonbo.Props.C27.enlarged_length_looks_like_a_torn_tail"
   ],
   "note": "Every error burst of at most 32 bits in a payload is detected (CRC-32C, defined bit by bit). The header is not covered by the checksum: two theorems show what is therefore not detected."
  },
  {
   "property": "C28",
   "status": "partial",
   "theorems": [
    "Tonbo.Props.C28.replay_applies_exactly_the_committed",
    "Tonbo.Props.C28.good_log_replays",
    "Tonbo.Props.C28.uncommitted_tail_has_no_effect",
    "Tonbo.Props.C28.aborted_is_dropped",
    "Tonbo.Props.C28.others_do_not_interfere",
    "Tonbo.Props.C28.scan_of_torn_log",
    "Tonbo.Props.C28.recovery_from_files",
    "Tonbo.Props.C28.torn_segment_hides_later_segments"
   ],
   "note": "Replay applies exactly the committed transactions, in commit order, for every log and every cut of the last segment. Missing: a torn segment before the last hides every later segment (proved as torn_segment_hides_later_segments)."
  },
  {
   "property": "C29",
   "status": "partial",
   "theorems": [
    "Tonbo.Props.C29.abandoned_payload_comes_back",
    "Tonbo.Props.C29.abandoned_payload_stops_recovery",
    "Tonbo.Props.C29.refused_batch_stops_recovery",
    "Tonbo.Props.C29.empty_batches_stop_recovery",
    "Tonbo.Props.C29.fast_commit_can_be_lost",
    "Tonbo.Props.C29.quiet_histories_are_sound_partial",
    "Tonbo.Props.C29.recovery_reproduces_the_state_partial",
    "Tonbo.Props.C34.settled_histories_are_sound_partial"
   ],
   "note": "The full claim is refuted by five histories of the model of a table with its log (Model/Durable.lean). Proved for every history, with any number of crashes at any point, whose steps satisfy Calm and Fresh (Spec/CalmView.lean), which exclude exactly the patterns of the refutations. Calm lets any number of writes be in flight together, except that a transaction's commit is alone."
  },
  {
   "property": "C30",
   "status": "partial",
   "theorems": [
    "Tonbo.Props.C30.state_file_forgets_the_largest_commit",
    "Tonbo.Props.C30.clock_restarts_below_flushed_writes",
    "Tonbo.Props.C30.state_file_can_be_behind",
    "Tonbo.Props.C30.clock_stays_ahead_partial",
    "Tonbo.Props.C30.clock_is_past_the_log_partial"
   ],
   "note": "The full claim is refuted (three histories). Proved for every history whose steps satisfy Calm and Fresh, and for every state with respect to the writes found in the log. Any number of ingests may be in flight together."
  },
  {
   "property": "C31",
   "status": "partial",
   "theorems": [
    "Tonbo.Props.C31.always_is_durable_partial",
    "Tonbo.Props.C31.acknowledged_commits_are_recovered_partial",
    "Tonbo.Props.C31.kill_loses_nothing_partial",
    "Tonbo.Props.C31.shutdown_is_durable",
    "Tonbo.Props.C31.acknowledged_frame_is_not_durable"
   ],
   "note": "Proved for every history when the file is flushed for every command (flush interval zero or elapsed). The full claim is refuted for every other flush interval: fsync does not reach the writer's own buffer, so an acknowledged frame is lost even by killing the process (acknowledged_frame_is_not_durable)."
  },
  {
   "property": "C32",
   "status": "partial",
   "theorems": [
    "Tonbo.Props.C32.overflowing_batch_loses_its_segment",
    "Tonbo.Props.C32.run_frozen_during_a_flush_loses_its_segment",
    "Tonbo.Props.C32.seal_during_replay_loses_a_segment",
    "Tonbo.Props.C32.flush_during_a_write_deletes_its_payload",
    "Tonbo.Props.C32.strict_commit_deletes_a_concurrent_write",
    "Tonbo.Props.C32.acknowledged_writes_stay_recoverable_partial",
    "Tonbo.Props.C32.freeze_during_a_write_loses_its_payload"
   ],
   "note": "The full claim is refuted by six independent histories that lose an acknowledged write. Proved for every history, with crashes at any point, whose steps satisfy Calm and Fresh. Calm lets any number of ingests be in flight together; only a transaction's commit is alone (strict_commit_deletes_a_concurrent_write). The memory may be frozen and flushed while writes are in flight, as long as none is bringing its rows to the memory when it is frozen, and the frames the flush does not know of are in the segment being written."
  },
  {
   "property": "C33",
   "status": "partial",
   "theorems": [
    "Tonbo.Props.C33.retention_partial",
    "Tonbo.Props.C33.retention_removes_oldest",
    "Tonbo.Props.C33.retention_loses_acknowledged_frames",
    "Tonbo.Props.C33.pruning_and_retention_stop_the_writer"
   ],
   "note": "The claim is false for every limit (retention_loses_acknowledged_frames). Proved: the limit changes nothing while everything ever written fits into it; only the oldest sealed segments are removed. Also proved: pruning by the database together with a limit ends the writer task."
  },
  {
   "property": "C34",
   "status": "partial",
   "theorems": [
    "Tonbo.Props.C34.repair_keeps_the_complete_frames",
    "Tonbo.Props.C34.segment_numbers_not_reused",
    "Tonbo.Props.C34.frame_numbers_not_reused_partial",
    "Tonbo.Props.C34.frame_numbers_with_state_partial",
    "Tonbo.Props.C34.ids_not_reused_partial",
    "Tonbo.Props.C34.unfinished_ingest_is_merged",
    "Tonbo.Props.C34.ids_restart_after_abort",
    "Tonbo.Props.C34.frame_numbers_restart",
    "Tonbo.Props.C34.segment_bounds",
    "Tonbo.Props.C34.numbers_go_on_above_a_settled_log",
    "Tonbo.Props.C34.settled_histories_are_quiet",
    "Tonbo.Props.C34.numbers_go_on_above_the_last_frame",
    "Tonbo.Props.C34.a_log_that_ends_well_gives_a_number_again",
    "Tonbo.Props.C34.segment_numbers_ascend",
    "Tonbo.Props.C34.frame_numbers_ascend_partial",
    "Tonbo.Props.C34.frame_numbers_ascend_with_state_partial",
    "Tonbo.Props.C34.frame_numbers_occur_twice",
    "Tonbo.Props.C34.frame_numbers_ascend_wherever_the_power_fails_partial",
    "Tonbo.Props.C34.numbers_ascend_wherever_the_power_fails",
    "Tonbo.Props.C34.a_loss_inside_a_command_repeats_numbers"
   ],
   "note": "Segment numbers are never reused. Frame numbers and transaction ids are not reused when the last frame of the log is not an abort and the last segment has frames (or a state file records them); otherwise they restart: ids_restart_after_abort and frame_numbers_restart are proved for the code, and unfinished_ingest_is_merged shows an unacknowledged batch committed by a later ingest. With two ingests in flight a log that ends with a commit record is not enough either (a_log_that_ends_well_gives_a_number_again); it is enough that its last frame has the largest number. For whole histories of the writer task, with power losses between and inside commands, segment numbers ascend and frame numbers ascend within each segment. With a state file they ascend in the whole log if no command seals a segment, or if the power fails only between commands and the log has no limit; the state file is written after the rotation, so otherwise they repeat (a_loss_inside_a_command_repeats_numbers)."
  },
  {
   "property": "C35",
   "status": "partial",
   "theorems": [
    "Tonbo.Props.C35.name_parses_back",
    "Tonbo.Props.C35.names_sort_as_numbers",
    "Tonbo.Props.C35.names_are_distinct",
    "Tonbo.Props.C35.accepted_names_partial",
    "Tonbo.Props.C35.foreign_name_is_accepted",
    "Tonbo.Props.C35.other_names_are_ignored",
    "Tonbo.Props.C35.listing_is_sorted",
    "Tonbo.Props.C35.listing_is_strict",
    "Tonbo.Props.C35.listing_is_complete",
    "Tonbo.Props.C35.listing_is_sound",
    "Tonbo.Props.C35.prune_keeps_at_or_above"
   ],
   "note": "Names, order and listing are proved for all numbers. 'Other names are ignored' fails for names with a plus sign (foreign_name_is_accepted)."
  },
  {
   "property": "C36",
   "status": "proved",
   "theorems": [
    "Tonbo.Props.C36.published_versions_never_change",
    "Tonbo.Props.C36.apply_publishes_next",
    "Tonbo.Props.C36.failed_apply_changes_nothing",
    "Tonbo.Props.C36.latest_is_largest",
    "Tonbo.Props.C36.list_versions_exact"
   ],
   "note": "Every sequence of table initialisations and version edits; write sessions of the key/value store below are taken to be atomic."
  },
  {
   "property": "C37",
   "status": "proved",
   "theorems": [
    "Tonbo.Props.C37.edits_mean_what_they_say",
    "Tonbo.Props.C37.publish_means_what_it_says"
   ],
   "note": "Meaning given as a map from level and id to entry, the last edit of each kind deciding."
  },
  {
   "property": "C38",
   "status": "proved",
   "theorems": [
    "Tonbo.Props.C38.one_winner_per_head",
    "Tonbo.Props.C38.winner_edits_what_it_saw",
    "Tonbo.Props.C38.a_job_wins_or_leaves_no_trace",
    "Tonbo.Props.C38.one_job_per_head"
   ],
   "note": "At the manifest, and over every history of the flush/compaction machine. Ambiguous commits (a manifest write that takes effect and still reports an error) are outside the model."
  },
  {
   "property": "C39",
   "status": "proved",
   "theorems": [
    "Tonbo.Props.C39.plans_are_well_formed",
    "Tonbo.Props.C39.plan_iff_over_limit",
    "Tonbo.Props.C39.plan_resolves",
    "Tonbo.Props.C39.limits_do_not_bound_a_task"
   ],
   "note": "Leveled planner over a manifest version, for any sort satisfying the contract of a stable sort: no task twice the same table, caps respected, every overlapping target table pulled in, key range is the union of the inputs, and a plan exists exactly when some level is over its limit."
  },
  {
   "property": "C40",
   "status": "partial",
   "theorems": [
    "Tonbo.Props.C40.deeper_levels_are_disjoint_partial",
    "Tonbo.Props.C40.level_one_overlaps"
   ],
   "note": "Holds for levels two and deeper; for level one the code violates it and the negation is proved with a concrete history."
  },
  {
   "property": "C41",
   "status": "proved",
   "theorems": [
    "Tonbo.Props.C41.restart_numbers_past_every_table",
    "Tonbo.Props.C41.published_files_never_change",
    "Tonbo.Props.C41.no_number_names_two_tables"
   ],
   "note": "Over every history of flushes, compactions and restarts."
  },
  {
   "property": "C42",
   "status": "proved",
   "theorems": [
    "Tonbo.Props.C42.segments_of_an_outcome",
    "Tonbo.Props.C42.segments_of_a_published_job",
    "Tonbo.Props.C42.outputs_name_the_segments_of_the_inputs"
   ],
   "note": "Segments referenced by tables; segments that only the memtable needs are outside this property."
  },
  {
   "property": "C43",
   "status": "partial",
   "theorems": [
    "Tonbo.Props.C43.garbage_is_never_listed_partial",
    "Tonbo.Props.C43.obsolete_tables_are_forgotten"
   ],
   "note": "Safety is proved; completeness is false of the code (a later plan overwrites an earlier one) and its negation is proved."
  },
  {
   "property": "C44",
   "status": "partial",
   "theorems": [
    "Tonbo.Props.C44.the_version_read",
    "Tonbo.Props.C44.time_travel_partial",
    "Tonbo.Props.C44.time_travel_past_the_last_version_partial",
    "Tonbo.Props.C44.time_travel_to_the_present_partial",
    "Tonbo.Props.C44.list_versions_counts",
    "Tonbo.Props.C44.time_travel_hides_a_row",
    "Tonbo.Props.C44.a_listed_version_is_not_shown",
    "Tonbo.Props.C44.the_version_read_after_crashes_partial",
    "Tonbo.Props.C44.time_travel_after_crashes_partial"
   ],
   "note": "Refuted: snapshot_at compares commit timestamps with version numbers, so a snapshot misses flushed rows (time_travel_hides_a_row) and a timestamp from list_versions does not show that version's state. Proved: which version is read in every reachable state; correctness when the version read holds every flushed write up to the timestamp, in particular past the last version number; order, limit and counts of list_versions; with crashes for the quiet histories of C29. Missing: earlier timestamps after compactions (C15)."
  },
  {
   "property": "C45",
   "status": "partial",
   "theorems": [
    "Tonbo.Props.C45.key_order_is_value_order_partial",
    "Tonbo.Props.C45.key_total_order_partial",
    "Tonbo.Props.C45.equal_iff_compares_equal_partial",
    "Tonbo.Props.C45.equal_keys_hash_equally_partial",
    "Tonbo.Props.C45.keyLinearOrder_spec",
    "Tonbo.Props.C45.nan_breaks_the_order",
    "Tonbo.Props.C45.zeros_hash_apart",
    "Tonbo.Props.C45.equality_is_an_equivalence",
    "Tonbo.Props.C45.nans_are_one_value"
   ],
   "note": "The property is false for NaN components (order, equality) and negative zero (hashing); both failures are proved and everything else is proved. For union key columns it is false too, see C70."
  },
  {
   "property": "C46",
   "status": "partial",
   "theorems": [
    "Tonbo.Props.C46.the_last_row_of_a_batch_wins_partial",
    "Tonbo.Props.C46.calls_write",
    "Tonbo.Props.C46.a_delete_beats_a_later_row"
   ],
   "note": "End to end over every history of writes, flush and compaction steps, for batches in which no key is both upserted and deleted; a_delete_beats_a_later_row refutes the rest."
  },
  {
   "property": "C47",
   "status": "proved",
   "theorems": [
    "Tonbo.Props.C47.append_accepts",
    "Tonbo.Props.C47.commit_column_round_trip",
    "Tonbo.Props.C47.append_only_accepts_uniform",
    "Tonbo.Props.C47.bad_commit_column_is_rejected",
    "Tonbo.Props.C47.command_round_trip",
    "Tonbo.Props.C47.accepted_payloads_carry_one_timestamp"
   ],
   "note": "Given the stated law of the IPC codec."
  },
  {
   "property": "C48",
   "status": "proved",
   "theorems": [
    "Tonbo.Props.C48.seals_iff_reached",
    "Tonbo.Props.C48.default_policy_thresholds",
    "Tonbo.Props.C48.decides_as_configured",
    "Tonbo.Props.C48.stop_is_above_slowdown",
    "Tonbo.Props.C48.last_call_counts",
    "Tonbo.Props.C48.waits_exactly_while_at_a_stop_limit",
    "Tonbo.Props.C48.statistics_count_level_zero",
    "Tonbo.Props.C48.readings_are_recent"
   ],
   "note": "Sealing and backpressure decisions for every policy, statistics and sequence of builder calls."
  },
  {
   "property": "C49",
   "status": "partial",
   "theorems": [
    "Tonbo.Props.C49.delays_grow_up_to_the_maximum",
    "Tonbo.Props.C49.a_job_is_tried_at_most_twice",
    "Tonbo.Props.C49.outputs_are_capped",
    "Tonbo.Props.C49.follow_ups_are_bounded_partial",
    "Tonbo.Props.C49.own_turns_refill_the_budget"
   ],
   "note": "The bound on follow-up jobs holds within one turn of the worker; the worker's own follow-up turns refill the budget (negation proved), so the overall bound fails."
  },
  {
   "property": "C50",
   "status": "proved",
   "theorems": [
    "Tonbo.Props.C50.caches_answer",
    "Tonbo.Props.C50.the_newest_is_found",
    "Tonbo.Props.C50.tasks_get_what_the_file_says"
   ],
   "note": "All insert/lookup histories and capacities; interleaved loads by many tasks. Files are immutable once written (assumed)."
  },
  {
   "property": "C51",
   "status": "proved",
   "theorems": [
    "Tonbo.Props.C51.register_answers",
    "Tonbo.Props.C51.register_is_idempotent",
    "Tonbo.Props.C51.distinct_names_distinct_tables",
    "Tonbo.Props.C51.registered_tables_are_usable",
    "Tonbo.Props.C51.half_registered_tables_have_no_head",
    "Tonbo.Props.C51.ordinal_counts_tables",
    "Tonbo.Props.C51.unknown_tables_are_missing",
    "Tonbo.Props.C51.damaged_catalogs_are_refused"
   ],
   "note": "All sequences of registrations including ones interrupted between catalog and table head. Identifiers drawn are assumed distinct (ULIDs). half_registered_tables_have_no_head shows the interrupted case."
  },
  {
   "property": "C52",
   "status": "partial",
   "theorems": [
    "Tonbo.Props.C08.evaluator_correct_partial",
    "Tonbo.Props.C08.row_kept_iff_partial",
    "Tonbo.Props.C08.large_string_rows_dropped"
   ],
   "note": "Proved for leaves the evaluator handles; large_string_rows_dropped shows that on LargeUtf8 columns a literal of the column's own type is never equal, so the unrestricted property is false of the code."
  },
  {
   "property": "C53",
   "status": "partial",
   "theorems": [
    "Tonbo.Props.C53.a_scan_in_two_steps_partial",
    "Tonbo.Props.C53.seal_in_two_steps",
    "Tonbo.Props.C53.a_freeze_between_plan_and_open_hides_rows",
    "Tonbo.Props.C53.the_middle_of_a_freeze_hides_rows",
    "Tonbo.Props.C07.rows_missed_when_frozen_during_planning",
    "Tonbo.Props.C07.filtered_scan_partial"
   ],
   "note": "Refuted: a freeze between planning and opening the sources, or a read in the middle of a freeze, hides committed rows. Proved when no freeze comes between."
  },
  {
   "property": "C54",
   "status": "partial",
   "theorems": [
    "Tonbo.Props.C54.latest_reads_see_all_writes_partial",
    "Tonbo.Props.C54.reads_at_every_timestamp_without_compaction_partial",
    "Tonbo.Props.C29.quiet_histories_are_sound_partial",
    "Tonbo.Props.C73.reads_see_acknowledged_writes_partial",
    "Tonbo.Props.C73.reads_of_acknowledged_writes_at_every_timestamp_partial"
   ],
   "note": "Over all interleavings of writes, flush steps and compaction steps; with crashes and restarts for the histories that satisfy Calm and Fresh (quiet_histories_are_sound_partial). Also with flushes, compactions and writes that fail. Missing: writes disagreeing at one timestamp, tables excluded by Fits (each known to break the property, see C04, C14, C15)."
  },
  {
   "property": "C55",
   "status": "partial",
   "theorems": [
    "Tonbo.Props.C55.compaction_forgets_a_segment",
    "Tonbo.Props.C55.floor_keeps_unflushed_segments_partial"
   ],
   "note": "The full claim is refuted: a compaction drops the segment of an unflushed row from the list. Proved for histories that satisfy Calm and Fresh: the floor derived from the list never passes a segment that is still needed."
  },
  {
   "property": "C56",
   "status": "proved",
   "theorems": [
    "Tonbo.Props.C50.ranges_read_together",
    "Tonbo.Props.C50.filters_are_the_files"
   ],
   "note": "All files, range lists and gap thresholds."
  },
  {
   "property": "C57",
   "status": "partial",
   "theorems": [
    "Tonbo.Props.C57.builder_selects_the_named_columns",
    "Tonbo.Props.C57.builder_refuses_unknown_names",
    "Tonbo.Props.C57.recorded_key_columns",
    "Tonbo.Props.C57.declaration_survives_partial",
    "Tonbo.Props.C57.marked_columns",
    "Tonbo.Props.C57.several_markers_need_numbers",
    "Tonbo.Props.C57.numeric_marker",
    "Tonbo.Props.C57.a_comma_changes_the_key",
    "Tonbo.Props.C57.a_marker_changes_the_key",
    "Tonbo.Props.C57.a_wrong_column_number_panics",
    "Tonbo.Props.C57.what_marks_a_field",
    "Tonbo.Props.C57.a_key_column_by_number",
    "Tonbo.Props.C57.a_key_column_by_name",
    "Tonbo.Props.C57.calls_of_the_builder",
    "Tonbo.Props.C57.columns_of_delete_batches"
   ],
   "note": "The builder and the markers are proved as stated. Reading the declaration back holds exactly for plain names on schemas without markers (declaration_survives_partial is an equivalence); negations with witnesses: names with commas, markers, column numbers out of range."
  },
  {
   "property": "C58",
   "status": "proved",
   "theorems": [
    "Tonbo.Props.C58.hashed_text_decides_schema",
    "Tonbo.Props.C58.same_schema_same_fingerprint",
    "Tonbo.Props.C58.fingerprint_decides_schema",
    "Tonbo.Props.C58.reopening",
    "Tonbo.Props.C58.pruner_fits_schema"
   ],
   "note": "SHA-256 is any function; that it does not collide on the texts compared is a hypothesis where needed. The JSON value of a schema is foreign code (arrow-schema)."
  },
  {
   "property": "C59",
   "status": "partial",
   "theorems": [
    "Tonbo.Props.C59.tables_do_not_interfere_partial",
    "Tonbo.Props.C59.memory_and_versions_are_own",
    "Tonbo.Props.C59.reads_among_other_tables_partial",
    "Tonbo.Props.C59.a_flush_overwrites_another_table",
    "Tonbo.Props.C59.a_new_table_gets_the_rows_of_another"
   ],
   "note": "Proved for histories in which no file a table names was last changed by another table. Without this it is false: tables share the names of their files and the write-ahead log."
  },
  {
   "property": "C60",
   "status": "partial",
   "theorems": [
    "Tonbo.Props.C60.opened_since_the_others_acknowledgement",
    "Tonbo.Props.C60.acknowledged_numbers_increase",
    "Tonbo.Props.C60.acknowledged_frames_are_in_the_log",
    "Tonbo.Props.C60.state_file_covers_acknowledgements",
    "Tonbo.Props.C60.a_failed_write_is_committed_by_another_handle",
    "Tonbo.Props.C60.a_failed_write_spoils_the_log",
    "Tonbo.Props.C60.without_a_state_file_numbers_are_shared",
    "Tonbo.Props.C60.opening_goes_on_behind_the_last_file",
    "Tonbo.Props.C60.a_failed_rotation_gives_numbers_twice",
    "Tonbo.Props.C60.opening_knows_the_segments"
   ],
   "note": "All parts on acknowledgements are proved for every interleaving. The last part is false: frames of a failed write stay in the log and can be committed by, or spoil the replay of, another handle."
  },
  {
   "property": "C61",
   "status": "partial",
   "theorems": [
    "Tonbo.Props.C61.projection_selects_columns_partial",
    "Tonbo.Props.C61.no_projection_keeps_rows",
    "Tonbo.Props.C61.projected_filtered_scan_partial",
    "Tonbo.Props.C61.file_row_is_read_by_name",
    "Tonbo.Props.C61.unknown_predicate_column_refused",
    "Tonbo.Props.C61.unknown_column_refused_only_with_rows",
    "Tonbo.Props.C61.no_columns_refused_only_with_rows",
    "Tonbo.Props.C61.commit_column_only_from_files",
    "Tonbo.Props.C61.bloom_predicates_refused"
   ],
   "note": "Proved for all projections onto columns of the table, with the column names distinct and not reserved. Unknown columns, an empty projection and the commit column are treated differently depending on where the rows are (three counterexamples)."
  },
  {
   "property": "C62",
   "status": "partial",
   "theorems": [
    "Tonbo.Props.C62.every_call_says",
    "Tonbo.Props.C62.accepted_iff",
    "Tonbo.Props.C62.staged_is_the_last_word_partial",
    "Tonbo.Props.C62.accepted_can_be_committed_partial",
    "Tonbo.Props.C62.staging_is_that_of_the_transaction_model_partial",
    "Tonbo.Props.C62.refused_rows_before_stay_staged",
    "Tonbo.Props.C62.mistyped_delete_dooms_the_transaction",
    "Tonbo.Props.C62.nan_key_replaces_a_row",
    "Tonbo.Props.C62.composite_keys_cannot_be_deleted",
    "Tonbo.Props.C62.unreadable_batch_refused",
    "Tonbo.Props.C62.values_of_their_type",
    "Tonbo.Props.C62.types_read_from_a_batch"
   ],
   "note": "Proved for all sequences of calls with keys without NaN and deletes of the types of the key columns. The rest is false of the code: counterexamples for NaN keys, mistyped deletes, refused calls with several rows, batches of unread types and deletes with composite keys."
  },
  {
   "property": "C63",
   "status": "partial",
   "theorems": [
    "Tonbo.Props.C63.stored_time_is_read_back_partial",
    "Tonbo.Props.C63.own_column_is_read_as_the_time",
    "Tonbo.Props.C63.own_column_of_another_type_is_an_error",
    "Tonbo.Props.C63.log_refuses_reserved_names",
    "Tonbo.Props.C63.transaction_refuses_reserved_names"
   ],
   "note": "True for all names but `_commit_ts` and `_tombstone`; for these the theorems say what the code does instead."
  },
  {
   "property": "C64",
   "status": "partial",
   "theorems": [
    "Tonbo.Props.C64.timed_task_is_the_writer",
    "Tonbo.Props.C64.synced_within_the_interval_partial",
    "Tonbo.Props.C64.unsynced_bytes_are_bounded_partial",
    "Tonbo.Props.C64.segments_close_at_their_age_partial",
    "Tonbo.Props.C64.an_idle_log_is_never_synced",
    "Tonbo.Props.C64.restarts_extend_the_age"
   ],
   "note": "Proved for a flush after every command (flush interval zero), no pruning of segments, and, for the age, without restarts in between. With another flush interval the timed fsync misses what is in the buffer, and restarts extend the age of a segment; both are proved as failures."
  },
  {
   "property": "C65",
   "status": "partial",
   "theorems": [
    "Tonbo.Props.C65.the_worker_acts_on_the_store",
    "Tonbo.Props.C65.queue_and_jobs_are_bounded",
    "Tonbo.Props.C65.how_jobs_end",
    "Tonbo.Props.C65.one_job_of_a_round_is_published",
    "Tonbo.Props.C65.jobs_that_run_at_once_are_copies",
    "Tonbo.Props.C65.the_worker_catches_up_partial",
    "Tonbo.Props.C65.a_waiting_writer_is_let_go_partial",
    "Tonbo.Props.C65.a_waiting_writer_waits_for_ever",
    "Tonbo.Props.C65.stop_limits_below_the_planner",
    "Tonbo.Props.C65.a_queued_job_is_always_out_of_date"
   ],
   "note": "Proved for queues no larger than the job count (the default) and as long as no job fails, with nothing else publishing after the trigger (a flush that does triggers again). Shown not to hold after a failed job, for larger queues, and for stop limits below the planner's; jobs that run at once repeat the same work. A periodic tick is a trigger while the worker waits; what ticks achieve, and that the worker comes to rest at all, is C75. Not modelled: shutdown."
  },
  {
   "property": "C66",
   "status": "partial",
   "theorems": [
    "Tonbo.Props.C66.every_call_is_answered_once",
    "Tonbo.Props.C66.no_call_waits_for_ever",
    "Tonbo.Props.C66.served_in_order",
    "Tonbo.Props.C66.the_log_holds_what_was_promised",
    "Tonbo.Props.C66.closing_loses_nothing_partial",
    "Tonbo.Props.C66.a_limit_changes_no_answer",
    "Tonbo.Props.C66.the_log_holds_the_end_of_what_was_promised",
    "Tonbo.Props.C66.closing_with_a_limit",
    "Tonbo.Props.C66.nothing_after_the_end",
    "Tonbo.Props.C66.the_first_shutdown_waits",
    "Tonbo.Props.C66.a_second_shutdown_reports_nothing",
    "Tonbo.Props.C66.a_failed_call_may_be_durable",
    "Tonbo.Props.C66.a_failure_reaches_one_batch"
   ],
   "note": "All histories of calls, turns with batches of any size, timers, failures and closing. With a retention limit the oldest whole files are gone and nothing else changes. Partial because the full property is false: a second call of shutdown returns success at once, and a call answered with an error may be in the log (shown as negative theorems)."
  },
  {
   "property": "C67",
   "status": "proved",
   "theorems": [
    "Tonbo.Props.C67.a_scan_with_failing_reads",
    "Tonbo.Props.C67.a_file_with_failing_reads",
    "Tonbo.Props.C67.a_scan_over_failing_files",
    "Tonbo.Props.C67.polling_on_after_an_error"
   ],
   "note": "For consumers that stop at the first error, as try_collect does; polling_on_after_an_error shows what happens to others. Reads of a compaction and of planning are not included."
  },
  {
   "property": "C68",
   "status": "partial",
   "theorems": [
    "Tonbo.Props.C68.without_failures",
    "Tonbo.Props.C68.listed_files_survive_failures",
    "Tonbo.Props.C68.reads_see_all_writes_despite_failures_partial",
    "Tonbo.Props.C68.reads_at_every_timestamp_despite_failures_partial",
    "Tonbo.Props.C68.a_failure_changes_no_answer",
    "Tonbo.Props.C68.a_failure_removes_only_own_outputs",
    "Tonbo.Props.C68.a_lost_answer_makes_the_table_unreadable",
    "Tonbo.Props.C68.a_refused_flush_leaves_its_file",
    "Tonbo.Props.C73.reads_see_acknowledged_writes_partial",
    "Tonbo.Props.C73.reads_of_acknowledged_writes_at_every_timestamp_partial"
   ],
   "note": "Proved for all histories in which no compaction is told of an error after its publication took place; for those the property is false and the negation is proved. Scans after failures are exact without restarts, at the latest timestamp once compactions ended (as C54)."
  },
  {
   "property": "C69",
   "status": "partial",
   "theorems": [
    "Tonbo.Props.C69.the_counters_are_true",
    "Tonbo.Props.C69.writes_respect_the_limits_partial",
    "Tonbo.Props.C69.frozen_tables_stay_below_the_threshold_partial",
    "Tonbo.Props.C69.the_policy_never_fails",
    "Tonbo.Props.C69.commits_ignore_the_policy",
    "Tonbo.Props.C69.commits_never_flush",
    "Tonbo.Props.C69.transactions_pile_up",
    "Tonbo.Props.C69.versions_are_not_counted",
    "Tonbo.Props.C69.a_limit_on_open_rows_has_no_effect",
    "Tonbo.Props.C69.an_interval_does_nothing_before_the_first_freeze",
    "Tonbo.Props.C69.opening_respects_the_limits",
    "Tonbo.Props.C69.opening_piles_up"
   ],
   "note": "Proved for direct writes; for commits of transactions the property is false and the negation is proved. The truth of the counters holds for all histories. Replay of the log at open respects the limits, but leaves frozen tables without bound (negation proved)."
  },
  {
   "property": "C70",
   "status": "partial",
   "theorems": [
    "Tonbo.Props.C70.keys_survive_the_manifest_partial",
    "Tonbo.Props.C70.what_is_written",
    "Tonbo.Props.C70.union_keys_are_accepted",
    "Tonbo.Props.C70.unions_are_not_compared",
    "Tonbo.Props.C70.a_union_key_is_not_equal_to_itself",
    "Tonbo.Props.C70.one_key",
    "Tonbo.Props.C70.a_union_table_shows_one_row",
    "Tonbo.Props.C70.union_keys_are_not_written",
    "Tonbo.Props.C70.json_reads_finite_keys",
    "Tonbo.Props.C70.infinite_keys_are_not_read_back",
    "Tonbo.Props.C70.keys_are_kept_apart_partial",
    "Tonbo.Props.C70.longer_keys_come_after",
    "Tonbo.Props.C70.unions_differ_from_other_cells"
   ],
   "note": "Proved for all accepted types but unions, in every format that reads back the cells it wrote. For unions the property is false and the negations are proved; with a JSON manifest it is false for non-finite floats."
  },
  {
   "property": "C71",
   "status": "partial",
   "theorems": [
    "Tonbo.Props.C71.answers_and_reads_partial",
    "Tonbo.Props.C71.answers_and_the_log",
    "Tonbo.Props.C71.answers_and_restarts",
    "Tonbo.Props.C71.a_success_is_logged",
    "Tonbo.Props.C71.only_asked_writes_are_logged",
    "Tonbo.Props.C71.proper_calls_are_not_refused_by_memory",
    "Tonbo.Props.C71.retrying_is_harmless",
    "Tonbo.Props.C71.a_refused_batch_stops_recovery",
    "Tonbo.Props.C71.errors_that_mean_otherwise",
    "Tonbo.Props.C71.a_failed_write_appears_after_a_restart",
    "Tonbo.Props.C71.answers_and_reads_with_refusals_partial",
    "Tonbo.Props.C71.a_refused_write_takes_others_with_it",
    "Tonbo.Props.C71.unencodable_writes_are_answered"
   ],
   "note": "What readers see and what the log stands for is proved for all histories and failures, except for readers after the memory table refused a write while its slots were used up; that case is false, the negation is proved. Calls whose rows have keys are never refused by it. Batches with null keys make the property false: the negation is proved. Calls run one after the other here; their interleaving in the log is C29 to C32."
  },
  {
   "property": "C72",
   "status": "partial",
   "theorems": [
    "Tonbo.Props.C72.the_last_value_counts_for_the_log",
    "Tonbo.Props.C72.the_last_value_counts",
    "Tonbo.Props.C72.the_last_value_counts_for_compactions",
    "Tonbo.Props.C72.settings_can_be_worked_with",
    "Tonbo.Props.C72.order_is_irrelevant",
    "Tonbo.Props.C72.no_log_in_memory",
    "Tonbo.Props.C72.a_database_that_opens_once",
    "Tonbo.Props.C72.other_modes_open",
    "Tonbo.Props.C72.two_object_store_settings_have_no_effect",
    "Tonbo.Props.C72.other_object_store_settings_have_an_effect",
    "Tonbo.Props.C72.an_empty_prefix_never_opens",
    "Tonbo.Props.C72.a_replaced_limit_still_counts"
   ],
   "note": "Proved for all sequences of calls on the builder and the compaction options. False for the byte limits of the back pressure, for two settings of object stores and for two recovery modes; the negations are proved."
  },
  {
   "property": "C73",
   "status": "partial",
   "theorems": [
    "Tonbo.Props.C73.latest_query_partial",
    "Tonbo.Props.C73.latest_query_by_key_partial",
    "Tonbo.Props.C73.query_without_compaction_partial",
    "Tonbo.Props.C73.stale_rows_after_two_flushes",
    "Tonbo.Props.C73.query_after_crashes_partial",
    "Tonbo.Props.C73.query_of_acknowledged_partial",
    "Tonbo.Props.C73.crashes_change_no_answer_partial",
    "Tonbo.Props.C73.query_despite_failures_partial",
    "Tonbo.Props.C73.failures_change_no_answer_partial",
    "Tonbo.Props.C73.query_whatever_fails_partial",
    "Tonbo.Props.C73.a_refused_write_empties_the_answer"
   ],
   "note": "Proved for the newest timestamp after any history, and for every timestamp before the first compaction, for predicates that rows of a key do not cease to satisfy: predicates on key columns and queries without a predicate always qualify. Refuted for other predicates. With crashes proved for the quiet histories of C29, every acknowledged write included. With failing flushes, compactions and writes proved for the histories of C68, if writes fail while there are free slots (C04; refuted for others). Missing: the crashes C29 excludes, writes that disagree about one key at one timestamp, tables a merge reads out of step (C15)."
  },
  {
   "property": "C74",
   "status": "partial",
   "theorems": [
    "Tonbo.Props.C74.latest_txn_query_partial",
    "Tonbo.Props.C74.txn_query_without_compaction_partial",
    "Tonbo.Props.C74.txn_query_despite_failures_partial",
    "Tonbo.Props.C74.txn_query_after_crashes_partial",
    "Tonbo.Props.C74.without_mutations",
    "Tonbo.Props.C74.commit_changes_no_answer_partial",
    "Tonbo.Props.C74.stale_rows_inside_a_transaction",
    "Tonbo.Props.C74.held_snapshot_query_partial",
    "Tonbo.Props.C74.repeatable_query_partial",
    "Tonbo.Props.C74.drain_hides_rows_from_a_snapshot",
    "Tonbo.Props.C73.txn_query_whatever_fails_partial"
   ],
   "note": "Proved for the newest timestamp after any history of C73, with failing flushes and compactions, and after quiet histories with crashes, and for every timestamp before the first compaction, if rows of keys without a staged mutation do not cease to satisfy the predicate; stored rows of staged keys may. Refuted for others. While others write at later timestamps, freeze, flush up to publication and compact, the query through the held snapshot returns what it returned when it was opened. Missing: flushes that take runs out of memory meanwhile (refuted), and what C73 misses."
  },
  {
   "property": "C75",
   "status": "partial",
   "theorems": [
    "Tonbo.Props.C75.compactions_come_to_an_end",
    "Tonbo.Props.C75.the_table_settles",
    "Tonbo.Props.C75.the_worker_comes_to_rest",
    "Tonbo.Props.C75.asked_once_partial",
    "Tonbo.Props.C75.a_waiting_writer_is_let_go_in_the_end_partial",
    "Tonbo.Props.C75.ticks_overcome_failures",
    "Tonbo.Props.C75.ticks_let_writers_go"
   ],
   "note": "Termination, coming to rest and catching up under ticks are proved for all configurations and endless schedules. Asked only once, catching up is proved for queues no larger than the job count (the default), and fails in general for larger ones (C65.a_queued_job_is_always_out_of_date). The schedule has no restarts once it is to be fair; restarts before are allowed, and for termination also during it."
  },
  {
   "property": "C76",
   "status": "partial",
   "theorems": [
    "Tonbo.Props.C76.counting_changes_nothing",
    "Tonbo.Props.C76.job_count_is_the_number_of_published_jobs",
    "Tonbo.Props.C76.job_failures_partial",
    "Tonbo.Props.C76.nothing_is_lost_between_the_counters",
    "Tonbo.Props.C76.the_last_job_is_told",
    "Tonbo.Props.C76.cycles_are_counted",
    "Tonbo.Props.C76.decisions_about_follow_ups",
    "Tonbo.Props.C76.conflicts_are_never_counted",
    "Tonbo.Props.C76.a_conflict_that_is_not_counted",
    "Tonbo.Props.C76.a_failure_that_is_not_counted",
    "Tonbo.Props.C76.happenings_are_counted",
    "Tonbo.Props.C76.the_time_of_published_jobs_is_counted",
    "Tonbo.Props.C76.a_new_process_counts_from_zero",
    "Tonbo.Props.C76.incomplete_sides_are_left_out",
    "Tonbo.Props.C76.follow_ups_find_room"
   ],
   "note": "Job count, conservation of bytes, rows and tombstones, triggers, last job, follow-up decisions, full queues and job times are counted exactly (a follow-up never finds the queue full). False in full: conflicts are never counted, failures before the merge are not counted (both shown by theorems). The queue is never closed while the worker runs, so its counters stay zero; the back pressure counters are C82."
  },
  {
   "property": "C77",
   "status": "proved",
   "theorems": [
    "Tonbo.Props.C77.what_is_read_after_crashes",
    "Tonbo.Props.C77.what_was_told_is_read",
    "Tonbo.Props.C77.exactly_what_was_told_is_read",
    "Tonbo.Props.C77.a_log_can_be_opened_again",
    "Tonbo.Props.C77.the_recovered_table"
   ],
   "note": "Links the models of the writer task (calls, batches, faults), the frame bytes, the opening of a torn log and recovery into one statement over any number of sessions. Assumes a lossless Arrow IPC codec and the order of buffer, operating system and disk stated in Model/WalWriter.lean. Segments pruned after a flush and retention limits are left to C29, C31 and C66."
  },
  {
   "property": "C78",
   "status": "partial",
   "theorems": [
    "Tonbo.Props.C78.bytes_written",
    "Tonbo.Props.C78.not_more_than_was_synced",
    "Tonbo.Props.C78.syncs_are_noticed",
    "Tonbo.Props.C78.disabled_means_none",
    "Tonbo.Props.C78.no_sync_no_change",
    "Tonbo.Props.C78.depth_when_taken",
    "Tonbo.Props.C78.depth_at_the_end",
    "Tonbo.Props.C78.not_more_than_was_removed",
    "Tonbo.Props.C78.removed_files_partial",
    "Tonbo.Props.C78.pruning_spares",
    "Tonbo.Props.C78.dry_run",
    "Tonbo.Props.C78.syncs_counted_by_the_batch",
    "Tonbo.Props.C78.depth_stays_behind",
    "Tonbo.Props.C78.depth_wraps_around",
    "Tonbo.Props.C78.floors_that_do_not_move",
    "Tonbo.Props.C78.files_that_go_uncounted"
   ],
   "note": "Bytes are exact. The counters of syncs, depth, floors and removed files are shown to be bounds, exact only under the conditions in the theorems; the five witnesses show where the code's counters say something else. An fsync that itself fails and the work of a command that failed half way are not counted as fsyncs in the model."
  },
  {
   "property": "C79",
   "status": "partial",
   "theorems": [
    "Tonbo.Props.C79.ingest_takes_its_schema",
    "Tonbo.Props.C79.transaction_takes",
    "Tonbo.Props.C79.three_ways_agree_partial",
    "Tonbo.Props.C79.memory_never_refuses_a_schema",
    "Tonbo.Props.C79.logged_batches_are_replayed",
    "Tonbo.Props.C79.logged_deletions_are_replayed",
    "Tonbo.Props.C79.file_batches_are_readable",
    "Tonbo.Props.C79.results_can_be_written_again",
    "Tonbo.Props.C79.declared_schema",
    "Tonbo.Props.C79.batches_of_the_given_schema_are_taken_partial",
    "Tonbo.Props.C79.transactions_refuse_other_types",
    "Tonbo.Props.C79.with_metadata_refuses_the_given_schema"
   ],
   "note": "False of the code in two points, each with a proof: upsert_batch refuses values of other than nine types that ingest takes, and with_metadata makes the table refuse batches of the schema it was given. Everything else is proved for all schemas."
  },
  {
   "property": "C80",
   "status": "partial",
   "theorems": [
    "Tonbo.Props.C80.deleted_rows_reach_memory_partial",
    "Tonbo.Props.C80.deletions_are_read_back_partial",
    "Tonbo.Props.C80.deleted_rows_are_found_partial",
    "Tonbo.Props.C80.ties_by_position",
    "Tonbo.Props.C80.null_keys_are_refused",
    "Tonbo.Props.C80.missing_columns_are_refused",
    "Tonbo.Props.C80.columns_of_one_name_lose_deletions",
    "Tonbo.Props.C80.own_column_is_the_time_of_a_deletion"
   ],
   "note": "Proved for every declared table whose key columns have different names, none of them `_commit_ts`. The code violates the rest: negations for two key columns of one name and for a key column `_commit_ts`."
  },
  {
   "property": "C81",
   "status": "proved",
   "theorems": [
    "Tonbo.Props.C81.checked_exactly",
    "Tonbo.Props.C81.queries_get_indexed_files",
    "Tonbo.Props.C81.the_error_says_what_is_wrong"
   ],
   "note": "The metadata of a file is as Parquet decodes it (trusted); files do not change."
  },
  {
   "property": "C82",
   "status": "partial",
   "theorems": [
    "Tonbo.Props.C82.one_reader_at_a_time",
    "Tonbo.Props.C82.answers_do_not_go_back",
    "Tonbo.Props.C82.answers_are_recent_partial",
    "Tonbo.Props.C82.writers_are_let_go",
    "Tonbo.Props.C82.answered_within_six_steps",
    "Tonbo.Props.C82.sleeps_are_waited_for",
    "Tonbo.Props.C82.each_writer_waits_as_told",
    "Tonbo.Props.C82.counters_are_exact",
    "Tonbo.Props.C82.a_second_writer_is_let_through",
    "Tonbo.Props.C82.old_answers_are_given",
    "Tonbo.Props.C82.deletions_and_transactions_do_not_wait"
   ],
   "note": "Over all interleavings. Everything but the age of the answers holds for all callers; the age is bounded for answers that are not given because another call is reading. Those can be of any age: negations proved. Writes other than plain ingests never ask (proved)."
  },
  {
   "property": "C83",
   "status": "partial",
   "theorems": [
    "Tonbo.Props.C83.the_writer_does_not_notice_readers",
    "Tonbo.Props.C83.a_reader_sees_what_was_flushed_partial",
    "Tonbo.Props.C83.a_reader_sees_everything_once_flushed_partial",
    "Tonbo.Props.C83.what_readers_see_only_grows_partial",
    "Tonbo.Props.C83.a_reader_reads_at_the_beginning_of_time",
    "Tonbo.Props.C83.a_reader_sees_first_commits_only",
    "Tonbo.Props.C83.two_processes_take_the_same_name",
    "Tonbo.Props.C83.readers_miss_flushed_commits",
    "Tonbo.Props.C83.a_restarted_writer_hides_its_own_writes",
    "Tonbo.Props.C83.two_writers_lose_rows",
    "Tonbo.Props.C83.a_second_compactor_breaks_old_versions"
   ],
   "note": "One process that writes, any number of readers, all interleavings with restarts. The code violates the rest: default reads of readers are at timestamp zero, a restarted writer without a log hides its own writes, two writers or a separate compactor overwrite files (negations proved). Logs are left out."
  },
  {
   "property": "C84",
   "status": "partial",
   "theorems": [
    "Tonbo.Props.C84.cached_parts_are_current_partial",
    "Tonbo.Props.C84.two_writers_make_caches_stale"
   ],
   "note": "For one process that writes and any number of readers, all histories and interleavings. With two processes that write it is false: negation proved. Failing storage is not part of the histories (C68)."
  },
  {
   "property": "C85",
   "status": "partial",
   "theorems": [
    "Tonbo.Props.C85.acknowledged_frames_stay_partial",
    "Tonbo.Props.C85.a_repair_ends",
    "Tonbo.Props.C85.acknowledgements_are_final",
    "Tonbo.Props.C85.acknowledged_is_everything_written",
    "Tonbo.Props.C85.a_look_erases_what_is_acknowledged_after_it",
    "Tonbo.Props.C85.a_crash_during_the_repair_loses_the_segment",
    "Tonbo.Props.C85.a_look_breaks_the_log",
    "Tonbo.Props.C85.not_open_before_the_repair_is_over"
   ],
   "note": "Proved for all histories in which no look meets a frame on its way into the file and repairs are finished. Without either it is false of the code: negations proved, for every log, frame and cut. Power loss after a repair (never synced) is the subject of C89."
  },
  {
   "property": "C86",
   "status": "partial",
   "theorems": [
    "Tonbo.Props.C86.power_losses_are_sound_partial",
    "Tonbo.Props.C86.a_missing_table_stops_all_reads",
    "Tonbo.Props.C86.an_unlucky_power_loss",
    "Tonbo.Props.C86.rows_are_nowhere"
   ],
   "note": "Proved for the quiet histories of C29 and C32 with power losses before which the listed tables reached the device. The code never syncs tables: without that it is false, for every history in which something is listed and nothing was written back (proved). The manifest's own durability belongs to another crate and is assumed."
  },
  {
   "property": "C87",
   "status": "partial",
   "theorems": [
    "Tonbo.Props.C87.the_rows_are_still_there_partial",
    "Tonbo.Props.C87.flushed_rows_need_no_log_partial",
    "Tonbo.Props.C87.reads_go_back_to_the_beginning",
    "Tonbo.Props.C87.the_next_restart_forgets",
    "Tonbo.Props.C87.default_reads_miss_rows",
    "Tonbo.Props.C87.an_acknowledged_write_is_forgotten"
   ],
   "note": "Reads at a timestamp are as before, proved for every flushed state. The rest is false of the code: reads without a timestamp go back to timestamp 0 and writes after the loss are forgotten by the next restart, proved for every state and every history without transactions and flushes in between (both publish a new floor)."
  },
  {
   "property": "C88",
   "status": "partial",
   "theorems": [
    "Tonbo.Props.C88.power_loss_keeps_what_was_synced_partial",
    "Tonbo.Props.C88.unsynced_write_is_lost",
    "Tonbo.Props.C88.write_after_power_loss_is_lost",
    "Tonbo.Props.C88.power_losses_and_crashes_are_survived_partial",
    "Tonbo.Props.C88.synced_write_is_lost_with_its_file",
    "Tonbo.Props.C88.older_write_is_lost_newer_is_kept",
    "Tonbo.Props.C88.transaction_is_recovered_in_part"
   ],
   "note": "Proved for every quiet history, every set of lost frames after the sync, every state file and sealing policy. Missing: what quiet histories leave out, reads at timestamps before the newest write. Histories with any number of crashes and power losses stay sound as long as something of the log from the manifest's floor on is left and the clock comes back ahead of the tables; otherwise writes after the power loss are not safe: shown by a history."
  },
  {
   "property": "C89",
   "status": "partial",
   "theorems": [
    "Tonbo.Props.C89.synced_frames_stay_partial",
    "Tonbo.Props.C89.a_power_loss_keeps_what_was_synced",
    "Tonbo.Props.C89.a_sync_covers_what_is_acknowledged",
    "Tonbo.Props.C89.synced_frames_are_lost_with_their_repair",
    "Tonbo.Props.C89.the_log_stays_readable"
   ],
   "note": "Partial: histories in which no power loss falls between a repair and the next sync; the repaired file is not synced, and such a power loss can take every synced frame of the segment. A power loss leaves a beginning of the file; other remains of unsynced bytes are not modelled. That the log stays readable and has nothing invented is proved for crashes and power losses anywhere."
  },
  {
   "property": "C90",
   "status": "partial",
   "theorems": [
    "Tonbo.Props.C90.the_listing_is_right_partial",
    "Tonbo.Props.C90.the_listing_misses_nothing_partial",
    "Tonbo.Props.C90.every_frame_is_listed_partial",
    "Tonbo.Props.C90.the_state_file_agrees_partial",
    "Tonbo.Props.C90.a_deleted_segment_is_listed",
    "Tonbo.Props.C90.lost_frames_are_listed"
   ],
   "note": "Proved for all configurations and histories without pruning in which segments are synced or the power does not fail; with pruning the listing is right once the deleted segments are taken out. Negations proved for the code: a segment deleted by the database stays listed until the next restart, and with syncing disabled frames that a power loss took stay listed. Power losses fall between commands or inside one."
  }
 ]
}