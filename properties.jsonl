{"id": "C01", "title": "Commit timestamps are unique and only move forward", "statement": "Every commit (ingest, ingest_with_tombstones or Transaction::commit) is given a timestamp no other commit in the same process was given, each later allocation is larger than every earlier one, and advancing the clock during recovery never makes it hand out an already used value, even when allocations and advances race.", "quantifier": "all numbers of threads, all interleavings of allocate and advance steps, all candidates", "why_tests_cant": "A test runs a handful of interleavings; duplicate timestamps need one particular interleaving of the compare-exchange loop with fetch_add.", "anchors": ["src/mvcc/mod.rs: CommitClock::alloc, CommitClock::advance_to_at_least, CommitClock::peek", "src/db/mod.rs: next_commit_ts"]}
{"id": "C02", "title": "A scan of the in-memory table returns exactly the newest visible version of each key", "statement": "After any sequence of upsert and delete batches with any commit timestamps, scanning the mutable table at any read timestamp yields, in ascending key order and at most once per key, exactly the keys whose newest version not newer than the read timestamp is an upsert (with that row), tombstones hiding older rows, optionally restricted to any key range.", "quantifier": "all batch sequences, keys, timestamps (in any order), read timestamps and key ranges", "why_tests_cant": "The number of version orders and range boundary combinations is unbounded.", "anchors": ["src/inmem/mutable/memtable.rs: try_insert_batch, try_insert_delete_batch, scan_visible_in_range, DynRowScan::next", "src/key/ts.rs: KeyTsViewRaw Ord"]}
{"id": "C03", "title": "Sealing a memtable changes no read result", "statement": "Freezing the mutable table into an immutable run and scanning the run gives, for every read timestamp and key range, the same rows as scanning the mutable table just before, and leaves the mutable table empty. An empty table yields no run.", "quantifier": "all memtable contents reachable by inserts, all read timestamps", "why_tests_cant": "Equality must hold for every content and every snapshot.", "anchors": ["src/inmem/mutable/memtable.rs: seal_into_immutable", "src/inmem/immutable/memtable.rs: ImmutableMemTable, ImmutableVisibleScan"]}
{"id": "C04", "title": "A full memtable never loses a batch", "statement": "When all batch slots of the mutable table are used, the next insert first freezes the current content and then stores the new batch, so the union of frozen runs and the mutable table always contains exactly what was inserted. A zero capacity is reported as an error with no effect.", "quantifier": "all capacities and all sequences of batches", "why_tests_cant": "The loss would occur at one exact slot count and depends on history.", "anchors": ["src/inmem/mutable/memtable.rs: DynMem::insert_batch_with_mvcc, DynMem::insert_delete_batch, DynMemInner::try_insert_batch"]}
{"id": "C05", "title": "Merged scan over all sources is snapshot-correct", "statement": "A scan without predicate that merges the transaction overlay, mutable table, immutable runs and SSTables returns, for every key, the row of the newest version visible at the read timestamp over all sources together and nothing when that version is a delete; rows come out in strictly ascending key order.", "quantifier": "any number of sources of any length, any version placement, any read timestamp", "why_tests_cant": "k-way merge plus de-duplication has unboundedly many interleavings and ties.", "anchors": ["src/query/stream/merge.rs: MergeStream::poll_next, HeapEntry::cmp", "src/query/stream/mod.rs: ScanStream", "src/db/scan.rs: build_scan_streams, execute_scan"]}
{"id": "C06", "title": "Limit returns a prefix of the full result", "statement": "scan().limit(n) returns exactly the first n rows of the same scan without limit (all of them if fewer), with or without a filter.", "quantifier": "all source contents, all limits including 0, all predicates", "why_tests_cant": "Off-by-one and limit-before-filter mistakes only show for particular contents.", "anchors": ["src/query/stream/merge.rs: MergeStream limit", "src/query/stream/package.rs: PackageStream limit", "src/db/scan.rs: execute_scan"]}
{"id": "C07", "title": "A filtered scan returns exactly the visible rows satisfying the filter", "statement": "For every predicate, scan().filter(p) returns exactly those rows of the unfiltered snapshot scan on which p is true: rows of hidden older versions are never returned.", "quantifier": "all predicates, all version histories, all distributions over memory and SSTables", "why_tests_cant": "It needs the combination of an old version matching and a new version not matching in one storage layer; tests filter over single versions.", "anchors": ["src/db/scan.rs: plan_scan, build_scan_streams", "src/ondisk/sstable.rs: split_predicate_for_row_filter", "src/ondisk/scan.rs: SstableScan", "src/query/stream/package.rs: ResidualEvaluator"]}
{"id": "C08", "title": "Splitting a predicate for push-down loses and invents nothing", "statement": "The part of a predicate pushed to the Parquet reader together with the residual part selects exactly the rows the whole predicate selects, for every row including rows with nulls (three-valued logic), and when there is no residual the pushed part alone has the same three-valued value.", "quantifier": "all predicate trees of any depth, all column types, all rows", "why_tests_cant": "Predicate trees are unbounded; NOT over partially pushed children is easy to get wrong.", "anchors": ["src/ondisk/sstable.rs: split_predicate_for_row_filter", "src/db/scan.rs: split_predicate_for_non_sst"]}
{"id": "C09", "title": "Key-range extraction never drops a matching row", "statement": "If a row satisfies the scan predicate then its primary key lies inside the key range the planner derives from the predicate; an empty derived range means no row can match.", "quantifier": "all predicate trees, all composite keys, all literals", "why_tests_cant": "Unbounded trees of AND/OR/NOT/BETWEEN/IN/LIKE-prefix and bound combinations.", "anchors": ["src/query/scan.rs: KeyBounds, bounds_from_expr, key_range_for_predicate"]}
{"id": "C10", "title": "Prefix range is exact", "statement": "The key range derived from `starts_with(p)` contains exactly the strings having p as prefix (no upper bound only when no string above all of them exists).", "quantifier": "all prefixes and all strings over all Unicode scalar values including the maximal one and the surrogate gap", "why_tests_cant": "Boundary characters 0xD7FF/0xE000/0x10FFFF and trailing maximal characters.", "anchors": ["src/query/scan.rs: next_prefix_string, next_scalar_char"]}
{"id": "C11", "title": "Comparisons between integers and floats are exact", "statement": "Filter comparisons between any integer column/literal and any floating-point literal/column give the ordering of the exact mathematical values, never a rounded one; NaN compares as unknown; infinities are beyond all integers.", "quantifier": "all 64-bit integers (as i128/u128) and all finite doubles, infinities and NaN", "why_tests_cant": "Needs values around 2^53..2^64 and all exponents.", "anchors": ["src/query/stream/package.rs: compare_i128_f64, compare_u128_f64, decompose_f64"]}
{"id": "C12", "title": "In-memory run pruning is invisible", "statement": "Skipping immutable runs whose key bounds or commit bounds cannot contribute never changes any scan result.", "quantifier": "all sets of runs, key ranges, read timestamps, including runs whose visible entries are only deletes", "why_tests_cant": "Needs a run whose only visible entry is a tombstone and whose upserts are all newer.", "anchors": ["src/inmem/immutable/mod.rs: prune_segments", "src/inmem/immutable/memtable.rs: commit_ts_bounds, key_bounds"]}
{"id": "C13", "title": "Scanning one SSTable gives its newest visible versions", "statement": "Streaming an SSTable (sorted data file plus optional delete sidecar) at a read timestamp yields for each key its newest version not newer than the timestamp, as row or tombstone, once per key, in key order; a delete wins over a row with the same timestamp.", "quantifier": "all sorted data/delete files, all read timestamps", "why_tests_cant": "The two-cursor merge with skipping of invisible versions has unboundedly many interleavings.", "anchors": ["src/ondisk/scan.rs: SstableScan::poll_next"]}
{"id": "C14", "title": "Flushing immutable runs to an SSTable changes no read result", "statement": "Writing any list of immutable runs into one SSTable (concatenate, sort by key, newest first) and scanning the SSTable gives at every read timestamp the same rows as merging the runs, and the file is sorted.", "quantifier": "all lists of runs, all read timestamps", "why_tests_cant": "Equality must hold for every content and every snapshot.", "anchors": ["src/ondisk/sstable.rs: SsTableBuilder::finish, normalise_immutable_flush_segments", "src/db/mod.rs: flush_immutables_with_descriptor"]}
{"id": "C15", "title": "Compaction changes no latest read", "statement": "Replacing any set of SSTables by the output of their merge leaves every read at a timestamp not older than the newest input version unchanged, whatever other SSTables and memtables exist.", "quantifier": "all inputs of any size and number of record batches, all remaining sources", "why_tests_cant": "Loss needs multi-batch inputs with a particular distribution of deletes.", "anchors": ["src/ondisk/merge.rs: SsTableMerger::execute_inner, SourceCursor", "src/compaction/executor.rs: LocalCompactionExecutor::execute"]}
{"id": "C16", "title": "Compaction output files are sorted, disjoint and split only between keys", "statement": "The files produced by one compaction contain strictly ascending keys, key ranges of successive files do not overlap, no key occurs in two files, and no input version order can make it lose or duplicate a key.", "quantifier": "all inputs and all output row/byte caps", "why_tests_cant": "Depends on cap positions relative to key groups.", "anchors": ["src/ondisk/merge.rs: execute_inner, exceeds_caps, finish_output"]}
{"id": "C17", "title": "Compaction respects open snapshots and time travel", "statement": "A version visible at some timestamp before a compaction is still visible at that timestamp afterwards through the version list offered by list_versions/snapshot_at.", "quantifier": "all histories, all timestamps, all compactions", "why_tests_cant": "Needs an old snapshot timestamp, two versions of a key and a compaction in one history.", "anchors": ["src/ondisk/merge.rs: execute_inner", "src/db/mod.rs: snapshot_at, list_versions"]}
{"id": "C18", "title": "Table statistics bound every stored version", "statement": "The min/max key and min/max commit timestamp recorded for an SSTable bound every row and every tombstone in it, and are attained, so range and visibility pruning and compaction overlap checks are safe.", "quantifier": "all staged contents", "why_tests_cant": "Must hold for every content, including tables with only tombstones.", "anchors": ["src/ondisk/sstable.rs: StagedTableStats::update_key_bounds, update_commit_bounds, stage_immutable"]}
{"id": "C19", "title": "A held snapshot is stable", "statement": "Scanning the same snapshot object again later returns the same rows, no matter which commits, seals, flushes or compactions happened in between.", "quantifier": "all histories between two scans of a snapshot", "why_tests_cant": "Requires all interleavings of background work with reads.", "anchors": ["src/db/mod.rs: begin_snapshot", "src/transaction/mod.rs: Snapshot", "src/db/scan.rs: plan_scan", "src/db/mod.rs: flush_immutables_with_descriptor"]}
{"id": "C20", "title": "Commits become visible atomically and only to later snapshots", "statement": "For every snapshot, either all or none of the rows of a commit are visible; a commit that finishes after a snapshot was opened is never visible in it.", "quantifier": "all interleavings of commit steps with snapshot opens", "why_tests_cant": "Needs a snapshot between timestamp allocation and insertion.", "anchors": ["src/db/mod.rs: begin_snapshot, ingest", "src/transaction/mod.rs: Transaction::commit, apply_staged_payloads"]}
{"id": "C21", "title": "No lost updates", "statement": "If two transactions write a common key and each began before the other committed, at most one of them commits; the other gets WriteConflict.", "quantifier": "all histories of transactions interleaved with seals, flushes and compactions", "why_tests_cant": "The conflicting version can have moved to any storage layer.", "anchors": ["src/transaction/mod.rs: Transaction::commit", "src/db/wal.rs: mutable_has_conflict, immutable_has_conflict", "src/inmem/mutable/memtable.rs: has_conflict"]}
{"id": "C22", "title": "Failed or aborted transactions leave no trace", "statement": "A transaction that is dropped, aborted, or whose commit returns WriteConflict changes neither reads, nor the log replay result, nor later conflict decisions.", "quantifier": "all states and staged contents", "why_tests_cant": "Must hold for every state.", "anchors": ["src/transaction/mod.rs: abort, commit"]}
{"id": "C23", "title": "Read your own writes", "statement": "Within a transaction, get and scan return the last staged value for each staged key (nothing for a staged delete) and the snapshot value for all other keys.", "quantifier": "all staging sequences, all database contents and storage placements", "why_tests_cant": "Storage placement (mutable, several immutables, SSTable) multiplies the cases.", "anchors": ["src/transaction/mod.rs: StagedMutations, Transaction::get, read_mutable_rows, TransactionScan"]}
{"id": "C24", "title": "Commit locking cannot deadlock", "statement": "Any set of concurrently committing transactions, each taking its key locks in key order and holding them until done, can always make progress.", "quantifier": "all numbers of transactions, all key sets, all schedules", "why_tests_cant": "Deadlock needs a specific cyclic schedule.", "anchors": ["src/transaction/mod.rs: Transaction::commit key_guards"]}
{"id": "C25", "title": "WAL frames round-trip", "statement": "Decoding an encoded frame gives back the same type, sequence number and payload and exactly the remaining bytes; encoded logs decode to exactly the frames written.", "quantifier": "all payloads and sequence numbers", "why_tests_cant": "All byte strings.", "anchors": ["src/wal/frame.rs: Frame::encode, FrameHeader::decode_from, encode_*/decode_*"]}
{"id": "C26", "title": "A torn log decodes to a prefix", "statement": "Cutting the log bytes at any point yields exactly the frames completely written before the cut: never an error, never a partial or different frame.", "quantifier": "all logs and all cut points", "why_tests_cant": "All crash offsets in all logs.", "anchors": ["src/wal/frame.rs: FrameHeader::decode_from", "src/wal/replay.rs: Replayer::scan_with_floor"]}
{"id": "C27", "title": "Payload corruption is detected", "statement": "Flipping any single bit (or any burst of up to 32 bits) of a frame payload makes decoding fail; changes of the header's magic, version, reserved type or zero sequence are rejected.", "quantifier": "all payloads, all bit positions", "why_tests_cant": "2^n payloads times positions.", "anchors": ["src/wal/frame.rs: FrameHeader::decode_from crc check"]}
{"id": "C28", "title": "Recovery applies exactly the committed transactions", "statement": "Replaying any log applies, in commit order, exactly the upserts and deletes of transactions whose commit record is in the log, each as a whole, and none of those without commit record or with an abort record.", "quantifier": "all interleavings of transactions in the log, all cut points", "why_tests_cant": "All interleavings and crash points.", "anchors": ["src/db/wal.rs: replay_wal_events, apply_dyn_wal_batch"]}
{"id": "C29", "title": "Recovery reproduces the pre-crash state", "statement": "Reopening after a crash with the log intact gives, at every read timestamp, the same rows as before the crash; reopening again gives the same again.", "quantifier": "all histories of ingests and commits, all read timestamps", "why_tests_cant": "All histories.", "anchors": ["src/db/mod.rs: recover_with_wal_inner", "src/db/wal.rs: replay_wal_events"]}
{"id": "C30", "title": "After recovery new commits are newer than everything recovered", "statement": "The first commit timestamp handed out after reopening is larger than every commit timestamp stored in SSTables, in the log, or acknowledged before the crash.", "quantifier": "all histories including pruned logs and out-of-order commits", "why_tests_cant": "Needs a pruned or empty log tail together with particular commit orders.", "anchors": ["src/db/mod.rs: recover_with_wal_inner", "src/wal/writer.rs: record_frame_progress", "src/wal/state.rs"]}
{"id": "C31", "title": "Acknowledged durable writes survive a crash", "statement": "With sync policy Always, once an ingest or strict commit returns, a crash that loses everything not fsynced still recovers that commit.", "quantifier": "all histories, flush intervals, segment rotations and crash points", "why_tests_cant": "All crash points between write, flush, rotate, sync and ack.", "anchors": ["src/wal/writer.rs: handle_enqueue, flush_if_needed, maybe_rotate, maybe_sync", "src/wal/mod.rs: WalTicket::durable"]}
{"id": "C32", "title": "WAL garbage collection never deletes unflushed data", "statement": "Whenever a WAL segment is deleted, every committed row in it is already in a published SSTable.", "quantifier": "all interleavings of ingest, commit, seal, flush, compaction and prune, all segment sizes", "why_tests_cant": "Needs particular alignment of segment boundaries with memtable boundaries.", "anchors": ["src/wal/manifest_ext.rs: collect_wal_segment_refs, segment_required, prune_wal_segments", "src/db/mod.rs: flush_immutables_with_descriptor", "src/transaction/mod.rs: finalize_manifest", "src/db/wal.rs: insert_into_mutable"]}
{"id": "C33", "title": "WAL retention limit does not lose unflushed data", "statement": "Setting a WAL retention size limit never deletes log segments still needed for recovery.", "quantifier": "all workloads and limits", "why_tests_cant": "Depends on volume relative to flushes.", "anchors": ["src/wal/writer.rs: enforce_retention_limit"]}
{"id": "C34", "title": "Log sequence numbers and transaction ids are never reused across restarts", "statement": "After reopening, new frame sequence numbers and provisional transaction ids are larger than all those still in the log, so an unfinished transaction from before the crash can never be merged with a new one.", "quantifier": "all log tails (ending in any frame kind, or an empty active segment)", "why_tests_cant": "Needs particular tails at the crash.", "anchors": ["src/wal/mod.rs: enable_wal", "src/wal/storage.rs: scan_tail, tail_metadata_with_hint", "src/wal/writer.rs: WriterContext::new"]}
{"id": "C35", "title": "Segment files are replayed in write order", "statement": "Segment file names sort (as listed) in numeric sequence order and parse back to their sequence number, so replay order equals write order; other file names are ignored.", "quantifier": "all sequence numbers up to 20 digits, all file names", "why_tests_cant": "All numbers.", "anchors": ["src/wal/storage.rs: segment_name, parse, list_segments"]}
{"id": "C36", "title": "Published versions are immutable and numbered increasingly", "statement": "Every manifest edit creates a version with a number larger than all before; previously published versions never change; the head always names an existing version; readers see either the old or the new version.", "quantifier": "all edit sequences, including failing edits", "why_tests_cant": "All histories.", "anchors": ["src/manifest/driver.rs: apply_version_edits_inner, snapshot_latest, snapshot_at_version, list_versions", "src/manifest/domain.rs: VersionState::apply_edits"]}
{"id": "C37", "title": "Version edits do exactly what they say", "statement": "After applying edits, a level contains exactly the previously present tables minus the removed plus the added ones, with one entry per id, sorted by id, no trailing empty levels; the WAL floor is the least referenced segment; removing from a missing level fails with no effect.", "quantifier": "all states and edit lists", "why_tests_cant": "All inputs.", "anchors": ["src/manifest/domain.rs: apply_edits, add_ssts, remove_ssts, normalise_wal_segments"]}
{"id": "C38", "title": "Concurrent compactions never both publish from one head", "statement": "If several compactions were planned from the same manifest head, at most one is published; each published compaction's inputs were all present in the version it replaced, and a loser leaves the manifest unchanged and removes only its own files.", "quantifier": "all schedules of planners, flushes and compactions", "why_tests_cant": "All schedules.", "anchors": ["src/compaction/driver.rs: run_scheduled_compaction", "src/manifest/driver.rs: apply_version_edits_cas"]}
{"id": "C39", "title": "Compaction plans are well-formed", "statement": "A planned task has at least one input, every input exists in the version on the stated level (source or next level), none twice, target level is source+1, limits on inputs and bytes of the source level are respected, and from level 1 on every next-level table overlapping the selected key range is included.", "quantifier": "all layouts and configurations", "why_tests_cant": "All layouts.", "anchors": ["src/compaction/planner.rs: plan_l0, plan_leveled_from, select_compaction_run, aggregate_key_range", "src/compaction/orchestrator.rs: resolve_inputs"]}
{"id": "C40", "title": "Levels above 0 never contain overlapping tables", "statement": "As documented for leveled compaction, two different tables on the same level >= 1 never have overlapping key ranges.", "quantifier": "all histories of flushes and compactions", "why_tests_cant": "Needs several rounds of compaction.", "anchors": ["src/compaction/planner.rs: CompactionStrategy::Leveled doc, plan_l0"]}
{"id": "C41", "title": "SSTable ids are never reused for a different published table", "statement": "After reopening, newly allocated SSTable ids are larger than every id in any published version, so no published file is ever overwritten.", "quantifier": "all histories of flushes, compactions, restarts", "why_tests_cant": "Depends on which tables remain in the latest version.", "anchors": ["src/db/builder.rs: next_sstable_id, sstable_id_allocator_for_table", "src/compaction/minor.rs: next_descriptor", "src/compaction/executor.rs: alloc_descriptor"]}
{"id": "C42", "title": "WAL bookkeeping of compaction never advances the floor past needed segments", "statement": "The segment list a compaction publishes is a subset of the existing one, and its first segment does not advance past a segment that any remaining table references; gaps in the sequence make it keep everything older.", "quantifier": "all versions and compaction outcomes", "why_tests_cant": "All combinations of references.", "anchors": ["src/compaction/orchestrator.rs: wal_segments_after_compaction, reconcile_wal_segments"]}
{"id": "C43", "title": "Garbage-collection plans name only unreferenced files, and lose none", "statement": "A recorded GC plan lists only tables not referenced by the newly published version, and a table made obsolete by a compaction stays listed until it is deleted.", "quantifier": "all sequences of compactions", "why_tests_cant": "All sequences.", "anchors": ["src/compaction/orchestrator.rs: gc_plan_from_outcome", "src/manifest/driver.rs: put_gc_plan"]}
{"id": "C44", "title": "Time travel selects the right version", "statement": "snapshot_at(ts) shows exactly the rows visible at commit timestamp ts; list_versions returns versions newest first, at most limit of them.", "quantifier": "all histories and timestamps", "why_tests_cant": "All relations between version numbers and commit timestamps.", "anchors": ["src/db/mod.rs: snapshot_at, list_versions", "src/manifest/driver.rs: list_versions"]}
{"id": "C45", "title": "Key comparison is a total order consistent with equality and hashing", "statement": "Composite keys are totally ordered lexicographically by component; comparing equal is the same as being equal, and equal keys hash equally.", "quantifier": "all composite keys over all supported component types", "why_tests_cant": "All pairs and triples of keys, including NaN and signed zero.", "anchors": ["src/key/owned.rs: Ord, Eq, Hash", "src/key/row.rs: dyn_rows_cmp, dyn_cells_cmp, dyn_cells_equal, cell_tag"]}
{"id": "C46", "title": "Later rows win inside one ingested batch", "statement": "When one batch contains the same key several times, the last row of the batch determines the visible state (with ingest_with_tombstones: upsert or delete).", "quantifier": "all batches and tombstone bitmaps", "why_tests_cant": "All positions of duplicates.", "anchors": ["src/db/wal.rs: insert_dyn_wal_batch", "src/inmem/mutable/memtable.rs: try_insert_batch"]}
{"id": "C47", "title": "Commit column travels unchanged with a batch", "statement": "Appending the commit timestamp column for the log and splitting it off again returns the original batch and timestamp; a log batch with non-uniform, null or missing commit timestamps is rejected rather than applied.", "quantifier": "all batches and timestamps", "why_tests_cant": "All batches.", "anchors": ["src/wal/mod.rs: append_commit_column, split_commit_column", "src/wal/frame.rs: extract_delete_commit_hint", "src/db/wal.rs: apply_dyn_wal_batch"]}
{"id": "C48", "title": "Seal policy and backpressure decide as configured", "statement": "The default policy seals iff one of its thresholds is reached; ingest stalls iff L0 files or bytes reach the stop limit, is slowed iff it reaches only the slowdown limit; configured stop limits are never below slowdown limits.", "quantifier": "all statistics and configurations, all orders of builder calls", "why_tests_cant": "All boundary values.", "anchors": ["src/inmem/policy.rs: evaluate", "src/db/mod.rs: L0BackpressureConfig::decision", "src/db/builder.rs: L0BackpressureConfig"]}
{"id": "C49", "title": "Compaction follow-ups and retries are bounded", "statement": "Between two external triggers at most the configured number of cascades is scheduled and two cascades are at least the cooldown apart; CAS retry delays grow monotonically and never exceed the maximum; output size caps never exceed the hard cap.", "quantifier": "all request sequences and configurations", "why_tests_cant": "All sequences.", "anchors": ["src/compaction/driver.rs: CascadeControl, cas_backoff_delay", "src/compaction/executor.rs: default_output_bytes_for_level"]}
{"id": "C50", "title": "Metadata and bloom caches are bounded and never return another file's entry", "statement": "A cache never holds more than its capacity, a lookup returns the value last inserted for that path or nothing, and eviction is oldest first.", "quantifier": "all operation sequences and capacities", "why_tests_cant": "All sequences.", "anchors": ["src/ondisk/metadata.rs", "src/ondisk/bloom.rs"]}
{"id": "C51", "title": "Table registration is idempotent and rejects incompatible definitions", "statement": "Registering the same definition twice returns the same table; a definition with the same name but different schema fingerprint, key columns, schema version or retention is refused without changing the catalog; distinct names give distinct tables.", "quantifier": "all registration sequences", "why_tests_cant": "All sequences.", "anchors": ["src/manifest/driver.rs: register_table, ensure_table_compat, find_table_by_name", "src/manifest/bootstrap.rs: register_table"]}
{"id": "C52", "title": "Row filters compute the three-valued meaning of the predicate", "statement": "Evaluating a filter on a row returned by the merge gives true, false or unknown exactly as the meaning of the predicate on the row's values (numbers by value across types, strings by code points, nulls unknown), without error, and the row is kept iff the value is true.", "quantifier": "all predicates of any depth, all rows including rows with nulls, all literal values and column types", "why_tests_cant": "Tests try a few literals and column types; the claim is about every predicate tree, cell and literal.", "anchors": ["src/query/stream/package.rs::ResidualEvaluator", "src/query/stream/package.rs::evaluate_expr", "src/query/stream/package.rs::compare_scalar_values"]}
{"id": "C53", "title": "A scan is not disturbed by a freeze or flush running at the same time", "statement": "If a row is committed and visible before a scan is started, the scan returns it no matter when the mutable table is frozen or frozen runs are flushed between the steps of the scan.", "quantifier": "all interleavings of the steps of a scan (planning, opening the sources) with freezes and flushes", "why_tests_cant": "the window lies between two awaits inside the scan; a test hits it only by chance", "anchors": ["src/db/scan.rs plan_scan_with_context", "src/db/scan.rs build_scan_streams", "src/db/wal.rs seal_mutable_now", "src/db/mod.rs flush_immutables_with_descriptor"]}
{"id": "C54", "title": "Reads see everything written, whatever was flushed and compacted", "statement": "After any history of successful ingests interleaved with flushes and compactions in any way, a scan at a timestamp not before the newest commit returns exactly the newest value of every key (nothing for deleted keys); as long as no compaction was published, this holds at every earlier timestamp too.", "quantifier": "all histories of write batches, freezes, flush steps and compaction steps of one table, in every interleaving, and all read timestamps", "why_tests_cant": "The interleavings of flush steps, compaction steps and writes, and the contents they move between memory and files, are unbounded; a test sees a few schedules.", "anchors": ["src/db/mod.rs:flush_immutables_with_descriptor", "src/compaction/driver.rs:run_scheduled_compaction", "src/db/scan.rs:build_scan_streams", "src/manifest/driver.rs:apply_version_edits"]}
{"id": "C55", "title": "The recorded list of log segments never forgets unflushed data", "statement": "The manifest's list of log segments that recovery and log pruning rely on keeps naming every segment that holds a committed row not yet in a published SSTable, whatever flushes and compactions are published in between.", "quantifier": "all interleavings of ingests, freezes, flushes and compactions, all segment boundaries", "why_tests_cant": "Needs a compaction to be published between a flush and later unflushed writes with particular segment boundaries.", "anchors": ["src/compaction/driver.rs: run_scheduled_compaction", "src/ondisk/merge.rs", "src/db/mod.rs: flush_immutables_with_descriptor", "src/wal/manifest_ext.rs: collect_wal_segment_refs"]}
{"id": "C56", "title": "Coalesced range reads and batched bloom filter requests return what separate reads would", "statement": "Reading several byte ranges of a table file in one request gives, for each range and in the order asked, the bytes a separate read would give; the same holds for bloom filters requested in a batch, through any state of the cache.", "quantifier": "all files, all lists of ranges (overlapping, nested, unordered, empty), all gap thresholds, all cache states", "why_tests_cant": "All relative positions of ranges.", "anchors": ["src/ondisk/bloom.rs", "src/ondisk/metadata.rs"]}
{"id": "C57", "title": "Key declarations mean what they say", "statement": "Declaring a primary key, by column names through the schema builder, by markers on fields or by a list of names in the schema's metadata, selects exactly the named or marked columns in the declared order; a declaration that names no usable columns is refused; and a schema produced by the builder with its declaration written into the metadata is read back as the same key.", "quantifier": "all schemas, all column names (any characters), all marker texts, all orders of declaration", "why_tests_cant": "Column names and marker texts are arbitrary strings and the declaration goes through a text form and back.", "anchors": ["src/schema.rs: SchemaBuilder", "src/mode/dyn_config.rs: DynModeConfig::from_metadata", "src/extractor/extractors.rs: projection_for_columns"]}
{"id": "C58", "title": "A table reopens with its own schema and no other", "statement": "Opening an existing table succeeds if the schema and the key columns are the ones it was created with, in whatever order the members of the serialized schema are listed, and is refused without any change if they differ in anything; a cached pruner is only used for the schema it was made for.", "quantifier": "all schemas, all pairs of schemas, all histories of the catalog and of the pruner cache (SHA-256 collisions excluded)", "why_tests_cant": "Injectivity of the serialized form over all schemas with arbitrary field names and metadata.", "anchors": ["src/mode/mod.rs: fingerprint_schema, canonicalize_json, table_definition", "src/manifest/driver.rs: register_table", "src/db/scan.rs: pruner_for_schema"]}
{"id": "C59", "title": "Tables in one store do not interfere", "statement": "With several tables in one store, what a table reads at any timestamp is what it would read if the operations on all other tables had never happened; in particular a newly created table is empty.", "quantifier": "all numbers of tables, all interleavings of their operations, all tables, all read timestamps", "why_tests_cant": "Interleavings of operations of several tables are unbounded and tests open one table per store.", "anchors": ["src/db/builder.rs: build_with_layout, build_with_manifest", "src/ondisk/sstable.rs: SsTableConfig, data_path", "src/manifest/driver.rs: TonboManifest", "src/wal/replay.rs: Replayer"]}
{"id": "C60", "title": "Two handles on one log", "statement": "If two handles write to the same log directory at the same time, a handle is never acknowledged after another one was unless it was opened again in between; acknowledged writes of different handles never share log positions, all of them are in the log, and the persisted state covers them; a write that failed because another handle took over does not come back after a restart.", "quantifier": "all numbers of handles, all interleavings of their loads, frames and commits, all storage failures including writes that take effect but report an error", "why_tests_cant": "The guarantee depends on every interleaving of two writers at the granularity of single storage calls.", "anchors": ["src/wal/state.rs: WalStateHandle::persist, FsWalStateStore::put", "src/wal/writer.rs: handle_enqueue, persist_state_if_dirty, WriterContext::new", "src/wal/storage.rs: open_segment, tail_metadata_with_hint"]}
{"id": "C61", "title": "A projection selects columns and nothing else", "statement": "A scan that asks for some columns returns exactly the rows, order, batches, limit and error of the same scan of whole rows, every row cut down to those columns in the order asked for; the predicate may be on columns that are not asked for, and rows may come from memory, frozen runs, files or staged writes of a transaction.", "quantifier": "all tables, stored rows, predicates, projections onto columns of the table, batch sizes, limits, read timestamps, staged writes", "why_tests_cant": "The columns that are read depend on the split of the predicate, on which sources take part and on the schema of each file; tests try few combinations.", "anchors": ["src/query/scan.rs: extend_projection_schema, collect_predicate_columns, ScanPlan", "src/db/scan.rs: plan_scan_with_context, sst_projection_from_metadata, schema_projection_indices, build_scan_streams", "src/query/stream/package.rs: PackageStream::with_limit", "src/inmem/mutable/memtable.rs: build_projection", "src/transaction/mod.rs: TransactionScan::new", "src/ondisk/scan.rs: decode_mvcc_from_data"]}
{"id": "C62", "title": "What a transaction accepts it can commit", "statement": "A write call of a transaction is accepted iff every row of it conforms to the schema of the table and has a key without nulls; a refused call stages nothing; what is staged for a key is the last accepted write on it; and everything that was accepted can be committed, as one row or one delete per key.", "quantifier": "all tables, all sequences of upsert, upsert_rows, upsert_batch and delete, accepted or refused", "why_tests_cant": "The checks when a row is staged and the checks when the batch is built are in different places; whether one implies the other is a statement about all values and all sequences of calls.", "anchors": ["src/transaction/mod.rs: Transaction::upsert, upsert_rows, upsert_batch, delete, StagedMutations, build_upsert_batch, build_key_batch, validate_key_components", "src/extractor/mod.rs: row_from_batch, project_key"]}
{"id": "C63", "title": "Any name will do for a column", "statement": "A table may have columns of any names: rows of it can be written through every API, and the columns the store adds to files and log are never confused with those of the table.", "quantifier": "all tables, all rows, all commit timestamps", "why_tests_cant": "The store finds its own columns by name, so whether a column of the table is in the way depends on all names and all places that look one up.", "anchors": ["src/mvcc.rs: MVCC_COMMIT_COL", "src/wal/frame.rs: append_commit_column", "src/ondisk/scan.rs: decode_mvcc_from_data", "src/extractor/mod.rs: row_from_batch"]}
{"id": "C64", "title": "The log keeps its deadlines", "statement": "With IntervalTime(i), what has been appended to the log reaches the disk no later than the first time the writer task runs after i has passed; with IntervalBytes(b), a loss of power takes less than b bytes of the log; with a maximal age of a segment, what is in the open segment is in a sealed one no later than the first time the task runs after that age.", "quantifier": "all sequences of commands, passing time, wake-ups of the task, rotation requests and restarts; all configurations and frame sizes", "why_tests_cant": "The deadlines are set and cancelled by every command, every rotation and every wake-up; that none is lost is a statement about all interleavings of commands and time.", "anchors": ["src/wal/writer.rs: WriterTask::run, handle_timer_tick, maybe_sync, recompute_timer, earliest_deadline, update_rotation_deadline, TimerDirective", "src/wal/mod.rs: WalSyncPolicy, WalConfig"]}
{"id": "C65", "title": "The compaction worker catches up", "statement": "Once the worker has been asked (by a flush, by a writer under backpressure, or when the database opens), it does not come to rest while some level of the table is over its limits; so a writer told to wait for compaction is let go. Its queue and the number of its jobs stay within the configured bounds, jobs that run at once divide the work, and whatever it does keeps the guarantees of flushes and compactions.", "quantifier": "all configurations of planner, queue, job count and cascades; all interleavings of the steps of the worker and its jobs with flushes, commits, triggers, storage failures and restarts", "why_tests_cant": "Whether a trigger is lost, a job goes stale in the queue or the worker sleeps with work left depends on the interleaving of planning, publication and triggers; a test sees one schedule.", "anchors": ["src/compaction/driver.rs: spawn_worker_with_config, wait_for_trigger, plan_and_enqueue, drain_and_execute, run_scheduled_compaction, should_self_kick", "src/compaction/scheduler.rs: CompactionScheduler::enqueue, drain_with_budget", "src/compaction/handle.rs: CompactionHandle::kick", "src/db/mod.rs: apply_l0_backpressure"]}
{"id": "C66", "title": "Calls of the log are answered, and closing it loses nothing", "statement": "Every call of the log (append, commit, rotate, snapshot) is answered exactly once: with the frame numbers of what was written, with success, or with an error; none waits for ever, not even when the storage fails or the task ends. Calls are served in the order they were handed over. The frames in the log are those of the calls that were promised, in that order and numbered without gaps, and at most the frames of one failed batch beside. When the log is closed and the storage does not fail, everything handed over before is written and on disk when shutdown returns, and what comes later is refused.", "quantifier": "all interleavings of calls by any number of writers with turns of the writer task (of any batch size), its timer, storage failures at any point of a batch, bytes reaching the disk on their own, closing and shutdown", "why_tests_cant": "Which requests share a batch, which one ends the collection of it and where the storage fails is decided by the schedule; a test sees one grouping.", "anchors": ["src/wal/mod.rs: WalHandle::enqueue_command, rotate, snapshot, shutdown, take_join, WalTicket", "src/wal/writer.rs: spawn_writer, run_writer_loop, WriterMsg"]}
{"id": "C67", "title": "A failed read is reported, never hidden", "statement": "If a read of a batch or the decoding of a row fails during a scan, in the data or in the delete sidecar of any file or in any other source, the scan does not silently return a wrong answer. The rows returned before an error are a beginning of the right answer, in order; a scan that reports no error has returned all of the right answer; a scan without a limit reports an error whenever a read of one of its sources fails; and an error is reported only if a read or the evaluation of the filter failed.", "quantifier": "all sources, all points at which reads fail (any batch, any row, data or sidecar, several at once), all orders in which sources are ready, all limits, batch sizes, filters and read timestamps; consumers that stop at the first error", "why_tests_cant": "Each poll of each source may fail; the failure meets the scan with rows buffered in the merge, peeked in the file scan and collected in the packager. Tests inject one failure at one place.", "anchors": ["src/ondisk/scan.rs: SstableScan::poll_next, poll_next_data_entry, poll_next_delete_entry", "src/query/stream/merge.rs: MergeStream::from_vec, poll_next", "src/query/stream/package.rs: PackageStream::poll_next", "src/db/scan.rs: scan"]}
{"id": "C68", "title": "Storage failures during flushes and compactions lose nothing", "statement": "If the storage fails while a flush or a compaction runs (a table file cannot be written or is only partly written, an input cannot be read, a file cannot be removed, the manifest refuses the new version or its answer is lost), no written row is lost and no deleted row comes back: every table a version lists keeps its file unchanged, a failure without effect on the manifest changes the answer of no scan at any timestamp, and later scans, flushes and compactions see exactly what was written.", "quantifier": "all histories of writes, freezes, flushes, compactions and restarts in any interleaving, all points at which each of them fails, any number of failures, all rests of files left behind, all tables, keys, rows and read timestamps", "why_tests_cant": "Every I/O call of every flush and compaction may fail, with and without effect, and the next flush or compaction works on what the failed one left; tests inject one failure at one place.", "anchors": ["src/db/mod.rs: flush_immutables_with_descriptor", "src/ondisk/sstable.rs: SsTableBuilder::finish, WriteContext", "src/ondisk/merge.rs: SsTableMerger::execute, cleanup_descriptors", "src/compaction/executor.rs: LocalCompactionExecutor::execute, cleanup_outputs", "src/compaction/driver.rs: run_scheduled_compaction, run_compaction_inner", "src/manifest/driver.rs: apply_version_edits_inner"]}
{"id": "C69", "title": "Limits on memory are respected", "statement": "After a write that succeeded, the memory table is empty or below every limit of the seal policy (bytes of keys with overhead, number of batches, time since the last freeze), and when flushing works fewer frozen tables than the configured threshold remain. The numbers the policy decides on are those of what a reader finds in the table.", "quantifier": "all histories of ingests, ingests with tombstones and commits, successful or failing, all policies, thresholds, capacities, keys, rows, timestamps and clock readings, all outcomes of flushes", "why_tests_cant": "The counters are updated beside the index in every branch of every insert and seal; a drift shows only after particular mixes of overwrites, deletes, failures and seals, and a missing call only as memory that grows.", "anchors": ["src/inmem/mutable/metrics.rs: record_write, reset_counters", "src/inmem/mutable/memtable.rs: try_insert_batch, try_insert_delete_batch, seal, build_stats", "src/inmem/policy.rs: evaluate", "src/db/wal.rs: maybe_seal_after_insert, insert_dyn_wal_batch, apply_committed_batch, apply_committed_deletes", "src/db/mod.rs: ingest, maybe_run_minor_compaction", "src/compaction/minor.rs: maybe_compact", "src/transaction/mod.rs: apply_staged_payloads"]}
{"id": "C70", "title": "Every type accepted for a key column works", "statement": "A schema that is accepted with certain key columns works with all keys these columns can hold: different keys are kept apart, a key is equal to itself, and the smallest and largest keys of a table file are written to the manifest and read back as the same keys.", "quantifier": "all accepted types of key columns, all keys of these types, of any number of columns, all formats of the manifest that read back the cells they wrote, all histories of writes", "why_tests_cant": "Tests use integer and string keys. Whether a fallthrough case of a comparison, of an equality or of a serializer is reached depends on the type of the column and the value, and the failure shows only when a file is published or the database is opened again.", "anchors": ["src/extractor/extractors.rs: ensure_supported_type", "src/key/row.rs: dyn_cells_cmp, dyn_cells_equal, cell_tag", "src/key/owned.rs: KeyOwned::serialize, KeyOwned::deserialize, cell_data_type", "src/ondisk/sstable.rs: SsTableStats"]}
{"id": "C71", "title": "The answer to a write tells what became of it", "statement": "A write that was answered with a success can be read, completely, and, if it waited for the log, is found again after a restart, completely. A write that was refused leaves no trace. A write that was answered with an error is either there completely or not at all, and repeating it is harmless.", "quantifier": "all sequences of ingests, ingests with tombstones and commits, all batches, all points at which the log, the memory table, the flush after the write or the publication in the manifest fail, databases with and without a log", "why_tests_cant": "The calls have six places at which they can fail, after some of which the write already is in the log or in memory. Which of them a sequence of calls meets, and what the earlier failures left behind, ranges over an unbounded set of histories.", "anchors": ["src/db/mod.rs: DB::ingest", "src/db/wal.rs: ingest_with_tombstones, insert_dyn_wal_batch, replay_wal_events", "src/transaction/mod.rs: Transaction::commit, apply_staged", "src/inmem/mutable/memtable.rs: insert_batch"]}
{"id": "C72", "title": "A setting that is given takes effect", "statement": "Whatever settings are given to the builder, alone or in batches, once or repeatedly, in whatever order: the database works with the last value given for each of them, with the documented default for the others, and with values it can work with. A database that was opened with some settings can be opened again with them.", "quantifier": "all sequences of calls on the builder, on the options of the log, of compactions and of back pressure, all values, durable and volatile storage", "why_tests_cant": "Tests set one option at a time. Merging of partial settings, clamping and defaults interact over arbitrary sequences of calls.", "anchors": ["src/db/builder.rs: WalConfig::apply, WalConfig::merge, StorageConfig::new, DbBuilder, CompactionOptions, L0BackpressureConfig, build_with_layout, recover_or_init_with_executor, build_s3_fs", "src/wal/replay.rs: Replayer::scan_with_floor"]}
{"id": "C73", "title": "Queries after any history", "statement": "After any history of writes, flushes, compactions and restarts, in whatever interleaving, a query with a predicate, a projection and a limit returns the columns asked for of exactly those rows that are visible at its timestamp in what was written and satisfy the predicate, by ascending key, up to the limit; which rows are in memory, in frozen runs, or in tables on which level has no influence on the answer.", "quantifier": "all histories of writes, flushes, compactions and restarts step by step, all predicates, projections, limits, batch sizes and read timestamps", "why_tests_cant": "Tests query one layout. Whether the answer depends on the layout is a question about all histories: the plan skips sources by statistics that flushes and merges compute, and rows are filtered before versions are compared.", "anchors": ["src/db/scan.rs: plan_scan, ScanBuilder::collect", "src/query/scan.rs: ScanPlan", "src/ondisk/sstable.rs: SsTableReader::into_stream", "src/compaction/executor.rs: LocalCompactionExecutor::execute", "src/compaction/minor.rs: MinorCompactor::maybe_compact"]}
{"id": "C74", "title": "Queries inside a transaction, after any history", "statement": "Inside a transaction, a query with a predicate, a projection and a limit returns the columns asked for of exactly the rows that satisfy the predicate, of what the transaction last staged for each key and, for keys it has not touched, of what was visible in the database at its snapshot, whatever history of writes, flushes, compactions, failures and crashes came before. After the commit everybody gets the answer the transaction got.", "quantifier": "all histories of writes, flushes, compactions, failures and crashes, all sequences of staged upserts and deletions, all predicates, projections, limits and batch sizes", "why_tests_cant": "A staged row must displace every stored version of its key, in memory, in frozen runs and in tables that the plan may skip or filter, and must itself be filtered. Tests stage a few rows over one layout; the claim is about all layouts and all sequences of staged calls.", "anchors": ["src/transaction/mod.rs: StagedMutations, TransactionScan, Transaction::scan", "src/db/scan.rs: ScanBuilder::collect, plan_scan", "src/query/stream/merge.rs: MergeStream", "src/query/stream/package.rs: PackageStream"]}
{"id": "C75", "title": "Compaction comes to an end", "statement": "If no flush is published any more, compactions publish only finitely many versions: no sequence of compactions feeds itself for ever. A worker whose loop and jobs keep being scheduled then comes to rest; asked once, it does so with no level over its limits unless a job failed; with a periodic tick it gets there whatever finite number of jobs fail, and every writer that waits for compaction is let go.", "quantifier": "all configurations of planner, queue, job count and cascades; all states a history can lead to; all endless schedules of the steps of the worker, its jobs, storage failures, triggers, writes and unpublished flush work", "why_tests_cant": "Termination and progress are statements about endless schedules; a test stops after finitely many steps of one schedule and cannot tell slow from stuck.", "anchors": ["src/compaction/driver.rs: spawn_worker_with_config, wait_for_trigger, plan_and_enqueue, drain_and_execute, run_scheduled_compaction, should_self_kick", "src/compaction/planner.rs: LeveledCompactionPlanner::plan", "src/compaction/scheduler.rs: CompactionScheduler::enqueue, drain_with_budget", "src/db/mod.rs: apply_l0_backpressure"]}
{"id": "C76", "title": "The compaction counters tell the truth", "statement": "The metrics a database reports about its compactions agree with what happened to the table: the number of jobs is the number of published compactions of this process; bytes, rows and tombstones read and written account exactly for the difference between what the table lists now, what it listed at the start and what flushes added; every cycle is counted once under what triggered it; the summary of the last job is about the last job; failures, conflicts and retries are counted when they happen.", "quantifier": "all configurations of planner, queue, job count and cascades; all histories of writes, flushes, commits, triggers, concurrent jobs, storage failures and restarts before the counting starts, and all such histories of one process while it counts", "why_tests_cant": "A test compares counters after one schedule; that they add up for every interleaving of flushes with jobs that meet conflicts, fail or are dropped is a statement about all schedules.", "anchors": ["src/compaction/metrics.rs: CompactionMetrics, CompactionIoStats::from_descriptors, record_trigger, record_queue_drop, record_cascade, record_job_success, record_job_abort, snapshot", "src/compaction/driver.rs: run_scheduled_compaction, plan_and_enqueue, drain_and_execute, spawn_worker_with_config"]}
{"id": "C77", "title": "A log through sessions and crashes", "statement": "A log is made, used, ended by a crash at any moment, opened again, used again, and so on any number of times. What is read from its files afterwards is, session after session, the commands handed to the log in the order of their answers up to some point: nothing is lost from the middle, repeated, reordered or changed, and a torn end of one session does not hurt the next. If the settings write every command through before it is answered (flushed, and synced where power may fail), or the log was closed, every command that was told to be written is there; without failed calls nothing else is. The log can always be opened again, and recovery succeeds and holds exactly the writes of the transactions committed by these commands.", "quantifier": "all numbers of sessions; all calls, commands below 4 GiB, batching, rotations, timers, flush and sync settings without a retention limit (sync not disabled where power may fail); all storage errors of the writer; all moments of the crashes and all bytes of the last file they cut; frame numbers below 2^64", "why_tests_cant": "A test crashes at a few points of one history; that every cut of the last file, after every number of sessions that each continue a torn file, reads back as an exact prefix needs an induction over sessions, steps and bytes.", "anchors": ["src/wal/writer.rs: WriterContext::new, run_writer_loop, handle_enqueue, rotate_active_segment", "src/wal/storage.rs: tail_metadata_with_hint", "src/wal/frame.rs: encode_command, decode_frame", "src/wal/replay.rs: scan_with_floor", "src/db/wal.rs: replay_wal_events"]}
{"id": "C78", "title": "The counters of the log tell the truth", "statement": "The counter of the bytes written says exactly how many bytes the acknowledged commands have (after a storage error at most those of the commands told of the error more). The counter of the syncs never exceeds the fsyncs the disk saw, and grows whenever there was one; nothing reaches the disk in a step without one. The metric of the queue is, when a command is taken, the number of commands behind it and of callers on the way, and at the end of the task the number of callers not gone. The counter of files removed, together with the files still there, never exceeds the files the log ever had, and is exact if only flushes remove files and none fails; pruning removes no file at or above the floor; a dry run removes none and counts those it would.", "quantifier": "all histories of callers, batches, timers, rotations, storage errors at any place, write-back by the operating system, shutdown and refused callers; all flush and sync policies and file sizes; all frame sizes; all floors and faults of pruning", "why_tests_cant": "A test reads counters after a few calls; whether they agree with the acknowledgements and the disk depends on how callers, batches, errors and the end of the task interleave.", "anchors": ["src/wal/metrics.rs: WalMetrics", "src/wal/writer.rs: run_writer_loop, handle_enqueue, handle_enqueue_batch, update_queue_depth_metric, record_sync", "src/wal/mod.rs: WalHandle::enqueue_command", "src/wal/manifest_ext.rs: prune_wal_segments", "src/compaction/driver.rs: prune_wal_below_floor", "src/transaction/mod.rs: prune_wal_segments"]}
{"id": "C79", "title": "A table takes exactly the batches of its schema", "statement": "`ingest`, `ingest_with_tombstones` and a transaction's `upsert_batch` take a batch exactly if its Arrow schema equals the table's: the same columns in the same order, with the same types, nullability and metadata, and the same schema metadata; any other batch is refused before anything is written. A batch that is taken is never refused later because of its schema: not by the memory, not by the log (unless a column has a reserved name, C63), not when the log is replayed by a table declared alike, not by a compaction that reads it from a file. The batches an unprojected query returns can be written again. The schema of the table is the one it was declared with.", "quantifier": "all schemas (any columns, types, nullability, metadata), all ways to declare the key, all batches, flags and numbers of rows, with or without a log, all projections", "why_tests_cant": "Each stage (call, log, replay, memory, compaction, query) has its own check of schemas with its own tolerance; that no batch passes an earlier one and fails a later one is a statement about all schemas, of which a test tries a few.", "anchors": ["src/db/mod.rs: DbInner::ingest", "src/db/wal.rs: insert_dyn_wal_batch, validate_record_batch_schema, validate_vec_tombstone_bitmap, partition_batch_for_mutations, apply_dyn_wal_batch, validate_delete_batch_schema, validate_delete_commit_ts", "src/transaction/mod.rs: Transaction::upsert_batch, ensure_batch_schema", "src/extractor/extractors.rs: schemas_compatible, row_from_batch", "src/wal/mod.rs: append_commit_column, split_commit_column", "src/mode/mod.rs: build_delete_schema", "src/schema.rs: SchemaBuilder::with_metadata"]}
{"id": "C80", "title": "Deletions keep their key and time through memory and files", "statement": "When rows of a batch are deleted, exactly their keys are deleted at the time of the write, in memory and in the file of the next flush: a query and a compaction that read this file find every deletion, in order, with the same key (all key columns, in the order of the key) and the same time, and a compaction that copies deletions writes them unchanged. A null in a key is refused, and so is a file in which a key column or the time is missing.", "quantifier": "all schemas, numbers, types and orders of key columns; all ways to declare the key; all batches, rows and times", "why_tests_cant": "Every combination of key columns, names and positions has to be read back; tests use one or two schemas.", "anchors": ["src/db/wal.rs: build_delete_batch", "src/inmem/mutable/memtable.rs: try_insert_delete_batch", "src/inmem/immutable/memtable.rs: DeleteSidecar::to_record_batch", "src/db/scan.rs: plan_delete_sidecar_selection", "src/ondisk/scan.rs: DeleteBatchIterator", "src/ondisk/sstable.rs: build_projection_mask_for_names, SsTableReader::into_stream", "src/ondisk/merge.rs: extract_delete_key_at, commit_ts_at_delete, sequence_at_delete, decode_delete_sidecar"]}
{"id": "C81", "title": "Only files with complete page indexes are read", "statement": "A table file is read only if its column index and its offset index have exactly one entry for every column of every row group (a file without row groups needs none); otherwise the query gets an error that says what is wrong first. This holds however queries interleave and whatever the metadata cache holds or has dropped: the cache never makes a bad file readable, or a good one unreadable.", "quantifier": "all file metadata; all interleavings of lookups; all cache sizes", "why_tests_cant": "All shapes of indexes and all interleavings with evictions.", "anchors": ["src/ondisk/sstable.rs: validate_page_indexes, open_parquet_stream_with_schema", "src/db/scan.rs: parquet_metadata_cached", "src/ondisk/metadata.rs"]}
{"id": "C82", "title": "Back pressure with many writers at once", "statement": "Writers and flushes that ask about level zero at the same time get answers that never go back in time and are no older than the refresh interval; a writer goes on exactly when it is told of less than a stop limit, having slept the configured delays; once level zero is below the limits and one caller has seen it, nobody is stopped any more; nobody waits for another caller; a caller that is dropped or fails does not disturb the others; the counters say how often writers were slowed down and stopped, and the compaction worker is asked once for every write that had to wait.", "quantifier": "all configurations, all numbers of callers, all interleavings of their accesses to the shared cache and mark with time, new versions of the table, errors of the manifest and dropped calls", "why_tests_cant": "Two callers meet in a window of a few instructions; what the second is told depends on the interleaving.", "anchors": ["src/db/mod.rs: L0StatsCache, L0StatsRefreshGuard, l0_stats, apply_l0_backpressure, maybe_run_minor_compaction", "src/compaction/metrics.rs: record_backpressure"]}
{"id": "C83", "title": "Several processes on one table", "statement": "Processes that only read do not disturb the one that writes. A reader gets at any time a consistent table: of everything the writer has written a beginning, all of it once the writer has flushed, and never less than any reader saw before. Opening a table gives the process everything that was flushed.", "quantifier": "all numbers of processes, all interleavings of their openings and restarts with writes, freezes, flushes, publications and merges", "why_tests_cant": "It ranges over all interleavings of the steps of several processes, each of which has its own clock and numbers.", "anchors": ["src/db/builder.rs: open_with_executor, manifest_init, next file id", "src/db/mod.rs: begin_snapshot, snapshot_at, next_commit_ts, CommitClock", "src/mvcc/mod.rs: CommitClock", "src/manifest/driver.rs"]}
{"id": "C84", "title": "What is kept of files stays true", "statement": "Footers and bloom filters that a process keeps in its caches are, at every later moment of its life, what the files in the store say, however flushes, compactions and restarts of this and other processes come in between, loads under way included; the caches stay within their size.", "quantifier": "all histories of several processes, one of which writes; all interleavings with tasks that look up, load and keep parts of files; all cache sizes", "why_tests_cant": "Staleness needs a file to be replaced between loading and use; that this never happens depends on all earlier allocations of names.", "anchors": ["src/db/scan.rs: parquet_metadata_cached", "src/ondisk/metadata.rs: ParquetMetadataCache", "src/ondisk/bloom.rs: BloomFilterCache", "src/db/builder.rs: next_sstable_id"]}
{"id": "C85", "title": "The log survives its own repair", "statement": "A frame the log has acknowledged stays in it, readable and in order, while flushes, commits and openings look at its tail and rewrite it when the last frame is incomplete; the log never becomes unreadable through this, and nothing appears in it that was not written.", "quantifier": "all frames, all ways in which their bytes reach the file, all moments at which the tail is looked at, all crash points and restarts", "why_tests_cant": "The outcome depends on how the pieces of a frame interleave with a concurrent look at the file, and on a crash between two steps of the repair.", "anchors": ["src/wal/storage.rs: WalStorage::tail_metadata_with_hint, scan_tail, overwrite_segment", "src/wal/manifest_ext.rs: collect_wal_segment_refs", "src/wal/writer.rs: write_frame", "src/db/mod.rs: flush_immutables_with_descriptor"]}
{"id": "C86", "title": "Acknowledged writes survive power losses", "statement": "With a log that is synced before every acknowledgement, a power loss at any moment loses no acknowledged write: after opening the database again, reads show every acknowledged write, those flushed or compacted into tables included, and nothing that was not committed.", "quantifier": "all histories of writes, flushes, compactions, prunings, crashes and power losses; all choices of what the operating system has written to the device by then", "why_tests_cant": "Tests cannot cut the power; what is on the device at that moment depends on the operating system, and the log may have been pruned long before.", "anchors": ["src/ondisk/sstable.rs: WriteContext::finish", "src/db/mod.rs: flush_immutables_with_descriptor", "src/wal/manifest_ext.rs: prune_wal_segments_below_floor", "src/compaction/executor.rs"]}
{"id": "C87", "title": "A flushed table does not need its log", "statement": "Once every write is in tables, the log can be lost (a disk of its own, a backup without it): the database opens, reads show all rows as before, and what is written from then on is read and survives restarts.", "quantifier": "all histories up to the loss, all writes after it, in any interleaving, all timestamps of reads", "why_tests_cant": "Whether something that only the log knew was needed depends on the whole history before the loss, and shows after the next restart.", "anchors": ["src/db/builder.rs: wal_segments_exist, recover_or_init_with_executor, build_with_layout", "src/wal/mod.rs: enable_wal", "src/wal/writer.rs: WriterContext::new", "src/db/mod.rs: recover_with_wal_inner, begin_snapshot", "src/wal/replay.rs: scan_with_floor"]}
{"id": "C88", "title": "A power loss loses only the newest writes", "statement": "With a log that is synced now and then (by bytes, by time, at the end of a segment), a power loss loses no write that was acknowledged before the last sync: the database opens, and reads show all of these, every write whose commit record is on the device, and nothing that was not committed. Writes after the power loss are as safe as any others.", "quantifier": "all histories before the sync, with any number of crashes; all writes, flushes, compactions and deletions of segments between the sync and the power loss; every set of frames that got to the device after the sync; every state file and every decision of the sealing policy during recovery", "why_tests_cant": "Which frames are on the device is up to the operating system, and what is in tables, in memory and in the log at that moment depends on the whole history.", "anchors": ["src/wal/writer.rs: maybe_sync, rotate_active_segment, WriterContext::new", "src/wal/storage.rs: WalStorage", "src/wal/replay.rs: Replayer::scan_with_floor", "src/db/mod.rs: recover_with_wal_inner"]}
{"id": "C89", "title": "What was synced survives power losses and repairs of the log", "statement": "A frame that was acknowledged before a sync of the log returned is in the log after any number of power losses, crashes, repairs of an incomplete tail and restarts; the log stays readable, its frames stay in order, and nothing appears in it that was not written.", "quantifier": "all frames, all ways in which their bytes reach the file, all histories of syncs, crashes, power losses, repairs and restarts, and all amounts of unsynced bytes that are left", "why_tests_cant": "What a device keeps of unsynced writes cannot be chosen by a test, and the outcome depends on where in a repair the power fails.", "anchors": ["src/wal/storage.rs: WalStorage::tail_metadata_with_hint, overwrite_segment", "src/wal/writer.rs: sync_data, sync_all, perform_sync"]}
{"id": "C90", "title": "A listing of the log says which segments exist and which frames they hold", "statement": "`WalHandle::snapshot` lists the segments of the log that have frames, oldest first, each with the sequence numbers of its first and last frame, also after rotations, eviction by the size limit, pruning and restarts, and `state.json` records the same; the segment of every frame in the log is listed and the frame lies within its bounds.", "quantifier": "all configurations and all histories of commands, rotations, deadlines, pruning, evictions, shutdowns, power losses and restarts", "why_tests_cant": "The listing is answered from memory that is updated in five places and rebuilt from two sources at a start; a test visits a few histories.", "anchors": ["src/wal/mod.rs: WalHandle::snapshot, WalSnapshot", "src/wal/writer.rs: snapshot, touch_active_segment, record_sealed_segment, rehydrate_segment_metadata, align_state_with_segments", "src/wal/state.rs: WalState, WalSegmentBounds", "src/wal/storage.rs: decode_frame_bounds"]}
