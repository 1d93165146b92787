# Formal model of tonbo: design

Source: `/repo` (Rust), read as text. Model: Lean 4, `/verif/lean/Verif`. Claims: `properties.jsonl`
(C01..), status in `MANIFEST.json`.

## Layout

* `Verif/Spec/*`   small, independent specifications (what "visible at ts" means, what a torn log
  means, ...). They mention no model function.
* `Verif/Model/*`  the code, function by function. Each definition cites file and lines.
* `Verif/Lemmas/*` helper lemmas about the model.
* `Verif/Props/*`  the theorems named in `MANIFEST.json`, one file per area, each followed by an
  `example` that instantiates its hypotheses on a concrete non-trivial case.

## Trusted base

* Lean 4.33.0 kernel. Axioms: only `propext`, `Classical.choice`, `Quot.sound`. No own axioms, no
  `sorry`, `native_decide`, `bv_decide`.
* The hand translation Rust -> Lean. Not modelled unless said otherwise: Arrow/Parquet byte
  formats (a record batch is a list of rows, a Parquet file is a list of batches), fusio I/O
  errors (of the log writer: C66; of scans: C67; of flushes and compactions: C68), async executor fairness, memory ordering weaker than sequential consistency of each
  atomic, `u64` wrap-around of counters (modelled as `Nat`, saturation modelled where the code
  saturates and it matters), fusio-manifest internals (a write session is one atomic
  read-modify-write of the key/value map), aisle page pruning (only its contract), the metrics of reads and writes, logs.

Assumptions about foreign code, all of them visible as parameters, hypotheses or stated
simplifications of a model file:

| assumption | where |
|------------|-------|
| the `crc32c` crate computes standard CRC-32C (defined bit by bit in the model) | `Model/Frame.lean` |
| the Arrow IPC codec: a batch decodes to itself (`Codec` law), nothing said about other bytes | `Model/WalEvent.lean`, C25, C47 |
| how a user schema turns batches into rows and keys (`Sch`), and rows and keys into batches (`Enc`) | parameters of `Model/Recovery.lean`, `Model/Durable.lean`; round trip required only by `Decodes` |
| a sort is stable and orders by its key; a heap pops a least element | parameters of `Model/Planner.lean`, `Model/MergeStream.lean`, `Model/Compact.lean` |
| opening a log file for writing does not truncate it and writes go to its end | `Model/WalWriter.lean` |
| a write handed to the runtime stays in the process until the file is flushed; `fsync` makes what was flushed durable | `Model/WalWriter.lean` |
| creating, removing and truncating a file are durable when they return (no directory sync is modelled) | `Model/WalStore.lean` |
| steps between two awaits or lock operations are atomic; threads interleave in any way | `Model/Txn.lean`, `Model/Seal.lean`, `Model/Durable.lean` |
| ULIDs are never drawn twice | `Model/Catalog.lean`, C51 |
| The object store replaces `state.json` only if the tag matches, and never gives the same tag twice; a frame is appended in one piece and no torn frame is seen by a second handle | `Model/Fence.lean`, C60 |
| SHA-256 does not collide on the texts compared (a hypothesis); `serde_json` writes integers, strings and compact separators as modelled; the JSON of a schema holds no fractions | `Model/Fingerprint.lean`, C58 |
| `DynProjection` (typed-arrow-dyn) selects cells by position, a position being that of the first column of the name; building a batch from cells keeps them | `Model/Projection.lean`, C61 |
| `DynBuilders` (typed-arrow-dyn) accepts a row iff every cell has the type of its column, and a null only in a nullable one; struct, list and union cells are left out | `Model/Staging.lean`, C62 |
| table files do not change once written | `Model/Cache.lean`, C50 |
| the Parquet reader gives the rows for which the row filter is true, in file order; row groups are dropped only if no row in them can match | `Model/SstScan.lean`, `Model/ScanPlan.lean`, C07 |
| the sealing policy may decide anything | parameter of `Model/Memtable.lean`, `Model/Durable.lean` |

What each model file leaves out is said in its header and beside each definition.

## Plan per property

"neg" means the unchanged code violates the property: a theorem refutes it with a concrete
reachable witness and a `_partial` theorem proves the part that does hold.

| id | modelled | proof |
|----|----------|-------|
| C01 | `CommitClock` as small-step machine: alloc = one fetch_add, advance = load + CAS loop | invariant over all interleavings |
| C02 | SkipMap index as sorted list with (key asc, ts desc), slots, `DynRowScan` | refinement to `Spec.IsSnapshot` |
| C03 | `seal_into_immutable`, composite index, `ImmutableVisibleScan` | equality of scans |
| C04 | `DynMem` with slot capacity and retry | content invariant |
| C05 | `SstableScan`, memtable scans, `MergeStream` heap | refinement to `Spec.IsSnapshot` |
| C06 | limit in merge and package stream | prefix equality |
| C07 | push-down into SST row filter before de-duplication | neg (stale version); partial: predicates over key columns / predicates that rows of a key do not cease to satisfy |
| C08 | `split_predicate_for_row_filter` on expression trees | structural induction, Kleene logic |
| C09 | `bounds_from_expr`, `KeyBounds` algebra | structural induction |
| C10 | `next_prefix_string` on scalar values | order argument |
| C11 | `decompose_f64`, `compare_*_f64` on sign/mantissa/exponent | exact rational comparison |
| C12 | `prune_segments` | neg (delete only visible); partial |
| C13 | `SstableScan::poll_next` | invariant of the two-cursor loop |
| C14 | builder `finish`, normalisation sort | sorted permutation, refinement |
| C15 | `SsTableMerger` cursors, heap | neg for multi-batch inputs; partial for single batch |
| C16 | output splitting by caps (`Spec/Split.lean`), in one merge and over the histories of C38 | invariant |
| C17 | same merger, older read timestamps | neg; partial for latest |
| C18 | stats folding | induction |
| C19 | database state machine with snapshots | neg (flush); partial |
| C20 | commit as several steps | neg; partial for atomic commits |
| C21 | conflict check | neg (flush in between); partial without flush; full for in-memory |
| C22 | same machine | full |
| C23 | staged map, `get`, scan overlay | neg for get; full for scan overlay |
| C24 | ordered lock acquisition machine | progress theorem |
| C25-C27 | byte-level frame codec with CRC-32C | round trip, prefix, linearity of CRC |
| C28-C30 | replay as fold | refinement, invariants; C30 neg + partial |
| C31 | writer with user buffer / OS / durable layers | invariant; neg for flush interval > 0 |
| C32-C34 | segments, ranges, floor, retention, tail scan; the numbers over whole histories of the writer, with power losses between commands and inside them (`Model/WalCut.lean`) | neg + partial |
| C35 | decimal formatting with 20 digits | order isomorphism |
| C36-C38 | manifest key/value map, CAS | invariants |
| C39-C40 | planner | full / neg |
| C41 | id allocation across restarts | invariant |
| C42-C43 | orchestrator | decision logic; GC plan overwrite neg |
| C44 | version selection | neg + partial |
| C45 | cell comparison incl. floats | total order for non-float; neg for NaN, -0.0 hash |
| C46-C47 | batch row handling | C46 neg for tombstones |
| C48-C50 | policies, backpressure, cascade, caches | decision logic, invariants |
| C51 | catalog | invariants |
| C52 | `evaluate` of predicates on rows, with the coercions of the evaluator | structural induction; neg for large string columns |
| C53 | scan planning and opening as two steps, freezing as two steps | neg; partial without a freeze in between |
| C54 | one table: memory, manifest, files, flush and compaction steps | invariant over all histories; with crashes in `Props/C29_C32_Durable.lean` |
| C55 | list of log segments in the manifest | neg (compaction); partial over calm histories |
| C56 | range coalescing and splitting, batched bloom requests | induction over the sorted ranges |
| C57 | schema builder, field markers, list of names in the metadata, with their text forms | decision logic, round trip; neg for names with commas |
| C58 | canonical JSON form of a schema and its text, table definition, pruner cache | injectivity of the text by mutual induction; composed with C51 |
| C59 | any number of tables of `Model/Lsm.lean` over one manifest and one set of files | simulation of the store by the store without the other tables, as long as no file a table names was last changed by another; neg for shared file names and for the shared log |
| C60 | any number of writer tasks over one state file with compare-and-swap and one set of segment files, interleaved at single storage calls | invariant over all interleavings; neg for frames of a failed write and for logs without a state file |
| C61 | the scan with columns found by name at each of its four places (plan, memory, file, batch), over stores, frozen runs, files and staged writes | refinement to the scan of whole rows: naturality of merge and packaging; neg for columns the table does not have |
| C62 | the write calls of a transaction, with all their checks, and the batches a commit makes of what is staged | induction over the calls against a separate account of what each call says; neg for mistyped deletes, partial calls and NaN keys |
| C63 | the lookups by name in the file reader, the log and `upsert_batch` | round trip for other names; neg for the two names of the store |
| C64 | the writer task with its clock: last flush, deadlines of fsync and of rotation, armed sleep | invariants over all histories of commands, time, wake-ups and restarts; refinement to the writer of `Model/WalWriter.lean`; neg for flush intervals and for ages over restarts |
| C65 | the loop of the worker, its queue, its jobs step by step over the database of C38, triggers, cascades (`Model/Worker.lean`) | refinement to the store; invariants over all histories; partial: failed jobs and queues larger than the job count; neg for those, for jobs at once, for stop limits below the planner's |
| C66 | the channel of the log writer, the collection of batches, the request that ends it, storage failures in the middle, closing and `shutdown` (`Model/WalQueue.lean`) over the writer of C31 | invariant over all histories: answers and queue divide the calls; at most one batch is told of a failure; fault-free refinement to the frames of the accepted commands; with a retention limit by simulation against the same log without one (`Lemmas/WalRetain.lean`): same answers, the oldest whole files gone; neg for a second `shutdown` and for failed calls that are in the log |
| C67 | scans of files, the merge and the packager with reads that fail (`Model/ReadErr.lean`): a stream is a list of poll results, not ready, item or error | simulation against the same code without errors, which C05, C06 and C13 settle; separately an induction on where errors come from; neg (a remark) for consumers that go on after an error |
| C68 | flushes and compactions whose storage fails (`Model/LsmFail.lean`, on top of `Model/Lsm.lean`): writers that fail and leave part of a file, merges that fail after some tables, files that cannot be removed, manifest calls that are refused or whose answer is lost, GC records that fail | the invariant of C38 and the content relation of C54 extended to these steps, for all histories; neg for a compaction that is told of an error after its publication took place. Partial: see C54 |
| C69 | the counters beside the memory table, who asks the seal policy and when, the flush that follows (`Model/Meter.lean`, on top of `Model/Memtable.lean` and `Model/Policy.lean`); a flush is only its outcome; the replay of committed payloads at open; the log itself is not part of it | invariant: counters = number and sizes of the keys of the index, over all histories of direct writes and commits, failing ones included; case split on the policy for the limits; negations by induction over histories of any length |
| C70 | cells of union columns beside the cells of `Model/Cell.lean`, their comparison and equality, and how a key is written to and read from the manifest (`Model/KeySer.lean`) over an arbitrary format of cells; JSON is one instance, an assumption about `serde_json` | round trip for every key of non-union types in every format that reads back what it wrote; the failures of unions and of non-finite floats as theorems; the one-row table through the memory-table refinement (`Lemmas/Runs.lean`) with a key order that has one class |
| C71 | the three calls that write, from their checks to their answers (`Model/WriteCall.lean`, over the memory table of C04 and the replay of C28); what the log, the policy, the flush and the manifest answer is arbitrary for every call; calls run one after the other | induction over histories against a separate account of what each answer says (`Spec/WriteView.lean`); neg for batches with null keys and errors that mean otherwise |
| C72 | the calls on the builder and its option types, and what opening makes of them (`Model/Settings.lean`); file systems and state stores are numbers; errors of the storage while opening are not part of it | induction over the calls against the last value given (`Spec/SettingsView.lean`); neg for two recovery modes, two settings of object stores, byte limits |
| C73 | the histories of C54 over rows with columns, and the query of C07/C61 on the state they leave, planned by the statistics in the manifest (`Model/LsmQuery.lean`); snapshot, plan and reads are one step | the invariants of C38/C54, those of C29/C32 for histories with crashes, and those of C68 for failing flushes and compactions (with failing writes in `C73_FailedWrites`, where only acknowledged writes count, `Spec/FailedWrites.lean`), give the hypotheses of C07 and C61 for every reachable state; partial: predicates that rows of a key do not cease to satisfy (key predicates among them); neg for others |
| C74 | the states of C73 and the scan of a transaction on them (`Model/TxnQuery.lean`): staged mutations as one more source, the whole predicate evaluated at the end; the transaction begins and queries with nothing in between, or (`Model/SnapQuery.lean`, `C74_Held`) holds its snapshot while others write, freeze, flush and compact | the merge shows staged entries for staged keys whatever the other sources hold, the plan differs from that of C73 in the residual only; before and after the commit by `seen_iff_committed`; partial: as C73, but only for keys without a staged mutation; neg for others |
| C75 | endless schedules over the worker of C65 (`Spec/WorkerFair.lean`); the measure is the number of tables per level, top level first | lexicographic descent of the level counts; descent of triggers and steps left for coming to rest; partial: asked once with a queue larger than the job count |
| C76 | the worker of C65 with its counters (`Model/WorkerStats.lean`); what the table lists, what flushes add and how many cycles begin is said apart from them (`Spec/Tally.lean`) | each step is calm, an abort or a publication (`Told`); a publication permutes the tables listed before plus outputs into those listed after plus inputs; induction over the history; what happens to tasks is said step by step (`Happening`) and counted exactly; a running job always has a place in the queue for its follow-up (`Room`); partial: failures before the merge and all conflicts go uncounted |
| C77 | the writer task of C66 on real frames, the bytes it leaves and the writer opened on them (`Model/LogLife.lean`); what a crash may leave and what a session was told is said apart (`Spec/LifeView.lean`) | a rule for what runs of the task keep from any start (`Lemmas/WalRules.lean`): sealed files are safe, the frames are the old ones plus the promised ones; a crash leaves intact files and a cut last one (`Lemmas/LogImage.lean`), which C25/C26 read back and open again; induction over the sessions |
| C78 | the writer task of C66 with `WalMetrics`, the callers at its door and the calls of `fsync` (`Model/WalStats.lean`); pruning with its counters (`Model/WalPrune.lean`); what was sent, its bytes and who waits is said apart (`Spec/CountView.lean`) | without its counters the task is that of C66 (`run_q`); the bytes follow the answers (`Told`), the syncs grow by at most the `fsync`s of each step (`Step`), the wrapping depth is queue + door + away (`Deep`); partial: the counters of syncs, depth and pruning miss or misreport the cases listed under Disagreements |
| C79 | the checks of schemas on the way of a batch: the three calls, the log, its replay, the memory, files, results (`Model/Accept.lean`, on top of the declarations of `Model/KeyDecl.lean`) | taken iff equal to the schema of the table; the later checks (`compatible`, `replayRows`, `replayKeys`, `keyReadable`) hold of what passed the first; partial: transactions refuse most types, and `with_metadata` changes the schema (Disagreements) |
| C80 | deletions as columns with names and types, from the batch of the user to memory, the sidecar file and its two readers (`Model/Sidecar.lean`, on top of `Model/Accept.lean`) | round trip for every declared table whose key columns have different names; partial: neg for two key columns of one name and for a key column `_commit_ts`; ties the abstract deletions of `Model/Flush.lean`, `Model/SstScan.lean`, `Model/Compact.lean` to columns |
| C81 | the check of page indexes as decision logic (`Model/PageIndex.lean`) under the cache of C50 | iff with a specification of a fitting index; with the cache: instance of the invariant of C50 |
| C82 | callers that share the statistics of level zero: cache, mark, clock, sleeps and counters, one step per access (`Model/Throttle.lean`); schedules are endless, what a call is told and from when it is are said apart (`Spec/ThrottleView.lean`) | a moment is carried along for the cache and for the call that reads; invariant over all schedules; partial: answers given because another call is reading can be of any age; neg for those, and for writes that do not ask |
| C83 | any number of processes, each with its own memory, clock, numbers and jobs, over one manifest and one set of files; a step of a process is a step of `Model/Lsm.lean` on what it sees (`Model/Fleet.lean`); lives of the writer and what of them a reader sees are said apart (`Spec/FleetView.lean`) | readers are steps that leave the store alone; the content of the files is a beginning of the writes of every life, by induction over histories with restarts (`Lemmas/LsmFront.lean`); partial: one process that writes, no failed writes, lives that do not disagree; neg for default reads of readers, restarts, two writers, a separate compactor; logs are left out (each process has its own, C60 has shared ones) |
| C84 | the processes of C83, each with a cache (`Model/Cache.lean`) and tasks that look up, load and keep parts of files, at any time (`Model/Cached.lean`); a part is any function of a table file; that parts are asked for of tables a version lists is `Spec/CachedView.lean` | everything cached or told is of a listed table and equal to the store; listed tables never change (C41); partial: one process that writes; neg for two |
| C85 | one segment as bytes, a writer whose frames reach it in pieces, looks at the tail (`scan_tail`, then `overwrite_segment` in two steps) at any moment and any number at once, crashes and restarts (`Model/Repair.lean`); which frames can be written and what an undisturbed look is are said apart (`Spec/RepairView.lean`) | the file is a beginning of the bytes of some of the frames written, all acknowledged ones among them, or a repair holds the right bytes; induction over histories, with the walk over a cut log of C06/C09; partial: looks that meet no frame on its way and repairs that are finished; neg for each, for all logs and all cuts |
| C86 | the system of C29 to C32 with a device: table files get there when the operating system writes them back, at any moment, and a power loss leaves the device's files (`Model/Power.lean`); what has to be written back is `Spec/PowerView.lean` | the invariant of the quiet histories survives the loss of files that no version lists; partial: listed tables are on the device when the power fails; neg for all histories in which they are not; the manifest and the log are taken to be on the device once published and acknowledged (other crate; C31) |
| C87 | opening without any segment of the log, on the manifest and tables as they are (`Model/LostLog.lean`), and the system of C29 to C32 from there; flushed states and ordinary steps in `Spec/LostLogView.lean` | reads of a database with empty memory depend on manifest and files only; partial: reads at a timestamp; neg for every state and history: default reads go back to timestamp 0, the next recovery skips what the new log holds |
| C88 | any frames after the sync are lost (`Model/PowerLog.lean`), then recovery as in C29 to C32; what may be lost in `Spec/PowerLogView.lean` | each write acknowledged by the sync stays covered by a version in a table or one in memory that was committed by the sync, whose commit record is not among the lost frames; whatever frames are lost, the payloads with the id of a commit record that is left are those of a committed transaction (`Pay`, an invariant that does not depend on the order of the frames); histories with any number of crashes and power losses (`Reached`) keep the invariants of C32, because what any version of the manifest ever listed is in the latest tables, or something newer is; partial: quiet histories, reads at the newest timestamps, and to go on a segment file and something of the log from the floor on must be left and the clock be ahead of the tables (`CalmPower`); neg: unsynced writes are lost, older ones while newer ones are kept, transactions in part, synced ones too if the directory does not have their file, and without a state file the first writes after the power loss are forgotten by the next restart |
| C89 | the segment of C85 with syncs and power losses: a sync brings the file to the device, a rewrite by a repair takes away that certainty, a power loss leaves a beginning of the file (`Model/RepairPower.lean`); what a steady history is is said apart (`Spec/RepairPowerView.lean`) | the invariant of C85, and: unless the file was rewritten since the last sync, its synced part reads as a log that has the frames acknowledged by then. For readability crashes and power losses may fall anywhere: the file is always a beginning of the bytes of some of the frames. Partial: no power loss between a repair and the next sync; what a device leaves is a beginning of the file |
| C90 | the bounds of segments that the writer and the state file keep, beside the writer of C31 to C34 (`Model/WalSnap.lean`); what a listing should say is `Spec/SnapView.lean` | invariant: the bounds are those of the segments; refinement: the frames are those of `Model/WalWriter.lean`; partial: no pruning, and no power loss with syncing disabled; neg for both |

## Disagreements between the code and the properties

Each is proved about the model of the unchanged code, with a concrete reachable state or history as
the witness. Theorem names are under `Tonbo.Props`.

| property | what the code does | theorem |
|----------|--------------------|---------|
| C04 | a batch that is refused after the table froze itself loses the frozen run; in general every refusal on a table whose slots are used up loses all its rows | `C04.failed_insert_drops_frozen_run`, `C04.failing_on_a_full_table_loses_it` |
| C04 | batches without rows use up slots; when all slots are used no insert succeeds any more | `C04.empty_batches_wedge` |
| C05, C14 | of two versions with one timestamp, a merge returns the one of the older run; a flush keeps the other | `C05.equal_timestamps_older_run_wins`, `C14.flush_changes_equal_timestamps` |
| C07 | a filter pushed into a file is applied before newer versions hide older ones: an old row comes back | `C07.stale_row_returned` |
| C07, C12 | a run whose rows are all newer than the read timestamp is skipped although it holds visible deletions | `C07.deletion_skipped_with_its_run` |
| C09 | for `Int32`, `UInt32`, `Float32` key columns the derived key range excludes every matching row | `C09.narrow_key_column_drops_rows`, `C09.narrow_key_column_keeps_wrong_rows` |
| C09 | a comparison with null keeps every row of the range; `false` matches with composite keys | `C09.null_literal_keeps_all_rows`, `C09.false_matches_composite_keys` |
| C15, C16 | a compaction pairs data batches and delete batches by number: rows are lost, deleted rows come back | `C15.compaction_loses_a_row`, `C15.compaction_revives_a_deleted_row` |
| C17 | a compaction keeps only the newest version, whatever snapshots are open | `C17.compaction_drops_history` |
| C19 | a flush empties a snapshot that is held; a commit in flight appears in it; so does the first write ever | `C19.a_flush_empties_a_held_snapshot`, `C19.a_commit_appears_in_an_older_snapshot`, `C19.the_first_write_appears_in_an_older_snapshot` |
| C20 | a snapshot sees half a commit; a flush during its opening hides rows | `C19.a_snapshot_sees_half_a_commit`, `C19.a_flush_during_opening_hides_rows` |
| C21 | a conflict with a flushed write, with a commit in flight and with the first commit is not noticed | `C21.flush_hides_a_conflict`, `C21.snapshot_during_commit_hides_a_conflict`, `C21.first_commit_is_no_conflict` |
| C23 | `get` in a transaction does not see tables, returns deleted and old rows | `C19.get_does_not_see_tables`, `C19.get_returns_a_deleted_row`, `C19.get_returns_an_old_row` |
| C25 | payloads of 2^32 bytes and more do not round-trip | `C25.long_payload_does_not_round_trip` |
| C26 | a tail of zeros makes recovery fail | `C26.zero_filled_tail_is_an_error` |
| C27 | the header is not covered by the checksum | see `Props/C25_C27_Frame.lean` |
| C28 | a torn segment that is not the last hides every later one | `C28.torn_segment_hides_later_segments` |
| C29 | payloads of an abandoned transaction are committed by a later one with its id, or stop recovery | `C29.abandoned_payload_comes_back`, `C29.abandoned_payload_stops_recovery` |
| C29 | a batch refused by the memory after it was logged, and empty batches, stop recovery | `C29.refused_batch_stops_recovery`, `C29.empty_batches_stop_recovery` |
| C29 | a fast commit is acknowledged before its frames are in the log | `C29.fast_commit_can_be_lost` |
| C30 | the state file records the last commit written, not the largest; the clock restarts below flushed or logged writes | `C30.state_file_forgets_the_largest_commit`, `C30.clock_restarts_below_flushed_writes`, `C30.state_file_can_be_behind` |
| C31 | with a flush interval, `fsync` does not reach frames still in the writer's buffer | `C31.acknowledged_frame_is_not_durable` |
| C32 | six ways in which the segment of an acknowledged, unflushed write is deleted | `C32.freeze_during_a_write_loses_its_payload`, `C32.overflowing_batch_loses_its_segment`, `C32.run_frozen_during_a_flush_loses_its_segment`, `C32.seal_during_replay_loses_a_segment`, `C32.flush_during_a_write_deletes_its_payload`, `C32.strict_commit_deletes_a_concurrent_write` |
| C33 | the size limit of the log removes unflushed segments; together with pruning it ends the writer task | `C33.retention_loses_acknowledged_frames`, `C33.pruning_and_retention_stop_the_writer` |
| C34 | transaction ids restart after an abort, frame numbers after an empty last segment; an unfinished ingest is merged into a later one | `C34.ids_restart_after_abort`, `C34.frame_numbers_restart`, `C34.frame_numbers_occur_twice`, `C34.unfinished_ingest_is_merged` |
| C34 | the state file is written after the rotation (writer.rs:655-661): a power loss between the two, inside a command that seals its segment, and frame numbers are given out again although there is a state file | `C34.a_loss_inside_a_command_repeats_numbers` |
| C34, C29 | the next id is taken from the last frame only (wal/mod.rs `enable_wal`): with two ingests in flight, the first commits last, the number of the second is given again, and its rows, never committed, are read after the next restart | `C34.a_log_that_ends_well_gives_a_number_again` |
| C35 | `wal-+...` is accepted as a segment name | `C35.foreign_name_is_accepted` |
| C39 | `max_inputs_per_task` and `max_task_bytes` (planner.rs:182-186) bound what is taken from the source level only: the overlapping tables of the next level make a task as large as they are | `C39.limits_do_not_bound_a_task` |
| C40 | tables of level one overlap | `C40.level_one_overlaps` |
| C43 | a garbage collection plan overwrites the one before it: its files are forgotten | `C43.obsolete_tables_are_forgotten` |
| C44 | `snapshot_at` compares commit timestamps with version numbers | `C44.time_travel_hides_a_row`, `C44.a_listed_version_is_not_shown` |
| C45 | keys with NaN are not ordered; `0.0` and `-0.0` are equal and hash apart | `C45.nan_breaks_the_order`, `C45.zeros_hash_apart` |
| C46 | in a batch with tombstones a deletion beats a later row of the same key | `C46.a_delete_beats_a_later_row` |
| C49 | the worker's own turns refill the budget of follow-up jobs | `C49.own_turns_refill_the_budget` |
| C52 | on `LargeUtf8` columns a literal of the column's type is never equal | `C08.large_string_rows_dropped` |
| C53 | a freeze between planning and opening, or a read in the middle of a freeze, hides rows | `C53.a_freeze_between_plan_and_open_hides_rows`, `C53.the_middle_of_a_freeze_hides_rows` |
| C55 | a compaction drops the segment of an unflushed row from the list | `C55.compaction_forgets_a_segment` |
| C57 | a key column whose name contains a comma is read back from the metadata as several columns | `C57.a_comma_changes_the_key` |
| C57 | a marker on a field overrides the key declared with the builder when the schema is read back | `C57.a_marker_changes_the_key` |
| C57 | a column number beyond the schema panics instead of being refused | `C57.a_wrong_column_number_panics` |
| C59 | all tables of a store write `sst/L<level>/<number>` with numbers of their own that begin at 1: the first flush of a second table overwrites the first file of the first table (`ondisk/sstable.rs:1131-1149`, `db/builder.rs:660-690`) | `C59.a_flush_overwrites_another_table` |
| C59 | all tables of a store share the write-ahead log: a table opened for the first time replays the rows of another (`db/builder.rs:1621-1793`) | `C59.a_new_table_gets_the_rows_of_another` |
| C60 | a handle that was overtaken has already appended its frames when the state file refuses it; with the same transaction id they are committed by the other handle (`wal/writer.rs:629-661`) | `C60.a_failed_write_is_committed_by_another_handle` |
| C60 | if the timestamps differ, the log cannot be replayed any more (`db/wal.rs:548-566`) | `C60.a_failed_write_spoils_the_log` |
| C60 | only the last file is looked at for frame numbers: if the state file cannot be written after a command that filled its segment, the next handle numbers its frames like those of that command (`wal/storage.rs:270-279`, `wal/writer.rs:520-544`) | `C60.a_failed_rotation_gives_numbers_twice` |
| C60 | without a state file nothing keeps two handles apart | `C60.without_a_state_file_numbers_are_shared` |
| C61 | a projection with an unknown column, or with none, is refused only if there is something to read (`memtable.rs:861-877`, `db/scan.rs:487-521`) | `C61.unknown_column_refused_only_with_rows`, `C61.no_columns_refused_only_with_rows` |
| C61 | `_commit_ts` can be asked for while all rows are in files, and is an error as soon as one is in memory | `C61.commit_column_only_from_files` |
| C62 | `delete` does not check the types of the key; if they are wrong the commit fails, and no later call repairs it (`transaction/mod.rs`, `build_key_batch`) | `C62.mistyped_delete_dooms_the_transaction` |
| C62 | a refused `upsert_rows` or `upsert_batch` leaves the rows before the bad one staged | `C62.refused_rows_before_stay_staged` |
| C62 | a row with a NaN key replaces the staged row of any other key | `C62.nan_key_replaces_a_row` |
| C62 | `delete` takes one value, so tables with several key columns cannot delete | `C62.composite_keys_cannot_be_deleted` |
| C62 | `upsert_batch` refuses batches with columns of types it does not read (8 and 16 bit integers, large strings, ...), though `upsert` takes the same rows | `C62.unreadable_batch_refused` |
| C63 | a column `_commit_ts` of the table is read as the commit timestamp of rows in files | `C63.own_column_is_read_as_the_time`, `C63.own_column_of_another_type_is_an_error` |
| C63 | a table with a column `_commit_ts` or `_tombstone` can be made, but a log or a transaction takes no batch of it | `C63.log_refuses_reserved_names`, `C63.transaction_refuses_reserved_names` |
| C64 | the timed fsync does not flush the buffer of the file, and nothing flushes it when no command comes (defaults: flush after 10 ms, fsync after 50 ms): the last writes before a pause stay in memory | `C64.an_idle_log_is_never_synced` |
| C64 | the age of a segment is counted anew after every restart: restarts at shorter intervals keep one segment open for ever | `C64.restarts_extend_the_age` |
| C65 | a job that fails leaves the worker at rest with work left; a writer told to wait asks only once, and by default there is no periodic tick: it waits for ever (nothing is published by a waiting writer) | `C65.a_waiting_writer_waits_for_ever` |
| C65 | stop limits below the limits of the planner (`L0BackpressureConfig::new(1, 2)` with the default trigger of 8) stop writers for ever | `C65.stop_limits_below_the_planner` |
| C65 | with `max_concurrent_jobs` of n the worker starts n copies of the same job; at most one is published, the rest of the merges is thrown away | `C65.jobs_that_run_at_once_are_copies`, `C65.one_job_of_a_round_is_published` |
| C65 | with a queue larger than the job count a job can stay behind in the queue; from then on each flush runs the job planned at the flush before, which is out of date: nothing is compacted until a trigger without publication | `C65.a_queued_job_is_always_out_of_date` |
| C65 | the second attempt of a job whose publication was refused never merges: the noted head does not come back (`cas_backoff` has no effect beyond a delay) | `C65.how_jobs_end` |
| C66 | a second call of `shutdown` returns success at once, although commands are not written yet or the task has failed: only the first caller is told (`take_join`) | `C66.a_second_shutdown_reports_nothing` |
| C66 | a command answered with an error may be in the log and on the disk: a batch fails as a whole, what was written of it stays (recovery brings it back; see C31) | `C66.a_failed_call_may_be_durable` |
| C67 | a consumer that polls on after an error of a delete sidecar is told of deleted rows (the scan does not end with the error) | `C67.polling_on_after_an_error` |
| C68 | a compaction job that gets an error from the manifest removes its outputs, even if the call took effect (a lost answer): the latest version then lists files that are gone, and no scan succeeds any more, also after a restart (compaction/driver.rs:812, 849) | `C68.a_lost_answer_makes_the_table_unreadable` |
| C68 | a flush whose publication fails leaves its table in the storage; no version lists it and nothing removes it | `C68.a_refused_flush_leaves_its_file` |
| C69 | the commit of a transaction asks neither the seal policy nor for a flush (transaction/mod.rs:726-746): a database written to by transactions only keeps all frozen tables in memory, whatever the limits | `C69.transactions_pile_up`, `C69.commits_ignore_the_policy`, `C69.commits_never_flush` |
| C69 | frozen tables are not flushed while the log is replayed (db/wal.rs:211-301): opening a log of any length leaves all of them in memory until the next direct write | `C69.opening_piles_up` |
| C69 | the byte limit counts each key once and never the rows: versions of a key and payloads do not count (metrics.rs:32-41) | `C69.versions_are_not_counted` |
| C69 | the limit on open rows, part of the default policy, has no effect: `typed_open_rows` is always `None` (memtable.rs:521) | `C69.a_limit_on_open_rows_has_no_effect` |
| C69 | an interval does nothing until something else froze a table once, since there is no time of the last freeze before (db/wal.rs:192-193) | `C69.an_interval_does_nothing_before_the_first_freeze` |
| C70 | a union column is accepted as a key column (extractors.rs:140-160), but union values are never compared (row.rs:270): all keys of such a table are one key, it shows at most one row, and a key is not equal to itself (row.rs:233) | `C70.a_union_table_shows_one_row`, `C70.unions_are_not_compared`, `C70.a_union_key_is_not_equal_to_itself` |
| C70 | a key with a union component cannot be written to the manifest (owned.rs:265), so a flush of such a table fails when it is published | `C70.union_keys_are_not_written` |
| C70 | if the manifest is kept in JSON, a key with an infinite or NaN component is written without an error and makes the record unreadable | `C70.infinite_keys_are_not_read_back` |
| C71 | `ingest` logs and commits a batch before its keys are looked at: a batch with a null in a nullable key column is answered with an error, and from then on the database cannot be opened (db/mod.rs:777-800, db/wal.rs:562-571) | `C71.a_refused_batch_stops_recovery` |
| C71 | an error of the log does not mean that the write failed: if the frames reached the file it is not readable now but after a restart (db/mod.rs:780-794) | `C71.a_failed_write_appears_after_a_restart` |
| C71 | an ingest refused by a full memory table makes rows unreadable that were written with a success before (memtable.rs:700-710) | `C71.a_refused_write_takes_others_with_it` |
| C71 | an error of the flush or of the manifest is returned for a write that is readable and in the log (db/mod.rs:800-803, transaction/mod.rs:629-640) | `C71.errors_that_mean_otherwise` |
| C72 | with the recovery modes `AbsoluteConsistency` and `SkipCorrupted` a new database opens, and can never be opened again (replay.rs:60-69, builder.rs:1672) | `C72.a_database_that_opens_once` |
| C72 | `kms_key` and `versioned` of an object store are accepted and have no effect (builder.rs:702-739) | `C72.two_object_store_settings_have_no_effect` |
| C72 | an object store with an empty prefix is accepted by the builder and never opens (builder.rs:318-323) | `C72.an_empty_prefix_never_opens` |
| C72 | `slowdown_bytes` raises the limit for a stop for good: giving a smaller one later does not take that back (builder.rs:1405-1422) | `C72.a_replaced_limit_still_counts` |
| C73 | after two flushes a query with a predicate returns a row that was overwritten; a compaction, which changes no row, changes the answer | `C73.stale_rows_after_two_flushes` |
| C73 | a write refused for a null key while the slots of the memory table are used up empties the answers of later queries (C04) | `C73.a_refused_write_empties_the_answer` |
| C74 | the same inside a transaction, for keys it has not staged; staging the key, be it with the row that is there, mends the answer; a flush that completes hides rows from queries through a held snapshot | `C74.stale_rows_inside_a_transaction`, `C74.drain_hides_rows_from_a_snapshot` |
| C76 | a job that meets a conflict is never counted: in its second round the head is not the one it noted, so it returns before `cas_retries` is recorded (driver.rs:687-691, 812-846); `cas_retries` and `cas_aborts` are always zero, and a refused merge leaves no trace in any counter | `C76.conflicts_are_never_counted`, `C76.a_conflict_that_is_not_counted` |
| C76 | a failure before the merge (driver.rs:678-694) or after it (756) is returned and logged but not counted in `job_failures` | `C76.a_failure_that_is_not_counted` |
| C78 | `sync_operations` counts once per batch: two commands of a batch that are each synced count as one (writer.rs:250-252, 359-362) | `C78.syncs_counted_by_the_batch` |
| C78 | `queue_depth` is only updated when the first command of a batch is taken (writer.rs:229-230, 338-339): afterwards it goes on saying what was waiting then, although nothing waits | `C78.depth_stays_behind` |
| C78 | the task sets the depth to zero at its end (writer.rs:449); a refused caller that takes its one back after that (wal/mod.rs:553-556) makes the metric 2^64 - 1 | `C78.depth_wraps_around` |
| C78 | `wal_floor_advancements` grows with every flush, whether or not the floor moved (driver.rs:207-240) | `C78.floors_that_do_not_move` |
| C78 | files removed by a transaction, by the writer's limit, or by a flush that fails half way are not in `wal_segments_pruned`; a failing prune in a transaction is in no counter (transaction/mod.rs:1361-1370, storage.rs:154-168) | `C78.files_that_go_uncounted` |
| C79 | `upsert_batch` refuses every batch with a value that is not of one of nine types (dates, timestamps, lists, `LargeUtf8`, ...), which `ingest` takes, `LargeUtf8` keys included (extractors.rs:228-266) | `C79.transactions_refuse_other_types` |
| C79 | `with_metadata` adds `tonbo.keys` to the schema of the table: batches of the schema that was given to the builder are refused as a mismatch (schema.rs:86-97) | `C79.with_metadata_refuses_the_given_schema` |
| C80 | two key columns of one name (Arrow and Tonbo take such a schema): readers of a sidecar find columns by name and take each name once (db/scan.rs:582-588, sstable.rs:1529-1534). After the flush of a deletion every query that reads the file fails, and a compaction takes the commit timestamp for the second part of the key | `C80.columns_of_one_name_lose_deletions` |
| C80 | a key column called `_commit_ts`: its value is taken for the time of a deletion (memtable.rs:202-207, merge.rs:868-873) | `C80.own_column_is_the_time_of_a_deletion` |
| C82 | a caller that meets another one reading the manifest is given the cached statistics whatever their age (db/mod.rs:983-995); before the first reading these say that level zero is empty, so of two writers after an open the second goes on at once however full level zero is | `C82.a_second_writer_is_let_through`, `C82.old_answers_are_given` |
| C82 | `ingest_with_tombstones` and commits of transactions never ask (db/wal.rs:426-513, transaction/mod.rs:558-674): back pressure holds back plain ingests only | `C82.deletions_and_transactions_do_not_wait` |
| C83 | `begin_snapshot` reads at the clock of the process, which starts at zero and is moved on by its own log only (db/mod.rs:662, 756-760, 821-834): a process that only reads sees nothing newer than the first commit, however much was flushed; `snapshot_at` has to be used | `C83.a_reader_reads_at_the_beginning_of_time`, `C83.a_reader_sees_first_commits_only`, `C83.readers_miss_flushed_commits` |
| C83 | a writer started again with an empty log does not see its flushed rows, and they hide what it writes, since it takes the same timestamps again | `C83.a_restarted_writer_hides_its_own_writes` |
| C83 | numbers of files come from the version found when a process opens the table (builder.rs:1621-1647, 1781-1793): two processes take the same names. Two writers overwrite each other's files; with one writer and one compactor a file that an older version lists is overwritten | `C83.two_processes_take_the_same_name`, `C83.two_writers_lose_rows`, `C83.a_second_compactor_breaks_old_versions` |
| C84 | with two writers a file is overwritten, and processes that kept its footer go on using it | `C84.two_writers_make_caches_stale` |
| C85 | every flush and every commit of a transaction looks at the tail of the active segment while the writer task appends to it (wal/manifest_ext.rs:15-67, db/mod.rs:1117, transaction/mod.rs:1347); a look that meets a frame half written rewrites the file without it, after it was acknowledged, or with the rest of it as rubbish that makes the log unreadable | `C85.a_look_erases_what_is_acknowledged_after_it`, `C85.a_look_breaks_the_log` |
| C85 | the repair empties the file and then writes it (storage.rs:400-430): a crash in between loses every frame of the segment | `C85.a_crash_during_the_repair_loses_the_segment` |
| C86 | table files are closed, never synced, before the manifest lists them and the log is pruned (ondisk/sstable.rs:1093-1110, db/mod.rs:1117-1204): a power loss can leave a manifest that lists a missing table, after which every read fails, and acknowledged rows that are neither in a table nor in the log, although the log is synced for every write | `C86.a_missing_table_stops_all_reads`, `C86.an_unlucky_power_loss`, `C86.rows_are_nowhere` |
| C87 | a database opened without log segments starts its clock at 0 and its log at segment 0, but the manifest keeps the floor of the lost log (db/builder.rs:1668-1780, 1053-1160; wal/mod.rs:946-999): reads without a timestamp show the table at timestamp 0, and acknowledged writes in segments numbered below the old floor are skipped by the next recovery | `C87.reads_go_back_to_the_beginning`, `C87.the_next_restart_forgets`, `C87.default_reads_miss_rows`, `C87.an_acknowledged_write_is_forgotten` |
| C88 | after a power loss that took the frames of the last segment, and without a state file, frames are numbered from 1 again (wal/writer.rs:515-548) while the manifest's floor still names the lost frame; recovery skips the frames below it in that segment (wal/replay.rs), so writes acknowledged after the power loss are lost by the next restart, whatever the sync policy | `C88.write_after_power_loss_is_lost` |
| C88 | with `SyncPolicy::Disabled` a finished segment is not synced (wal/writer.rs:794-801) and recovery does not look for gaps in the numbers of frames (wal/replay.rs:60-149): after a power loss a transaction whose first frames are in a segment that lost its end is applied in part | `C88.transaction_is_recovered_in_part` |
| C88 | the directory of the log is not synced after a segment is created (wal/storage.rs:79-90, wal/writer.rs:794-813): if the new file is not in it after a power loss, writes in it are lost although they were synced and acknowledged | `C88.synced_write_is_lost_with_its_file` |
| C89 | a repaired segment is flushed, not synced (wal/storage.rs:400-430): after a crash within a frame, the repair and the restart, a power loss can take every frame of the segment, among them those that were acknowledged and synced before the crash | `C89.synced_frames_are_lost_with_their_repair` |
| C90 | pruning deletes segments without telling the writer (wal/storage.rs:154-168): a snapshot and the state file list them until the next restart | `C90.a_deleted_segment_is_listed` |
| C90 | with `SyncPolicy::Disabled`, after a power loss the bounds of a sealed segment come from the state file although the segment is shorter (wal/writer.rs:1107-1113) | `C90.lost_frames_are_listed` |

Noticed while reading, not modelled:

* A failed table write drops its `WriteContext` with open writers, which panics in debug builds
  (`debug_assert`, ondisk/sstable.rs:1118-1121).
* The doc of the default sealing policy says about 8 MiB, the code 64 MiB.
* `drain_with_budget` of the scheduler returns early when the queue closes and drops started jobs (scheduler.rs:102-111).
  The worker keeps a sender of its own, so its queue does not close.
