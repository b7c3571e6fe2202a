# Design: a machine-checked model of Lance

## 1. Approach

The Rust and Python sources under `/repo` are read as text and re-expressed,
function by function, as total computable Lean 4 functions over `Nat`, `Int`,
`List`, `Option` and small inductive types.  Each definition cites the file and
lines it models and lists the simplifications made.  A panic, an error return
and an arithmetic overflow are values of the model (`Option`/`Except` or a
three-way outcome), never a totalised default that could make a theorem true by
accident.  Stateful and concurrent parts are `init`/`step` transition systems;
a property of executions is proved by induction over arbitrary step lists.

Each area has files `Verif/<Area>/Model.lean` (the model),
`Verif/<Area>/Lemmas.lean` (helper lemmas, when needed) and
`Verif/<Area>/Props.lean` (specification, property theorems and, beside each
one, an example that meets its hypotheses).

When the unchanged code violates a property, we keep the full statement in view
as a `Prop`, prove its negation on a concrete witness
(`…_violated`), prove the strongest guarded form we found (`…_partial`) and
list the disagreement in section 4.

## 2. Trusted base

* Lean 4.33.0's kernel.  Axioms used: at most `propext`, `Classical.choice`,
  `Quot.sound`.  No added axioms, no `sorry`/`admit`, no
  `native_decide`/`bv_decide`.
* The hand translation from Rust/Python to Lean (section 3 says what is modelled
  and what is left out).
* Third-party code is represented by its documented behaviour: `roaring` bitmaps
  are finite sets of `u32`, `BTreeMap`/`HashMap` finite maps, Arrow arrays lists,
  object-store primitives (`put`, `put-if-not-exists`, `rename-if-not-exists`,
  `list`, `delete`) atomic steps, `tokio` an arbitrary interleaving.

## 3. Plan per property

| Property | What is modelled | How it is proved |
|---|---|---|
| C01 | `RowAddress` over 64-bit arithmetic | arithmetic, all values |
| C02 | `RowIdTreeMap` as an association of fragment → full/partial set | refinement to sets, induction over operation lists |
| C03 | serializer/deserializer over byte lists | round trip by induction over entries |
| C04 | `RowIdMask` operators | case split; counterexamples where false |
| C05 | `DeletionVector` with its three representations | refinement to sets |
| C06 | `OffsetMapper`, fragment take, `patch_range_for_deletions` | loop invariants against "n-th live row" |
| C07 | bit helpers | arithmetic |
| C08 | `EncodedU64Array` | round trip / refinement to lists |
| C09 | byte-level `Bitmap` | refinement to boolean functions |
| C10, C11, C12 | `U64Segment`, `RowIdSequence` | refinement to lists; counterexamples for slice |
| C13 | `RowIdIndex` | lookup correctness for all disjoint sequences |
| C14 | stored form of sequences | round trip |
| C15, C16, C46, C47 | `build_manifest` on fragment/row id bookkeeping | invariants over arbitrary commit histories |
| C17, C18 | `conflicts_with`, `commit_transaction` | decision logic plus invariant over interleavings |
| C19, C43 | conversions to/from stored messages | round trip |
| C20 | manifest file names and listing | injectivity, order, maximum |
| C21, C22 | commit handlers as transition systems with crashes | inductive invariants over all schedules |
| C23 | cleanup as a function of a store snapshot (and as steps) | set reasoning |
| C24 | tag store | transition system, string checks |
| C25 | planner | induction over the fragment list |
| C26 | `MissingIds`, `transpose_row_ids` | induction over fragments and rows |
| C27 | coverage bitmap update | set reasoning |
| C28 | row id column computation | list reasoning; counterexample |
| C29 | chunkers and writer loop | list induction |
| C30 | read parameters | list reasoning |
| C31 | take paths | list reasoning |
| C32, C33, C34 | merge-insert, update, key join on abstract rows | refinement to relational spec; counterexamples |
| C35 | `IoQueueState` transition system | inductive invariants |
| C36 | coalescing of ranges | loop invariant |
| C37, C38 | index search and remap | refinement to filter; counterexamples |
| C39 | expression splitter with three-valued logic | structural induction; counterexample |
| C40, C41 | samplers | arithmetic, list induction, arbitrary random choices |
| C42 | feature flags | bit reasoning |
| C44 | offset-range search | list induction; counterexample |
| C45 | deletion prefilter | set reasoning |
| C48 | fragment delete | set reasoning |
| C49, C50 | schema and index part of `build_manifest`, conflict table | invariants over histories |

### Transactions (C15-C18, C27, C42, C46, C47, C49, C50): what is modelled

`Verif/Txn/Model.lean` has `Operation` with its twelve variants, `conflicts_with`, `build_manifest` with all
its arms, `restore_old_manifest`, the feature flags, and one attempt of `commit_transaction`.
`Verif/Txn/System.lean` puts any number of writers beside each other: a writer prepares a transaction from
some version, checks it against the transactions committed since, and tries to put version `latest + 1`;
the put succeeds for one writer only; a writer that loses retries; acknowledgements may be lost; a cleanup
may remove old transaction files; manifests may or may not be cached.  `Prepared` states what the API
functions that build the transaction guarantee (which fragments they name, that compaction uses reserved ids,
that a merge keeps the rows); a caller that builds transactions by hand is outside the model.
Left out: blob datasets, detached commits, the file contents behind a data file, manifest configuration
defaults, migration of old manifests (`migrate_manifest`), storage format.

### Stored form (C19, C43, C51, C52): what is modelled

`Verif/Stored/Model.lean` has the conversions between the in-memory structures and the protobuf messages:
schema trees to flat field lists and back, data files, deletion files, row id metadata, fragments, index
metadata, every transaction operation, manifests with their flags, format and config.  Protobuf itself
(bytes) is not modelled: a message is a record whose absent scalar fields read as zero or empty.  Left out:
the field contents other than id/parent/name (types, encodings, dictionaries), timestamps' clock values.

### Version file names (C20): what is modelled

`Verif/Naming/Model.lean` has both naming schemes on digit strings, scheme detection, staging names,
`current_manifest_path` for local directories and for object stores with ordered or unordered listing,
`resolve_version` and the migration of names.  A listing is an arbitrary list.  Left out: paging of
listings, manifest sizes, the rest of the path.

### Commit handlers (C21, C22): what is modelled

`Verif/Handlers/Model.lean` runs any number of writers (and readers) as step machines, one storage or lock
request per step.  A request may fail without effect or report failure after taking effect; a writer may
stop for good before any step.  A file's content is identified with its writer; an object is visible only
when complete (object-store `put`).  `rename_if_not_exists` is atomic, as documented by the object store.
The lock is one lease; it may time out only in `Reach`, not in `ReachLeased`.

Not modelled at all: network and file-system implementation details, Arrow
kernels, DataFusion's optimizer, vector indices (k-means, PQ), tokenization,
compression codecs, Python/Rust FFI, memory safety.

### Cleanup and tags (C23, C24): what is modelled

`Verif/Cleanup/Model.lean` computes, from the tags, the manifests and the directory listing cleanup reads, the
list of paths it removes; a path is a list of segments.  Not modelled: byte counts, I/O errors, `remove_prefix`
(paths are relative from the start), percent-encoding of data file names (they are generated).  Tags are a
directory of files holding a version; the percent-encoding of tag names by the object store is modelled over
their UTF-8 bytes, `char::is_alphanumeric` outside ASCII is a parameter.  The size recorded in a tag is left out.

### Compaction (C25, C26, C53): what is modelled

`Verif/Compact/Model.lean` has the planner (candidacy, bins of adjacent fragments with the same index coverage,
splitting), the iterator over missing row addresses, the map from old to new addresses, its merging over tasks, the
rechunking of stable row ids, and the transaction `commit_compaction` builds (committed by the model of C15-C18).
The bodies of the rewritten files are lists of rows; reading and writing them is not modelled.  Fractions
(deleted rows over rows against the threshold) are a predicate of the two counts.  Loops that the code runs to
exhaustion carry fuel, and the theorems say which fuel is enough.

### Reading fragments and scan ranges (C28, C30, C54): what is modelled

`Verif/Read/Model.lean` has `ReadBatchParams`, the step that adds row ids and addresses and applies deletions to
each batch, the fragment reader above it (with deletion vectors of C05 and row id sequences of C11), the division
of a row range among fragments, and the stages of a scan plan (source, filter, sort, limit).  Trusted: the file
readers return the rows at the requested offsets, cut into batches in some way.  A row's columns are one value.
Not modelled: projections and column order, vector and full text search, filters answered by a scalar index (see
C39), unordered scans, statistics pushdown in legacy files.  `i64` overflow wraps as in a release build.

### Re-batching and cutting into files (C29): what is modelled

`Verif/Chunk/Model.lean` has `chunk_stream`, `chunk_concat_stream`, `break_stream` and the loop of
`do_write_fragments` that opens and closes files.  A batch is the list of its rows.  The byte limit is an
arbitrary answer per chunk.  Row counts of files are `u32`.  Not modelled: streams that end in an error, the blob
stream that is written beside the main one, the file writers themselves.

### Taking rows (C31, C55): what is modelled

`Verif/Take/Model.lean` has `take_rows` of a fragment, `do_take_rows` (the contiguous, sorted and unsorted paths),
`row_offsets_to_row_addresses`, `take` and `take_rows` by row id, and the filter of deleted ids that is used for
blob columns.  It builds on the fragment reads of C28 and the row id index of C13.  A row's columns are one value.
Trusted: `permutation::apply_inv_slice_in_place` panics on a slice of another length; `concat_batches` of an empty
list succeeds.  Not modelled: projections, joining blob columns to the others, `take_scan` (a sequence of takes).

### The deletion prefilter and fragments by offset (C44, C45): what is modelled

`Verif/Prefilter/Model.lean` has `DatasetPreFilter::new`, both ways of making the deletion mask (block list of
addresses, allow list of stable row ids), the final combination with the filter of the query, and
`fragments_by_offset_range`.  It builds on row sets (C02, C04), deletion vectors (C05) and row id sequences
(C12).  Deletion files and sequences arrive in any order.  The answer of `slice::binary_search` is any one that
its documentation allows.  Not modelled: the cache of the allow list (keyed by version), the vector and text
indices that use the mask.

### Samplers and PyTorch batches (C40, C41, C56, C57): what is modelled

`Verif/Sampler/Model.lean` has `ShardedFragmentSampler`, `ShardedBatchSampler` (with and without filter),
`maybe_sample` with its three ways of sampling, `reservoir_sampling`, the global ranks, `take_scan` (on top of the
model of `take`, C31), `_buffer_arrow_batches` and `LanceTensorDataset`; `Cache.lean` has `CachedDataset`.
Random choices are arguments with the contract of the library function: a shuffle permutes, `choice` without
replacement gives different numbers in range.  All ranks use the same seed, so the same shuffle.  `heapq` is any
implementation of its contract.  Not modelled: the distribution of samples, floating point in `math.ceil(n / k)`,
pyarrow apart from what the comments say (an empty list of indices is accepted by `take`; a table without rows has
no batches; a negative slice length is refused or accepted, both are covered).

### Join: what is modelled

`Verif/Join/Model.lean` models the fragment updater (`updater.rs` 51-406: `next`, `update`, the deletion restorer with
its stash and exhaustion flag, `add_blanks` with its selection vector) and the hash join (`hash_joiner.rs` 39-208: the
map built by concurrent tasks, `collect`), and `FileFragment::merge` on top of the fragment reader of `Verif/Read`.
The order in which the concurrent tasks insert is an argument: any interleaving of the batches with the rows of one
batch in order (`IsSchedule`).  `collect` works by rows instead of by columns; a key is its value (the row encoding
of arrow is taken to be injective, with null equal to null).  Not modelled: the writer and the schemas, the checks of
column names before the join, memory, the checkpoint store of `add_columns`, `u32` wrap-around (row counts are below 2^32).

### Sched: what is modelled

`Verif/Sched` models `rust/lance-io/src/scheduler.rs`.

* `Coalesce.lean` is `FileScheduler::submit_request` (703-760): merging of the ranges, the single reads completing in
  any order into the buffers of their request (355-430), and the loop with two indices that cuts the answers out of the
  merged reads.  A file is a list of bytes; a range outside the file is an I/O error; subtraction underflow and slices
  out of bounds are panics.
* `Queue.lean` is the I/O queue as a state machine: `PrioritiesInFlight`, `IoQueueState`, `IoQueue`, the I/O loop with
  its `Notify` permit, `MutableBatch` counters, `do_submit_request`, `submit_request`.  Events are the critical
  sections; they interleave freely, ties in the heap are broken in every possible way, and a caller may drop its future
  at any time.  Not modelled: the process-wide quota `IOPS_QUOTA`, wrap-around of the counters, panics inside a read,
  warnings.
* "Nothing stalls" is proved as two theorems: every event of the system itself makes `work` smaller
  (`C35_terminates`), and a state in which no such event is possible has no open request (`C35_quiescent_partial`).

### Update: what is modelled (`Verif/Update`)

`Model.lean`: capture of row ids (`utils.rs` 16-75, with the strict order `RoaringTreemap::append` demands),
`apply_updates` batch by batch and column by column (`update.rs` 307-316), `apply_deletions` (321-372, tasks in any
order), the `Update` arm of `build_manifest` (`transaction.rs` 697-718 and the sort by id), and `execute` (222-305) on
top of the scan of `Verif.Read` and the deletion vectors of `Verif.Deletion`.  The environment (`Env`) cuts reads,
batches and files arbitrarily and finishes the deletion tasks in any order.

Not modelled: planning of expressions (an expression is a function of the row that may fail), casts to the column type,
the use of scalar indices by the scan (C39), data types, storage versions, retries of the commit (Txn area).
Trusted: an expression is evaluated row by row; the writer stores the rows it is given (C29 covers its cuts).

### Merge insert: what is modelled (`Verif/Merge`)

`Model.lean`: sources with all columns.  The options and their validation, the two joins (hash join of the whole target;
lookup in a scalar index plus a scan of the unindexed fragments), `not_all_null` and the selections, `execute_batch` with
its statistics, deletions and commit (`merge_insert.rs` 131-345, 410-664, 1022-1155, 1159-1439).  `Partial.lean`: sources
with some of the columns.  The grouping of a sorted stream (`dataframe.rs` 22-237, a state machine), `handle_fragment`
with both of its ways to write the new file, the updater of `Verif.Join`, tombstones, `update_fragments`
(`merge_insert.rs` 666-995).  The environment cuts and orders the joined rows, cuts batches and files, finishes tasks in
any order and decides which further target rows an index lookup brings up.

Not modelled: evaluation of conditions (three-valued functions of the rows), schema checks, casts, memory limits, the
`debug_assert` in the interleaving (release build), spilling of the sort, concurrent commits (Txn area).
Trusted: DataFusion's joins give the rows of the join in some order, its sort sorts and gives no empty batch; an index
lookup brings up at least the rows with a key of the source (C37, C39 are about that).

### Scalar indices: what is modelled

`Verif/Scalar/Model.lean` models the files and search structures of four scalar indices over a column of any type
with a total order (`LinOrd`; NULL is `none` and sorts first).

* `scalar/flat.rs`: which rows the arrow kernels keep (`flatKeep`), `search`, `remap_batch`.
* `scalar/bitmap.rs`: training (a hash map written in an arbitrary order), loading, `search` with the panic of
  `BTreeMap::range`, `remap`, `update`.
* `scalar/btree.rs`: training over `chunk_concat_stream` (the model of C29), page statistics, the lookup tree with its
  null pages, `pages_between`/`pages_eq`/`pages_in`, page reads, `search`, `all_page_ids`, `remap`, `into_data_stream`,
  the sort-preserving merge with any tie order, `update`.
* `scalar/label_list.rs`: `unnest_batch`, `search_values`, union and intersection of the sets.

Not modelled: the encoding of the files, arrow types and casts, floats (a btree index
is not built over NaN, btree.rs:1057-1080; `OrderableScalarValue` orders it), the caches, full text search, errors of the object store.  Row ids are
numbers below 2^64.  The specification `Sat` says what a query means and does not mention any index.

### Expr: what is modelled (C39)

`Verif/Expr/Model.lean` follows `rust/lance-index/src/scalar/expression.rs`: `IndexedExpression` with `maybe_not`,
`and`, `maybe_or` and `refine`; the parsers of sargable and label list queries; the visitors (`visit_between`,
`visit_in_list`, `visit_is_bool`, `visit_column`, `visit_is_null`, `visit_not`, `visit_comparison`, `maybe_between`,
`visit_and`, `visit_or`, `visit_scalar_fn`); `apply_scalar_indices`, `create_filter_plan` and
`ScalarIndexExpr::evaluate`, the latter on the masks of the RowSet area.  `Verif/Expr/Spec.lean` gives SQL's
three-valued logic for the same expressions, written without reference to the model.

Not modelled: datafusion's optimizer (it runs before the split and may remove some of the filters that fail below, e.g.
lists of up to three values become `OR`s), the multi-parser that tries several indices of one column, `evaluate_nullable`
(no caller uses the nulls), and what an index does with a NULL bound (left arbitrary).  Any other condition or term is opaque; its
value is given by the row.  `safe_coerce_scalar` is a parameter here with the assumption that it keeps the value.

### Coerce: what is modelled (C61)

- `Verif/Coerce/Model.lean`: `safe_coerce_scalar` (`rust/lance-datafusion/src/expr.rs` 13-400) arm by arm: the eight
  integer types, `f32`, `f64`, strings, booleans, NULL, timestamps with the four units and time zones, dates and times.
  A finite float is an integer multiple of 2^-1074, so rounding to nearest-even, overflow to infinity and the
  subnormals of `f32` are computed and not assumed.
- `Verif/Coerce/Spec.lean` gives a value to every literal without reference to the conversion (`Sv.den`: numbers as
  multiples of 2^-1074, instants in nanoseconds, days and times of day in ticks), says which literals a type has
  (`Typed`) and when a type can hold a value (`Holds`).
- Not modelled: list literals (arrow's `cast` kernel), decimals and binary literals, the sign of a floating zero, and the
  arithmetic on the right-hand side of a comparison in `logical_expr.rs` (`resolve_value`).

### ListCol: what is modelled (C62, C63)

- `Verif/ListCol/Model.lean`: `PrimitiveFieldSchedulingJob::schedule_next`, the loop over it, `AccumulationQueue`,
  `do_flush` and `schedule_take` (flat columns of version 2.0); `extend_offsets_vec_u64`, `do_encode_u64`, `do_encode`,
  the queue of offsets and validity, the items slice, `ListRequestsIter::new` and `next`, `decode_offsets`,
  `indirect_schedule_task`, `ListFieldSchedulingJob::schedule_next`, `drain` with `ListDecodeTask::decode`,
  `binary_search_to_end` and the count of items that `wait_for_loaded` needs (list columns of version 2.0).
- A page is the list of its values: the physical encodings, I/O, priorities and the async machinery are not part of this
  model, and the size of an array in memory is an arbitrary function. Numbers are not bounded (a file has fewer than
  2^63 items). A panic (index, unwrap, underflow) is `none`.
- `Verif/ListCol/Spec.lean`: arrow list arrays as lists of optional lists, ranges in order, and `Reads` (a reader returns
  the rows of the ranges), which both the flat and the list reader are shown to satisfy, so that lists of lists follow by
  induction (`Col`, `Written` in `LemmasCol.lean`).

### Phys: what is modelled (C64 to C67)

- `Verif/Phys/Model.lean`: `DataBlock::from_arrays` with `extract_nulls`, `stitch_offsets`, `arrow_binary_to_data_block`,
  `concat_dict_arrays` and `arrow_dictionary_to_data_block` (`data.rs`), `into_buffers`, `into_arrow`;
  `choose_array_encoder` and `create_array_encoder` of version 2.0 (`encoder.rs`); the array encoders, page schedulers and
  page decoders value, bitmap, basic, fixed size list, binary, dictionary (both encoders) and packed struct
  (`encodings/physical/`); `create_encode_task` and `drain` of a primitive page (`primitive.rs`); the choice of a scheduler
  for a column (`decoder.rs`). Bytes are natural numbers, a file is a list of bytes.
- Simplified: the compressor is any pair of functions (theorems ask that it is lossless); arrow's `concat` of dictionaries
  is taken to put them one after the other (it may also merge equal values); the estimate of the cardinality of strings is
  an arbitrary yes or no; offsets of Utf8 that leave 32 bits and batches of more than 2 GiB are not modelled
  (`stitch_offsets` and `(x - start) as i32` do not check); requests are taken to be inside the file.
- Not modelled here: FSST (see "FSST" below), bit packing and fixed size binary (version 2.1), blobs, validation of array data.
- `Verif/Phys/Spec.lean`: arrow arrays as lists of values, in-bounds ranges in any order, placement of the buffers.

### Blob columns and blob files: what is modelled

`Verif/Blob`. From `rust/lance-encoding/src/encodings/logical/blob.rs`: the field encoder (`write_bins`: one buffer per value that
is neither null nor empty, description (position, size), (0, 0) for empty, (1, 0) for null), the decoder with its unloaded
descriptions, loaded bytes, `wait_for_loaded`, `drain` and the decode task. From `encoder.rs` 307-337 and `v2/writer.rs` 309-390:
where the out-of-line buffers and the pages of a batch land in the file (padding to 64 bytes, several blob columns in one batch).
From `dataset/blob.rs` 36-228: `BlobFile` (cursor, read, read_up_to, seek, tell, size, close) with `u64` arithmetic wrapping as
in a release build, and `take_blobs`. From `python/python/lance/blob.py`: the `RawIOBase` class (whence, closed).
The reference is a plain file: bytes, cursor, closed (`Ref`).

Not modelled: the page encoding of the description column itself (two u64 columns in a packed struct: C64, C67), asynchronous
I/O (a range of the file is what `readRange` returns), `BlobColumn`/`BlobIterator`, object stores other than the local
one (they clip a range that ends after the file; the local one raises).

### Resuming add_columns: what is modelled

`Verif/Resume`. `add_columns_impl` (`schema_evolution.rs` 343-401) with a checkpoint: `get_fragment`, `get_batch`, the user's
function, `insert_batch`, `Updater::update` (the model of C58), `insert_fragment`; the SQLite store of `udf.py` 95-165 as two lists.
A call stops when its budget of transactions is used up, between any two transactions (or when the function fails); the store
survives. A history is any list of calls, each with its own fragments, batch size and budget.

Not modelled: pickling of batches and SQLite itself (trusted: transactions are atomic and durable), the JSON of the stored fragment
(C43), the commit of the result (C01-C10 and C36 model commits), `dataset.py` 1136-1137 which removes the checkpoint file
after a successful call.

### Page statistics and scans that use them: what is modelled (C71, C72)

`Verif/Stats/Model.lean` follows `rust/lance-file/src/writer/statistics.rs`: the loops over arrays for integers (all integer types, dates,
decimals: one model with the bounds of the type), floats (by the number that `total_cmp` compares; `partial_cmp` with NaN and the two
zeros), booleans (with the early exit), strings and binary values (truncation to 64 bytes, increment of the upper bound); then
`extract_guarantees`, `simplified_predicates`, `read_batch` and `final_projection` of `rust/lance/src/io/exec/pushdown_scan.rs`.
UTF-8 validity is the table of the Unicode standard.

Simplified: a float type is given by the number of its infinity; fixed-size binary, dictionary and temporal types are not separate; nested
fields have a number like others; a page is a function from offset and field to value. Not modelled: the file format of
the statistics (a Lance page table and record batches), `StructArray::new` panicking when a non-nullable field gets a null upper bound
(a string page whose truncated maximum cannot be incremented), spawning of tasks and `ordered_output = false`.
DataFusion's simplifier (`with_guarantees`) and its evaluation are parameters: `SoundSimp` says the simplified predicate selects the same
of rows that are as guaranteed, `Evaluates` says evaluation gives one value for all rows or one for each. `simpSome` and `evalAll` meet
them, so the hypotheses are not empty. That filters compare floats by total order is Arrow's documented behaviour.

### Full text search: what is modelled

`Verif/Fts/Wand.lean` models `wand.rs` (20-351): iterators over posting lists, pivot, moving a term, scoring, the phrase check, the heap of
candidates.  Scores are natural numbers; `f32` rounding is not modelled.  The unstable sort and which of several least candidates the heap
pops are parameters (`Lib`).  `Build.lean` models `builder.rs` and the index side of `index.rs`: shards, workers with in-memory lists and a
spill file, flushing at any time, merging with the existing lists, writing, `DocSet`, `TokenSet`, remap, loading.  What is not determined
(hash function, order of arrival, flush schedule, order of writing) is a parameter (`Sched`) with the condition that it is one of this update
(`Sched.Valid`).  Not modelled: the tokenizer (tokens are given, except in `C74_same_text_*`), IO errors, the flat representation of positions,
caches, `u32`/`i32` overflow.  `Scan.lean` models the physical plan of a full text scan: the union of indexed and flat search, grouping,
sorting with fetch, the post-filter, `GlobalLimitExec`; columns by place as in the plan.  Deletions and prefilters are the selection `mask`.
`SpecIndex.lean` and `SpecScan.lean` state what is expected on lists of documents.

### Vector indices: what is modelled

`Verif/Vec/Model.lean` models the IVF index builder for the current index format (`builder.rs`: `shuffle_dataset`, `shuffle_data`,
`build_partitions`, `take_partition_batches`, `take_vectors`, `merge_partitions`, `remap`), the shuffler (`v3/shuffler.rs`: sorting a batch by
partition, cutting it into slices, buffers, flushes, the two readers) and the storage file with offsets and lengths.  Vectors, codes, the
partition function, normalization, residual and quantizer are parameters (`Cfg`), so training is not modelled.  `History.lean` models appends,
deletes, index creation, `optimize_indices`, compaction with remapping.  `Search.lean` models the physical plan of a nearest query: partitions
to probe, the mask from prefilter and deletions, search in a partition, deltas, refine, the combination with unindexed fragments, flat search.
Distances are natural numbers and only their order matters; NaN and `f32` rounding are not modelled.  Sorting is any sort (`Srt`).  Not
modelled: HNSW, the legacy index files, multivectors, `PostFilter` (a filter here is a prefilter), scalar index prefilters (see C45, C52),
concurrent commits (see C27).

### Schema evolution (`Evolve`): what is modelled

`lean/Verif/Evolve` models a dataset as a nested schema with field ids and fragments of several data files, physical rows and deletion
vectors.  Modelled function by function: `Schema::{project, exclude, project_by_ids, intersection_ignore_types, set_field_id, merge (new
fields), validate, project_by_schema}` and their `Field` counterparts, `compare_fields` as used by appends, `lance_arrow::{merge, project}`,
`open_reader(s)`, `NullReader`, `new_read_impl`, `merge_streams`, the updater with its deletion restorer, `add_columns` in its three
forms, `alter_columns`, `drop_columns`, appends, deletes, compaction of neighbouring fragments and restore.  The specification (`Spec.lean`)
is about tables by column name only.  `FineRun` lists, operation by operation, what is excluded; each exclusion has a violation below.

Simplified: names are numbers, format 2.1 is left out, a list cell stands for offsets and validity and an item cell for the content of one
list, struct validity is not modelled (format 2.0 does not store it), fixed size lists, dictionaries, blobs and field metadata are left out,
a fragment is one batch, ids do not overflow, errors and panics are both `none`, casts are of primitive columns only and are any partial
function on cells that makes no null of a value.  Where the writer starts a new file is arbitrary (property C29), and so are the batches of a
stream.

### FSST: what is modelled

`Verif/Fsst`: `compression_algo/fsst/src/fsst.rs` 1-1280 (symbols, symbol table, `make_table`, `finalize`, `compress_bulk`, `export`,
`FsstDecoder::init`, `decompress_bulk`) and the sizes of the buffers that `encodings/physical/fsst.rs` hands to it.

- The random sample, the frequencies counted in it and the heap are an oracle: any terminator, any gain per round, any sequence of the
  candidates that `make_table` may consider. C84 holds for every oracle, so for every sample.
- Errors (`.refused`) and crashes (`.panic`: a panic, an endless loop, a write out of bounds through a raw pointer) are different results.
- Not modelled: `find_longest_symbol_from_char_slice` and `compress_count` (they only decide the oracle), the protobuf that holds the table.

### Mini-block pages (`Mini`): what is modelled (C85)

The writer and the reader of mini-block pages of format 2.1 (`primitive.rs`): cutting values into chunks (`ValueEncoder::chunk_data`), slicing
repetition and definition levels along the chunks (`RepDefSlicer`), the repetition index with its leftovers, the bytes of chunks (three `u16`
sizes, padding to 8 bytes, the 12 bit chunk size), the chunk metadata words; on the reading side the parsing of the metadata,
`RepetitionIndex::decode`, `schedule_instructions` with the merge of adjacent ranges, `drain` by batches with its preamble state,
`decode_miniblock_chunk`, `map_range` and `extend_levels`. Panics (`unwrap`, index out of bounds, `assert!`)
are `none`; the build is a release build (no `debug_assert!`; subtractions wrap where the comments say so, and are `none` where a wrapped number
could only be used to fail). The codec is a parameter with the property `CodecOk`; `valueCodec` (fixed width, no compression) is one instance that is
proved to have it (further instances: strings, C86). Not modelled: dictionaries, fixed size lists, the asynchronous reads, all-null pages. Levels come
from the caller as a list of rows of slots (`Rows`); how they are made from Arrow arrays (`RepDefBuilder`) is not part of this area. The
block compression of levels is the one that is always used (none).

### Mini-blocks of strings (`Mini/Binary.lean`): what is modelled (C86)

`BinaryMiniBlockEncoder` (`search_next_offset_idx`, `chunk_data`) and its decompressor, byte by byte: the doubling search for the next chunk, the
rebased little endian offsets, the padding to 4 bytes, the size cut down to `u16` and the base 2 logarithm of the number of strings; the FSST codec
on top of it uses the model of C84 with its oracle for the symbol table. Both are shown to be codecs in the sense of C85, so the whole path from
strings to pages and back is covered. Sizes are bounded by Arrow's `i32` offsets; fewer than 2^28 strings in a page are assumed, so that
`u32` sums do not wrap. Not modelled: the choice between FSST and plain strings (the theorems hold for both), 64 bit offsets (a `todo!`).

### Bit packed mini-blocks (`Mini/Bitpack.lean`): what is modelled (C87)

The macros `pack!` and `unpack!` of `fastlanes.rs` row by row and word by word, for any type width `T` and bit width `W` (the 240 functions made from
them are instances; that each arm of the dispatch calls the function of its own width was read, not modelled), the order of
values over lanes, the bit widths of `statistics.rs`, the chunks of `BitpackMiniBlockEncoder` and its decompressor byte by byte, and the choice
between bit packing and plain values. Integers are little endian bytes, as they are in the file. Not modelled: the alignment that
`cast_slice` needs, and uninitialized memory (the packed output is assigned everywhere, which is part of the proof).

### Levels of nested columns (`RepDef`): what is modelled (C88)

How arrays become repetition and definition levels and arrays again (format 2.1, `repdef.rs`): `RepDefBuilder` (bitmaps, offsets with their
normalization and the removal of values under null lists, fixed size lists), `serialize` (joining the builders of several arrays, the layers, `SerializerContext`,
the levels of null and empty lists put among the others, levels all zero), `RepDefUnraveler` and `CompositeRepDefUnraveler`, and the encoders
and decoders of structs, lists and values as far as they call these (`struct.rs`, `list.rs`, `primitive.rs`). Arrow arrays are described along the path to
one leaf (`Arr`): offsets, children and bitmaps as they are in memory, so that sliced arrays and null lists that are not empty are inputs like others.
The arrow kernels used (`slice`, `filter`, `concat` of values) are modelled by what they do. Panics and errors are `none`. What an array means (`Arr.cells`) is said
without levels. Not modelled: `u16` overflow of levels (more than 65535 layers), 64 bit offsets in place of 32 bit ones, the `Null` type.

### Columns in mini-block pages (`RepDef/Column.lean`): what is modelled (C89)

The models of C85, C86, C87 (pages) and C88 (levels) put together: from Arrow arrays to the bytes of a page, and from ranges of rows of the page, in batches,
to Arrow arrays. What is read is compared with the cells of the arrays written; levels, chunks and bytes do not appear in the claim. A batch lies within one
page. Not covered: pages whose values are all null, dictionaries, full zip pages.

### Full-zip pages: what is modelled

`Verif/Zip/Model.lean`: pages of format 2.1 for wide values, in which each value follows a control word with its levels. Control words
(`repdef.rs` 1605-2297: widths, masks, iterators, parsers), the writer for values of a fixed width and for strings with 32 bit offsets
(`primitive.rs` 4015-4276) with its repetition index (`bytepack.rs`), the scheduler that turns row ranges into byte ranges with and without
the index (1779-2096), and the decoders of both kinds with their batches (2098-2627). A byte is a `Nat`; panics are `none`. Not modelled:
compression of single values (FSST per value), the positions of buffers in the file, caching of the index, asynchronous loading, `debug_assert`s.

### Columns in full-zip pages: what is modelled

`Verif/Zip/Column.lean`: the levels and values of some arrays (`Verif/RepDef/Model.lean`) written as a full-zip page (`Verif/Zip/Model.lean`), and
ranges of rows of the page made arrays again. The proofs cover values and strings in any number of structs, and one layer of lists in and around
structs; lists of lists are not covered. The choice between kinds of pages (`do_flush`), pages of nulls only, and batches that span several pages are
not modelled here.

Vectors: `C88_vectors_round_trip_partial` and `C91_vectors_partial` are about columns of values in any nesting of structs and fixed size lists. A row of such a column is a
group of `items_per_row` values; the level of its first value says what is null around it (`rowVal`), which is what writing (`cells_rows`) and reading
(`decode_rows`) are both shown to agree on. Elements under a null vector or struct are hidden by it, and the cells say so: they are read as null elements,
whatever they were.

### Scans through scalar indices (`Verif/Iscan`): what is modelled

`Scanner::create_plan` as far as filters are concerned (scanner.rs 1262-1300, 1352-1420, 1451-1458: the requested
fragments, the fallback if a fragment does not record its rows, the refinement), `fragments_covered_by_index_query` and
`scalar_indexed_scan` (scanner.rs 1838-1962: covered fragments by way of the indices, the others by a scan with the
filter made back from the index query), `MaterializeIndexExec` (io/exec/scalar_index.rs 316-545: the mask with the
deletions, `retain_fragments`, the four cases of `row_ids_for_mask`, the capacity underflow), and the conversion of
index queries back to filters (lance-index scalar.rs 355-470, expression.rs 420-435).

It is put together from models that were there: the plan of C39, the masks of C04, the deletion masks of C45, row id
sequences of C12, and bitmap indices of C38. The indices are parameters that answer exactly for the live rows of the
fragments they cover (`IndicesOK`); `columnIndices` instantiates them with bitmap indices built over an older version.

Not modelled: projection, order, limits (C62 and others), the pushdown of filters to page statistics (C72), batches
(rows are a list; their order is not specified by the scan), `TakeExec` (rows are found by id, C31), the caches, and
`to_expr` of a label list with a NULL label, which panics.

### Writing objects (`Verif/Upload`): what is modelled

`ObjectWriter` (lance-io object_writer.rs 26-462): the buffer and its capacity, `next_part_buffer`, `put_part` with its
retries, `poll_tasks`, `poll_write`, `poll_flush` and `poll_shutdown` with all states. The store and the scheduler are a
list of answers that each poll consumes, so that a theorem about all lists is one about all orders of events. Whether the
caller will be woken is part of the result of a poll: it is when the last poll of some future or task was pending.

Trusted: in object_store 0.11 `put_part` numbers its calls in order, and `complete` puts the parts together in that order
and fails unless all of them were stored (`Strict`); a put that fails leaves the path as it was; a `JoinSet` that is
empty registers no waker; `Vec::with_capacity` gives the capacity asked for. Not modelled: the time a retry waits,
the abort of the upload when the writer is dropped, the wording of errors, local files.

### File: what is modelled

`FileWriter` of format 2.x from the encoders on (`write_batch`, `add_global_buffer`, `flush` and `finish` with
`finish_writers`, `write_page`, `do_write_buffer`, `write_column_metadatas`, both offset tables, the footer), the positions
that `OutOfLineBuffers` hands to encoders, and `FileReader::read_all_metadata` with `read_tail`, `decode_footer`,
`optimistic_tail_read`, `decode_gbo_table`, `read_all_column_metadata` and `meta_to_col_infos` (C94). Then `encode_batch`
after the encoders, `concat_lance_footer`, `try_from_mini_lance` and `try_from_self_described_lance` (C95). What encoders
make (pages, buffers, columns) is arbitrary input; protobuf messages go through a codec whose decoder reads what its encoder
wrote. Bytes are numbers, and the object appends what is written (C93). Arithmetic that could underflow on corrupt files is
a panic, as in a debug build. Tasks of encoders are awaited in order (`FuturesOrdered`), so their concurrency plays no role.
Not modelled: `validate_schema`, nullability checks, the cache of metadata, encodings stored outside of the metadata
(`todo!()` in the code), and projections of columns (C96).

### Proj: what is modelled (C96)

`Verif/Proj/Model.lean` models which column each field is written to and read from: the numbering of columns by the two
encoding strategies (`encCols`, `mapping`), the three constructors of `ReaderProjection` (`fromWhole` with its counter of
fields to skip, `fromIds`, `fromNames`), `create_fragment_from_file` (`importMapping`), `validate_projection`, the iterator
over column indices and the two recursive creations of schedulers (`take1`, `decode`, `openCols`), and
`Field::project_by_ids` (`projectIds`).  A schema is a forest of fields with ids; the metadata that marks packed structs has
four values, which is all that the code tells apart.

Not modelled: names of fields (a projection by name is given by the projected schema), what the schedulers do with a column,
blob columns, dictionaries of nested types (refused when written), `packed` metadata on fields that are not structs, the
legacy layout of binary columns as lists in 2.0, and files with no rows.  That the pre-order iterator of a schema, which uses
a stack, visits the fields in the order of the recursion is read off the code.

### Session: what is modelled

`Verif/Session/Model.lean` adds the caches of a session (`lance-core/src/cache.rs`,
`lance/src/index/cache.rs`) to the transition system of `Verif/Txn/System.lean`: row id sequences by
fragment id (`rowids.rs:16-53`), row id index and deletion mask by version (`rowids.rs:71-99`,
`prefilter.rs:121-179`), deletion vectors by path (`fragment.rs:949-975`), indices by version
(`index.rs:401-422`), transactions by version (`io/commit.rs:72-105, 193-197, 826-832`).  Any entry can be
loaded from any version at any time and evicted at any time; the index and the mask are computed from
entries that were in the cache at different moments.  Not modelled: entries keyed by the path of a data
file or the uuid of an index (never used for two things), sizes, the order of the sequences in the index.

### Train: what is modelled

`Verif/Train/Model.lean`: `maybe_sample_training_data` (rust/lance/src/index/vector/utils.rs:109-225) and `random_ranges`
(253-316), with `Dataset::sample` (dataset.rs:898-903).  The random choices are a structure `Dice`: any permutation for
`shuffle`, any choice of distinct numbers for `sample`, any sequence of draws.  The draws are infinite in the code; the
model has a finite list and the theorems ask that every bin is in it, which is when the stream ends.  A column is reduced to
which rows are null.  Not modelled: the vectors themselves, element types, the readahead of the stream of ranges.

### Loaders: what is modelled

`Verif/Sampler/Loader.lean`: `from_lance_batches` and `lance_take_batches` of tf/data.py and both granularities of
`ShardedBatchIterator`.  A shuffle of `tf.data` is any permutation, another one in each pass.  What is handed over as
`batch_ranges` either starts over in every pass or is an iterator.  Not modelled: conversion to tensors, TensorFlow itself.

### Conv: what is modelled

`Verif/Conv/Model.lean`: `BFloat16Array.to_numpy` and `from_numpy`, `lance.arrow.cast`, `_fsl_to_tensor` and
`KMeans._to_tensor`.  An Arrow array is a buffer with a window and a validity per slot; a fixed size list array has its own
window on a child array.  What pyarrow and NumPy do (`slice`, `to_numpy`, `values`, `from_arrays`, `frombuffer`, `reshape`)
is modelled from their documentation and is trusted.  Values are abstract, so rounding to bfloat16 is not modelled.

### Fmt: what is modelled

`Verif/Fmt/Model.lean`: storage versions and their names, `try_infer_version`, `check_storage_version`, the part of
`build_manifest` about the format, the check of `CommitBuilder`, and the version with which `InsertBuilder` and
`FragmentCreateBuilder` write.  A manifest is its format and the version numbers of the files of each fragment.  A commit
leads to any list of fragments, so that the invariant does not depend on what the operations do.  Manifests without a format
(inferred when they are loaded) are in `Stored`.  `parse` is given texts in lower case.

### Legacy: what is modelled

Files of version 0.1. `Verif/Legacy/Model.lean`: pages of fixed-width values, `rust/lance-io/src/encodings/plain.rs`
(encoding with bit packing of booleans, `get`, `take` in chunks, the requests of `ReadBatchParams`).
`Verif/Legacy/Binary.lean`: pages of strings, `rust/lance-io/src/encodings/binary.rs` (positions, data, `get_range`,
`plan_take_chunks`, `take`). `Verif/Legacy/Column.lean`: columns of any type, `write_array` of
`rust/lance-file/src/writer.rs` and `read_array` of `rust/lance-file/src/reader.rs` with the page table, and
`encodings/dictionary.rs`. `Verif/Legacy/FileModel.lean`: `write`, `read_range` and `take` over the batches of a file and
`range_to_batches` and `group_indices_to_batches` of `format/metadata.rs`; the result of the binary search is any that the
documentation of `binary_search` permits.

Not modelled: footer, metadata and schema encoding, statistics pages, concurrency of the reads, structs without
fields, overflow of the `i32` batch offsets, offsets of concatenated arrays. An array that is read is represented by its rows.

### Pq: what is modelled

`Verif/Pq/Model.lean` models product quantization (`rust/lance-index/src/vector/pq.rs` and `pq/`): `quantize` (the nearest
centroid of every sub-vector by `argmin_value`, the first of equal ones; packing of two 4-bit codes in a byte), the transposed
storage of codes (`transpose`), the distance table of a query, the 8-bit sum over the transposed codes, the 4-bit sum over
a table rounded to bytes (`quantize_distance_table`, `compute_pq_distance_4bit`, with the addition of bytes of x86-64 and of
other architectures), and the distance of one row (`distance`, which a search with a filter calls). Numbers are integers;
reported distances are in units of 1/255 so that the dequantization is exact. Rounding of floats, NaN and infinities, cosine
(which normalizes and then uses L2), training (k-means) and residuals are not modelled. `Verif/Pq/Spec.lean` says what
a quantized vector is: the nearest to the vector of all vectors made of one centroid for every sub-vector.

### Partitions of product-quantized indices: what is modelled

`Verif/Pq/Part.lean` models what is done with partitions. First format: `PQIndex::load`, `to_batch_stream`, `remap`,
`filter_arrays`, `search`, the rewriting of a page by compaction (`RemapPageTask`), and `write_pq_partitions`. Third format:
`VectorStore::remap`, `FlatIndex::search`, and how the builder makes partitions of new rows and of existing partitions
(`shuffle_data`, `take_partition_batches`, `take_vectors`, `build_partition`). A dataset is a function of row ids to vectors, which
is undefined for deleted rows. Sorting is any function that returns a sorted permutation. Not modelled: bytes of index files,
the assignment of rows to partitions and the choice of partitions of a query (Vec), HNSW, null vectors, cosine.

### Sq: what is modelled

`rust/lance-index/src/vector/sq.rs` (training of the bounds, `scale_to_u8`, `inverse_scalar_dist`),
`rust/lance-index/src/vector/sq/storage.rs` (`ScalarQuantizationStorage`, `SQDistCalculator`), the L2 and dot distances of bytes of
`rust/lance-linalg`, and the build and the merge of partitions in `rust/lance/src/index/vector/builder.rs` with this quantizer.
Vectors are lists of integers, a byte is the rounded quotient, sums of bytes are modulo 2^32, distances are in units of 1/255².
A panic (`to_u8().unwrap()` of NaN) is `none`. Normalization of vectors for cosine is a parameter. Not modelled: floats
(NaN in vectors, rounding of the arithmetic), `append_batch` and chunks (used in tests only), the HNSW graph over the storage.

### Hnsw: what is modelled

Modelled (`Verif/Hnsw/Model.lean`): the greedy descent and the beam search of `lance-index/src/vector/graph.rs`, the neighbor selection
heuristic of `hnsw.rs`, links, back links and pruning of `graph/builder.rs` and `hnsw/builder.rs`, `insert` and `index_vectors`,
`to_batch`, `metadata` and `load`, `search` with the flat search for filters that select few rows, and the parameters that are taken of
a query. Heaps and sorts are an `Order`, of which only is assumed that it gives a maximum, a minimum and a sorted permutation, so ties
are settled in any way. Distances are integers given by a function. Random levels are an input.

Not modelled: parallel inserts (the model inserts one node after another), float comparisons with NaN, prefetching, remapping (an error
in the code), the encoding of the rows in the index file.

### PageTable: what is modelled

Modelled (`Verif/PageTable/Model.lean`): the page table of legacy files as bytes: `PageTable::{set, get, write, load}`, the calls of the
writer for data and for statistics, the fields that the manifest lists of a legacy file, the range of ids with which a fragment opens a
file, the cache of the session (keyed by the path), and the ids -2 that `merge_insert` puts in place of replaced columns. Where the
encoders put pages is an input.

Not modelled: the encoders and decoders of pages (see Legacy), the metadata message of the file, evictions from the cache.

### Validate: what is modelled

Modelled (`Verif/Validate/Model.lean`): `Dataset::validate`, `FileFragment::validate`, `DataFile::validate`,
`detect_overlapping_fragments`, and what appends, deletes, `add_columns`, `drop_columns` and `merge_insert` of some columns do to the lists
of files. The length of a file and the content of a deletion file are inputs.

Not modelled: errors of reading, the text of errors, the order in which files are checked (they are read concurrently; the claims do not
depend on which error comes first, but for `C115_replaced_error_violated`, whose check runs before any file is read).

### Fix: what is modelled

Modelled (`Verif/Fix/Model.lean`): `fix_schema` of `lance/src/io/commit.rs`, which runs in every commit, and `Manifest::max_field_id`. A
file is its path and the fields that the manifest lists. The schema is the list of its ids in depth first order.

Not modelled: `local_schema`; the order in which the hash map gives the new ids to the schema (new ids are above all old ones, so the
order does not matter); overflow of ids beyond 2^31.

### Replace: what is modelled

Modelled (`Verif/Replace/Model.lean`): what `build_manifest` does for `DataReplacement` (the check of fields, the replacement of paths, the
case of columns that no file has, the errors, the order of fragments), and the reading of a column of a fragment by the column indices of
the file that lists it. What is in files is an input.

Not modelled: conflicts with other operations (see Txn), the schema, versions of formats that do not exist.

### Tfrecord: what is modelled

`Verif/Tfrecord` models `rust/lance/src/utils/tfrecord.rs` on records that are parsed already: the inference of types of features that are no tensors, the builders of plain, list, tensor and list-of-tensor columns, the check of tensors, `append_primitive_from_slice` with the three parts of `align_to` (the address of the content is a part of the tensor), the offsets of lists, the assembly of batches and the chunks of records.
Not modelled: the frames and checksums of TFRecord files, protobuf (the decoder of tensors is a parameter, its results are arbitrary), the inference of tensors and their metadata, products of dimensions beyond 32 bits, errors of the stream itself (a batch that fails is an error of the whole read here; in the code the batches before it were given already).

### Shared: what is modelled

`Verif/Shared` models `SharedStream` (`rust/lance-core/src/utils/futures.rs`) as a transition system: the two critical sections of a poll are atomic steps, the poll of the inner stream lies between them, tasks are awake, asleep, inside a poll or gone, and wakers are explicit. The semaphore and its `PollSemaphore` (tokio, tokio-util 0.7, not in the repository) are modelled from their documented behaviour: one future that is shared by both halves, waits in a queue, is handed a permit when one is given back, and keeps the waker of its last poll.
Not modelled: panics inside the inner stream, the cooperative budget of tokio, the mutex itself (its sections are atomic), a wake of a task that is inside a poll (it is lost in the model; the violations do not use it).

### Bitpack: what is modelled

`Verif/Bitpack` models the reading of pages of the `Bitpacked` encoding (`rust/lance-encoding/src/encodings/physical/bitpack.rs` 266-580): the bytes that are read for
each range of rows, the bits before and after the rows in them, the rows to skip, the loop that moves the bits of a value from the bytes of the page to those of the
destination (masks, offsets in both bytes, the early end), the sign, the bytes of ones after a negative number, and the end of a buffer; and the batches of
`PrimitiveFieldDecoder::drain` (`primitive.rs` 3013-3040), each of which skips the rows of those before it.  Words are functions from the index of a bit to the bit; an
addition of bytes that have a bit in common is a failure, and it is proved that there is none.  Not modelled: the encoder (`BitpackedArrayEncoder`, `pack_bits`, and the
choice of the width): no other part of the code uses it, so that the pages come from files that older versions wrote; validity of rows; sums beyond 64 bits; the offset
of the page in the file.

### Lanes: what is modelled

`Verif/Lanes` models the pages of the `BitpackedForNonNeg` encoding (`rust/lance-encoding/src/encodings/physical/bitpack_fastlanes.rs` 38-560): the width in bits that the
writer takes from the values that are not null (the `|` over each array, the maximum over arrays, at least one), the chunks of 1024 with zeros at the end of the last one,
their packing by the functions of `Mini/Bitpack.lean`, the grouping of ranges by `schedule_ranges`, the loop of `bitpacked_decode!` over the chunks and ranges of each group
with its three cases, and the slice that `decode` takes for each batch.  Numbers are those of the unsigned type of the same width; a null has some number in the buffer, which
loses its high bits when it is packed.  Simplified: a page is the list of its packed chunks, so offsets in bytes are multiples of the size of one chunk; the request for bytes
returns what was written; subtraction in `range.end - 1` is only used for ranges that are not empty.  Not modelled: the choice of this encoding by `CoreArrayEncodingStrategy`.  That
strategy uses the encoding only if its version is set to 2.1 or later (`encoder.rs` 626-650), which the default strategies do not do, so it takes a caller of the library that sets it.

### Nest: what is modelled

`Verif/Nest` models the two functions that put columns of a plan together: `merge_with_schema` (`rust/lance-arrow/src/lib.rs` 657-726), with which `TakeExec` joins the columns
of its input and those that it reads (`io/exec/take.rs` 128), and `project` with `compute_projection` and `selection_as_expr` (`rust/lance/src/io/exec/projection.rs` 35-201),
which is used before unions of new and indexed data.  Both do the same to every row, so a row is modelled: a list of columns that are values or structs (valid or not) with
columns inside, to any depth.  The property is stated with lookups by paths of names (`valueAt`, `structAt`, `hasValue`, `hasStruct`), which are apart from those of the model.
Simplified: names are numbers; types of values, nullable flags and metadata are left out; lists, also lists of structs, are values, as they are in the code.  Trusted: `get_field`
of DataFusion gives the array of a child as it is, `named_struct` makes a struct without nulls and refuses no children; `StructArray::from` a list of columns has no nulls.

### Optim: what is modelled

`Verif/Optim` models the physical optimizer rule `CoalesceTake` (`rust/lance/src/io/exec/optimizer.rs` 22-113): both shapes of two takes, `with_new_children` of the outer one on
the input of the inner one, the check of the order of fields (only as many as both schemas have), the projection that restores the order, with columns by index and the `unwrap`
on columns that are not there, and `transform_down` over the plan; `TakeExec` (`io/exec/take.rs` 178-411) with the columns it reads and its output schema, for columns that are
not nested; and the takes of a scan with a filter that an index answers (`scanner.rs` 1425-1515, 1863-1906, 2298-2322).  Plans are evaluated for one row; filters, sorts and
limits keep its columns.  Other nodes (scans, index searches) are sources with any columns.  The depth of `transform_down` is bounded by a number that the theorems hold for all
of.  The second rule, `SimplifyProjection` (`optimizer.rs` 115-160), is modelled in the same way and keeps the columns of every plan (`C123_simplify`).  Not modelled: nested columns,
expressions of filters and sorts, unions.

## 4. Disagreements between the code and the properties

Each entry names the theorem that proves the disagreement.

* C02 `RowIdTreeMap |=`: `Partial |= Full` leaves the partial set (`C02_…_violated`); inserting the
  range `..0` inserts row 0.
* C04 `RowIdMask` NOT / AND / OR are wrong when both lists are present, when a whole fragment is
  blocked, and when an allow list meets a block list.
* C05 deletion vectors with the same rows can compare unequal (`NoDeletions` and an empty set).
* C10 a segment cannot be built for the id `u64::MAX` (overflow), `C10_from_slice_violated`.
* C11 `U64Segment::slice` on a range with holes uses positions in the hole array as row ids
  (`C11_segment_slice_violated`); so `rechunk_sequences` loses ids (`C11_rechunk_violated`), which
  is what compaction of fragments with deletions does under stable row ids.  An empty segment ends
  a chunk early (`C11_rechunk_empty_segment_violated`).
* C12 `RowIdSequence::delete` with a repeated id leaves ids that should go (`C12_delete_violated`);
  the conversion to a row set drops ids of earlier segments that are gaps of later ones
  (`C12_row_set_violated`) and `0..0` inserts row 0 (`C12_row_set_empty_violated`).
* C13 `RowIdIndex::new` refuses fragments whose row id ranges interleave (`C13_lookup_violated`).
* C15 fragment ids: a restore sets the id counter back, so ids of the versions after the restored one
  are given out again (`C15_restore_violated`); an overwrite numbers its fragments from 0 again
  (`C15_overwrite_violated`); a counter of 0 is read as "not recorded", so id 0 is reused after the only
  fragment 0 was removed (`C15_zero_violated`).
* C16 stable row ids: a restore also sets the row id counter back (`C16_restore_violated`); after all
  fragments are gone a writer that does not ask for stable row ids turns the feature off without an
  error and ids start again (`C16_delete_all_violated`).
* C17 lost updates: `DataReplacement` does not conflict with `Delete`/`Update`/`Merge`
  (`C17_replacement_violated`); versions removed by a concurrent cleanup are not checked, because the
  conflict check stops at the first transaction it cannot read (`C17_cleanup_violated`); a commit whose
  acknowledgement is lost is reported as failed although it landed (`C17_reported_violated`).
* C18 the emptiness test of `Overwrite`'s config keys is inverted when its transaction is read back, so
  an overwrite and a config update of the same key do not conflict (`C18_overwrite_violated`).
* C46 reserved ids are handed out again after a restore (`C46_violated`).
* C49 `Merge`/`Project` do not conflict with metadata updates (`C49_metadata_violated`), `Project` does
  not conflict with `Overwrite` (`C49_overwrite_violated`).
* C50 `CreateIndex` does not conflict with `Merge`, which can drop the indexed field when a column is
  cast (`C50_merge_violated`).
* C19 transaction files: the emptiness test for an overwrite's config is inverted, so config updates are
  lost and an absent config comes back as an empty one (`C19_overwrite_config_violated`,
  `C19_lost_conflict_violated`); a rewrite without groups comes back with one empty group, the empty tag
  comes back as no tag, schema metadata is dropped, and a blob operation other than append/overwrite
  panics (`C19_other_violated`).
* C20 a detached manifest makes `current_manifest_path` panic on ordered object stores
  (`C20_detached_violated`); an object store with unordered listing and V2 names is reported as mixed
  (`C20_unordered_violated`); in a half-migrated directory an older version is returned as the latest
  (`C20_half_migrated_violated`).
* C21 the handler used without an external store on S3 lets several writers win a version and replaces
  visible versions (`C21_naive_violated`); a lease that times out between check and write does too
  (`C21_expire_violated`).
* C22 an error reported by the external store after the put landed makes the writer delete the file the
  store points to: the version is lost and its number blocked (`C22_lost_answer_violated`); opening an old
  version of a dataset that predates the external store makes it the latest, and the next commit replaces
  an existing version (`C22_latest_back_violated`); `resolve_latest_location` may pair a path with another
  version's number (`C22_location_violated`).
* C43 a known count of zero is read back as unknown (`C43_violated`).
* C52 the file version `next` is printed but not parsed (`C52_version_text_violated`); zero counts, an empty tag or transaction file name and blob version 0 are read back as absent;
  `update_schema_metadata` does not change the local schema the scanner uses
  (`C52_schema_metadata_violated`).
* C23 a version committed while cleanup runs from files of a dropped version, as restore does, loses them
  (`C23_concurrent_violated`); a tag created after the tags were listed does not protect its version
  (`C23_tagged_violated`); by default cleanup fails as soon as any existing version is tagged, even the latest,
  although the error is documented for old tagged versions (`C23_tag_error_violated`); staging manifests of the
  external handler are never reclaimed (`C23_leftover_violated`); directories are matched by text prefix, so
  that `data_b/x.lance` is removed as an unused data file (`C23_foreign_violated`).
* C24 a tag with a letter outside ASCII makes `list`, and so cleanup, fail (`C24_list_violated`); two processes
  may both succeed in creating the same tag (`C24_race_violated`).
* C25 a target of 0 rows per fragment makes planning loop forever (`C25_ends_violated`); an index without fragment
  bitmap is taken to cover one fragment less than it may (`C25_legacy_violated`).
* C26 when all rows of fragment 0 are deleted, row 0 is missing from the map, so that an index keeps its address
  (`C26_violated`); with stable row ids, compacting a fragment with a deleted inner row into several fragments gives
  wrong row ids (`C26_stable_violated`).
* C53 compaction does not keep the order of rows although documented (`C53_order_violated`); task results committed
  through a handle newer than the tasks bring back rows deleted in between (`C53_handle_violated`).
* C28 with stable row ids, a read that does not start at the first row gets the row ids of the first rows
  (`C28_violated`, seen from `offset` in `C28_offset_scan_violated`; legacy batches `C28_legacy_violated`); a read by
  index may run off the sequence and panic (`C28_indices_panic`).
* C30 slicing `RangeFull` or `RangeFrom` past the end is not refused although documented
  (`C30_slice_error_violated`); an empty range at the end of the file is refused, elsewhere accepted
  (`C30_empty_range`).
* C54 `limit` or `offset` together with `order_by` and no filter cuts before sorting (`C54_order_violated`);
  `limit(0)` with a filter, or with legacy files, returns every row (`C54_zero_violated`); `read_range` past the last
  live row is an error, documented to return fewer rows (`C54_read_range_violated`).
* C29 `max_rows_per_file` is not an upper bound: after a file was closed for its size in bytes the next one can
  reach almost twice the limit (`C29_limit_violated`); legacy files overshoot when the group size does not divide
  the limit (`C29_limit_legacy_violated`).  A limit of 2^32 rows is truncated to 0 (`C29_wide_limit_violated`).
* C29 `max_rows_per_group = 0` on legacy files writes nothing and reports success (`C29_zero_group_violated`,
  `C29_chunk_violated`).
* C31 A position beyond the end is an error only if the request is strictly increasing; otherwise the row is
  left out without a word (`C31_range_violated`), and if every one of several positions is beyond the end the
  process panics (`C31_range_panic`).
* C31 Taking addresses of a fragment that does not exist is an error for sorted requests, and otherwise leaves
  rows out (`C31_missing_violated`) or panics (`C31_missing_panic`).
* C55 One unknown row id shifts the answers of the ones after it (`C55_unknown_id_violated`); the second copy of a
  deleted row is kept (`C55_duplicate_violated`); an address beyond the last fragment panics (`C55_beyond_panic`).
* C44 A fragment without rows hides the fragments after it if the binary search stops at it
  (`C44_hidden_violated`); it is reported itself otherwise (`C44_empty_violated`); an empty range reports a
  fragment (`C44_empty_range_violated`).
* C45 With stable row ids the deleted offsets are given to `RowIdSequence::mask` in the order of a hash set,
  which needs them sorted; deleted rows pass (`C45_hash_order_violated`).
* C45 For an index without a fragment bitmap the range of fragment ids ends before the largest id, so deleted rows
  of the newest fragment pass (`C45_legacy_violated`).
* C45 A filter that blocks some rows of a fragment that no longer exists lets its other rows pass
  (`C45_final_violated`, through the union of row sets of C02).
* C40 With a filter, a rank that gets no row raises an exception rather than yielding nothing
  (`C40_filtered_violated`); a scan batch smaller than the number of rows to skip asks for a slice of negative
  length (`C40_short_batch_fails` if that is refused).
* C41 `_efficient_sample` returns too few rows (`C41_too_few_violated`) or too many (`C41_too_many_violated`) unless
  `max_takes` divides `n`.  `_filtered_efficient_sample` never yields what is left at the end
  (`C41_leftover_violated`), in particular nothing at all if fewer than `n` rows match and they fit one batch
  (`C41_nothing_violated`), and divides by zero for `n = 0` (`C41_zero_violated`).  `reservoir_sampling` of 0 items
  raises (`C41_reservoir_violated`).
* C57 A `CachedDataset` of an empty stream raises in every epoch (`C57_epochs_violated`).
- **C58** (columns added to a fragment with deletions line up).  An update that succeeds always lines up
  (`C58_aligned_partial`, all batch splits, both file versions, any computation).  It is refused ("Missing too many rows
  in merge") exactly if, for v2 files, all rows of the first batch are deleted (`C58_v2_partial`, witness
  `C58_violated`), or, for v1 files, all rows of some row group are (`C58_v1_partial`).  The comment at updater.rs:114
  ("can happen only if there is a batch size (e.g. v1 file)") is about the other place where this error is raised.
- **C34** (merging columns by key).  A merge that succeeds is right for unique right keys under every schedule
  (`C34_merge_partial`).  It is refused when a row has no match, or the right value is null, and the type of a new column
  is not in the list of `lance_supports_nulls` (`C34_violated`, `C34_right_null_refused`; the error message speaks of
  unmatched rows in both cases).  With repeated right keys the result depends on the scheduling of the build tasks
  (`C34_duplicates_depend_on_schedule`; within one batch the last row wins, `C34_last_in_batch`).  Null keys match null
  keys, unlike in SQL (`C34_null_keys_match`).
* **C35 (byte budget).** `can_deliver` admits every read that is at least as urgent as everything unconsumed, so a
  sequence of ever more urgent requests exceeds the buffer without bound, not only by the most urgent request
  (`C35_violated`: buffer 10, unconsumed 30).  Proved instead: each admission is within the budget or at least as urgent
  as everything unconsumed, and the reads admitted within the budget never hold more than the buffer.
* **C35 (dropped futures).** The budget of a request is given back only when its future is polled to the end
  (scheduler.rs:656-662).  A dropped future keeps its bytes and its priority for ever; afterwards a less urgent read that
  does not fit waits for ever although the scheduler is idle (`C35_dropped_future_stalls`).
* **C36.** Ranges that are not sorted, or that are empty, lose answers silently or panic: `[3..5, 0..2]` returns one
  buffer (`C36_violated`), an empty range at the start of a merged read drops all answers after it
  (`C36_empty_range_loses_the_rest`), overlapping unsorted ranges panic (`C36_unsorted_overlap_panics`),
  `submit_single` of an empty range panics (`C36_single_empty_panics`).  Proved for non-empty ranges none of which
  starts before the read it is merged into, in particular for sorted ones.
- C33 (`C33_swap`, `C33_violated`): `UpdateJob::apply_updates` (update.rs:311-314) evaluates each expression on the batch
  already changed by the assignments before it, in the iteration order of a `HashMap`.  `SET a = b, b = a` on the row
  (1, 2) gives (2, 2) or (1, 1) depending on that order; SQL asks for (2, 1).
- C33 (`C33_stable_ids_duplicate`, `C33_stable_ids_refused`): with stable row ids, the captured row ids are split into
  fragment id and offset as if they were addresses (update.rs:325-341).  An update of a row of the second fragment
  leaves the old row in place, adds the new one and records a deletion of a row that does not exist in the first
  fragment.  If the ids do not increase along the scan, the update is refused.
- C32 (`C32_null_in_first_column`, `C32_null_in_target`): `not_all_null` (merge_insert.rs:1254-1297) looks at the first
  |on| columns of each side, not at the key columns.  With the key in another column, a source row that begins with a
  null loses its update (with deletion, the target row is deleted and nothing replaces it), and a target row that begins
  with a null is kept beside its replacement.
- C32 (`C32_null_keys_dropped`): source rows with null keys are dropped instead of inserted, target rows with null keys
  are never deleted.
- C32 (`C32_duplicate_source_keys`): two source rows for one target row are both written; SQL refuses this.
- C32 (`C32_index_changes_nulls`): the indexed join takes null keys for equal (537), the other one does not (611): an index
  changes the result.
- C32 (`C32_stable_ids_duplicate`): stable row ids are taken for addresses: the old rows stay beside the new ones.
- C59 (`C59_update_if_panics`): with a row address in the joined batch, `unzip_batch` (104-125) halves the columns wrongly
  and `StructArray::new` panics: no conditional update of some of the columns ever succeeds.
- C59 (`C59_duplicates_overwrite`, `C59_duplicates_lose_updates`): two source rows with one key corrupt other rows.  If
  there are as many updates as rows in the fragment, they are taken for the whole column, so a row that was not matched
  gets the key and values of another one.  Otherwise the second update blocks the iterator, and the updates after it are
  lost although counted.
- C59 (`C59_null_in_first_column`): as C32, for the first columns of the source.
- C59 (`C59_empty_batch_panics`): `BatchStreamGrouper` panics on a batch without rows (dataframe.rs:179-183).
* **C37, crossed ranges panic.** `x BETWEEN 5 AND 3` reaches `BTreeMap::range` with start above end, which panics, in
  `bitmap.rs` and in `btree.rs` (`C37_search_exact_violated`, `C37_btree_crossed_violated`). `x > 5 AND x < 5` panics in
  `bitmap.rs`.
* **C37, NULL in a list.** `flat.rs` means to return NULL rows for a list with NULL, but `arrow::compute::or` gives
  NULL where one side is NULL, so they are lost; the bitmap index returns them (`C37_null_in_list_violated`).
* **C37, no labels.** `array_has_any(x, [])` unwraps an empty stream in `label_list.rs` (`C37_labels_violated`).
* **C38, bitmap.** `remap` uses `?` inside `filter_map`, so a row that the compaction did not touch is dropped
  (`C38_remap_violated`), and `null_map` is never written (`C38_bitmap_nulls_violated`).
* **C38, btree.** `remap` writes the remapped pages one after the other but keeps the lookup file. If rows are removed,
  all later rows move to lower positions than the lookup says (`C38_btree_removed_violated`). All-NULL pages are
  written last (`C38_btree_null_page_violated`).
* **C60, btree.** `all_page_ids` removes only neighbouring duplicates. A page with NULLs and values is read twice, the
  second time at the end; the update merges a stream that is not ordered and searches lose rows
  (`C60_btree_update_violated`).
- C39 (`C39_filter_violated`, `C39_not_equal_null_violated`, `C39_not_null_violated`): with an index, `x != 5`,
  `NOT (...)`, `x NOT IN (...)` and `NOT BETWEEN` return the rows where `x` is NULL: the negation is the complement of
  the mask (expression.rs:391-398).
- C39 (`C39_in_null_violated`): `x IN (5, NULL)` returns the NULL rows of a bitmap index (bitmap.rs:211-223).
- C39 (`C39_mixed_or_violated`): `x = 2 OR y != 3` loses the rows with `x = 2` and `y = 3`; no NULLs are needed
  (mask.rs:243-266, see C04).
- C39 (`C39_crossed_violated`): `x >= 5 AND x <= 3` becomes a range query with crossed bounds, which panics
  (expression.rs:578-628, bitmap.rs:190-208).
- C61 (literals): a timestamp literal is cut to the unit of the column (`t < 0.5 s` on a column of seconds becomes
  `t < 0 s`, `t = 0.5 s` becomes `t = 0 s`); integers and doubles are rounded to float columns (and can become
  infinite); a `date64` that is no whole day, or too large for 32 bits of days, becomes another day; with the same unit
  the literal keeps its own time zone. A literal that the column type can hold is always converted exactly
  (`C61_coerce_partial`, `C61_accepts`); integers are right without exception (`C61_integers`).
- C60 (page size): `into_data_stream` reads pages with the default page size instead of the stored one; harmless as
  long as all indices have the default (`C60_page_size_violated` has the other case).
- C63: `LanceFileReader.take_rows` allows a row number to come twice, but a list column does not: when the row is the
  first of a page of offsets the second copy is an empty list (`C63_take_violated`: `decode_offsets` sets
  `last_normalized_offset` back), and when the items of the row are in two pages the read panics
  (`C63_take_panic_violated`). An empty range at the end of the file panics on a list column
  (`C63_empty_range_violated`). Rising row numbers and ranges in order are right at every depth
  (`C63_ranges_partial`, `C63_take_partial`, `C63_nested_partial`).
- C64: a batch that begins inside one requested range and ends in a later one gets wrong bits (booleans and validity):
  `bitmap.rs:105-113` does not take the skipped rows off the number of rows that are left in the first range, so bits
  after that range are returned (or the read panics) (`C64_flat_page_violated`). Scans of one range and takes of single rows never meet this (`C64_flat_scan`, `C64_flat_take`).
- C65: when a range other than the first begins at row 0, `binary.rs:184-218` sets the position in the decoded offsets back:
  take of the rows 0, 0, 1 returns a wrong third string (`C65_string_page_violated`).
- C66: the null index of a dictionary that uses its whole key type makes the writer widen the keys to u32; the reader
  still reads keys of the old width, so a null becomes a value (`C66_dictionary_page_violated`). Dictionaries of LargeUtf8
  cannot be read (`C66_large_items_violated`). With a threshold above 256 in `LANCE_DICT_ENCODING_THRESHOLD`, the 256th
  different string of a page becomes null in a release build (`C66_low_cardinality_violated`).
- C67: fixed size lists of strings are written but every read ends in `todo!()` (`C67_written_readable_violated`); a packed
  struct with a null struct cannot be written, the encoder panics (`C67_packed_page_violated`). Structs that are not packed
  lose their own validity in version 2.0 (docs/format.rst:159; not modelled).
- C69: `BlobFile::read` sets the cursor to `position + size` (a position of the data file) instead of `size`: after `readall`, `tell`
  gives that number (`C69_violated`) and a further read can raise (`C69_read_to_end_then_on_violated`). A read that starts
  after the end computes `size - cursor`, which wraps in a release build, so bytes of other values are
  returned (`C69_reads_another_value_violated`). Null values are not left out by `take_blobs`; they open as empty files (`C69_null_reads_empty`).
- C70: a fragment that is finished in the checkpoint is returned as it was stored, with the deletion file of that time: rows deleted before
  the resumed call come back when it commits (`C70_violated`). Results of batches are found by fragment id and batch number
  only, so values changed in place between the calls are not seen (`C70_stale_values_violated`). With another batch size the
  call is refused (`C70_other_batch_size_refused`), which is safe.
- C71, C72: three kinds of pages have wrong statistics. NaN is skipped when bounds are computed, but filters order it above
  all numbers: `x > 5.0` loses the NaN rows of a page whose numbers are small (`C71_nan_violated`, `C72_nan_violated`). The loop for booleans
  stops when both values were seen, so nulls in later arrays are not counted and `IS NULL` loses them (`C71_bool_violated`,
  `C72_bool_violated`). A string longer than 64 bytes is cut at a character boundary, which may lie before byte 64; a shorter string that
  has the cut as a prefix then becomes the maximum, and its increment may lie below the long string (`C71_utf8_violated`, `C72_utf8_violated`).
- C74: `Wand::new` drops posting lists without a selected document before `num_query_tokens` is counted; a phrase query then returns documents
  with only the remaining tokens (`C74_phrase_violated`).  The same happens when all documents of a token were deleted and remapped away.
- C74: the tokens of a phrase are numbered 0, 1, 2, … while tokens of documents keep the positions of the tokenizer, which has gaps where stop
  words or long tokens were removed; a document does not match its own text (`C74_same_text_violated`).
- C76: `query.limit(self.limit)` and `SortExec::with_fetch(self.limit)` do not add the offset: with limit 10 and offset 5 at most 5 rows are
  returned, with offset 10 none (`C76_offset_violated`).
- C76: a filter without prefilter is applied after the search was cut to the limit, so fewer rows than the limit are returned although more exist
  (`C76_postfilter_violated`).
- C76: with a prefilter and rows without index the batches of `FlatFtsExec` still have the columns of the filter in front, while the plan reads
  column 0 as `_rowid` and column 1 as `_score`; the scan fails, or takes filter columns for row ids if they are `uint64` and `float`
  (`C76_prefilter_violated`, `C76_prefilter_always_fails`).  The test of this plan compares only its text.
- C76: rows without index are searched for single tokens also if the query is a phrase (`C76_phrase_violated`).
- Read but not proved: with an index without documents the average length is 0/0, all flat scores are NaN and all rows without index are dropped;
  the flat search takes the number of matching tokens as document length, so scores of indexed and unindexed rows are not comparable; a full text
  scan ignores `with_fragments`; only `indices[0]` of an index with several deltas is searched; `do_flat_full_text_search` asserts that the
  document contains the query text.
- C77: `optimize_indices` when all fragments are covered: without a stream of new data the builder has no shuffled data and shuffles the whole
  dataset, so each row of the merged deltas is there twice (`C77_violated`).
- C77: `optimize_indices` that merges a delta with a deleted row fails: `take_vectors` gets fewer rows than row ids (`C77_optimize_violated`).
- C77: an index built with one partition keeps the partition id column in its storage file, `remap` makes two columns for it and fails, so the
  dataset cannot be compacted (`C77_compact_violated`).
- C77: an index cannot be built if no row has a vector, and a compaction fails if an affected delta keeps no row: `merge_partitions` unwraps a
  writer that was never made (see the conditions of `C77_create_succeeds` and `C77_compact_succeeds_partial`).
- C78: after such an `optimize_indices` a search returns rows twice (`C78_violated`).
- C79: with an index the chosen fragments are only seen through the prefilter: without a filter rows of all fragments are returned
  (`C79_violated`), and fragments that are not covered are searched even with a filter (`C79_unindexed_violated`).
- C80: rows of a merged delta are quantized from their plain vectors while new rows and queries use residuals to the centroid
  (`C80_violated`), so a search finds other rows after the merge (`C80_search_after_merge_violated`).
- Read but not proved: a vector without a number as distance to any centroid goes to partition 0; `nearest` with `limit=0` returns k rows;
  `IvfShuffler` panics if the first batch is empty.
- C81: `drop_columns(["l.item.a"])` on a list of structs drops the whole column `l` (`C81_drop_in_list_violated`): `Schema::exclude` keeps
  only structs.
- C81: after a delete, `add_columns` or a cast that reads only columns stored in no file writes a data file that is too short, and the table
  cannot be read any more (`C81_compute_from_null_column_violated`, `C81_cast_null_column_violated`): `NullReader` is given `count_rows`
  instead of the physical rows.
- C81/C82: a nested field can be renamed to the name of a sibling; both are then read as the first (`C81_rename_to_sibling_violated`,
  `C82_rename_to_sibling_violated`): `Schema::validate` looks at names of the top level only.
- C81: appends that are accepted and leave the table unreadable: list items without a nullable field, the legacy format with a nullable
  column missing, a nullable struct missing whose field is not nullable (`C81_append_without_item_field_violated`,
  `C81_legacy_append_violated`, `C81_append_without_struct_violated`).
- C81: append of `s{a}` to `s{a, b}`, then drop of `s.a`: the table cannot be read any more (`C81_drop_stored_part_violated`):
  `project_by_ids` gives a struct of which the file stores no child with all its children.
- C82: two casts named in another order than in the schema are refused if one column has nulls and the other may not
  (`C82_cast_two_columns_violated`); a cast of a nested column panics (`C82_cast_nested_violated`); a path that does not exist below an
  existing struct is ignored (`C82_compute_from_nothing_violated`); a function that reads a stored and an unstored column is refused after a
  delete (`C82_compute_after_delete_violated`); null columns cannot be added in the legacy format (`C82_legacy_nulls_violated`, documented).
- C83: `s.l.item.a` cannot be read (`C83_part_of_nested_list_violated`); `s.nope` next to `s.a` is no error (`C83_missing_path_violated`).
- **C84** FSST returns an error, and the write fails, when no round of the table construction finds a gain of at least -32768 over the
  sample: `best_gain` starts at `-FSST_SAMPLEMAXSZ` and the sample may be one value of any size, so one incompressible value above about
  8 MB is refused instead of being stored without compression. The gain is part of the oracle, so C84 allows the error; it is not claimed
  that it does not occur.
- **C84** (read, not modelled) `FsstArrayEncoder::encode` (version 2.0, field metadata `compression=fsst`) panics for a page with nulls
  only and for `large_string`/`large_binary`.
- **C85** `primitive.rs` 1424-1447: a range is looked up by its first row among the first rows of chunks. A chunk inside of a long list has no
  first row of its own but gets the number of the next row, so the search finds it for a range that starts right after that list. It has no rows to
  take but a trailer, so `rows_to_take_no_trailer -= 1` underflows (debug builds stop at `debug_assert!(rows_avail > 0)`) and the read fails (`C85_range_after_long_list_violated`: lists of 65 and 1 values of 128 bytes, read row 1).
- **C85** `primitive.rs` 3759-3824 with `value.rs` 264-283: if the values fill the chunks exactly, an empty last chunk is made. For a list
  column the first level of the (empty) levels of this chunk is looked at: panic (`C85_full_chunk_violated`, e.g. 128 values of 64 bytes in one list; widths of
  1, 2, 4 and 8 bytes are bit packed instead and have no such chunk, unless 1024 values in a row are zero).
- **C85** `primitive.rs` 3668-3716: levels of empty and null lists take no values, so they all go into the current chunk; about 4094 of them (beside any value) make it
  longer than the 12 bits for its size can say: the assertion fails (`C85_many_empty_lists_violated`).
- **C85** `primitive.rs` 504-545: with lists of lists, levels without a value are only counted if they start a row; an empty or null inner list
  shifts the values by one and other values are returned (`C85_nested_lists_violated`: `[[1], [], [2]]`, `[[3]]`, `[[4]]`, reading row 1 gives `[[4]]`).
- **C86** `binary.rs` 603-658 with `primitive.rs` 3668-3716: a chunk with a single string has logarithm 0, which is the mark of the last chunk. Strings of
  more than about 2042 bytes therefore give a page whose levels are all put into the first chunk, and the page cannot be read
  (`C86_wide_strings_violated`: three nullable strings of 3000 bytes). The writer chooses mini-blocks by itself only below 256 bytes; it takes the field metadata
  `lance-encoding:structural-encoding=miniblock` without such a check.
- **C86** (read, not modelled) `encoder.rs` 845: strings with 64 bit offsets in a mini-block page are a `todo!()`, so writing `large_string` columns of
  short strings in format 2.1 panics.
- **C87** `encoder.rs` 809-816: 1024 zeros in a row switch bit packing off for the whole page (named a work-around in the code); `unchecked_pack` with width 0 is
  `unreachable!`. `bitpack_fastlanes.rs` 1733: `shrink_to` does not shorten the decompressed buffer, which stays at 1024 values; the reader only takes the rows it asked for, so no
  wrong value is seen.
- **C87** lists of lists of bit packed values fail as in C85 (`C87_nested_lists_violated`).
- **C88** `repdef.rs` 1315-1440: in a page of lists where no list is null or empty, a list that starts with a null element is not counted as a list, so
  `[[null, 1], [2]]` is read as one list (`C88_list_starting_with_null`).
- **C88** lists of lists: `[[[]], [[7]]]` is read without its first list, and `[[[7]], []]` panics while it is written (`C88_empty_lists_in_lists`).
- **C88** a null struct around lists is read as not null, or reading panics (`C88_null_struct_around_list`).
- **C88** `repdef.rs` 1471, 1544-1561: when a batch spans a page with nulls and a page without, `def_levels.as_ref().unwrap()` panics
  (`C88_pages_with_and_without_nulls`); when the pages have bitmaps at different layers, levels of one are read with the layers of the other (`C88_struct_nulls_between_pages`).
- **C88** fixed size lists in lists are a `todo!` (`C88_fixed_size_lists_in_lists`).
- **C89** inherits the disagreements of C85 (ranges that start after a list that fills a chunk), C87 and C88; `C89_list_starting_with_null` follows one of them through the bytes
  of a page.
- **C90** `primitive.rs` 4198-4206, `repdef.rs` 1876-2003 against 2263-2296: if the definition levels of a page are all 0 (a validity bitmap without
  nulls, as in a slice of an array), the writer puts a control word of one byte before each value but describes levels of 0 bits, and the reader
  takes control words for values: `[1, 2], [3, 4]` is read as `[0, 1], [2, 0]` (`C90_zero_levels_misread`).
- **C90** `primitive.rs` 1876-1880 against `repdef.rs` (`max_visible_level`): the reader counts the levels of all layers that are no lists, the
  writer only those inside of the lists, so that a null list in a struct that may be null is taken for an item (`C90_null_list_in_struct_panics`).
- **C90** `repdef.rs` 1711: the iterator for control words of two bytes of one kind of level panics at its end, so 256 layers with nulls cannot
  be written (`C90_deep_levels_panic`).
* C91 a column with a validity bitmap in which nothing is null cannot be read from a full-zip page (`C91_all_valid_bitmap_unreadable`); a page of lists of
  strings without nulls and empty lists makes the reader panic, as it passes on definition levels that were never written
  (`C91_string_lists_without_nulls_panic`); so does a null list in a struct that may be null (`C91_null_list_in_nullable_struct_panics`).
- **C92 (NULLs).** `x != 5`, `x NOT IN (…)` and `NOT (x BETWEEN …)` return NULL rows of the fragments that the index
  covers but not of the other fragments of the same scan (`C92_null_rows_violated`), so the answer changes when the
  index is updated.
- **C92 (IS TRUE).** `NOT (b IS TRUE)` is turned into the index query `NOT (b = true)`; on fragments that the index does
  not cover this is evaluated as a filter and loses NULL rows (`C92_is_true_violated`).
- **C92 (chosen fragments).** With stable row ids, a negated query over chosen fragments without deletions subtracts the
  number of blocked rows in the whole index from the number of rows of the fragments; with more blocked rows it panics
  (`C92_capacity_violated`).
* C93 object writer: when the buffer is full, all upload slots were taken, and within one poll of a write the part under way
  finishes and the part put in its place finishes, too, the poll is pending and nothing will wake its caller
  (`C93_wakes_violated`). A part whose connection was reset is put as another part of the same upload, so that the first one
  is missing and the upload can never be completed (`C93_retries_violated`; `C93_retried_never_completes` for every run);
  on a store that completed it all the same the parts would be in another order (`C93_lenient_store_reorders`). With
  `LANCE_UPLOAD_CONCURRENCY=0` a shutdown leaves out the last part and succeeds (`C93_no_concurrency_violated`). A write of
  no bytes is pending forever (`C93_empty_write_hangs`), and a write after the shutdown may be accepted and lost
  (`C93_write_after_shutdown`).
- C94: `finish_writers` advances the position of the next buffer of a column by its length and not by its padded length, so
  the second buffer is looked for in the padding of the first (`C94_column_buffers_violated`). It also writes buffers outside
  of pages without padding: a 2.1 file with one such buffer cannot be opened, because the reader insists on aligned positions
  (`C94_external_violated`), and in a 2.0 file the second is not where its encoder was told
  (`C94_external_positions_violated`). The encoders in the repository make no such buffers at the end, so that only custom
  encoders are affected. A corrupt table of global buffers makes the reader panic (`C94_never_panics_violated`).
- C95: `concat_lance_footer` always writes version 2.0; a batch of 2.1 pages panics when it is read back
  (`C95_round_trip_violated`). The number of rows is taken from the first column, although the descriptor has it
  (`C95_rows_violated`). `encode_batch` does not pad buffers outside of pages, although encoders are told padded positions:
  of two blobs the second is not found (`C95_external_violated`).
- **C96, packed structs in 2.1 datasets.**  `from_field_ids_helper` (reader.rs:199) looks up only fields without children in
  2.1, but a packed struct has children and one column under its own id.  It is therefore given no column: alone, the decoder
  indexes an empty list (decoder.rs:411) and panics; with other fields, these shift and the last one fails
  (`C96_field_ids_violated`).
- **C96, columns by name.**  `from_column_names` takes the position of a field in the pre-order of the schema for its column.
  In 2.1 lists and structs have no column, and in 2.0 the children of packed structs have none, so that a field after one is
  silently read from the column of a later field (`C96_names_violated`).  The two callers are the scalar index files
  (lance_format.rs:163) and the shuffler (v3/shuffler.rs:279), whose schemas are flat today.
- **C96, files put into a dataset.**  `create_fragment_from_file` (fragment.rs:637-657) zips the ids of all fields with the
  columns of the whole-schema projection, of which 2.1 has fewer.  A leaf of a struct is silently read from its sibling's
  column; `DataFile::validate` would refuse the lengths but is only called by `Dataset::validate`
  (`C96_import_violated`).
- **C96, whole schemas.**  The 2.0 encoder packs a struct with the key `lance-encoding:packed` and not one with `packed` =
  `True`; `from_whole_schema` does the opposite in both cases.  It skips only direct children of packed structs, and counts a
  struct without fields as a column in 2.1.  All give errors when reading.  The 2.1 decoder has `todo!()` for `LargeUtf8`,
  `LargeBinary` and dictionaries, which the 2.1 encoder writes.  A 2.0 file of 2^32 rows or more is written but its root
  column has two pages, on which `check_simple_struct(...).unwrap()` panics (`C96_whole_violated`).
* **C97, overwrite with stable row ids.**  `load_row_id_sequence` caches by `{base}/{fragment id}/row_ids`
  (`rowids.rs:22`).  An overwrite starts fragment ids at 0 again while row ids go on, so a session that has
  read the old fragment 0 uses its row ids for the new fragment 0: wrong `_rowid` values, and a row id index
  and deletion mask made of them (`C97_overwrite_violated`).
* **C97, restore with stable row ids.**  After a restore the next append reuses fragment ids; the session
  has the sequence of the fragment that the restore took away, possibly of another length
  (`C97_restore_violated`).
* **C97, dataset made again.**  All keys start with the base path and no entry is ever invalidated; a
  dataset removed and made again at the same path is read through entries of the old one, for example its
  list of indices (`C97_remake_violated`).
* **C97, transactions.**  After a commit the in-memory transaction is cached, otherwise the one read back
  from its file, which can differ (`C97_transaction_violated`; the difference itself is described under
  the transaction files above).
- **C98, columns of nulls only.**  A nullable vector column with more rows than the sample size whose values are all null
  makes `maybe_sample_training_data` concatenate zero batches, an error, instead of giving an empty sample
  (`C98_violated`).
- **C99, iterators.**  `lance_take_batches` goes through `batch_ranges` again in every pass.  The example of its
  documentation hands over `as_numpy_iterator()`, which is used up by the first pass: from the second epoch on the dataset
  is silently empty (`C99_violated`).
- **C100, slices of bfloat16 arrays.**  `to_numpy` reads the whole buffer: a slice is converted, and cast, to all of the
  array it was cut from (`C100_slice_violated`).
- **C100, slices of vectors.**  `cast` of fixed size lists and `KMeans._to_tensor` use `arr.values`, which ignores the window
  (the comment in `_fsl_to_tensor` says so); a cast also drops the validity of the lists (`C100_vectors_violated`).
- **C100, null vectors.**  `_fsl_to_tensor` does not look at the validity of the lists: a null vector becomes the numbers in
  its place (`C100_null_vectors_violated`).
- **C101, fragments in 2.1.**  `FragmentCreateBuilder::write` uses the default options of the file writer and
  `write_fragments` always `Stable`: `data_storage_version` 2.1 is silently ignored, and so is `legacy` in the latter.  The
  fragments cannot be committed to a dataset of that version (`C101_fragments_violated`).
- **C101, overwriting as legacy.**  `check_storage_version` repairs a legacy format that does not fit the files, so an
  overwrite committed with 2.0 files as legacy succeeds as 2.0, while creating a dataset so is refused
  (`C101_asked_violated`).  `Display` gives `next` for the latest version, which `FromStr` does not know (`C101_names`).
- C102: a legacy file has no validity of fixed-width columns. A null is read as the value in the buffer, a null boolean as
  false (`C102_read_violated`). A take of indices on fixed-size lists of booleans panics in `byte_width`
  (`C102_bool_lists_violated`), and indices that are not sorted fail (`C102_unsorted_violated`).
- C103: in a nullable string column of a legacy file an empty string is read as null (`C103_empty_violated`), and a null that has
  bytes below it is read as those bytes (`C103_null_violated`). A take with a repeated first index is taken for a contiguous
  one and the array cannot be built (`C103_repeated_violated`); `FileFragment.take` with repeated offsets gets there.
- C104: the validity of lists and structs is not written to a legacy file: a null list is read as an empty list
  (`C104_null_list_violated`), a null struct as a struct of values (`C104_null_struct_violated`). The dictionary of the first
  batch is in the schema and those of other batches are dropped: the keys of a batch with another dictionary are read as other
  values (`C104_dictionary_violated`). `take` sorts the indices and does not put the rows back in the order of the indices
  (`C104_order_violated`).
- C105: `dot_distance` is `1 - x·y` and is added up over sub-vectors, so that a dot distance of a product-quantized index is
  larger than the distance by the number of sub-vectors less one (`C105_dot_violated`). With 4 bits a search without a filter
  of a partition with fewer than 15 rows panics (`num_vectors - NUM_CENTROIDS + 1`, `C105_few_rows_violated`); sums of two
  bytes wrap on x86-64, so that the farthest row can be reported as the nearest (`C105_wrap_violated`); the least entry is
  added back once and not once for every sub-vector, so that searches with and without a filter report different distances
  (`C105_offset_violated`).
- C106: `VectorStore::remap` of the third format uses `take` on the fixed size list array of the codes, but the values of this
  array are transposed (all first bytes of codes, then all second bytes). If a row is removed, the codes of the remaining rows
  are mixed (`C106_mixed_violated`): after a compaction of a dataset with deleted rows, an `IVF_PQ` index reports wrong
  distances. The first format gathers the codes by strides and transposes them back and is right (`C106_first_format`).
- C107: merging indices of the third format reads the vectors of indexed rows from the dataset and quantizes them as they are,
  while new rows are quantized less the centroid of the partition, and queries too (`C107_residual_violated`); cosine
  also misses the normalization. `take_rows` drops deleted rows and the row id column does not fit then, so that
  the merge of an index with a deleted row fails (`C107_deleted_violated`).
- C108: with 4 bits and no filter the farthest row can be returned as the nearest (`C108_farthest_violated`), see C105.
- C109: numbers of rows and queries outside the range of the training sample are clamped, so the distance may be wrong by any
  amount (`C109_outside_violated`). A sample of equal numbers gives NaN for every number and `to_u8().unwrap()` panics
  (`C109_constant_violated`). For dot the product of the bytes is used although the bytes are relative to the least number
  (`C109_dot_violated`), and the constant 1 is scaled with the product. For cosine the squared distance of normalized vectors is
  reported, which is twice the cosine distance (`C109_cosine_violated`, `C109_cosine_twice`). With more than 66051 dimensions the
  32-bit sums may wrap.
- C110: merging reads the vectors of indexed rows from the dataset and quantizes them without normalization
  (`C110_cosine_violated`); it fails if an indexed row was deleted (`C110_deleted_violated`).
- C112: a new node is linked back only by neighbors that would keep it (`cutoff`, `graph/builder.rs` 50-57, compares with the last
  neighbor of a full list), so a row far from the others is a neighbor of none. A query equal to it that asks for all rows does not give
  it, and a filter that selects only it gives nothing (`C112_lost_violated`). `distance_range` is ignored: only `ef` is taken of the query
  (`C112_bounds_violated`).
- C113: `level_count` counts node 0 only at level 0 (`hnsw/builder.rs` 741), but `to_batch` writes node 0 at all levels, so the offsets of
  upper levels in the metadata are too low: rows are lost at one level and read at the next (`C113_violated`, `C113_shifted_violated`).
- C114: the page table of a legacy file starts at the smallest id of the file, but is read from the first id that the manifest lists
  (`fragment.rs` 778-780), and `merge_insert` of some columns replaces ids in this list by -2 (`merge_insert.rs` 978-986). Once the
  column with the smallest id is replaced, other columns are read at pages of other columns, or the file cannot be opened
  (`C114_first_replaced_shifts_violated`, `C114_violated`); a session that has the table in its cache still reads correctly
  (`C114_cached_partial`). If the largest id of the schema is a struct without fields, the table is read beyond its end
  (`C114_empty_struct_violated`).
- C115: in `FileFragment::validate` the variable that should hold the last id is never updated and only rejects negative ids, so that it
  rejects the ids -2 of `merge_insert`: every version after `merge_insert` of some columns is reported as corrupt (`C115_replaced_violated`).
  Adding a column of nulls and dropping all others leaves fragments without files, on which `validate` panics
  (`C115_only_nulls_violated`). The documentation says that ids of all files are in order and that each field of the schema has a
  file; neither is checked (`C115_documented_violated`).
- C116: `fix_schema` looks up duplicate ids in the schema with `unwrap`: it panics if the duplicate column was dropped
  (`C116_dropped_violated`). It renames one of the files that list the id; if three files do, two are left and the id is no longer in
  the schema, so each later commit panics (`C116_three_violated`). Ids of legacy files decide where the page table is read: after
  the repair the table is read up to the new id, beyond its end (`C116_legacy_violated`); the project's own test has such files
  (`C116_legacy_test_violated`), but reads none of them.
- C117: `DataReplacement` takes only the path of the new file and keeps the column indices of the old one, so columns are exchanged if the
  new file has them in another order (`C117_columns_violated`). A fragment that is given twice is in the new version twice
  (`C117_twice_violated`). Indices of replaced columns stay and cover the replaced fragments, so searches use old values
  (`C117_index_violated`). The length (`C117_length_violated`; a TODO in the code) and, for columns that no file has, the format of the new
  file (`C117_formats_violated`) are not checked.
- **C118 (TFRecord files)**: the bytes of a tensor before the first aligned address are dropped (`append_primitive_from_slice`, `tfrecord.rs` 781-783: the prefix of `align_to` is shorter than a value, so `chunks_exact` gives nothing), so all values are read at shifted offsets and one is missing (`C118_unaligned_violated`, `C118_unaligned_rows_violated`); doubles in `double_val` are ignored because the code tests `float_val` (`tfrecord.rs` 718; `C118_double_violated`); a list of tensors that is missing in a record adds nulls that the offsets do not count, so the next records get wrong tensors (`C118_list_missing_violated`); a plain feature without values, or with several ones, shifts the rows after it or loses rows silently (`C118_shift_violated`, `C118_lost_violated`); a record without features panics in the conversion though the inference skips it (`C118_features_violated`).
- **C119 (shared streams)**: with a capacity of one, a half that is polled while the other one is inside the inner stream waits for the only permit; the other half then buffers an item for it without a wake, and takes over the waiting future with its own waker, so both sleep for ever (`futures.rs` 109-117 returns before the waker is stored at 130; `C119_parallel_violated`). The only user with a capacity of one polls both halves in one task, where this cannot happen (`C119_one_task_partial`). There is no `Drop`: if one half goes away, the other one gets as many items as the capacity and then sleeps for ever (`C119_dropped_violated`), or gets nothing if the half that is gone was waiting for the inner stream (`C119_dropped_polling_violated`). `write.rs` 421 uses `join!`, so a write with blobs hangs instead of giving the error if one of its two writers fails before the end of the data.
- **C120.** A decoder of a bitpacked page forgets that it has skipped rows.  `BitpackedPageDecoder::decode` (`bitpack.rs` 372-389) subtracts from `rows_to_skip` the rows
  of buffers that are skipped as a whole, but does not set it to zero after the buffer in which the skipped rows end.  If several ranges of rows are read in
  batches, and a batch starts `k` rows inside a range and goes on to the next one, `k` rows of the next range are skipped as well (or all of it), and the batch ends with
  zeros instead of the last rows (`C120_skipped_again`, `C120_violated`).  No error is raised.  Scans of one range (`C120_one_range_partial`), takes of single rows, which
  is how the file reader takes rows (`decoder.rs` 1341-1344; `C120_take_partial`), and anything in one batch (`C120_one_batch_partial`) are right, so that it needs a
  caller that gives several ranges of more than one row (`RequestedRows::Ranges`, `decoder.rs` 1829-1832; the file reader gives one range).
- **C121.** A range is lost when the one before it ends with a chunk.  The loop of `bitpacked_decode!` (`bitpack_fastlanes.rs` 478-560) leaves a chunk in its first case
  (`curr` plus the rest of the chunk is at most the end of the range) without going on to the next range; when the range ended exactly there and the next range starts in the
  same chunk, the next chunk is used for it, or there is none.  This takes ranges that repeat rows, such as the last row of a chunk twice, which `schedule_take` allows
  (`decoder.rs` 1336 asks only for indices that do not decrease).  Proved for every page: the decoder has one row instead of two, and the slice for a batch with both panics
  (`C121_twice_violated`).  Takes of a dataset ask for each row once (`take.rs` 222, 447) and are covered by `C121_in_order_partial`.
- **C122.** Null structs become valid.  `merge_with_schema` makes a struct with parts on both sides by `StructArray::from`, without looking at the nulls of either side
  (`lance-arrow/src/lib.rs` 697-711), and `selection_as_expr` makes a struct of which some children are selected by `named_struct` (`projection.rs` 83-99), which has no nulls.  So
  a struct that is null comes out as a struct of nulls if its children are read in two steps, or if it is in new data that is joined with indexed data and only some of its
  children are selected; the same query gives null for a row of indexed data.  `C122_late_violated` and `C122_some_children_violated` show this for all rows.  `compute_projection`
  also takes a struct as stored if as many children are asked for as it has, whatever their order (`C122_whole`).
  The same `project` is the last step of every scan that has read other columns than those that are asked for (`scanner.rs` 1498-1502), so a filter on one child of a struct and
  a selection of another one are enough.
- **C123.** The rule that joins takes can panic.  `collapse_takes` (`optimizer.rs` 50-70) gives the outer take the input of the inner one; what is then read is only what the
  outer take asks for, so columns of the inner take that it does not ask for are gone.  If the names differ within the length of the shorter schema,
  `remap_collapsed_output` looks for all old columns and its `unwrap` panics; otherwise the columns are silently missing.  `Scanner::create_plan` makes such takes: a scan with a filter
  that a scalar index answers takes the columns that are asked for (`scanner.rs` 1904), and then those of the order, alone (`scanner.rs` 1440-1448).  Proved for all datasets and
  columns: if no column of the order is asked for, planning panics (`C123_order_violated`).
