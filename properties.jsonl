{"id": "C01", "title": "Row addresses are faithful", "statement": "A row address built from a fragment id and a row offset gives back exactly that fragment id and offset; different (fragment, offset) pairs have different addresses; sorting addresses sorts by fragment first and offset second; the address range of a fragment contains exactly that fragment's addresses.", "quantifier": "every fragment id and offset below 2^32", "why_tests_cant": "The domain has 2^64 values and the boundary (last fragment id) is easy to miss.", "anchors": ["rust/lance-core/src/utils/address.rs:RowAddress"]}
{"id": "C02", "title": "Row sets behave as sets", "statement": "After any sequence of insert, insert-range, insert-fragment, remove, union, intersection, difference and retain-fragments on a row set, a row address is reported as contained exactly when the same sequence on a mathematical set contains it, including entries that stand for a whole fragment.", "quantifier": "every sequence of operations and every row address", "why_tests_cant": "Whole-fragment and partial entries meet in all combinations; a fixed test covers a few pairs.", "anchors": ["rust/lance-core/src/utils/mask.rs:RowIdTreeMap"]}
{"id": "C03", "title": "Row set serialization round trip", "statement": "Serializing a row set and reading it back gives the same row set, and the announced serialized size equals the number of bytes written.", "quantifier": "every row set", "why_tests_cant": "All mixes of whole and partial fragments in any number.", "anchors": ["rust/lance-core/src/utils/mask.rs:serialize_into", "rust/lance-core/src/utils/mask.rs:deserialize_from", "rust/lance-core/src/utils/mask.rs:serialized_size"]}
{"id": "C04", "title": "Row filters obey boolean logic", "statement": "Negating a row filter selects exactly the rows it did not select; AND selects the rows selected by both and OR the rows selected by at least one; adding a block or allow list narrows the selection accordingly.", "quantifier": "every pair of filters (any combination of allow and block lists) and every row", "why_tests_cant": "Sixteen presence combinations times unbounded contents.", "anchors": ["rust/lance-core/src/utils/mask.rs:RowIdMask"]}
{"id": "C05", "title": "Deletion vectors have set semantics in every representation", "statement": "Membership, range containment, range cardinality, length and sorted iteration of a deletion vector are those of the set of deleted offsets, and extending it never changes the answer for other offsets, independent of the internal representation.", "quantifier": "every deletion vector and every extension sequence", "why_tests_cant": "Representation switches depend on sizes and size hints.", "anchors": ["rust/lance-core/src/utils/deletion.rs:DeletionVector"]}
{"id": "C06", "title": "Logical row numbers map to the right surviving row", "statement": "Asking for the n-th live row of a fragment returns the n-th non-deleted physical row: the offset mapper over any increasing sequence of requests, fragment take and range reads all agree with that rule.", "quantifier": "every deletion set, every increasing request sequence, every range", "why_tests_cant": "The stateful binary search depends on the whole history of requests.", "anchors": ["rust/lance-core/src/utils/deletion.rs:OffsetMapper", "rust/lance/src/dataset/fragment.rs:take", "rust/lance/src/dataset/fragment.rs:patch_range_for_deletions"]}
{"id": "C07", "title": "Alignment padding and bit widths", "statement": "Padding a length to a power-of-two alignment yields the least multiple not below the length; the computed bit width of a positive number is the least width that holds it.", "quantifier": "every length and power-of-two alignment; every positive u32", "why_tests_cant": "Unbounded domain.", "anchors": ["rust/lance-core/src/utils/bit.rs"]}
{"id": "C08", "title": "Compressed integer arrays are lossless", "statement": "Encoding a list of u64 ids into the base-plus-offset arrays and reading it back (iteration, random access, slice, first/last, binary search) returns the original values.", "quantifier": "every list of u64 values", "why_tests_cant": "Width selection depends on the spread of the values.", "anchors": ["rust/lance-table/src/rowids/encoded_array.rs:EncodedU64Array"]}
{"id": "C09", "title": "Bitmaps", "statement": "After any sequence of set/clear on a bitmap, get returns the last write for that position, and count_ones counts exactly the set positions, also on slices.", "quantifier": "every length, operation sequence and slice", "why_tests_cant": "Byte-boundary logic for arbitrary offsets.", "anchors": ["rust/lance-table/src/rowids/bitmap.rs:Bitmap"]}
{"id": "C10", "title": "Row id segments preserve ids", "statement": "A row id segment built from any list of ids lists them in the same order; positional access and reverse lookup are inverse; deleting or masking positions leaves exactly the other ids in order.", "quantifier": "every list of distinct ids and every deletion", "why_tests_cant": "Five representations are chosen by size estimates.", "anchors": ["rust/lance-table/src/rowids/segment.rs:U64Segment"]}
{"id": "C11", "title": "Slicing and re-chunking row ids", "statement": "A slice of a row id sequence equals the slice of the listed ids, and re-chunking sequences to new fragment sizes keeps every id exactly once and in order.", "quantifier": "every sequence, slice window and chunk size list", "why_tests_cant": "Segment kinds and window positions combine without bound; compaction relies on it.", "anchors": ["rust/lance-table/src/rowids/segment.rs:slice", "rust/lance-table/src/rowids.rs:slice", "rust/lance-table/src/rowids.rs:rechunk_sequences"]}
{"id": "C12", "title": "Row id sequence editing", "statement": "Extending a sequence appends the ids; deleting ids removes exactly these; masking positions removes exactly the ids at these positions.", "quantifier": "every sequence and every deletion list", "why_tests_cant": "Segments and ids combine without bound.", "anchors": ["rust/lance-table/src/rowids.rs:RowIdSequence"]}
{"id": "C13", "title": "Stable row id lookup", "statement": "Looking up a row id gives the address at which a scan finds it, and nothing for ids the dataset does not hold.", "quantifier": "every set of fragments with disjoint row id sequences and every id", "why_tests_cant": "Depends on the shape of all sequences.", "anchors": ["rust/lance-table/src/rowids/index.rs:RowIdIndex"]}
{"id": "C14", "title": "Row id sequence storage round trip", "statement": "Writing a row id sequence to its stored form and reading it back gives the same sequence.", "quantifier": "every row id sequence", "why_tests_cant": "Unbounded sizes and widths.", "anchors": ["rust/lance-table/src/rowids/serde.rs"]}
{"id": "C15", "title": "Fragment ids are unique and not reused", "statement": "In every version fragment ids are unique, and an id given to a fragment in some version is never given to another fragment later.", "quantifier": "every history of commits", "why_tests_cant": "It is a property of whole histories.", "anchors": ["rust/lance/src/dataset/transaction.rs:build_manifest", "rust/lance-table/src/format/manifest.rs:max_fragment_id"]}
{"id": "C16", "title": "Stable row ids are assigned once", "statement": "With stable row ids enabled every newly written row gets an id no other row ever had, and the ids in a version are pairwise distinct.", "quantifier": "every history of commits", "why_tests_cant": "Whole-history property.", "anchors": ["rust/lance/src/dataset/transaction.rs:assign_row_ids"]}
{"id": "C17", "title": "Concurrent commits do not lose updates", "statement": "If a commit succeeds, no transaction committed between the version it read and its own version changed the rows or fragments it rewrites; two writers changing the same fragment cannot both succeed without one seeing the other.", "quantifier": "every pair/sequence of concurrent transactions and every interleaving", "why_tests_cant": "Interleavings are unbounded.", "anchors": ["rust/lance/src/dataset/transaction.rs:conflicts_with", "rust/lance/src/io/commit.rs:commit_transaction"]}
{"id": "C18", "title": "Config updates", "statement": "After a config update, exactly the deleted keys are gone (unless also upserted), the upserted keys have the new values and all others are unchanged; concurrent updates of disjoint keys both take effect.", "quantifier": "every config, every update and every pair of concurrent updates", "why_tests_cant": "Unbounded keys and interleavings.", "anchors": ["rust/lance-table/src/format/manifest.rs:update_config", "rust/lance/src/dataset/transaction.rs:upsert_key_conflict"]}
{"id": "C19", "title": "Transaction file round trip", "statement": "A transaction written to its file and read back is the same transaction.", "quantifier": "every transaction", "why_tests_cant": "All field combinations.", "anchors": ["rust/lance/src/dataset/transaction.rs:TryFrom<pb::Transaction>"]}
{"id": "C20", "title": "Version files are named injectively and latest is the maximum", "statement": "The version can be recovered from a manifest file name; different versions have different names; the lexicographically first V2 name is the newest version; resolving the latest version returns the maximum version present.", "quantifier": "every version number and every directory listing, in any order", "why_tests_cant": "Listings come in arbitrary order and size.", "anchors": ["rust/lance-table/src/io/commit.rs:ManifestNamingScheme", "rust/lance-table/src/io/commit.rs:current_manifest_path"]}
{"id": "C21", "title": "At most one writer wins each version", "statement": "For each version number at most one of any number of concurrent writers reports success; once a version is visible its content never changes; a crash at any point leaves either no new version or a complete one.", "quantifier": "every number of writers, every interleaving and every crash point", "why_tests_cant": "Schedules and crash points are unbounded.", "anchors": ["rust/lance-table/src/io/commit.rs:RenameCommitHandler", "rust/lance-table/src/io/commit.rs:CommitLock", "rust/lance-table/src/io/commit.rs:UnsafeCommitHandler"]}
{"id": "C22", "title": "External manifest store keeps versions", "statement": "With an external manifest store a version that was committed resolves to a manifest with the committed content after any interleaving of writers, readers and crashes, and no two writers win the same version.", "quantifier": "every interleaving and crash point", "why_tests_cant": "Schedules are unbounded.", "anchors": ["rust/lance-table/src/io/commit/external_manifest.rs"]}
{"id": "C23", "title": "Cleanup keeps every file a retained version needs", "statement": "Cleaning up old versions removes no file referenced by a version that is kept; the newest version, tagged versions and versions newer than the cut-off are kept.", "quantifier": "every set of versions, tags and files and every cut-off", "why_tests_cant": "All reference graphs.", "anchors": ["rust/lance/src/dataset/cleanup.rs"]}
{"id": "C24", "title": "Tags", "statement": "A created tag resolves to its version until updated or deleted; creating an existing tag or tagging a missing version fails and changes nothing; tag names that could escape the tag directory are rejected.", "quantifier": "every tag history and every name", "why_tests_cant": "Whole histories and all strings.", "anchors": ["rust/lance/src/dataset/refs.rs"]}
{"id": "C25", "title": "Compaction planning", "statement": "Compaction tasks are disjoint runs of adjacent fragments in dataset order; a task never mixes fragments with different index coverage; no task merely rewrites a single fragment that needs nothing.", "quantifier": "every fragment list, metrics and options", "why_tests_cant": "Unbounded fragment lists.", "anchors": ["rust/lance/src/dataset/optimize.rs:plan_compaction"]}
{"id": "C26", "title": "Compaction row address remapping", "statement": "After compaction every surviving row's old address maps to the address where it now lives, and every deleted row's old address maps to nothing.", "quantifier": "every set of rewritten fragments and deletions", "why_tests_cant": "Unbounded sizes, arbitrary deletions.", "anchors": ["rust/lance/src/dataset/optimize/remapping.rs"]}
{"id": "C27", "title": "Index coverage after rewrite", "statement": "After a rewrite the set of fragments an index claims to cover contains a new fragment only if all its source fragments were covered, and keeps the others.", "quantifier": "every index coverage set and rewrite groups", "why_tests_cant": "All sets.", "anchors": ["rust/lance/src/dataset/transaction.rs:recalculate_fragment_bitmap"]}
{"id": "C28", "title": "The row id column is right for every read shape", "statement": "Each row returned by a scan or take carries its own row id and address, for full, range and index reads, with and without deletions and stable row ids.", "quantifier": "every fragment, deletion set, read shape and batch size", "why_tests_cant": "Shapes and batch boundaries are unbounded.", "anchors": ["rust/lance-table/src/utils/stream.rs:apply_row_id_and_deletes"]}
{"id": "C29", "title": "Re-batching is lossless", "statement": "Re-chunking or breaking a stream keeps all rows in order; every chunk but the last has the requested size; no written file exceeds the row limit.", "quantifier": "every batch list and size", "why_tests_cant": "Batch boundaries are unbounded.", "anchors": ["rust/lance-datafusion/src/chunker.rs", "rust/lance/src/dataset/write.rs:do_write_fragments"]}
{"id": "C30", "title": "Read parameters", "statement": "Slicing read parameters and expanding them to offsets commute; expansion yields the requested offsets.", "quantifier": "every parameter kind, window and length", "why_tests_cant": "Unbounded.", "anchors": ["rust/lance-io/src/lib.rs:ReadBatchParams"]}
{"id": "C31", "title": "Take returns the requested rows in order", "statement": "take(indices) returns for each requested index the live row at this position, in request order with duplicates kept; out-of-range indices are reported.", "quantifier": "every index list and dataset layout", "why_tests_cant": "Arbitrary orders, duplicates and layouts.", "anchors": ["rust/lance/src/dataset/take.rs"]}
{"id": "C32", "title": "Merge insert", "statement": "After merge-insert the dataset holds exactly the rows that the SQL MERGE with these options would hold, and the reported statistics count them.", "quantifier": "every source, target and option combination", "why_tests_cant": "Arbitrary data.", "anchors": ["rust/lance/src/dataset/write/merge_insert.rs"]}
{"id": "C33", "title": "Update", "statement": "UPDATE ... SET computes all new values from the old row, changes exactly the rows matching the predicate and leaves the others.", "quantifier": "every dataset, predicate and set of assignments", "why_tests_cant": "Arbitrary data and orders.", "anchors": ["rust/lance/src/dataset/write/update.rs"]}
{"id": "C34", "title": "Merging columns by key", "statement": "Merging columns on a key gives each row the values of the right row with the same key and null if there is none.", "quantifier": "every left and right table", "why_tests_cant": "Arbitrary data and concurrent build order.", "anchors": ["rust/lance/src/dataset/hash_joiner.rs"]}
{"id": "C35", "title": "I/O scheduler respects its budgets and completes everything", "statement": "At every moment outstanding requests do not exceed the iops limit and un-consumed bytes stay within the buffer except for the highest-priority request; requests start in priority order; no request is lost and the queue never stalls while nothing is in flight.", "quantifier": "every schedule of submissions and completions", "why_tests_cant": "Schedules are unbounded.", "anchors": ["rust/lance-io/src/scheduler.rs:IoQueueState"]}
{"id": "C36", "title": "Coalesced reads return the requested bytes", "statement": "Reading a list of byte ranges returns for each range exactly the bytes of the file in that range, in request order, although nearby ranges are merged into larger reads.", "quantifier": "every file content and range list", "why_tests_cant": "Merging depends on all ranges.", "anchors": ["rust/lance-io/src/scheduler.rs:submit_request"]}
{"id": "C37", "title": "Scalar index searches are exact", "statement": "Searching a bitmap, btree, flat or label-list index returns exactly the rows whose value satisfies the query.", "quantifier": "every column content, page size and query", "why_tests_cant": "Arbitrary data.", "anchors": ["rust/lance-index/src/scalar/bitmap.rs", "rust/lance-index/src/scalar/btree.rs", "rust/lance-index/src/scalar/flat.rs", "rust/lance-index/src/scalar/label_list.rs"]}
{"id": "C38", "title": "Scalar indices stay exact after compaction", "statement": "After remapping a scalar index with the row address map of a compaction, a search returns exactly the new addresses of the surviving matching rows and the unchanged addresses of rows that were not moved.", "quantifier": "every index and address map", "why_tests_cant": "Arbitrary data and maps.", "anchors": ["rust/lance-index/src/scalar/bitmap.rs:remap", "rust/lance-index/src/scalar/btree.rs:remap", "rust/lance-index/src/scalar/flat.rs:remap_batch"]}
{"id": "C39", "title": "Filters give the same rows with and without an index", "statement": "Splitting a filter into an index query and a refine filter returns exactly the rows on which the filter is true, including columns with nulls.", "quantifier": "every filter expression, index configuration and row", "why_tests_cant": "Unbounded expressions.", "anchors": ["rust/lance-index/src/scalar/expression.rs"]}
{"id": "C40", "title": "Sharded samplers partition the data", "statement": "Across all ranks the sharded samplers yield every fragment/row range exactly once, for every rank count, batch size and length.", "quantifier": "every world size, batch size and dataset length", "why_tests_cant": "Unbounded.", "anchors": ["python/python/lance/sampler.py:ShardedFragmentSampler", "python/python/lance/sampler.py:ShardedBatchSampler"]}
{"id": "C41", "title": "Random sampling returns the requested number of distinct rows", "statement": "Sampling n rows returns n distinct valid rows when the dataset has at least n; reservoir sampling returns min(k, length) items of the stream.", "quantifier": "every n, dataset size, block limit and random choice", "why_tests_cant": "All random choices.", "anchors": ["python/python/lance/sampler.py:_efficient_sample", "python/python/lance/sampler.py:reservoir_sampling"]}
{"id": "C42", "title": "Unknown format features are refused", "statement": "A dataset whose reader (writer) flags contain a feature this library does not know is refused for reading (writing); the flags written describe the features the manifest uses.", "quantifier": "every flag word and manifest", "why_tests_cant": "2^64 flag words.", "anchors": ["rust/lance-table/src/feature_flags.rs"]}
{"id": "C43", "title": "Fragment metadata round trip", "statement": "Fragment metadata written to a manifest and read back is the same.", "quantifier": "every fragment", "why_tests_cant": "All field combinations.", "anchors": ["rust/lance-table/src/format/fragment.rs"]}
{"id": "C44", "title": "Row offset ranges find all fragments", "statement": "For every range of global row offsets the fragments reported are exactly those with a live row in the range, with the right starting offset.", "quantifier": "every fragment list and range", "why_tests_cant": "Unbounded.", "anchors": ["rust/lance-table/src/format/manifest.rs:fragments_by_offset_range"]}
{"id": "C45", "title": "Deleted rows never come back through an index", "statement": "The deletion prefilter removes every row that is deleted or whose fragment no longer exists, and no live row.", "quantifier": "every manifest, deletion state and index coverage", "why_tests_cant": "Arbitrary states.", "anchors": ["rust/lance/src/index/prefilter.rs"]}
{"id": "C46", "title": "Reserved fragment ids are exclusive", "statement": "The fragment ids handed out by a reservation are not given to any other writer.", "quantifier": "every interleaving of reservations and commits", "why_tests_cant": "Schedules are unbounded.", "anchors": ["rust/lance/src/dataset/optimize.rs:reserve_fragment_ids", "rust/lance/src/dataset/transaction.rs:build_manifest"]}
{"id": "C47", "title": "Restore brings back the old content", "statement": "Restoring a version makes the latest version show exactly the old content, without changing any older version.", "quantifier": "every history", "why_tests_cant": "Whole histories.", "anchors": ["rust/lance/src/dataset/transaction.rs:restore_old_manifest"]}
{"id": "C48", "title": "Delete removes exactly the matching rows", "statement": "Deleting by predicate removes exactly the live rows matching it, fully deleted fragments disappear and untouched fragments are unchanged.", "quantifier": "every dataset and predicate", "why_tests_cant": "Arbitrary data.", "anchors": ["rust/lance/src/dataset/fragment.rs:delete", "rust/lance/src/dataset/fragment.rs:write_deletions"]}
{"id": "C49", "title": "A schema change does not undo another", "statement": "A commit that sets the schema (dropping, renaming, adding or casting columns) was prepared from the schema of the version it is committed on, so it does not undo a schema or metadata change committed after it read.", "quantifier": "every history and interleaving of writers", "why_tests_cant": "Races between writers; tests try a few pairs of operations.", "anchors": ["rust/lance/src/dataset/transaction.rs:conflicts_with", "rust/lance/src/dataset/transaction.rs:build_manifest", "rust/lance/src/dataset/schema_evolution.rs"]}
{"id": "C50", "title": "Indexed fields exist", "statement": "In every version every index refers only to fields of that version's schema.", "quantifier": "every history and interleaving of writers", "why_tests_cant": "An invariant over whole histories including races between index creation and schema changes.", "anchors": ["rust/lance/src/dataset/transaction.rs:retain_relevant_indices", "rust/lance/src/dataset/transaction.rs:conflicts_with"]}
{"id": "C51", "title": "Nested schemas survive storage", "statement": "The flat list of fields written to a manifest or transaction is read back as the same tree of fields, for any nesting depth and order, provided every field has its own assigned id; different schemas are stored differently.", "quantifier": "every schema tree", "why_tests_cant": "Trees of any shape and any id assignment.", "anchors": ["rust/lance-file/src/datatypes.rs:From<&Fields> for Schema", "rust/lance-core/src/datatypes/schema.rs:mut_field_by_id"]}
{"id": "C52", "title": "Manifest round trip", "statement": "A manifest that was written and read back is the same manifest; a manifest without a recorded storage format gets the version its data files agree on, and one that claims stable row ids without having them is rejected.", "quantifier": "every manifest", "why_tests_cant": "All field combinations.", "anchors": ["rust/lance-table/src/format/manifest.rs:TryFrom<pb::Manifest>", "rust/lance-table/src/format/fragment.rs:try_infer_version"]}
{"id": "C53", "title": "Compaction keeps the contents", "statement": "A committed compaction leaves exactly the rows of the version it is committed on, including everything committed while it ran: no row is lost, duplicated or brought back, and a scan returns the rows in the same order as before.", "quantifier": "every history of concurrent commits and every set of compaction tasks", "why_tests_cant": "Depends on which commits land between planning, running and committing the tasks.", "anchors": ["rust/lance/src/dataset/optimize.rs:commit_compaction", "rust/lance/src/dataset/transaction.rs:handle_rewrite_fragments", "rust/lance/src/dataset/transaction.rs:build_manifest"]}
{"id": "C54", "title": "Limit and offset select the right rows", "statement": "A scan with filter, ordering, limit and offset returns the matching live rows in the requested order, skipping exactly `offset` of them and returning at most `limit`, whatever the fragments, deletions and batch boundaries.", "quantifier": "every dataset, deletion set, filter, ordering, limit, offset and batching", "why_tests_cant": "The range is divided among fragments and patched for deletions; the combinations are unbounded.", "anchors": ["rust/lance/src/dataset/scanner.rs:create_plan", "rust/lance/src/io/exec/scan.rs:try_new_v2", "rust/lance/src/dataset/fragment.rs:read_range"]}
{"id": "C55", "title": "Blob takes skip exactly the deleted rows", "statement": "Given row ids or addresses, the list used to fetch blob columns contains exactly the ids whose row is live, in request order with duplicates kept; ids that do not exist or were deleted are left out without affecting the others.", "quantifier": "every id list, deletion state and fragment layout", "why_tests_cant": "Arbitrary orders, duplicates, unknown ids and deletions.", "anchors": ["rust/lance/src/dataset.rs:filter_addr_or_ids", "rust/lance/src/dataset.rs:filter_deleted_ids", "rust/lance/src/dataset/take.rs:get_filtered_ids"]}
{"id": "C56", "title": "PyTorch batches keep the rows", "statement": "The PyTorch dataset re-batches its stream without losing, repeating or reordering rows, batches exceed the batch size only if a batch of the stream does, and the items of a tensor dataset cover the tensor once.", "quantifier": "every stream of batches, every batch size, every tensor length", "why_tests_cant": "Unbounded streams and sizes.", "anchors": ["python/python/lance/torch/data.py:_buffer_arrow_batches", "python/python/lance/torch/data.py:LanceTensorDataset"]}
{"id": "C57", "title": "Cached iteration repeats the stream", "statement": "Every iterator over a cached dataset yields a prefix of the original stream, and all of it if it ends normally, however iterators interleave; every epoch yields the same batches.", "quantifier": "every stream, every interleaving of any number of iterators", "why_tests_cant": "All interleavings.", "anchors": ["python/python/lance/_dataset/cache.py:CachedDataset"]}
{"id": "C58", "title": "Added columns line up with the rows of a fragment that has deletions", "statement": "Adding columns to a fragment (merge, add_columns) writes a data file with exactly one row for every physical row of the fragment; the value computed for a row that is not deleted is at that row's own offset, wherever the deleted rows and batch boundaries are.", "quantifier": "every fragment, deletion vector, batch split and file version", "why_tests_cant": "Alignment depends on every combination of deletions and batch boundaries.", "anchors": ["rust/lance/src/dataset/updater.rs:DeletionRestorer", "rust/lance/src/dataset/updater.rs:add_blanks"]}
{"id": "C59", "title": "Merge insert with some of the columns changes these columns in place and nothing else", "statement": "A merge-insert whose source has only some of the table's columns (the keys among them) leaves every old row where it was, with its row id and address; in a row that is matched and updated exactly the columns of the source are replaced by the values of its partner; every other cell is unchanged; source rows without partner are added with nulls in the missing columns; the statistics count both. A source with two rows for one target row is refused.", "quantifier": "every source, column subset, target, deletion vector, batch cut, task order", "why_tests_cant": "Depends on every arrangement of updates over fragments, deletions and batch boundaries.", "anchors": ["rust/lance/src/dataset/write/merge_insert.rs:update_fragments", "rust/lance-datafusion/src/dataframe.rs:BatchStreamGrouper"]}
{"id": "C60", "title": "Scalar indices stay exact when rows are added to them", "statement": "After new rows are added to a bitmap, btree or label-list index by an index update (optimize_indices), a search returns exactly the old and new rows whose value satisfies the query; the same holds after any sequence of such updates and of remaps.", "quantifier": "every indexed content, every list of new rows, every page size, tie order, batch cut and sequence of operations", "why_tests_cant": "Depends on the position of page boundaries, NULLs and equal values in arbitrary data, and on histories of any length.", "anchors": ["rust/lance-index/src/scalar/bitmap.rs:update", "rust/lance-index/src/scalar/btree.rs:update", "rust/lance-index/src/scalar/btree.rs:all_page_ids", "rust/lance-index/src/scalar/label_list.rs:update"]}
{"id": "C61", "title": "A literal in a filter keeps its value when it is converted to the column type", "statement": "When a filter compares a column with a literal of another type, the literal that is compared (and handed to an index) after the conversion to the type of the column has the value that was written; a literal that the column type cannot hold is refused; one that it can hold is accepted; converting twice is the same as converting once.", "quantifier": "every literal, every column type, every value (integers, floats, strings, booleans, timestamps, dates, times, NULL)", "why_tests_cant": "Depends on range limits, rounding and unit conversions over all values of all pairs of types.", "anchors": ["rust/lance-datafusion/src/expr.rs:safe_coerce_scalar", "rust/lance-datafusion/src/logical_expr.rs:coerce_expr"]}
{"id": "C62", "title": "A column read back row by row is the column that was written", "statement": "When a flat column is written to a version 2.0 file in any sequence of arrays, with any limit on the buffered memory and any maximum page size, reading any ascending row numbers (a number may come twice) or any ranges in order returns exactly the values of those rows in that order: arrays are gathered and cut into pages without losing or moving a row, and ranges are split at the ends of pages, over pages without rows and over ranges that cover several pages.", "quantifier": "every sequence of arrays, every memory size function, cache limit and page limit, every ascending sequence of row numbers and every sequence of ranges in order", "why_tests_cant": "page cuts depend on memory sizes and batch shapes, and ranges may start, end or cross anywhere; tests use a handful of page sizes", "anchors": ["rust/lance-encoding/src/encodings/logical/primitive.rs:164-240", "rust/lance-encoding/src/encodings/logical/primitive.rs:3235-3449", "rust/lance-encoding/src/decoder.rs:1159-1349", "python/python/lance/file.py:116-142"]}
{"id": "C63", "title": "List columns of version 2.0 files return the lists that were written", "statement": "For a list column of any depth written to a version 2.0 file in any arrays (null lists with hidden items, sliced arrays, offsets that do not start at 0) and with any page cuts of offsets and of items, reading any ascending row numbers or ordered ranges returns exactly those lists with the null lists null, in batches of any size; offsets of 32 bits give an error and never a wrong list when a batch has too many items; a list counts as loaded exactly when all of its items are.", "quantifier": "every sequence of arrow list arrays, every page cut, every depth of nesting, every ascending sequence of row numbers or ranges, every batch size, every result of the binary search", "why_tests_cant": "the offsets of a page hide nulls in the values, the extra offset of a range depends on where it starts in a page and items are read from another column with its own pages; the combinations are unbounded", "anchors": ["rust/lance-encoding/src/encodings/logical/list.rs:88-316", "rust/lance-encoding/src/encodings/logical/list.rs:431-495", "rust/lance-encoding/src/encodings/logical/list.rs:681-799", "rust/lance-encoding/src/encodings/logical/list.rs:904-1242", "python/python/lance/file.py:116-142"]}
{"id": "C64", "title": "Pages of fixed-width columns return the values that were written", "statement": "For a column of booleans, fixed-width values, nulls or fixed size lists of them (nested to any depth, with null lists and null items) written to a page of a version 2.0 file, reading any non-empty row ranges of the page in any order, also overlapping ones, in batches of any sizes returns exactly the values and nulls of those rows in that order, wherever the buffers of the page lie in the file.", "quantifier": "every sequence of arrow arrays of a flat type, every lossless codec, every placement of the buffers, every sequence of row ranges, every sequence of batch sizes", "why_tests_cant": "bit-packed buffers are read at byte boundaries and the skipped bits depend on where a batch meets a range; the combinations of ranges and batch sizes are unbounded", "anchors": ["rust/lance-encoding/src/data.rs:1382-1545", "rust/lance-encoding/src/encodings/physical/bitmap.rs:36-126", "rust/lance-encoding/src/encodings/physical/value.rs:62-224", "rust/lance-encoding/src/encodings/physical/basic.rs:110-236", "rust/lance-encoding/src/encodings/physical/fixed_size_list.rs:38-127"]}
{"id": "C65", "title": "Pages of string and binary columns return the strings that were written", "statement": "For a Utf8, LargeUtf8, Binary or LargeBinary column (nulls, empty strings, sliced arrays, several arrays) written to a page of a version 2.0 file, with or without compression of the bytes, reading any non-empty row ranges in any order in batches of any sizes returns exactly the strings and nulls of those rows.", "quantifier": "every sequence of string arrays with fewer than 2^63 bytes, every lossless codec, every placement of the buffers, every sequence of row ranges, every sequence of batch sizes", "why_tests_cant": "nulls are hidden in the stored offsets, a range that starts at row 0 has one offset less than the others and byte ranges are skipped when they are empty; the cases multiply with the number of ranges", "anchors": ["rust/lance-encoding/src/encodings/physical/binary.rs:62-253", "rust/lance-encoding/src/encodings/physical/binary.rs:276-351", "rust/lance-encoding/src/encodings/physical/binary.rs:374-529", "rust/lance-encoding/src/data.rs:1108-1201"]}
{"id": "C66", "title": "Dictionary columns and low-cardinality strings keep their values", "statement": "A dictionary column with any key width, any dictionaries (different ones in each array, null keys, keys that point to null items) and a Utf8 column that the writer chooses to dictionary encode come back value for value, null for null, for any non-empty row ranges in any order and batches of any sizes.", "quantifier": "every sequence of dictionary arrays, every sequence of string arrays, every lossless codec, every placement of the buffers, every sequence of ranges and batch sizes", "why_tests_cant": "the key type limits how many items and nulls fit, and dictionaries of all arrays of a page are joined; the failing cases are at the exact size limits of the key type", "anchors": ["rust/lance-encoding/src/data.rs:1234-1380", "rust/lance-encoding/src/encodings/physical/dictionary.rs:62-401", "rust/lance-encoding/src/encoder.rs:497-618", "rust/lance-encoding/src/encoder.rs:773-797"]}
{"id": "C67", "title": "What can be written in a page can be read back", "statement": "Whenever a column is written to a version 2.0 file without an error, its pages can be read, and structs with the packed encoding (any number of fixed-width fields) come back field by field for any non-empty row ranges in any order and batches of any sizes.", "quantifier": "every type and every sequence of arrays that can be written, every lossless codec, every placement of the buffers, every sequence of ranges and batch sizes", "why_tests_cant": "the types nest without bound and the writer and the reader choose their encodings in different places; each pair of a type and a shape of nulls would need its own test", "anchors": ["rust/lance-encoding/src/encoder.rs:497-618", "rust/lance-encoding/src/decoder.rs:850-980", "rust/lance-encoding/src/encodings/physical/packed_struct.rs:53-262", "rust/lance-encoding/src/encodings/logical/primitive.rs:3361-3384"]}
{"id": "C68", "title": "Blob columns return the values that were written", "statement": "A large binary column marked as blob (values stored out of line) that is read as data returns, for any rows in any order and batches of any sizes, exactly the values written: every byte right, nulls null, empty values empty, whatever other blob columns and pages the file has.", "quantifier": "every sequence of batches with any number of blob columns, every list of rows, every legal schedule of waits and drains", "why_tests_cant": "the descriptions are positions in a file shared by all blob columns and pages, and values are loaded and cut independently of batches; a wrong position shows only for particular mixes of sizes, nulls and schedules", "anchors": ["rust/lance-encoding/src/encodings/logical/blob.rs:1-420", "rust/lance-encoding/src/encoder.rs:307-337", "rust/lance-file/src/v2/writer.rs:309-390"]}
{"id": "C69", "title": "A blob opened as a file behaves like a file", "statement": "A value that is not null and is opened with take_blobs cannot be told from a plain file with the same bytes: reads of any size, readall, seeks with every whence, tell, close and calls after close give the same results or the same errors in every sequence of calls.", "quantifier": "every value at every position of every file, every finite sequence of calls", "why_tests_cant": "the behaviour depends on the whole history of calls (a cursor that survives readall, seeks past the end) and on where the value lies in the data file", "anchors": ["rust/lance/src/dataset/blob.rs:36-228", "python/src/dataset/blob.rs:29-86", "python/python/lance/blob.py:52-102"]}
{"id": "C70", "title": "Resuming add_columns from a checkpoint gives what one uninterrupted call gives", "statement": "When add_columns is called with a checkpoint file and stops at any point, any number of times, a later call with the same file that gets to the end yields the fragments and columns that one call without checkpoint on the current dataset would yield, or raises; batches whose results are stored are not computed again.", "quantifier": "every history of calls, every stopping point of each, every user function, every batch size, every change of the dataset between the calls", "why_tests_cant": "the stopping points multiply over calls, fragments and batches, and the state that survives is only the checkpoint file; a test can stop at a few points of one history", "anchors": ["rust/lance/src/dataset/schema_evolution.rs:290-401", "python/python/lance/udf.py:95-165", "python/src/dataset.rs:1955-2050"]}
{"id": "C71", "title": "Page statistics bound what is in the page", "statement": "When a version 1 file is written with statistics, what a scan concludes from the statistics of a page holds of every value of that page: a page taken to have no nulls has none, a page taken to be all null is, and every value lies between the stored minimum and maximum in the order that filters compare by. Collecting the statistics never fails.", "quantifier": "every type with statistics, every page, every split of the page into arrays, every value, nullable or not", "why_tests_cant": "the statistics are folded over values and truncated at 64 bytes, so a wrong bound shows only for particular values (NaN, zeros, multi-byte characters at the cut) or splits into arrays; a wrong bound silently loses rows much later", "anchors": ["rust/lance-file/src/writer/statistics.rs:36-590", "rust/lance/src/io/exec/pushdown_scan.rs:531-632"]}
{"id": "C72", "title": "A scan that uses page statistics returns the rows the filter selects", "statement": "A scan with a filter pushed down to pages returns exactly the rows that are not deleted and for which the filter is true, with the requested columns, row ids and row addresses, in order: leaving out pages, taking whole pages, reading the filter columns first and the others later makes no difference.", "quantifier": "every filter, projection, flags for row id and row address, every fragment with any deletions, any pages with the statistics their writer collected, every sound simplifier and evaluator of expressions", "why_tests_cant": "which of the paths a page takes depends on the filter, the statistics and the deletions together; losing rows needs one bad combination", "anchors": ["rust/lance/src/io/exec/pushdown_scan.rs:270-675", "rust/lance/src/dataset/fragment.rs:1817-1960", "rust/lance/src/dataset/scanner.rs:1361-1385"]}
{"id": "C73", "title": "A full text search returns the best documents", "statement": "A full text search without phrase on an inverted index returns, with their BM25 scores, the `limit` best of the selected rows that contain a token of the query: none is left out for a worse one, all are returned if there are no more than `limit`, and the search ends without panicking. This holds although the search skips documents by the upper bounds stored with the posting lists.", "quantifier": "every history of creation, updates and remappings of the index with every schedule of the workers, every set of documents, every query, every selection by deletions and prefilter, every limit, every outcome of unstable sorts and of the heap among equal scores", "why_tests_cant": "skipping is wrong only if a bound is too small or an iterator is advanced too far in some state of all iterators, threshold and candidates; a test can compare a few queries on a few corpora", "anchors": ["rust/lance-index/src/scalar/inverted/wand.rs:54-270", "rust/lance-index/src/scalar/inverted/index.rs:111-180"]}
{"id": "C74", "title": "A phrase query returns the documents that contain the phrase", "statement": "A phrase query on an index with positions returns only selected rows whose document contains the tokens of the phrase at consecutive positions, and returns the best `limit` of them. A document whose text contains the text of the phrase is one of them.", "quantifier": "every index history, every phrase, every selection by deletions and prefilter, every tokenizer configuration", "why_tests_cant": "whether the check runs depends on which posting lists have selected rows, and whether positions agree on what the tokenizer removed; tests use a few fixed sentences without deletions", "anchors": ["rust/lance-index/src/scalar/inverted/wand.rs:122-176", "rust/lance-index/src/scalar/inverted/wand.rs:271-351", "rust/lance-index/src/scalar/inverted/index.rs:111-166"]}
{"id": "C75", "title": "A full text index stores exactly the tokens of its documents, however it was built", "statement": "After any history of creating, updating and remapping an inverted index, the posting list of every token has exactly the documents with that token, by increasing row id, each with its frequency and positions; a token without list is in no document; document lengths and counts are those of the documents; the stored maximal score of a list is not less than any contribution of the list. Two histories ending with the same documents store the same lists.", "quantifier": "every history, every number of shards and hash function, every order in which workers receive documents, every flush schedule, every order of writing, every mapping of row ids to fresh ids or to deletion", "why_tests_cant": "the schedules of concurrent workers and flushes by memory size are not reproducible in a test, and a lost or duplicated entry shows only for one token under one schedule", "anchors": ["rust/lance-index/src/scalar/inverted/builder.rs:99-672", "rust/lance-index/src/scalar/inverted/index.rs:318-955"]}
{"id": "C76", "title": "A full text scan of a dataset returns the best rows of all columns, indexed or not", "statement": "A scan with a full text query over one or more indexed columns returns the best rows in decreasing order of score, each once and with its greatest score over the columns, rows of fragments without index included; limit and offset select from this ranking; filters before or after the search restrict the rows that are ranked.", "quantifier": "every set of columns and index histories, every set of unindexed rows, every query, limit, offset and filter", "why_tests_cant": "the merge loses a row only for particular score orders across columns, and limit, offset, filter and unindexed data interact; tests check plans and a few small tables", "anchors": ["rust/lance/src/dataset/scanner.rs:1340-1352", "rust/lance/src/dataset/scanner.rs:1449-1490", "rust/lance/src/dataset/scanner.rs:1516-1664", "rust/lance/src/io/exec/fts.rs:142-355", "rust/lance-index/src/scalar/inverted/index.rs:1018-1115"]}
{"id": "C77", "title": "A vector index holds every covered row with a vector exactly once", "statement": "After any history of appends, deletes, index builds, optimize_indices (with any number of merged deltas) and compactions, every live row with a vector in a fragment that the index covers is in exactly one partition of exactly one delta, the one of its vector; rows with a null vector and rows of uncovered fragments are in none. Building an index, optimizing it and compacting the dataset succeed.", "quantifier": "every history, every partition function, every quantizer, every batch layout and buffer size of the shuffle", "why_tests_cant": "lost or doubled entries depend on the history (which deltas were merged, which rows were deleted or moved in between) and show only as missing or repeated search results for particular queries", "anchors": ["rust/lance/src/index/vector/builder.rs:187-785", "rust/lance-index/src/vector/v3/shuffler.rs:91-337", "rust/lance/src/index/append.rs:33-155", "rust/lance/src/index/vector/ivf.rs:333-462", "rust/lance/src/dataset/index.rs:47-74"]}
{"id": "C78", "title": "A nearest neighbour search over all partitions of a flat index is exact", "statement": "With an IVF index that stores the vectors and nprobes at least the number of partitions, nearest(k) returns the k nearest live rows with a vector that pass the prefilter and whose distance is in the range, in increasing order, for any deltas, deletions, refine factor and rows not yet indexed; without an index the same; with fast_search the nearest of the covered rows. With other quantizers or fewer probes the results are still distinct live rows that pass the filter, at most k, in increasing order.", "quantifier": "every history of the dataset and index, every query, every order of rows with equal distance", "why_tests_cant": "the per-partition, per-delta and final cuts to k (times the refine factor) and the merge with unindexed rows lose a row only for particular distances; tests measure recall on random data", "anchors": ["rust/lance/src/dataset/scanner.rs:1670-1836", "rust/lance/src/dataset/scanner.rs:2066-2159", "rust/lance/src/io/exec/knn.rs:369-637", "rust/lance-index/src/vector/flat/index.rs:76-131", "rust/lance/src/index/prefilter.rs:56-258"]}
{"id": "C79", "title": "A nearest neighbour search in chosen fragments returns rows of these fragments", "statement": "A scanner restricted to fragments with a nearest query returns the nearest rows of these fragments and no row of another one.", "quantifier": "every dataset, every index and coverage, every set of fragments, every query and filter", "why_tests_cant": "whether rows of other fragments come through depends on the filter, the coverage of the index and the distances together", "anchors": ["rust/lance/src/dataset/scanner.rs:1670-1836", "rust/lance/src/dataset/scanner.rs:2242-2296", "rust/lance/src/index/prefilter.rs:56-258"]}
{"id": "C80", "title": "Merging deltas of a vector index keeps the codes of rows", "statement": "The code that an index stores for a row is the one an index built now with the same centroids and quantizer would store, whatever deltas were merged; so optimize_indices does not change which rows a search finds.", "quantifier": "every history of builds, merges, deletes and compactions, every centroid and quantizer", "why_tests_cant": "wrong codes only lower the recall of a search, which tests allow to vary", "anchors": ["rust/lance/src/index/vector/builder.rs:438-622", "rust/lance/src/index/vector/builder.rs:764-785", "rust/lance-index/src/vector/residual.rs:153-196", "rust/lance-index/src/vector/ivf.rs:108-251"]}
{"id": "C81", "title": "Every version reads back as the table its history describes", "statement": "After any sequence of creates, appends (with columns missing or in another order), add_columns (computed by a function or SQL, from a reader, or all null), alter_columns, drop_columns, deletes, compactions and restores, reading any version gives the table that the accepted operations give when carried out on plain tables by column name: no other column or row changes, no cell moves, and every version stays readable with nulls only where they are allowed.", "quantifier": "every history, every nested schema, every placement of columns in data files and rows in fragments", "why_tests_cant": "columns are found by field ids over several data files per fragment, in different stages of schema evolution and with deleted rows; which combination breaks depends on the whole history", "anchors": ["rust/lance/src/dataset/schema_evolution.rs:139-712", "rust/lance/src/dataset/fragment.rs:782-903", "rust/lance/src/dataset/fragment.rs:1958-2150", "rust/lance/src/dataset/updater.rs:95-406", "rust/lance-core/src/datatypes/schema.rs:165-673", "rust/lance-core/src/datatypes/field.rs:475-827", "rust/lance-arrow/src/lib.rs:554-655"]}
{"id": "C82", "title": "Schema evolution accepts what makes sense and refuses the rest", "statement": "On any version an operation is accepted exactly if it makes sense for the table that is read: new names are new, paths exist, appended data fits and lacks only nullable columns, streams have as many rows as the table, alterations leave distinct names, something is left after a drop. An operation that is refused changes nothing.", "quantifier": "every history, every operation with well-formed arguments", "why_tests_cant": "whether an operation is refused depends on ids, files and deletions left by the history, not on the table the user sees", "anchors": ["rust/lance/src/dataset/schema_evolution.rs:139-712", "rust/lance/src/dataset/write/insert.rs:249-285", "rust/lance-core/src/datatypes/schema.rs:206-251", "rust/lance-core/src/datatypes/schema.rs:621-673", "rust/lance-file/src/v2/writer.rs:238-340"]}
{"id": "C83", "title": "Reading columns by path gives these columns of the whole table", "statement": "Reading a list of column paths of any version gives exactly the columns on the way to these paths and below them, each equal to the column of the whole table and each once; a path that does not exist is an error.", "quantifier": "every history, every list of paths, overlapping or not", "why_tests_cant": "projections are merged by name and intersected with what each data file stores, so a wrong one shows only for particular overlaps and histories", "anchors": ["rust/lance-core/src/datatypes/schema.rs:165-202", "rust/lance-core/src/datatypes/field.rs:475-506", "rust/lance-core/src/datatypes/field.rs:661-716", "rust/lance/src/dataset/fragment.rs:782-903"]}
{"id": "C84", "title": "Strings compressed with FSST read back", "statement": "Compressing any array of strings or binaries (up to 2^30 bytes) with FSST does not crash, whatever random sample the symbol table is built from, and, unless it returns an error, any selection of the compressed strings decompresses to exactly the strings that went in, without a write outside of an output buffer of eight bytes for each compressed byte. Arrays below 4 MiB are stored as they are and never refused.", "quantifier": "every array of strings, every sample (the terminator, the gains and the order of the candidates in every round), every selection of rows, every output buffer that is large enough", "why_tests_cant": "the symbol table depends on a random sample of the data and on hash collisions; codes are renumbered, strings are cut into chunks of 511 bytes behind a sentinel, and the decoder writes eight bytes at a time through raw pointers, so a fault shows only for particular tables and string lengths", "anchors": ["rust/lance-encoding/src/compression_algo/fsst/src/fsst.rs:309-482", "rust/lance-encoding/src/compression_algo/fsst/src/fsst.rs:552-992", "rust/lance-encoding/src/compression_algo/fsst/src/fsst.rs:994-1280", "rust/lance-encoding/src/encodings/physical/fsst.rs:150-260"]}
{"id": "C85", "title": "Rows written to a mini-block page are the rows read from it", "statement": "Writing any column of fixed width values (of less than 4093 bytes), nullable or not and in lists or not, as a mini-block page does not panic, and reading any ascending ranges of its rows, split into batches in any way, returns exactly the values and the null and list structure of these rows.", "quantifier": "every layout of list and null layers, every list of rows, every list of ascending ranges, every split into batches, every codec that cuts values into chunks of powers of two and gives them back", "why_tests_cant": "rows are found through a repetition index by chunk, lists may begin in one chunk and end several chunks later, and leftovers of a chunk are carried from one batch to the next, so a fault shows only for particular list lengths, chunk ends, ranges and batch sizes", "anchors": ["rust/lance-encoding/src/encodings/logical/primitive.rs:336-825", "rust/lance-encoding/src/encodings/logical/primitive.rs:1134-1776", "rust/lance-encoding/src/encodings/logical/primitive.rs:3648-4012", "rust/lance-encoding/src/repdef.rs:340-421", "rust/lance-encoding/src/encodings/physical/value.rs:226-290"]}
{"id": "C86", "title": "Strings written to a mini-block page are the strings read from it", "statement": "Writing any column of strings or binary values with 32 bit offsets as a mini-block page, stored as they are or compressed with FSST, does not panic, and reading any ascending ranges of its rows, split into batches in any way, returns exactly the strings and the null and list structure of these rows.", "quantifier": "every list of strings of any lengths, every layout of null and list layers, every list of ascending ranges, every split into batches, every sample the FSST symbol table is made from", "why_tests_cant": "chunks are cut by doubling the number of strings until the next doubling is above 4096 bytes, sizes are counted with the offsets, offsets are rebased and padded and then cut down to 16 bits, and the number of values of a chunk is known only as a power of two, so a fault needs particular lengths of particular strings", "anchors": ["rust/lance-encoding/src/encodings/physical/binary.rs:529-743", "rust/lance-encoding/src/encodings/physical/fsst.rs:211-289", "rust/lance-encoding/src/encodings/physical/fsst.rs:373-420", "rust/lance-encoding/src/encoder.rs:827-844", "rust/lance-encoding/src/encodings/logical/primitive.rs:3558-3571"]}
{"id": "C87", "title": "Bit packed integers are read as they were written", "statement": "Writing any column of fixed width values as a mini-block page with the encoding the writer chooses (FastLanes bit packing for integers of 1, 2, 4 and 8 bytes, unless 1024 values in a row are zero) does not panic, and reading any ascending ranges of its rows, split into batches in any way, returns exactly the values and the null and list structure of these rows.", "quantifier": "every integer type, every bit width, every list of values, every layout of null and list layers, every list of ascending ranges, every split into batches", "why_tests_cant": "120 packing and 120 unpacking functions are made from two macros, values are interleaved over lanes and cut at word ends at places that depend on the bit width, and the bit width of each 1024 values comes from another module", "anchors": ["rust/lance-encoding/src/compression_algo/fastlanes.rs:20-170", "rust/lance-encoding/src/compression_algo/fastlanes.rs:180-1690", "rust/lance-encoding/src/encodings/physical/bitpack_fastlanes.rs:1566-1770", "rust/lance-encoding/src/statistics.rs:309-360", "rust/lance-encoding/src/encoder.rs:801-826"]}
{"id": "C88", "title": "Nested arrays are rebuilt from their levels as they were", "statement": "Arrays of any nesting of structs and lists, with or without nulls at any layer, sliced or not, spread over any number of arrays and pages, can be turned into repetition and definition levels and values, and the array made of these has the same cells in the same order: the same nulls, the same empty lists, the same list bounds, the same values.", "quantifier": "every nesting of layers, every validity bitmap, every offsets (also those that start within the values or keep values under null lists), every number of arrays in a page and of pages in a batch", "why_tests_cant": "levels of null and empty lists are put among those of items, bitmaps of one layer become one number with those of the others, and several arrays and pages are joined layer by layer with different sets of bitmaps, so a fault shows only for certain combinations of layers, nulls, empty lists and pages", "anchors": ["rust/lance-encoding/src/repdef.rs:60-480", "rust/lance-encoding/src/repdef.rs:520-1240", "rust/lance-encoding/src/repdef.rs:1250-1610", "rust/lance-encoding/src/encodings/logical/list.rs:1281-1455", "rust/lance-encoding/src/encodings/logical/struct.rs:678-893", "rust/lance-encoding/src/encodings/logical/primitive.rs:3075-3150"]}
{"id": "C89", "title": "Columns are read from mini-block pages as they were written", "statement": "Arrays of integers, other fixed width values or strings, in structs and lists, nullable or not, stored as a mini-block page with the compression the writer chooses, are not refused, and reading any ascending ranges of rows, split into batches in any way, gives arrays that hold exactly the rows asked for: the same values, nulls and list bounds.", "quantifier": "every array and every split into arrays, every nesting of structs around and inside one layer of lists, every list of ascending ranges, every split into batches", "why_tests_cant": "the path goes from bitmaps and offsets through levels, chunks, bit packing, a repetition index and preambles and back, and each step is right only for what the step before it can produce, so single tests of the steps do not settle the whole", "anchors": ["rust/lance-encoding/src/encodings/logical/primitive.rs:3889-4012", "rust/lance-encoding/src/encodings/logical/primitive.rs:4386-4500", "rust/lance-encoding/src/encodings/logical/primitive.rs:3066-3150", "rust/lance-encoding/src/repdef.rs:60-1610"]}
{"id": "C90", "title": "Rows are read from full-zip pages as they were written", "statement": "A page of wide values or strings, each zipped with a control word of its repetition and definition level, with a repetition index if rows differ in size, is written without a panic for any levels that a column can have, and reading any ascending ranges of its rows, split into batches in any way, gives exactly the levels and values of these rows.", "quantifier": "every nesting of layers and every level up to those of the layers, with and without lists, every width of the values, every length of strings, every list of ascending ranges, every split into batches (also such that end within a range)", "why_tests_cant": "the control words have one, two or four bytes and a split that depends on the largest levels of the page, the index entries one to eight bytes that depend on its size, and the reader works out again from the layers which items have a value, so a fault shows only for certain layers, levels and sizes", "anchors": ["rust/lance-encoding/src/encodings/logical/primitive.rs:4015-4276", "rust/lance-encoding/src/encodings/logical/primitive.rs:1779-2096", "rust/lance-encoding/src/encodings/logical/primitive.rs:2098-2627", "rust/lance-encoding/src/repdef.rs:1605-2297", "rust/lance-encoding/src/utils/bytepack.rs:80-220", "rust/lance-core/src/utils/bit.rs:20-60"]}
{"id": "C91", "title": "Columns are read from full-zip pages as they were written", "statement": "The arrays of wide values or strings that are flushed together, nested in structs and lists, can be stored as a full-zip page, and any ascending ranges of rows read back from the page, in batches of any sizes, are arrays with exactly the cells (values, nulls at every layer, empty lists) of these rows.", "quantifier": "every number of arrays with and without validity bitmaps, every nesting of structs with one layer of lists, every offsets (also with garbage under null lists), every width of values and length of strings, every list of ascending ranges, every split into batches", "why_tests_cant": "nulls of all layers share one level, levels are zipped into control words whose width depends on the page, and whether levels are written at all depends on the bitmaps of all arrays, so a fault shows only for certain combinations of bitmaps, nulls and empty lists", "anchors": ["rust/lance-encoding/src/encodings/logical/primitive.rs:4189-4276", "rust/lance-encoding/src/encodings/logical/primitive.rs:4386-4542", "rust/lance-encoding/src/encodings/logical/primitive.rs:1779-2627", "rust/lance-encoding/src/encodings/logical/primitive.rs:3075-3150", "rust/lance-encoding/src/repdef.rs:300-1600"]}
{"id": "C92", "title": "A filtered scan returns the rows on which the filter is true, with or without indices", "statement": "A scan with a filter completes and returns each row of the requested fragments that is not deleted and on which the filter is true, under its row id, exactly once, and no other row, whether scalar indices are used or not, whatever fragments the indices cover and whatever was deleted, dropped or added since they were built.", "quantifier": "every dataset (with and without stable row ids), every choice of fragments, every fragment coverage of every index, every filter, every order in which deletion files and row id sequences arrive", "why_tests_cant": "rows come by one of two paths depending on the coverage of all indices of the query, one evaluates masks of the indices and deletions and the other a filter made back from the index query, and the two must agree on every row, also on NULLs", "anchors": ["rust/lance/src/dataset/scanner.rs:1262-1458", "rust/lance/src/dataset/scanner.rs:1838-1962", "rust/lance/src/io/exec/scalar_index.rs:316-545", "rust/lance-index/src/scalar.rs:355-470", "rust/lance-index/src/scalar/expression.rs:420-435"]}
{"id": "C93", "title": "An object holds the bytes that were written to it", "statement": "Bytes that an ObjectWriter accepted are, once its shutdown succeeds, exactly the contents of the object, in order; before that nothing is to be seen at the path; tell() is the number of bytes accepted; a pending write, flush or shutdown is woken; and up to LANCE_CONN_RESET_RETRIES resets of connections do no harm.", "quantifier": "every sequence of writes, flushes and shutdowns of any sizes, every order in which creation, parts and completion of the upload finish, fail or are reset, every setting of part size, concurrency and retries", "why_tests_cant": "parts are uploaded at the same time and finish, fail or are put again in any order between any two polls; tests use one store that answers at once", "anchors": ["rust/lance-io/src/object_writer.rs:26-178", "rust/lance-io/src/object_writer.rs:180-281", "rust/lance-io/src/object_writer.rs:327-454"]}
{"id": "C94", "title": "A file opens with what was written to it", "statement": "A file that FileWriter finished is opened by FileReader, whatever the block size, and shows the schema, the number of rows, every page of every column with its buffers, the buffers and encodings of the columns and all global buffers exactly as they were written; buffers outside of pages are at the positions that their encoders were told; the statistics account for every byte; and opening any bytes gives a result or an error.", "quantifier": "every number of columns, every sequence of batches and global buffers with any pages, every way the encoders finish, both format versions, every block size, and for the last part every sequence of bytes", "why_tests_cant": "positions depend on the lengths of everything written before and on padding; tests write a few columns with sizes that happen to be aligned and never a corrupt file", "anchors": ["rust/lance-file/src/v2/writer.rs:160-235", "rust/lance-file/src/v2/writer.rs:345-605", "rust/lance-file/src/v2/reader.rs:310-712", "rust/lance-encoding/src/encoder.rs:307-337", "rust/lance-core/src/utils/bit.rs:8-11"]}
{"id": "C95", "title": "A batch encoded in memory is read back", "statement": "A batch that encode_batch made has, for every column, all pages in order with the bytes of the encoders, the buffers and the encoding; turned into bytes with or without its schema and read back, it is the same batch with the same rows.", "quantifier": "every number of fields, columns and pages of any sizes, in any order in which the encoders make them", "why_tests_cant": "pages are collected in a map by column and given to columns later; tests have one field with one page per column and version 2.0", "anchors": ["rust/lance-encoding/src/encoder.rs:1385-1505", "rust/lance-file/src/v2/writer.rs:612-722", "rust/lance-file/src/v2/reader.rs:1207-1308", "rust/lance-encoding/src/version.rs:39-66"]}
{"id": "C96", "title": "A projection reads every field from its own column", "statement": "Whatever fields are asked for, by the whole schema, by field ids or by column names, each field that has a column is read from the column that the writer gave to it; a file that is put into a dataset is recorded with the columns its fields have.", "quantifier": "every schema (any nesting of lists, structs and packed structs, any field ids), every selection of fields, both format versions, every number of rows", "why_tests_cant": "columns are counted in three places by three rules that agree on flat schemas; the schemas on which they part are combinations of nesting, packing and version that tests do not enumerate, and two columns of one type that change places give no error", "anchors": ["rust/lance-file/src/v2/reader.rs:160-290", "rust/lance-file/src/v2/reader.rs:686-712", "rust/lance-encoding/src/encoder.rs:937-1380", "rust/lance-encoding/src/decoder.rs:403-458", "rust/lance-encoding/src/decoder.rs:666-1100", "rust/lance/src/dataset/fragment.rs:300-360", "rust/lance/src/dataset/fragment.rs:620-660"]}
{"id": "C97", "title": "Reading through a session gives what a new session reads", "statement": "Whatever versions have been read or committed with a session before, and whatever has been evicted from its caches, the row ids, deletions, row id index, deletion mask, indices and transactions that are read of a version are the ones stored for that version.", "quantifier": "every history of commits by any writers, every order of reads of any versions with the session, every moment of eviction and every interruption of a computation whose result is cached", "why_tests_cant": "an entry is used again only if the same key comes up for something else after it was loaded and before it is evicted; which keys come up twice depends on the whole history of the dataset", "anchors": ["rust/lance-core/src/cache.rs:144-192", "rust/lance/src/dataset/rowids.rs:16-99", "rust/lance/src/index/prefilter.rs:121-179", "rust/lance/src/index.rs:401-422", "rust/lance/src/io/commit.rs:72-105", "rust/lance/src/io/commit.rs:826-832", "rust/lance/src/dataset/fragment.rs:949-975", "rust/lance-table/src/io/deletion.rs:36-46"]}
{"id": "C98", "title": "Vectors sampled for training are distinct rows that are not null, and enough of them", "statement": "Sampling a column to train an index gives vectors of distinct rows of the dataset, none of them null, at least as many as asked for or else those of all rows that are not null, and less than one block more than asked for; it succeeds on every dataset.", "quantifier": "every number of rows, size asked for, block size, width of a vector, placement of nulls and every outcome of the random choices", "why_tests_cant": "which ranges are read depends on random choices and on the arithmetic of blocks and rows; nulls change how many ranges are needed", "anchors": ["rust/lance/src/index/vector/utils.rs:109-225", "rust/lance/src/index/vector/utils.rs:253-316", "rust/lance/src/dataset.rs:898-903"]}
{"id": "C99", "title": "Every pass of a training loop sees every row once", "statement": "Every pass over the TensorFlow dataset that lance_take_batches makes of the batches of from_lance_batches has every live row once, in batches that are not empty and not larger than asked for; skip leaves out exactly the first batches; the ranks of a ShardedBatchIterator together have every live row once, by fragments and by batches.", "quantifier": "every dataset with any deletions, every batch size, number of ranks, number of passes, shuffling of each pass, and every kind of iterable handed over", "why_tests_cant": "the coverage depends on the arithmetic of batches and ranks for all sizes and on what happens in passes after the first", "anchors": ["python/python/lance/tf/data.py:250-384", "python/python/lance/_dataset/sharded_batch_iterator.py:110-152", "rust/lance/src/dataset/take.rs:400-428"]}
{"id": "C100", "title": "Converted columns have the values of the column", "statement": "Casting an array with lance.arrow.cast, converting a bfloat16 array to NumPy, and converting vectors to Torch tensors gives, for every row of the array, the converted value of that row, or an error.", "quantifier": "every array, including slices at any position of any length, arrays that share a larger buffer, and any placement of nulls", "why_tests_cant": "the functions read the buffers beneath the arrays, whose relation to the rows depends on how the array was made; tests use arrays that own all of their buffer", "anchors": ["python/python/lance/_arrow/bf16.py:36-80", "python/python/lance/arrow.py:539-601", "python/python/lance/torch/data.py:36-45", "python/python/lance/torch/kmeans.py:90-98"]}
{"id": "C101", "title": "All files of a dataset are of one storage version, the one asked for", "statement": "In every version of a dataset all data files are of one storage version, which is the one in the manifest, so that every file is opened with the right reader. Writing data gives the version asked for when a dataset is made or overwritten and keeps the version when data is appended; fragments and transactions made separately have the version asked for or are refused.", "quantifier": "every history of creations, appends, overwrites, restores and commits of arbitrary fragments, each based on any earlier version, with any version asked for", "why_tests_cant": "mixtures come about only by particular sequences of commits that are based on different versions and by fragments written by other processes", "anchors": ["rust/lance-encoding/src/version.rs:14-105", "rust/lance-table/src/format/fragment.rs:331-370", "rust/lance/src/io/commit.rs:298-338", "rust/lance/src/dataset/transaction.rs:548-569", "rust/lance/src/dataset/transaction.rs:915-950", "rust/lance/src/dataset/write/commit.rs:250-272", "rust/lance/src/dataset/write/insert.rs:361-379", "rust/lance/src/dataset/fragment/write.rs:77-230"]}
{"id": "C102", "title": "A legacy page of fixed-width values gives back the rows that were written", "statement": "For a column of booleans, fixed-width values, fixed-size binary values or fixed-size lists of these, written to a legacy (version 0.1) file from any number of arrays, every request (range, all, up to, from, sorted indices) returns the requested rows with their values and nulls; a request beyond the page fails.", "quantifier": "for all types of fixed width, all arrays, all positions of the page in the file, all block sizes and all requests", "why_tests_cant": "Bit packing, chunked takes and page offsets depend on lengths, dimensions and block size; tests try a few of each and no nulls.", "anchors": ["rust/lance-io/src/encodings/plain.rs", "rust/lance-io/src/lib.rs"]}
{"id": "C103", "title": "A legacy page of strings gives back the strings that were written", "statement": "For a string or binary column of a legacy file, every request returns the requested rows, values and nulls as they were written, whatever arrays (sliced or not) they came in and however takes are split into reads.", "quantifier": "for all arrays with any offsets, all positions in the file, 32- and 64-bit offsets, nullable or not, all minimum I/O sizes and all requests", "why_tests_cant": "The offsets of slices, the coalescing of takes and the encoding of nulls as empty ranges interact; a test sees one layout at a time.", "anchors": ["rust/lance-io/src/encodings/binary.rs"]}
{"id": "C104", "title": "Ranges and takes of a legacy file give the rows of the record batches that were written", "statement": "For a legacy file with columns of any nesting (null, fixed width, strings, dictionaries, structs, lists) written by any sequence of write calls, read_range(s..e) returns rows s..e and take(indices) returns the rows of the indices in their order, independently of how rows were split into batches; what lies beyond the file is an error, and the row count is that of the batches.", "quantifier": "for all schemas, all sequences of write calls and record batches, all ranges and index lists, and every result that the binary search over batch offsets may give", "why_tests_cant": "Batch boundaries (empty batches included), nesting and request shapes multiply; the binary search may return any of several equal offsets.", "anchors": ["rust/lance-file/src/reader.rs", "rust/lance-file/src/writer.rs", "rust/lance-file/src/format/metadata.rs", "rust/lance-io/src/encodings/dictionary.rs"]}
{"id": "C105", "title": "A search of a product-quantized index reports the distance of the query and the quantized vector", "statement": "Rows that are added to an index with product quantization (8 bits, or 4 bits and an even number of sub-vectors) are each quantized to the nearest of all vectors made of one centroid for every sub-vector; a search, with or without a filter, reports for every row the distance of the query and the vector that the row was quantized to.", "quantifier": "for all codebooks, numbers and widths of sub-vectors, metrics, rows, queries, numbers of rows in a partition, and processor architectures", "why_tests_cant": "The codes are packed, transposed and looked up by strides, and the 4-bit search sums rounded bytes in vector registers; what goes wrong depends on the number of rows, the least and largest distances and the architecture.", "anchors": ["rust/lance-index/src/vector/pq.rs", "rust/lance-index/src/vector/pq/utils.rs", "rust/lance-index/src/vector/pq/distance.rs", "rust/lance-index/src/vector/pq/storage.rs", "rust/lance-linalg/src/kmeans.rs", "rust/lance-linalg/src/simd/u8.rs"]}
{"id": "C106", "title": "Compaction keeps the quantized vectors of the rows that remain", "statement": "When compaction gives the rows of a dataset new ids and drops deleted ones, a partition of a product-quantized index becomes what it would be if it were built of the remaining rows with their new ids: every remaining row keeps its quantized vector, removed rows are gone, and rows that are not mapped are unchanged; any number of compactions may follow one another.", "quantifier": "for all quantizers, rows, mappings (new id, removed, not mapped) and sequences of compactions, for both index formats", "why_tests_cant": "Codes are stored transposed, so whether a row keeps its code depends on which rows before it are removed and on the number of sub-vectors; a test with few removals or approximate results passes by chance.", "anchors": ["rust/lance/src/index/vector/pq.rs", "rust/lance/src/index/vector/ivf.rs", "rust/lance-index/src/vector/storage.rs", "rust/lance-index/src/vector/pq/storage.rs"]}
{"id": "C107", "title": "Merging indices gives the index of all rows", "statement": "optimize_indices, which merges the partitions of existing product-quantized indices and the rows that are not indexed yet, makes the partitions that would be built of all these rows (less deleted ones) with the same centroids and codebook.", "quantifier": "for all numbers of indices, rows, centroids, codebooks, metrics, and datasets with and without deleted rows, for both index formats", "why_tests_cant": "Tests check that rows are found again, which approximate search hides; the claim is about every row and every state of deletion.", "anchors": ["rust/lance/src/index/vector/builder.rs", "rust/lance/src/index/vector/ivf/io.rs", "rust/lance-index/src/vector/ivf.rs", "rust/lance-index/src/vector/residual.rs", "rust/lance/src/index/vector/ivf/v2.rs"]}
{"id": "C108", "title": "A search of a partition returns the k nearest selected rows within the bounds", "statement": "A search of a product-quantized partition returns, in order of distance, the k rows (or all if fewer) that are nearest to the query among the rows that the filter selects and whose distance d satisfies lower <= d < upper, with the distances of their quantized vectors.", "quantifier": "for all quantizers, rows, queries, filters, limits, bounds, architectures, and every way in which the sort may order equal distances, for both index formats", "why_tests_cant": "Filters, bounds, limits and ties multiply, and the sort is not stable.", "anchors": ["rust/lance/src/index/vector/pq.rs", "rust/lance-index/src/vector/flat/index.rs", "rust/lance-index/src/vector/pq/storage.rs", "rust/lance-index/src/vector/pq/distance.rs"]}
{"id": "C109", "title": "Distances of a scalar-quantized index are those of the vectors up to rounding", "statement": "An index with scalar quantization can be made of any rows, and the distance it reports for a row is the distance of the row's vector to the query by the metric of the index, up to the error that rounding each number to one of 256 steps between the least and the largest number of the training sample makes.", "quantifier": "for all metrics, dimensions, rows, training samples of the rows, and queries", "why_tests_cant": "Tests quantize vectors of the training sample itself with non-negative numbers; the claim is about every sample, row, query and metric, with an explicit error bound.", "anchors": ["rust/lance-index/src/vector/sq.rs", "rust/lance-index/src/vector/sq/storage.rs", "rust/lance-index/src/vector/sq/builder.rs", "rust/lance/src/index/vector/builder.rs"]}
{"id": "C110", "title": "Merging scalar-quantized indices gives the index of all rows", "statement": "optimize_indices, which merges the partitions of existing scalar-quantized indices and the rows that are not indexed yet, makes the partitions that would be built of all these rows (less deleted ones) with the same bounds, and each row then has the distance it would have in an index of its own.", "quantifier": "for all numbers of indices, rows, bounds, metrics, and datasets with and without deleted rows", "why_tests_cant": "Tests check that rows are found again, which approximate search hides; the claim is about every row and every state of deletion.", "anchors": ["rust/lance/src/index/vector/builder.rs", "rust/lance-index/src/vector/sq/storage.rs", "rust/lance/src/index/vector/ivf/v2.rs"]}
{"id": "C111", "title": "A search of an HNSW partition gives only right rows", "statement": "A search of an HNSW partition with any query, filter, k and ef (ef not less than k) does not fail, both on the graph that was built and on the graph loaded of the index file; it gives at most k rows, all different, all selected by the filter, in order of their distances, and the distances are those of the rows' vectors. With a filter that selects less than a tenth of the rows it gives exactly the nearest of them. An ef below k is an error.", "quantifier": "for all vectors and distances, random levels of nodes, parameters, orders among equal distances, filters, k and ef", "why_tests_cant": "Builds and searches depend on random levels and on ties; tests check recall of a few random datasets.", "anchors": ["rust/lance-index/src/vector/hnsw/builder.rs", "rust/lance-index/src/vector/graph.rs", "rust/lance-index/src/vector/graph/builder.rs", "rust/lance-index/src/vector/hnsw.rs"]}
{"id": "C112", "title": "A search of an HNSW partition finds as many rows as there are", "statement": "A search of an HNSW partition is approximate, but gives k rows if k rows are selected by the filter and within the bounds of distance_range, and all of them if there are less; if there are not more of them than ef, these are the nearest ones.", "quantifier": "for all vectors, random levels of nodes, parameters, filters, bounds, k and ef", "why_tests_cant": "A row that is lost in the graph is one row of a particular dataset; tests measure average recall.", "anchors": ["rust/lance-index/src/vector/hnsw/builder.rs", "rust/lance-index/src/vector/graph.rs", "rust/lance-index/src/vector/graph/builder.rs", "rust/lance/src/index/vector/ivf/v2.rs"]}
{"id": "C113", "title": "An HNSW graph that is written and loaded is the same graph", "statement": "Loading an HNSW graph of the rows and metadata that were written of it gives every node the neighbors that it had, at all levels.", "quantifier": "for all vectors, random levels of nodes and parameters", "why_tests_cant": "Random levels decide which nodes are at upper levels; a search of a wrong graph still gives plausible rows.", "anchors": ["rust/lance-index/src/vector/hnsw/builder.rs"]}
{"id": "C114", "title": "Columns of legacy files are read at the pages that were written of them", "statement": "A data file of a format before 2.0 that was written with some columns can be opened as long as a version of the dataset lists it, and each column that is still listed is read at the positions and lengths of the pages that were written of it, also after other columns of the file were replaced by merge_insert.", "quantifier": "for all schemas, numbers of batches, positions and lengths of pages, histories of replaced columns and contents of the session's cache", "why_tests_cant": "The page table has no header: which entry is of which column follows of ids in the manifest. Tests replace columns that are not the first, or read with the session that already has the table.", "anchors": ["rust/lance-file/src/page_table.rs", "rust/lance-file/src/writer.rs", "rust/lance-file/src/reader.rs", "rust/lance/src/dataset/fragment.rs", "rust/lance/src/dataset/write/merge_insert.rs"]}
{"id": "C115", "title": "validate accepts exactly the datasets that are valid", "statement": "Dataset.validate gives no error exactly if the version is valid: fragment ids increase, each field of a fragment is in one file, files of a fragment are of one format and have the same length, which is that of the manifest, deleted rows are rows of the fragment, and indices of a name cover different fragments. Each version that operations of the library make is valid.", "quantifier": "for all datasets and all histories of appends, deletes, added and dropped columns and merge_insert", "why_tests_cant": "Tests validate a handful of versions; the claim is about each version that a history of operations can make.", "anchors": ["rust/lance/src/dataset.rs", "rust/lance/src/dataset/fragment.rs", "rust/lance-table/src/format/fragment.rs", "rust/lance/src/dataset/transaction.rs", "rust/lance/src/dataset/write/merge_insert.rs"]}
{"id": "C116", "title": "The repair of duplicate field ids keeps the data of each column", "statement": "A commit of a version with the same field id in two files of a fragment succeeds, gives each such column a new id, and the column is then read in each fragment from the newest file that listed it and at the same place; other columns keep their ids, files and places. The repaired version needs no repair: the next commit changes nothing. Files of all formats can be read after the repair.", "quantifier": "for all manifests: numbers of fragments and files, ids that files list, schemas", "why_tests_cant": "The test has one manifest without data, which it does not read; the repair is of manifests with any number of duplicates in any files.", "anchors": ["rust/lance/src/io/commit.rs", "rust/lance-table/src/format/manifest.rs", "rust/lance/src/dataset/fragment.rs"]}
{"id": "C117", "title": "Replacing data files changes the replaced columns of the given fragments and nothing else", "statement": "After a commit of DataReplacement the dataset has the same fragments in the same order with the same rows; in the given fragments the columns of the new files have the values of the new files; all other columns and fragments are as before; indices cover only fragments whose data they were built of. The operation is refused if a new file does not have exactly the fields of an existing file.", "quantifier": "for all versions of a dataset, lists of replacements and contents of files", "why_tests_cant": "Tests replace one column of one or two fragments with a file of the same layout and without index.", "anchors": ["rust/lance/src/dataset/transaction.rs", "rust/lance-table/src/format/fragment.rs", "rust/lance/src/dataset/fragment.rs", "python/python/lance/dataset.py"]}
{"id": "C118", "title": "Reading a TFRecord file gives one row per record with the values of its features", "statement": "read_tfrecord gives, for every column of the schema, exactly one row per record in order, made of the values of the feature of that name: the value (or null) of a plain column, all values of a list column, the values of the tensor of a tensor column (typed values or the little-endian content, wherever the decoder placed it in memory), and the tensors of a list of tensors; and a schema that infer_tfrecord_schema took from the records fits them.", "quantifier": "all schemas, all sizes of batches, all lists of records, all features, all tensors and addresses of their content", "why_tests_cant": "The existing tests have one value per plain feature and aligned float tensors; what goes wrong depends on features without values, on lists of tensors that are missing in some records, on the address of a decoded buffer, and on which of the repeated fields of a tensor a writer uses.", "anchors": ["rust/lance/src/utils/tfrecord.rs:60-152", "rust/lance/src/utils/tfrecord.rs:345-394", "rust/lance/src/utils/tfrecord.rs:432-589", "rust/lance/src/utils/tfrecord.rs:591-790"]}
{"id": "C119", "title": "Both readers of a shared stream get every item and neither waits for nothing", "statement": "A stream that is shared by two readers (the writers of blobs and of other columns, the two inputs of the join of a merge insert) gives each of them all items in order and then the end; it buffers at most as many items as its capacity; and a reader that waits has every item that the source gave and will be woken, by the source or by the other reader, whatever the schedule, also when the other reader is dropped because it failed.", "quantifier": "all capacities, all lists of items, all interleavings of the two parts of polls of two tasks, all points at which the source is not ready or a half is dropped", "why_tests_cant": "The tests poll by hand in one task; lost wake-ups depend on one poll running while another one is inside the source, and on a reader that goes away.", "anchors": ["rust/lance-core/src/utils/futures.rs:14-194", "rust/lance/src/dataset/blob.rs:245-285", "rust/lance/src/dataset/write.rs:398-425", "rust/lance/src/io/exec/utils.rs:223-250"]}
{"id": "C120", "title": "Reading rows of a bitpacked page gives the numbers that were stored, in batches of any sizes", "statement": "Reading any ranges of rows of a page of the Bitpacked encoding, in batches of any sizes, gives the numbers at these rows, in the order of the ranges: the bits of each number are found across the limits of bytes and of ranges, and negative numbers keep their sign when they are widened.", "quantifier": "all widths in bits of stored and of widened numbers, signed or not, all pages, all lists of ranges, all lists of sizes of batches", "why_tests_cant": "The result depends on how ranges meet the limits of bytes and on where batches end inside ranges; the tests read few combinations of widths, ranges and sizes of batches, and none that goes on from inside one range to the next.", "anchors": ["rust/lance-encoding/src/encodings/physical/bitpack.rs:266-580", "rust/lance-encoding/src/encodings/physical.rs:101-113", "rust/lance-encoding/src/encodings/logical/primitive.rs:3013-3040"]}
{"id": "C121", "title": "Reading rows of a page of packed chunks gives the numbers that were stored, in batches of any sizes", "statement": "Integers that are written with the BitpackedForNonNeg encoding (chunks of 1024 numbers, packed with as many bits as the widest number that is not null needs) are read back: any list of ranges of rows in order, which may touch, share chunks or repeat rows, read in batches of any sizes, gives the numbers at these rows that are not null.", "quantifier": "all widths of integers, all lists of arrays with nulls, all lists of ranges in order, all lists of sizes of batches", "why_tests_cant": "The tests of this encoding are commented out; and what is read depends on how the ends of ranges meet the ends of chunks and on which chunks ranges share.", "anchors": ["rust/lance-encoding/src/encodings/physical/bitpack_fastlanes.rs:38-272", "rust/lance-encoding/src/encodings/physical/bitpack_fastlanes.rs:391-560", "rust/lance-encoding/src/decoder.rs:1325-1350"]}
{"id": "C122", "title": "Parts of structs that are read in several steps are put together as stored", "statement": "When a query reads some columns first (for a filter or a search) and others late, or brings the columns of new and indexed data into one form for their union, every column of its schema has the stored value at every depth of nesting, a struct is null exactly where it is stored as null, and no other values appear.", "quantifier": "all rows with any nesting of structs, all schemas, all divisions of the columns between two steps", "why_tests_cant": "The tests use a few fixed nestings in which no struct is null; which children are on which side decides which of the cases runs.", "anchors": ["rust/lance-arrow/src/lib.rs:657-726", "rust/lance/src/io/exec/take.rs:107-132", "rust/lance/src/io/exec/projection.rs:35-201", "rust/lance/src/dataset/scanner.rs:1815-1822", "rust/lance/src/dataset/scanner.rs:1912-1950"]}
{"id": "C123", "title": "The rule that joins takes does not change what a query gives", "statement": "Planning a query never fails because of the rule that joins two reads of late columns, and the joined plan gives the same columns, in the same order and with the same values, as the plan before: for scans with a filter that an index answers this holds for all columns that are asked for and all columns by which rows are ordered.", "quantifier": "all datasets, all plans of takes, projections and nodes that keep columns, at any depth, all lists of columns and of columns of the order", "why_tests_cant": "Whether the rule applies, reorders, loses columns or panics depends on which columns each of two takes asks for; the tests of order_by have no index and no columns that are only ordered by.", "anchors": ["rust/lance/src/io/exec/optimizer.rs:22-113", "rust/lance/src/io/exec/take.rs:178-411", "rust/lance/src/dataset/scanner.rs:1425-1515", "rust/lance/src/dataset/scanner.rs:1863-1906", "rust/lance/src/dataset/scanner.rs:2298-2322"]}
