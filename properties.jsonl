{"id": "C01", "title": "On-disk records round-trip", "statement": "For every fixed-size metadata record (block/time pair, device detail, space-map root, index entry, cache mapping, cache hint, era writeset), decoding the bytes produced by encoding a value whose fields fit the on-disk layout gives back exactly that value, consumes exactly the record's declared disk size and leaves the following bytes untouched.", "quantifier": "all field values within the width the format gives them, and all trailing bytes", "why_tests_cant": "There are 2^64 or more values per record; the interesting failures (a time of 2^24, a block of 2^40) are at boundaries the unit tests do not sample.", "anchors": ["src/pdata/unpack.rs", "src/thin/block_time.rs: BlockTime::{pack,unpack}", "src/thin/device_detail.rs", "src/pdata/space_map/common.rs: SMRoot, IndexEntry", "src/cache/mapping.rs", "src/cache/hint.rs", "src/era/writeset.rs"]}
{"id": "C02", "title": "Superblocks round-trip through write and read", "statement": "Writing a thin, cache or era superblock and reading it back returns the same superblock: every field that the tools later consult survives, for every value those fields can hold.", "quantifier": "all superblock field values of the declared widths; both cache metadata versions; all flag combinations", "why_tests_cant": "Field-offset or width mistakes only show for particular values; the product of the field domains cannot be sampled.", "anchors": ["src/thin/superblock.rs: pack_superblock, unpack", "src/cache/superblock.rs: pack_superblock, unpack", "src/era/superblock.rs: pack_superblock, unpack"]}
{"id": "C03", "title": "Checksums identify the block type that was written", "statement": "After write_checksum(buf, T), metadata_block_type(buf) is T and no other type, whatever the payload; and changing only the stored checksum word makes the block no longer recognised as T.", "quantifier": "all 4096-byte payloads, all block types, all alternative checksum words, any checksum function", "why_tests_cant": "The payload space is 2^32000; the claim is algebraic in the checksum function.", "anchors": ["src/checksum.rs: write_checksum, metadata_block_type, checksum"]}
{"id": "C04", "title": "B-tree nodes accepted by the reader are well formed", "statement": "If the node reader accepts a block then its entry count does not exceed its capacity, its keys are strictly increasing, every key has one value, its contents fit in one 4 KiB block, the header's block number equals the location read, and (when strict and not the root) it is at least one-third full; the reader never reads past the block.", "quantifier": "all byte contents of a block, all locations, both strictness settings, root and non-root", "why_tests_cant": "Acceptance must be sound for every corrupted block, not only for the corruptions a test injects.", "anchors": ["src/pdata/btree.rs: unpack_node, unpack_node_raw, check_and_unpack_node"]}
{"id": "C05", "title": "B-tree node pack/unpack round-trip", "statement": "Packing any well-formed internal or leaf node and unpacking the block gives back the node: header, keys and values.", "quantifier": "all well-formed nodes for every value type with a correct value codec", "why_tests_cant": "Nodes hold up to 252 keys of 64 bits; layout bugs (padding, key/value area boundaries) depend on counts.", "anchors": ["src/pdata/btree.rs: pack_node, unpack_node"]}
{"id": "C06", "title": "Space map counts follow the operation history", "statement": "After any sequence of set/inc/dec/alloc operations an in-core space map returns, for each block, the reference count a plain array of counters would hold; an operation that reports an error because a count does not fit leaves the earlier counts intact; out-of-range blocks are rejected.", "quantifier": "all operation sequences, all block numbers, all counter widths", "why_tests_cant": "The bookkeeping must hold for every history; wrong corner updates only show after particular sequences.", "anchors": ["src/pdata/space_map/base.rs: CoreSpaceMap, SpaceMap"]}
{"id": "C07", "title": "Space map allocated-block count is exact", "statement": "At every point of every operation history the number of allocated blocks reported by a space map equals the number of blocks whose count is non-zero.", "quantifier": "all operation histories on the in-core and on the restricted space maps", "why_tests_cant": "An incremental counter can only drift on particular transitions (0->n, n->0, partial range failures).", "anchors": ["src/pdata/space_map/base.rs: CoreSpaceMap::get_nr_allocated, RestrictedSpaceMap, RestrictedTwoSpaceMap"]}
{"id": "C08", "title": "Space map allocation is safe and complete", "statement": "alloc never hands out a block that is in use, marks the block it returns as used, and fails only when every block is in use, regardless of where the search cursor is.", "quantifier": "all space map states reachable by any history, all cursor positions", "why_tests_cant": "Wrap-around search bugs appear only for specific cursor and occupancy combinations.", "anchors": ["src/pdata/space_map/base.rs: alloc, find_free, CoreSpaceMap"]}
{"id": "C09", "title": "Write batcher: reads see the latest write", "statement": "After any sequence of writes, reads and flushes through the write batcher, reading a block returns the most recent contents written to it, whether they are still queued or already on disk.", "quantifier": "all sequences of writes, reads, flushes; all batch sizes; all locations", "why_tests_cant": "Queue overwrite and flush-on-full interact; a stale read needs a particular sequence.", "anchors": ["src/write_batcher.rs: WriteBatcher::{write,read,flush}"]}
{"id": "C10", "title": "Write batcher: flush makes the disk equal to the sequential writes, a crash loses only queued writes", "statement": "After a flush the disk equals the result of applying all writes in order. Before the flush (a crash at any point) the disk equals the original overlaid with the last queued-and-flushed contents of each block: every block holds either its value as of the last implicit flush or is untouched; no write is reordered past a flush.", "quantifier": "all write sequences, every crash point, all batch sizes", "why_tests_cant": "Crash points are one per prefix of every history.", "anchors": ["src/write_batcher.rs: WriteBatcher::{write,flush}"]}
{"id": "C11", "title": "B-tree builder keeps exactly the entries pushed", "statement": "Building a b-tree from any strictly increasing sequence of keys gives a tree whose in-order contents are exactly that sequence; a key that is not greater than its predecessor is rejected.", "quantifier": "all sequences of key/value pairs, all node capacities", "why_tests_cant": "The builder's buffering, node sharing and re-opening of the last node depends on counts relative to half and full nodes; all lengths must work.", "anchors": ["src/pdata/btree_builder.rs: NodeBuilder, BTreeBuilder, build_btree"]}
{"id": "C12", "title": "B-tree builder output is balanced and well filled", "statement": "Every tree the builder produces has all leaves at the same depth, no node above capacity, every non-root node at least half full and parent keys equal to the first key of the child, so the checker's fullness rule accepts it.", "quantifier": "all sequences pushed, all node capacities at least 2 (in practice multiples of 3)", "why_tests_cant": "Occupancy failures occur only at particular residues of the number of entries.", "anchors": ["src/pdata/btree_builder.rs: NodeBuilder::{push_value,push_nodes,emit_all,complete}, build_btree"]}
{"id": "C13", "title": "B-tree lookup agrees with the map the tree stores", "statement": "Looking up a key in any well-formed b-tree returns the value stored under the key if and only if it is present.", "quantifier": "all well-formed trees of any depth and fan-out, all keys", "why_tests_cant": "Depth and fan-out are unbounded; boundary keys between siblings matter.", "anchors": ["src/pdata/btree_lookup.rs: btree_lookup"]}
{"id": "C14", "title": "B-tree iteration returns all entries in key order exactly once", "statement": "Repeatedly stepping a b-tree iterator over any well-formed tree yields precisely the tree's entries in increasing key order and then reports the end.", "quantifier": "all well-formed trees of any depth and fan-out", "why_tests_cant": "The iterator keeps a stack of positions; errors arise when several levels finish at once.", "anchors": ["src/pdata/btree_iterator.rs: BTreeIterator"]}
{"id": "C15", "title": "Tree walk visits every leaf entry once, in order, and detects key-range damage", "statement": "Walking a b-tree with consistent keys visits every leaf exactly once in key order with the key range implied by its ancestors; when a child's keys fall outside the range its parent promises, the walk reports an error.", "quantifier": "all trees, well-formed and damaged; all key ranges", "why_tests_cant": "Damage detection must be sound for every placement of the damage.", "anchors": ["src/pdata/btree_walker.rs: BTreeWalker::{walk,walk_node,walk_nodes}", "src/pdata/btree_error.rs: KeyRange, split_key_ranges"]}
{"id": "C16", "title": "Splitting a key range partitions it", "statement": "Splitting a node's key range at its keys gives consecutive, disjoint sub-ranges that cover the range from the first key on, one per child; keys outside the range or out of order are rejected.", "quantifier": "all key ranges (bounded or not) and all key lists", "why_tests_cant": "Off-by-one at either open end only shows for keys equal to a boundary.", "anchors": ["src/pdata/btree_error.rs: KeyRange::split, split_key_ranges"]}
{"id": "C17", "title": "Array builder stores every pushed value at its index", "statement": "An array built by pushing values at strictly increasing indexes reads back each value at its index and the default everywhere else, has exactly the declared size split in full blocks; out-of-order or out-of-bounds pushes are rejected.", "quantifier": "all index/value sequences, all array sizes, all block capacities", "why_tests_cant": "Gap filling across block boundaries depends on index arithmetic for every residue.", "anchors": ["src/pdata/array_builder.rs: ArrayBlockBuilder, ArrayBuilder"]}
{"id": "C18", "title": "Bitset reading returns each stored bit, and unknown for damaged parts", "statement": "Reading an on-disk bitset returns, for each index below the declared size, the stored bit when the array block that holds it is readable and 'unknown' otherwise; no index takes its value from another block. (The blocks of one array all declare the same capacity, as every writer makes them.)", "quantifier": "all bitset contents, sizes and sets of damaged blocks", "why_tests_cant": "The mapping bit -> (block, word, bit) must be right for every index and every damage pattern.", "anchors": ["src/pdata/bitset.rs: CheckedBitSet, BitsetVisitor, read_bitset_checked"]}
{"id": "C19", "title": "Space map serialisation round-trip", "statement": "Writing an in-core space map to disk (bitmaps with 2-bit counts, index entries and overflow tree) and reading it back gives the same count for every block, and the recorded free/allocated numbers match the contents.", "quantifier": "all space maps of any size and any counts", "why_tests_cant": "Counts at 0..2 and >=3 take different paths and the bitmap boundary is every 16320 blocks.", "anchors": ["src/pdata/space_map/common.rs: write_common, BitmapEntry, Bitmap, IndexEntry", "src/pdata/space_map/disk.rs", "src/pdata/space_map/metadata.rs"]}
{"id": "C20", "title": "Space map checker reports every difference", "statement": "Comparing the on-disk reference counts with the expected ones reports success only if they agree on every block; a difference is classified as a repairable leak only when the disk says 'used' and nothing refers to the block.", "quantifier": "all pairs of expected and on-disk count functions", "why_tests_cant": "A wrong count in any single block must be noticed.", "anchors": ["src/pdata/space_map/checker.rs: check_low_ref_counts, OverflowChecker"]}
{"id": "C21", "title": "Leak repair changes only leaked blocks", "statement": "Repairing leaks turns the count of exactly the leaked blocks to zero, changes no other block's count, and a second check afterwards reports no leak.", "quantifier": "all on-disk bitmaps, all expected counts, all leak patterns", "why_tests_cant": "Repair rewrites metadata in place; each bit position must be handled.", "anchors": ["src/pdata/space_map/checker.rs: repair_space_map"]}
{"id": "C22", "title": "Shared-run gathering is lossless and splits exactly at sharing boundaries", "statement": "Gathering sequences of leaf blocks into runs loses nothing: concatenating the runs each sequence maps to reproduces the sequence; a run boundary is placed wherever sequences diverge, so a run is either entirely shared or entirely private.", "quantifier": "all collections of leaf sequences, including repeats and overlaps", "why_tests_cant": "Optimal common-run extraction is a graph property over all sequences together.", "anchors": ["src/thin/runs.rs: Gatherer", "src/thin/metadata.rs: optimise_metadata, build_defs, entries_to_runs"]}
{"id": "C23", "title": "thin_dump mapping runs are lossless and maximal", "statement": "The sequence of single and range mappings emitted for a device describes exactly its mapping entries (thin block, data block, time), in order, and no two consecutive emitted runs could have been merged.", "quantifier": "all mapping sequences with increasing thin blocks", "why_tests_cant": "The run builder is a small automaton whose corner cases (time change, data discontinuity) must hold for any sequence.", "anchors": ["src/thin/dump.rs: RunBuilder, MappingVisitor"]}
{"id": "C24", "title": "thin_restore accepts exactly well-nested metadata", "statement": "The restore consumer accepts an event stream only if it has one superblock first, devices and definitions properly nested, mappings only inside a device or definition and valid block sizes; end of file is accepted only after the superblock was closed; anything else is an error and no superblock is written.", "quantifier": "all event streams", "why_tests_cant": "Streams come from user-supplied XML; all orders have to be considered.", "anchors": ["src/thin/restore.rs: Restorer (MetadataVisitor)", "src/thin/ir.rs"]}
{"id": "C25", "title": "Restoring a dump reproduces every device's mappings", "statement": "Dumping metadata and restoring the dump yields, for every device, the same mapping from thin blocks to (data block, time), the same device details, and data reference counts equal to the number of entries of distinct leaf nodes that point at each data block (a leaf shared by several devices is one reference, as in the kernel).", "quantifier": "all metadata, any number of devices, with shared sub-trees or not", "why_tests_cant": "Composition of dump run-encoding, shared definitions and the builder; no finite set of trees covers the sharing patterns.", "anchors": ["src/thin/dump.rs: dump_metadata", "src/thin/restore.rs: Restorer", "src/thin/metadata.rs"]}
{"id": "C26", "title": "thin_trim discards only unused data blocks, and all of them", "statement": "The list of discard requests covers precisely the data blocks whose reference count is zero; no block with a non-zero count is ever discarded.", "quantifier": "all data space maps of any size", "why_tests_cant": "Discarding one block too many destroys user data; every boundary position counts.", "anchors": ["src/thin/trim.rs: RangeIterator, trim"]}
{"id": "C27", "title": "thin_delta reports exactly the differences", "statement": "For every thin block the delta output places it in the right class (only left, only right, same, different) exactly when the two mapping functions say so; nothing is omitted or reported twice.", "quantifier": "all pairs of mapping streams", "why_tests_cant": "Run alignment of two streams with different run boundaries has unboundedly many phase relations.", "anchors": ["src/thin/delta.rs: dump_delta_mappings, RunBuilder, DeltaRunBuilder"]}
{"id": "C28", "title": "thin_rmap reports exactly the thin blocks that map into the requested regions", "statement": "The reverse map lists, for the requested data regions, every (data block, device, thin block) mapping in them and nothing else, as runs that are sorted by data block.", "quantifier": "all mappings, all region lists", "why_tests_cant": "Region clipping and run coalescing must be exact for every boundary.", "anchors": ["src/thin/rmap.rs: RmapVisitor, RmapInspector"]}
{"id": "C29", "title": "Shrinking remaps every high block to a distinct free low block", "statement": "thin_shrink either reports that there is not enough space or produces a remap in which every data block at or beyond the new size is moved to a distinct block below it that was free, all other blocks stay, and each device's logical-to-data mapping is preserved through the move; the copy list never overwrites a block still in use.", "quantifier": "all mapping sets and new sizes", "why_tests_cant": "A collision in any mapping loses user data.", "anchors": ["src/thin/shrink.rs", "src/shrink/toplevel.rs: build_remaps, remap, DataRemapper"]}
{"id": "C30", "title": "Delta/VM compression of integers is lossless", "statement": "Packing any list of 64-bit integers (plain or shifted) and running the unpack virtual machine for the same number of values yields the identical list and consumes exactly the bytes produced.", "quantifier": "all lists of u64 (up to the length fields' limit)", "why_tests_cant": "Run-length, sign, width choices and wrap-around combine.", "anchors": ["src/pack/delta_list.rs: to_delta", "src/pack/vm.rs: pack_u64s, pack_shifted_u64s, pack_literal, VM"]}
{"id": "C31", "title": "Packing a metadata node is lossless", "statement": "Packing a metadata block with the node encoder and unpacking it gives back the original 4096 bytes, for every block the packer handles.", "quantifier": "all 4096-byte blocks recognised as b-tree nodes, superblocks, arrays or bitmaps", "why_tests_cant": "The node encoder makes layout assumptions that hold only for some headers.", "anchors": ["src/pack/node_encode.rs: pack_btree_node, pack_superblock, pack_bitmap, pack_index, pack_array"]}
{"id": "C32", "title": "thin_metadata_pack includes every metadata block", "statement": "Every metadata block of the input image is examined and stored in the packed stream exactly once, whatever the size of the device.", "quantifier": "all device sizes", "why_tests_cant": "Chunking arithmetic: only sizes that are not multiples of the chunk expose a dropped chunk.", "anchors": ["src/pack/toplevel.rs: mk_chunk_vecs, pack, unpack"]}
{"id": "C33", "title": "Cache metadata survives restore and dump", "statement": "Restoring a cache dump and dumping it again gives the same mappings, dirty flags and hints for all cache blocks, in both metadata versions.", "quantifier": "all mapping/hint lists with increasing cache blocks, all cache sizes of at least one block (a cache of no blocks is refused or cannot be dumped)", "why_tests_cant": "The dirty bits are buffered in 64-bit words whose flushing depends on index patterns.", "anchors": ["src/cache/restore.rs: Restorer", "src/cache/dump.rs: format1, format2"]}
{"id": "C34", "title": "cache_check accepts mappings only if they are consistent", "statement": "cache_check reports no mapping error exactly when no two valid cache blocks map the same origin block, every origin block is in range, no unmapped block is dirty or carries an origin block, and no unknown flag is set.", "quantifier": "all mapping arrays, all origin sizes", "why_tests_cant": "Pairwise uniqueness over the entire array.", "anchors": ["src/cache/check.rs: format1::MappingChecker, format2::MappingChecker"]}
{"id": "C35", "title": "cache_writeback marks a block clean only after it was copied", "statement": "For any pattern of read and write errors over all passes, the blocks whose dirty flag is cleared are exactly those copied successfully in some pass; failed blocks keep their dirty flag; success is reported only if every dirty block was copied.", "quantifier": "all dirty sets, all error patterns, any number of retries", "why_tests_cant": "Error patterns over several retry passes are exponential in number.", "anchors": ["src/cache/writeback.rs: copy_dirty_blocks, ThreadedCopier::run_, update_metadata, BitsetUpdater"]}
{"id": "C36", "title": "Era writeset dumping is exact", "statement": "The marked-block ranges emitted for a writeset cover exactly the set bits below the declared size, in increasing order, as maximal ranges.", "quantifier": "all bitsets of any size", "why_tests_cant": "Runs crossing word boundaries, all-ones words and partial last words interact.", "anchors": ["src/era/dump.rs: dump_writeset", "src/era/invalidate.rs: emit_blocks"]}
{"id": "C37", "title": "Era restore stores exactly the marked blocks", "statement": "Restoring a writeset from its list of marked ranges produces a bitset in which exactly those blocks are set.", "quantifier": "all increasing lists of marked ranges within the declared size", "why_tests_cant": "Word boundary handling of ranges.", "anchors": ["src/era/restore.rs: Restorer::writeset_blocks, writeset_e"]}
{"id": "C38", "title": "era_invalidate reports every block written since the threshold", "statement": "The blocks reported are exactly those whose last write era is at or after the threshold, taking the archived writesets and the era array together.", "quantifier": "all writesets, era arrays and thresholds", "why_tests_cant": "The choice between sources depends on the relation of the threshold to the archived range.", "anchors": ["src/era/invalidate.rs: mark_blocks_since, BitsetCollator, EraArrayCollator", "src/era/dump.rs: collate_writesets, EraArchive"]}
{"id": "C39", "title": "Read aggregation covers each requested block and respects the size limit", "statement": "Turning a list of block reads into vectored batches preserves every requested block in order, adds only gap blocks no longer than the threshold between requested blocks, keeps every batch contiguous and at most the maximum size.", "quantifier": "all block lists, thresholds and maxima", "why_tests_cant": "Splitting across batch limits interacts with gaps.", "anchors": ["src/io_engine/gaps.rs: generate_runs, find_runs, batch_adjacent, split_contiguous"]}
{"id": "C40", "title": "Block copier copies or reports every operation, under every interleaving", "statement": "For each requested copy, the copier either leaves the destination equal to the source contents or lists the operation among the errors; this holds for any interleaving of the reading and writing threads and any error pattern, provided sources and destinations do not overlap.", "quantifier": "all operation lists, buffer sizes, error patterns and reader/writer schedules", "why_tests_cant": "Schedules are unbounded in number.", "anchors": ["src/copier/sync_copier.rs: do_reads, do_writes, aggregate_ops, copy"]}
{"id": "C41", "title": "Rescue copier never writes data it did not read", "statement": "The page-wise rescue copier writes to the destination only pages it read successfully from the matching source page in the same operation, and counts a block as copied only if all of its pages were read and written.", "quantifier": "all error patterns per page, all operation lists", "why_tests_cant": "The buffer is reused between operations; stale data leaks only for particular error sequences.", "anchors": ["src/copier/rescue_copier.rs: do_read, do_write, copy"]}
{"id": "C42", "title": "Vectored block I/O terminates with one result per buffer", "statement": "Reading or writing a vector of blocks returns one result per block whatever the device returns (errors, short multiples of the block size, end of file).", "quantifier": "all device response sequences", "why_tests_cant": "Termination depends on device behaviour that tests do not produce.", "anchors": ["src/io_engine/utils.rs: VectoredBlockIo"]}
{"id": "C43", "title": "Storage size parsing and printing", "statement": "A size string is accepted exactly when it is digits followed by a known unit and the product fits in 64 bits, its value is number times unit; printing a storage size and parsing it again gives the same size.", "quantifier": "all strings; all storage sizes", "why_tests_cant": "Strings are unbounded and the overflow boundary differs per unit.", "anchors": ["src/units.rs: StorageSize, Units"]}
{"id": "C44", "title": "Metadata size estimates are sufficient, monotone and capped", "statement": "The recommended thin metadata size never decreases when the pool or the number of thins grows, is at least the space needed for the mappings at half-full nodes plus one block per thin, and never exceeds the maximum metadata size; invalid block sizes are rejected.", "quantifier": "all pool sizes, block sizes and thin counts", "why_tests_cant": "Rounding and capping corner cases.", "anchors": ["src/thin/metadata_size.rs", "src/cache/metadata_size.rs"]}
{"id": "C45", "title": "Range iteration splits a bitmap into maximal used/unused runs", "statement": "Iterating runs over a bitset of any length yields alternating maximal runs which tile the whole range in order.", "quantifier": "all bit patterns and lengths", "why_tests_cant": "Runs at both ends and across the whole range.", "anchors": ["src/run_iter.rs: RunIter"]}
{"id": "C46", "title": "Repair chooses only consistent roots, newest first", "statement": "thin_repair's candidate pairing returns exactly the pairs of mapping and details roots with equal mapping counts and identical device ids, ordered so that the most recent mapping tree comes first; the comparison of ages is a consistent total preorder; a rebuilt superblock never has a transaction id, time or data size below what the trees require.", "quantifier": "all sets of candidate roots, all override combinations", "why_tests_cant": "Sorting with a hand-written comparator and binary searches must be right for every multiset.", "anchors": ["src/thin/metadata_repair.rs: find_root_pairs, compare_time_counts, lower_bound, upper_bound, rebuild_superblock"]}
{"id": "C47", "title": "thin_check counts mappings exactly and clears needs_check only when asked and clean", "statement": "The mapping count thin_check computes for a device equals the number of mappings in its tree when the tree has no damage, a damaged subtree is reported as an error, and the needs_check flag is cleared only if the user asked for it and no error was found.", "quantifier": "all trees with any sharing; all option combinations and check outcomes", "why_tests_cant": "The summaries are cached across devices; the option space and error combinations are large.", "anchors": ["src/thin/check.rs: NodeSummary, summarize_tree, check_mapped_blocks, check"]}
{"id": "C48", "title": "Walking any metadata image terminates", "statement": "A walk of a btree from any root terminates on every metadata image, including images whose nodes point back to their ancestors, because no block is expanded more than once.", "quantifier": "all images (any assignment of nodes to blocks), all visitors, all starting states of the seen-map", "why_tests_cant": "Cyclic and adversarial images are not in the test-suite; termination is not testable.", "anchors": ["src/pdata/btree_walker.rs: BTreeWalker::walk, walk_nodes, build_aggregate"]}
{"id": "C49", "title": "Builder reference counts and copy-on-write safety", "statement": "Building a tree that shares pre-built leaves overwrites no block that was in use, raises the reference count of every metadata block by exactly the number of references the new tree makes to it, and takes exactly one data reference per entry of each newly written leaf; releasing the temporary references afterwards gives back exactly the references of leaves nobody used.", "quantifier": "all sequences of pushed values and pre-built leaves, all starting states of the space map", "why_tests_cant": "Counts depend on which shared leaves get unpacked for balancing, a function of all sizes.", "anchors": ["src/pdata/btree_builder.rs: NodeBuilder::{push_nodes,append_values,unshift_node}, release_leaves"]}
{"id": "C50", "title": "Region arguments are parsed exactly", "statement": "A region argument is accepted exactly when it consists of two 64-bit decimal numbers separated by two dots with the second larger than the first, and the region is then given by these numbers.", "quantifier": "all strings", "why_tests_cant": "The set of strings is infinite; tests try a dozen.", "anchors": ["src/commands/utils.rs: RangeU64::from_str"]}
{"id": "C51", "title": "A logical era dump gives each block the era of its latest write", "statement": "era_dump --logical either fails or lists, for every element of the era array, the era of the latest writeset (archived or current) that contains the block, or the recorded era when no writeset does; it requires the writesets to have consecutive eras ending with the current one.", "quantifier": "all sets of writesets, all bit patterns, all era arrays, all current eras", "why_tests_cant": "Eras are reconstructed from narrow deltas relative to a wrapping base; whether that is exact depends on the number of writesets and the era numbers.", "anchors": ["src/era/dump.rs: get_writesets_ordered, collate_writesets, EraArchive, LogicalEraEmitter"]}
{"id": "C52", "title": "Superblock fields are stored at the kernel's offsets", "statement": "In every superblock written by the thin, cache and era tools each field is stored, little endian, at the offset at which the kernel driver's on-disk structure has it, the block has 4096 bytes, and the superblock of a metadata snapshot is the one at the location stored in the actual superblock (an error if there is none).", "quantifier": "all superblock values of the declared widths", "why_tests_cant": "A writer and a reader that agree with each other but not with the kernel pass every round-trip test.", "anchors": ["src/thin/superblock.rs: pack_superblock, read_superblock_snap", "src/cache/superblock.rs: pack_superblock", "src/era/superblock.rs: pack_superblock, read_superblock_snap"]}
{"id": "C53", "title": "cache_check changes the metadata only after a complete check, and only to clear leaks and needs_check", "statement": "cache_check writes nothing unless the user asked for a repair or for clearing needs_check, nothing was skipped and no error other than leaked blocks was found; it then changes only bitmaps of the metadata space map and the needs_check flag, and the flag is cleared only if every leak was repaired and the tool succeeds; if it was asked to and succeeds the flag is clear.", "quantifier": "all metadata, damaged or not; all option combinations; all failing writes", "why_tests_cant": "Options, damage and write failures combine; a tool that clears the flag on one error path destroys the only sign of the damage.", "anchors": ["src/cache/check.rs: check, clear_needs_check_flag", "src/pdata/space_map/checker.rs: repair_space_map"]}
{"id": "C54", "title": "Node paths printed by one tool are understood by another", "statement": "The text that a tool prints for the path to a damaged node is decoded by another tool to the same path, for every path of blocks of realistic depth (up to 13 blocks below the superblock); decoding never depends on what was decoded before.", "quantifier": "all paths of 64-bit block numbers, all previous contents of the decode buffer", "why_tests_cant": "The compact encoding chooses among a dozen instruction forms depending on differences between consecutive numbers, then packs bits into text; tests try a few short paths.", "anchors": ["src/pdata/btree_error.rs: encode_node_path, decode_node_path", "src/pack/vm.rs: pack_u64s, VM::exec"]}
{"id": "C55", "title": "A dump written as XML is restored as the same events", "statement": "Reading the XML document that the dump tools (thin, cache, era) write calls the visitor with exactly the events that were written (a thin superblock without version gets version 2; marked blocks of a non-compact era document arrive one by one), so dumping to a file and restoring from it equals restoring directly. Any document the readers accept contains only attributes they know, each once; every value handed on is the value of the attribute with that name; a number that does not fit its type is an error, never truncated.", "quantifier": "all well-nested event sequences with strings free of quotes and ampersands, all visitors (including ones that fail or stop early); for acceptance: all documents", "why_tests_cant": "documents are unbounded and mix arbitrarily many elements, names and numbers; tests compare a few files", "anchors": ["src/xml.rs", "src/thin/xml.rs: XmlWriter, read, read_superblock", "src/cache/xml.rs: XmlWriter, read", "src/era/xml.rs: XmlWriter, read"]}
{"id": "C56", "title": "What cache_restore writes passes cache_check", "statement": "Whenever cache_restore succeeds on a document with four-byte hints, a full cache_check of the metadata it wrote succeeds exactly if no two mappings of the document have the same origin block, and the check changes nothing. In particular the metadata space map it writes counts every block of the device exactly.", "quantifier": "all event sequences that are accepted, both metadata versions, all device sizes that the space map can describe, all check options but skipping", "why_tests_cant": "restorer and checker share almost no code; whether the counts one writes are those the other expects depends on how every array, tree and bitmap is laid out", "anchors": ["src/cache/restore.rs: Restorer::finalize, build_metadata_sm", "src/cache/check.rs: check", "src/pdata/space_map/metadata.rs: write_metadata_sm"]}
{"id": "C57", "title": "What thin_restore writes passes thin_check", "statement": "Whenever thin_restore succeeds on a consistent document whose numbers have room in the metadata and in which no device maps a data block twice, a full thin_check of the metadata it wrote succeeds exactly if every device has as many mappings as its mapped_blocks says, and the check changes nothing. In particular both space maps that thin_restore writes are exact, also for leaves shared by definitions, every node is filled well enough, and every restore of a consistent document fails for lack of space only.", "quantifier": "all consistent documents with any number of definitions, devices and shared references; all metadata devices of up to 2^32 blocks; all full-check options; all orders in which the checker's threads work", "why_tests_cant": "restorer and checker share almost no code; whether the counts one writes are those the other expects depends on how every tree, shared leaf and bitmap is laid out", "anchors": ["src/thin/restore.rs: Restorer, finalize, build_data_sm, build_metadata_sm, write_superblock", "src/thin/check.rs: check", "src/pdata/space_map/disk.rs: write_disk_sm", "src/pdata/space_map/metadata.rs: write_metadata_sm"]}
{"id": "C58", "title": "thin_migrate copies exactly the mapped blocks", "statement": "Whatever the devices answer and however its threads are scheduled: if thin_migrate succeeds, every block that the metadata snapshot maps for the device has been copied to the same place of the destination, so that a new destination file is a copy of a source that reads zero where it is unmapped; if it fails, it names a mapped block that could not be read or written, or the buffer is smaller than a block and nothing was written. In no case does anything else change, on the destination or on the source.", "quantifier": "all mapping trees, all block and buffer sizes, all answers of the devices, all interleavings of the copier's threads", "why_tests_cant": "the mappings, the failures and the schedules are unbounded; tests migrate a few small devices", "anchors": ["src/thin/migrate/stream.rs: ThinStream", "src/thin/migrate/base.rs: copy_regions, migrate", "src/thin/migrate/metadata.rs: ThinIterator"]}
{"id": "C59", "title": "thin_migrate never takes one device for another", "statement": "thin_migrate finds the pool and metadata devices by their numbers: the tables that the kernel prints for thin and pool targets are parsed to the numbers printed, for all numbers and whatever follows; a device file is identified by its own numbers if its minor is below 256, and is never identified with the numbers of another device.", "quantifier": "all device numbers (12 bit majors, 20 bit minors), all tables", "why_tests_cant": "there are 2^32 device numbers; a test machine has a handful, all with small minors", "anchors": ["src/thin/migrate/devices.rs: split_device_number, parse_thin_table, parse_pool_table"]}
{"id": "C60", "title": "era_check accepts era metadata exactly if no era lies in the future", "statement": "For intact era metadata with any number of archived writesets, era_check succeeds exactly if no block was last written in an era after the current one, and changes nothing. For any metadata at all, if it succeeds then every archived bitset could be read in full and every block of the era array that it looked at holds no era after the current one.", "quantifier": "all era metadata: any number of writesets of any size, any era array, any damage", "why_tests_cant": "trees, bitsets and arrays are unbounded; whether the walkers visit every entry depends on their layout and on wrapping u32 positions", "anchors": ["src/era/check.rs: check, EraChecker::visit, EraChecker::read_bitset", "src/pdata/array_walker.rs", "src/era/writeset.rs"]}
{"id": "C61", "title": "What era_restore writes passes era_check", "statement": "Every document of the right form (writesets whose marks are within their size, eras of blocks of the device in increasing order) is restored unless the metadata device is too small. Whatever document era_restore accepts, superblock, writesets (the last one of each era) and eras can be read back as the document says, and era_check of the metadata written succeeds exactly if no era of the document is after the current one. If no two writesets have the same era, the metadata space map written counts every block exactly.", "quantifier": "all event sequences, all numbers and sizes of writesets and eras, all metadata devices that the space map can describe", "why_tests_cant": "documents are unbounded, and whether what is written can be read back depends on how every array, tree and bitmap is laid out in blocks", "anchors": ["src/era/restore.rs: Restorer, restore, build_metadata_sm", "src/era/check.rs: check", "src/pdata/array_builder.rs", "src/pdata/space_map/metadata.rs: write_metadata_sm"]}
{"id": "C62", "title": "era_dump reports exactly the metadata, and can be restored", "statement": "For intact era metadata of at least one block with consecutive writesets, era_dump succeeds and its document has the superblock fields, every archived writeset and the current one in order of era with exactly the maximal ranges of marked blocks, and the era of every block; era_dump --logical gives for every block the era of the last writeset that marks it, or else the era in the array. Restoring the document that era_dump writes yields metadata whose dump is the same document.", "quantifier": "all intact era metadata: any number of writesets of any size, any marks, any era array, all layouts of trees and arrays", "why_tests_cant": "writesets, bitsets and arrays are unbounded; the ranges depend on every bit, and the round trip on every encoder and decoder between the two tools", "anchors": ["src/era/dump.rs: dump_metadata, dump_metadata_logical, dump_writeset, get_writesets_ordered, EraEmitter", "src/era/xml.rs: XmlWriter, read", "src/era/restore.rs: Restorer"]}
{"id": "C63", "title": "era_repair keeps all marks", "statement": "Whenever era_repair succeeds on any metadata, what it wrote passes era_check exactly if no era is after the current one. If it succeeds on intact metadata, a dump of its output has the same superblock fields, eras and writesets as a dump of the input, and no mark is lost. It succeeds unless space runs out, and no mark is added.", "quantifier": "all era metadata, all output devices", "why_tests_cant": "whether a mark survives depends on how its range lies in the words of the bitset; ranges are unbounded", "anchors": ["src/era/repair.rs: repair", "src/era/dump.rs: dump_metadata", "src/era/restore.rs: Restorer::writeset_blocks"]}
{"id": "C64", "title": "cache_repair keeps the cache", "statement": "If cache_repair succeeds, on any metadata, a dump of its output has the mappings of the input's mapping array with their dirty flags and hints, a mapping is clean only if its dirty bit could be read, and a full cache_check accepts the output exactly if no origin block is mapped twice. On intact metadata of either version it fails for lack of space only and dumps of input and output are the same. No block that cache_writeback would have written back from the input is left out when it runs on the output.", "quantifier": "all cache metadata of both versions, damaged or not; all output devices", "why_tests_cant": "the damage and the sizes are unbounded; losing one dirty flag loses data, and tests compare a few dumps", "anchors": ["src/cache/repair.rs: repair", "src/cache/dump.rs: dump_metadata", "src/cache/restore.rs: Restorer", "src/cache/writeback.rs: mk_selector"]}
{"id": "C65", "title": "thin_repair recovers a whole pool", "statement": "For a pool whose trees are all readable (whatever else is on the device: old trees, garbage), thin_repair does not refuse, and unless it runs out of space the output holds exactly the devices, details and mappings of the pool: with the old superblock's values (and overrides) if the superblock points at the pool; if the superblock is lost, with a time and transaction not before any in the pool and room for every mapped data block; if the details are lost too, with the number of mappings counted and times after those of all mappings. The output passes a full thin_check exactly if every device's mapped_blocks is its number of mappings. thin_dump --repair writes the same document.", "quantifier": "all pools, of any size and shape; all other contents of the device; all output devices", "why_tests_cant": "shapes and contents are unbounded, and what is recovered depends on the scan of every block, the sort of the candidates, the dump of shared leaves and the rebuild of trees and space maps", "anchors": ["src/thin/repair.rs: repair", "src/thin/metadata_repair.rs: find_roots, read_or_rebuild_superblock", "src/thin/dump.rs: dump_metadata, dump_with_formatter", "src/thin/metadata.rs: build_metadata_with_dev, build_metadata_without_mappings", "src/thin/restore.rs: Restorer"]}
{"id": "C66", "title": "thin_ls shows the right figures", "statement": "For an undamaged pool or metadata snapshot, thin_ls succeeds and prints exactly one row per device, in order of device id, under the names of the wanted fields. MAPPED is the number of blocks the device maps, SHARED how many of them have a data block that another device maps as well, EXCLUSIVE the rest, HIGHEST the largest mapped block (or the last sector or byte of it), in blocks, sectors or bytes as the field says; TRANSACTION, CREATE_TIME and SNAP_TIME are those of the details. Every cell can be read back from the text and columns are aligned. (Undamaged: all trees readable and ordered, nodes below the roots at least a third full, no device maps a data block twice, all data blocks within the data device.)", "quantifier": "all undamaged pools: any number of devices, any sharing of subtrees and of data blocks, any choice of fields, all schedules of the reading threads", "why_tests_cant": "sharing between devices is unbounded, shared subtrees are counted once, in an order that depends on scheduling, and two-valued counters stand in for reference counts", "anchors": ["src/thin/ls.rs: ls, count_data_mappings, collect_nodes_in_use, read_leaf_nodes, read_exclusive_leaves, summarize_tree, LsTable", "src/grid_layout.rs: GridLayout"]}
{"id": "C67", "title": "What thin_ls shows of a damaged pool is right", "statement": "Whatever is on the device and whatever cannot be read: if thin_ls prints figures, it read the superblock, the details and the list of devices, whose ids agree, the mapping tree of every device can be read completely, its mapped blocks increase, and MAPPED and HIGHEST are right.", "quantifier": "all metadata devices, all read errors, all schedules of the reading threads", "why_tests_cant": "damage is unbounded, and summaries of shared subtrees are reused under other key ranges", "anchors": ["src/thin/ls.rs: ls, count_data_mappings_, summarize_tree, NodeSummary::append"]}
{"id": "C68", "title": "thin_stat counts references right", "statement": "If the space maps of a pool can be read, thin_stat prints, for data and for metadata blocks, exactly the histogram of the reference counts of all blocks that are in use, and the number of these blocks.", "quantifier": "all pools, all sizes, all reference counts, all layouts of bitmaps and overflow trees", "why_tests_cant": "space maps are unbounded; counts come from two places, the bitmaps and the overflow tree, with three bitmap values to be left to the latter", "anchors": ["src/thin/stat.rs: stat_data_block_ref_counts, stat_metadata_block_ref_counts, stat_low_ref_counts, RefCounter", "src/pdata/btree_walker.rs"]}
{"id": "C69", "title": "thin_stat counts mapping runs right", "statement": "For a pool whose trees can be read, thin_stat prints exactly the histogram of the lengths of the longest runs of consecutive mappings of all devices, and their number; leaves are counted once each, whatever devices share, and the runs cover the mappings of each leaf once.", "quantifier": "all readable pools, any number of devices, any sharing of subtrees", "why_tests_cant": "runs cross leaves and depend on which leaves a previous device had; the walker's memory spans all devices", "anchors": ["src/thin/stat.rs: stat_data_run_lengths, RunLengthCounter", "src/thin/dump.rs: RunBuilder", "src/pdata/btree_walker.rs"]}
{"id": "C70", "title": "Every I/O engine reads what is there and writes what it was given", "statement": "Whichever engine is chosen (synchronous, asynchronous, in memory, or the one for spindles), a request for several blocks is answered with one result per block in the order asked, a block reported as read has the content that is on the device, a block reported as written is on the device afterwards (unless the same request writes that place again), and no other block changes; a complete transfer is not reported as an error.", "quantifier": "all devices, block lists (with repetitions), device answers including short transfers and errors, and orders in which the kernel carries out requests", "why_tests_cant": "the answers of the device and the order of completion are the kernel's choice; the tests drive the engines with an in-memory device only", "anchors": ["src/io_engine/async_.rs", "src/io_engine/sync.rs: write_many_", "src/io_engine/core.rs", "src/io_engine/spindle.rs", "src/run_iter.rs"]}
{"id": "C71", "title": "cache_generate_metadata writes the cache that was asked for, and it passes cache_check", "statement": "Whatever the random choices, the generated metadata has the requested block size and number of cache blocks, min(cache blocks, resident) mappings where resident is the requested percentage of the cache but not more than the origin has blocks; the mappings are in cache block order, no cache or origin block occurs twice and all of them exist; there is one hint per mapping; the restored metadata passes cache_check without repairs. The generator ends once every origin block has been drawn.", "quantifier": "all parameters, shuffles and sequences of draws", "why_tests_cant": "what is generated depends on random draws; a test sees a few of them, and collisions of hotspots are rare", "anchors": ["src/cache/metadata_generator.rs: CacheGenerator::generate_metadata, format", "src/cache/restore.rs", "src/cache/check.rs"]}
{"id": "C72", "title": "era_generate_metadata writes the eras that were asked for, and it passes era_check", "statement": "Whatever the random choices, the generated metadata has the requested block size, number of blocks and current era; one writeset for each of the requested number of last eras, in which exactly the blocks are marked for which the draw succeeded; an era for each block that is before the first of the writesets; and it passes era_check.", "quantifier": "all parameters and sequences of draws", "why_tests_cant": "what is generated depends on random draws; the bit that decides is drawn while skipping or while extending a range, and boundaries of 64 blocks matter", "anchors": ["src/era/metadata_generator.rs: IndependentSequence::next, CleanShutdownMeta::generate_metadata", "src/era/restore.rs: writeset_blocks", "src/era/check.rs"]}
{"id": "C73", "title": "create-metadata-leaks does exactly the damage asked for, thin_check notices it and undoes it", "statement": "thin_metadata_damage --create-metadata-leaks with an expected and an actual count and a number of blocks picks that many metadata blocks whose count in the space map is the expected one, gives them the actual count and changes nothing else; if there are not that many it fails and nothing is written. If the expected count was the real one and the other is larger, thin_check reports exactly these blocks as leaks and its repair puts back the counts; if the other is smaller, thin_check fails.", "quantifier": "all metadata devices, numbers of blocks and counts that the tool accepts, all layouts of bitmaps", "why_tests_cant": "what is picked depends on the whole space map; whether the checker sees all of the damage is a statement about all devices", "anchors": ["src/devtools/damage_generator.rs", "src/pdata/space_map/checker.rs"]}
{"id": "C74", "title": "The engine for spindles knows every block that is in use", "statement": "The set of blocks that the tools hand to the engine for spindles contains, unless the metadata space map cannot be read and the tool fails over to all blocks, exactly the blocks whose count in the metadata space map is not zero; so every block of the metadata that is reachable is among them if its count is right.", "quantifier": "all space maps, sizes, counts and layouts of bitmaps, readable or not", "why_tests_cant": "a block left out is reported as an error only when a tool comes to it; sizes are unbounded", "anchors": ["src/pdata/space_map/allocated_blocks.rs", "src/commands/engine.rs: thin_valid_blocks"]}
{"id": "C75", "title": "Setting a field of a superblock in place changes nothing else", "statement": "Setting needs_check, clean_shutdown or the version of a pool or cache with the generators, or overriding roots with thin_metadata_damage, gives exactly the fields named the values asked for; every other field and every other block keeps its content; a device without a valid superblock is refused and not written to.", "quantifier": "all devices with any superblock content, all values", "why_tests_cant": "the superblock is unpacked and packed again; a field that one of the two forgets is lost silently, whatever its value", "anchors": ["src/thin/metadata_generator.rs: set_needs_check", "src/thin/damage_generator.rs: override_superblock", "src/cache/metadata_generator.rs: set_needs_check, set_clean_shutdown, set_superblock_version", "src/thin/superblock.rs", "src/cache/superblock.rs"]}
{"id": "C76", "title": "Metadata is not overwritten by thin_metadata_pack and thin_metadata_unpack without consent", "statement": "If the output of thin_metadata_pack or thin_metadata_unpack is a file or device that begins with a superblock of a thin pool, a cache or an era device, they go on exactly if they are forced or the question is answered with y or yes, in any case of letters and with white space after it; an answer that cannot be read is a no. If it does not hold metadata they do not ask.", "quantifier": "all contents of the output, all answers", "why_tests_cant": "any content and any answer is possible", "anchors": ["src/commands/utils.rs: check_overwrite_metadata, is_metadata, yes_no_prompt", "src/commands/thin_metadata_pack.rs", "src/commands/thin_metadata_unpack.rs"]}
{"id": "C77", "title": "The checkers take metadata and refuse XML, and outputs that are too small are refused", "statement": "thin_check, cache_check, era_check and thin_metadata_pack begin with any regular file or block device with a superblock written by the tools, and refuse files that are smaller than a block or are XML documents; the tools that repair or restore refuse an output of less than ten blocks.", "quantifier": "all files, of all kinds and contents", "why_tests_cant": "any content is possible; what looks like XML may be a checksum", "anchors": ["src/commands/utils.rs: check_input_file, check_file_not_tiny, check_output_file, check_not_xml, is_xml", "src/file_utils.rs: file_size, is_file_or_blk"]}
{"id": "C78", "title": "An interrupted restore leaves the old superblock or complete metadata", "statement": "While thin_restore, thin_repair, cache_restore, cache_repair, era_restore or era_repair write their output, the first block of the device is not touched until everything else is on the device: whatever they write, if they fail or are stopped at any point, also in the middle of a batch of writes, the first block is as it was before, or else the new superblock is there and every other block holds what was last written to it. If they report success the new metadata is complete.", "quantifier": "all sequences of allocations, reference count changes, writes, reads and flushes, all batch sizes and devices, all crash points including any subset of an interrupted batch, all failures of the engine", "why_tests_cant": "a crash can come between any two blocks; the order in which blocks reach the device depends on the batch size, on rewrites of queued blocks and on the input", "anchors": ["src/write_batcher.rs: WriteBatcher", "src/thin/restore.rs: Restorer::finalize, superblock_b", "src/cache/restore.rs: Restorer::finalize", "src/era/restore.rs: Restorer::finalize", "src/pdata/space_map/metadata.rs: write_metadata_sm, core_metadata_sm", "src/thin/superblock.rs: write_superblock"]}
{"id": "C79", "title": "The human readable dump loses nothing", "statement": "The text that thin_dump --format human_readable prints determines the metadata it was printed from: two dumps with the same text have the same superblock fields, definitions, devices, mappings and references in the same order. Mappings are shown by their first and last block.", "quantifier": "all metadata: any number of devices, mappings, names and values", "why_tests_cant": "two texts would have to be compared for every pair of metadata", "anchors": ["src/thin/human_readable_format.rs: HumanReadableWriter", "src/thin/ir.rs"]}
{"id": "C80", "title": "The outcome of a report does not depend on the schedule", "statement": "Threads that share one report can log in any order: the outcome is fatal exactly if some thread reported a fatal error and a success exactly if none reported an error; every error is printed unless the report is quiet, nothing is printed that nobody reported, giving -v more often never hides a message, and the progress shown is between 0 and 100 per cent.", "quantifier": "all numbers of threads, all sequences of calls, all interleavings, all verbosities and totals", "why_tests_cant": "the order of the calls of different threads is chosen by the scheduler", "anchors": ["src/report.rs: Report, outcome_combine, parse_log_level, ProgressMonitor"]}
{"id": "C81", "title": "The map used by thin_ls keeps the order of insertion", "statement": "After any history of insertions into the hash vector a lookup gives the value inserted last for that key, a key never inserted gives nothing, values are listed in the order in which their keys first came, and nothing panics.", "quantifier": "all histories of insertions with 32 bit keys", "why_tests_cant": "any history is possible; the index is cut to 32 bits", "anchors": ["src/utils/hashvec.rs: HashVec", "src/thin/ls.rs"]}
{"id": "C82", "title": "What thin_restore builds is what ends up on the device", "statement": "For every document that thin_restore accepts, the calls it makes depend neither on the device nor on the batch size of the engine; on a device that is large enough and stores what it is given the tool reports success, and then the superblock, all tree nodes, all bitmaps and the index of the metadata it built are on the device, each in its place; and wherever the tool is interrupted, block 0 is as it was before or all of these are there.", "quantifier": "all documents, all metadata sizes below 2^64 blocks, all larger devices with any contents, all batch sizes, all crash points", "why_tests_cant": "crash points, device contents and documents multiply; a test shows one combination", "anchors": ["src/thin/restore.rs: Restorer, restore", "src/write_batcher.rs: WriteBatcher", "src/pdata/btree_builder.rs", "src/pdata/space_map/metadata.rs: write_metadata_sm"]}
{"id": "C83", "title": "What cache_restore and era_restore build is what ends up on the device", "statement": "For every document that cache_restore (both metadata versions) or era_restore accepts, the calls it makes depend neither on the device nor on the batch size of the engine; on a device that is large enough and stores what it is given the tool reports success, and then the superblock, all index trees, all arrays (for eras also the tree of writesets) and the space map it built are on the device, each block in its place; and wherever the tool is interrupted, block 0 is as it was before or all of these are there.", "quantifier": "all documents, all metadata sizes below 2^64 blocks, all larger devices with any contents, all batch sizes, all crash points", "why_tests_cant": "crash points, device contents and documents multiply; a test shows one combination", "anchors": ["src/cache/restore.rs: Restorer, restore", "src/era/restore.rs: Restorer, restore", "src/pdata/array_builder.rs", "src/write_batcher.rs: WriteBatcher"]}
{"id": "C84", "title": "The tool named on the command line runs, and its status and messages tell how it ended", "statement": "A tool runs exactly if the path the program is called by names it (the last part of the path, whatever slashes and single dots follow it), or the program is called by its own name and the first argument names the tool in this way; it gets the arguments from that name on. Otherwise the usage is shown. The exit status is 0 if and only if the tool succeeded, else 64; a broken pipe is silent and every other failure is reported exactly once, with its outermost message and its root cause. The engine used is the one asked for by name, the synchronous one by default, any other name is refused; every engine works with every tool; and the metadata snapshot is read exactly when a thin or an era tool is asked to.", "quantifier": "all argument lists, all chains of error messages, all engine names and tools", "why_tests_cant": "paths and argument lists are unbounded", "anchors": ["src/bin/pdata_tools.rs: main_, get_basename, register_commands", "src/commands/utils.rs: to_exit_code", "src/commands/engine.rs: parse_type, parse_engine_opts, EngineBuilder::build"]}
{"id": "C85", "title": "The size estimators accept the documented options and print the size they compute", "statement": "thin_metadata_size gives an estimate exactly for block sizes that are multiples of 64 KiB up to 1 GiB and pools of at least a block; the estimate counts the superblock, a block for every 126 data blocks or part of them, and one for every device, up to the limit of the kernel. cache_metadata_size takes a number of blocks alone, or a device size with a block size that is a multiple of 32 KiB up to 1 GiB, and nothing else; a last part of a block counts. The number printed is exact if it is a whole number of units and otherwise right to the nearest hundredth, with the name of the unit asked for; it is never less than the estimate; and in the short format a whole number of units is a size the tools' options accept, of as many bytes.", "quantifier": "all option values and units, all sizes of at least one unit", "why_tests_cant": "sizes and units are too many to try", "anchors": ["src/commands/thin_metadata_size.rs: parse_args, run", "src/commands/cache_metadata_size.rs: parse_args, run", "src/units.rs: to_units"]}
{"id": "C86", "title": "The progress shown during a copy is right", "statement": "While blocks are copied in batches, by either copier and whatever its threads and the devices do, the percentage shown never falls and never exceeds 100; at the end it is the percentage of blocks that were copied, it is 100 if and only if every block was copied and no error was listed, and the line about errors shows the total numbers of read and write errors of all batches, or is absent if there are none.", "quantifier": "all lists of batches, all schedules of the two threads, all outcomes of reads and writes", "why_tests_cant": "schedules and failures multiply", "anchors": ["src/copier/report.rs: ProgressReporter", "src/copier/sync_copier.rs: SyncCopier::copy", "src/copier/rescue_copier.rs: RescueCopier::copy"]}
{"id": "C87", "title": "thin_trim leaves the data of thin devices alone", "statement": "The command thin_trim checks the metadata first. If the check fails it discards nothing and its exit status is 65; if the data device is smaller than the pool says, of unknown size, or cannot be opened, it discards nothing and fails. It never changes the metadata. No byte of a data block that some thin device maps is ever discarded, nor anything beyond the pool or the end of the data device, also when discards fail half way; and when it reports success, every byte of every block that no device maps has been discarded.", "quantifier": "all pools whose metadata can be read, all data devices, all orders of the checking threads, all failures of discards", "why_tests_cant": "it relates the check of whole trees to a map of bits, over all pools", "anchors": ["src/commands/thin_trim.rs: run", "src/thin/trim.rs: trim_data_device, read_bitmaps, RangeIterator", "src/thin/check.rs: check", "src/pdata/space_map/checker.rs: check_low_ref_counts"]}
{"id": "C88", "title": "cache_writeback touches nothing if the metadata is bad, and otherwise writes back what is dirty", "statement": "The command cache_writeback checks the metadata first. If the check finds an error nothing is copied, nothing is written and the exit status is 65; this is so for all undamaged metadata with inconsistent mappings (two cache blocks of one origin block, origin blocks out of bounds, dirty blocks without a mapping, unknown flags). If the command reports success every block that had to be written back is on the origin, no other block of the origin and nothing on the fast device has changed, and the dirty flags of exactly these blocks are clear (or the metadata is unchanged, if so asked). However it ends, a flag is cleared only if the block has arrived on the origin, and no part of the metadata but the flags is ever written. If copying comes to an end and the metadata can be written, the command reports success exactly if every block was copied.", "quantifier": "all metadata devices, all contents of the data devices, all outcomes of reads and writes and of every batch, all numbers of retries, with and without --no-metadata-update", "why_tests_cant": "damaged metadata and failures at every place multiply", "anchors": ["src/commands/cache_writeback.rs: run", "src/cache/check.rs: check", "src/cache/writeback.rs: writeback, copy_dirty_blocks, update_metadata"]}
{"id": "C89", "title": "Test patterns tell every block from every other", "statement": "A buffer of any multiple of eight bytes is accepted for a seed exactly if it is what fill_buffer writes for that seed, so a wrong bit anywhere is noticed. The patterns of two seeds differ in every word, so a block that was copied to the wrong place, or only in part, is noticed in every word of it. No word occurs twice in a pattern of less than 2^67 bytes, so data shifted within a buffer is noticed; the period is exactly 2^64 words.", "quantifier": "all seeds, all buffer lengths and contents, all positions", "why_tests_cant": "2^64 seeds and arbitrary lengths; a test compares a few buffers", "anchors": ["src/random.rs: Generator"]}
{"id": "C90", "title": "The kernel reads in a request code what it was made of", "statement": "On both kinds of architectures, a request code made by ioc! or one of the four macros from a direction, type, number and size that fit has 32 bits, and the fields the kernel cuts it into are these; two requests with the same code are the same. The codes used to discard blocks and to find out the size of a device are those of the kernel.", "quantifier": "all directions, types, numbers and sizes that fit their fields, both layouts", "why_tests_cant": "the existing test compares three constants on the architecture it runs on", "anchors": ["src/ioctl.rs: ioc, request_code_none, request_code_read, request_code_write, request_code_readwrite", "src/thin/trim.rs: BLKDISCARD", "src/file_utils.rs: BLKGETSIZE64"]}
{"id": "C91", "title": "From the document given to cache_restore to the data on the origin", "statement": "A cache restored from a document in which no two mappings name the same origin block is accepted by cache_writeback; one restored from a document with two such mappings is refused, with nothing copied and nothing written. When cache_writeback reports success for a restored cache, every block the document calls dirty (every mapped block, if the cache was not shut down cleanly) is on the origin device, at the place the document names; no other block of the origin and nothing on the fast device has changed. If copying comes to an end and the metadata can be written, success is reported exactly if all these blocks were copied.", "quantifier": "all documents that cache_restore accepts (hints of four bytes, 48 bit origin blocks, at least one cache block), both versions, all data devices, all outcomes of reads and writes", "why_tests_cant": "it relates two tools over all documents and all failures", "anchors": ["src/cache/restore.rs: Restorer", "src/commands/cache_writeback.rs: run", "src/cache/writeback.rs: writeback", "src/cache/check.rs: check"]}
{"id": "C92", "title": "Injected errors fail exactly the transfers that touch them", "statement": "On the memory disk the copiers and engines are tested with, making a (not empty) range fail breaks every byte of the pages it touches and no other. A read or a write inside the disk, also a vectored one of whole pages, fails exactly if it touches a byte of such a page. A read that succeeds gives the bytes that are there, buffer after buffer; a write that succeeds stores exactly its bytes and changes no other; a plain write that fails changes nothing.", "quantifier": "all disk contents, all sets of failing ranges, all offsets and lengths, all lists of buffers", "why_tests_cant": "it is the disk the unit tests themselves rely on; offsets, ranges and buffers multiply", "anchors": ["src/io_engine/ramdisk.rs: Ramdisk, VectoredIo, FileExt"]}
