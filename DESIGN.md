# Formal model of thin-provisioning-tools (Lean 4)

## Method

* The Rust sources in `/repo` are read as text; each Lean definition cites the file and lines it models and says where it simplifies.
* Machine integers are `Nat` with explicit range hypotheses (Rust type guarantees), or `Nat` modulo 2^k where the release build wraps; bytes are `UInt8`.
* `&mut` methods are functions returning the new state; `Result`/`Option` stay data; panics (`assert!`, `unwrap`, index out of bounds) are explicit values of the result.
* Nondeterminism (thread schedules, failing reads and writes, unstable sorts, hash-map order, crash points) is a relation, an oracle argument or a list of steps, and the
  theorems hold for all of them.
* Recursion of the code on trees of unknown depth uses fuel; the theorems either hold for every fuel or show how much suffices (`BT.walk_terminates`: number of blocks + 1).
* `Verif/Model/*.lean` hold the models, `Verif/Prop/*.lean` the specifications, theorems and examples that meet the hypotheses, `Verif/Lemmas/*.lean` helpers.
* When the code does not satisfy the English property, the negation is proved with a witness (suffix `_refuted`) and the part that holds is proved beside it (`_partial` when it
  is weaker than the property).
* `seeded/LOG.jsonl` records the wrong programs the theorems were tested against.

## Trusted base

* Lean 4.33.0 kernel and the three standard axioms `propext`, `Classical.choice`, `Quot.sound` (list at the end).  Core Lean library; of Mathlib only two list modules are imported (in `Prop/Copier`).
* The reading of the Rust code embodied in the model: nothing is extracted from or executed against `/repo`.
* The behaviour, as documented, of what the code calls: `Vec`, `BTreeMap`, `HashMap`, sorting, `FixedBitSet`, `RoaringBitmap`, `rangemap::RangeSet`, `num_enum`/`nom`
  primitives (little-endian words), `crc32c` (a parameter: theorems hold for any function), zlib (`compress`/`decompress` are a parameter with their round-trip law), quick_xml.
* The kernel's read/write/discard calls as described by the oracles of the I/O models.


## Modelled code, module by module

| model | source | what is in the model | what is left out or simplified |
|---|---|---|---|
| Bytes, Records | pdata/unpack.rs, thin/block_time.rs, thin/device_detail.rs, cache/{mapping,hint}.rs, era/writeset.rs, space_map/common.rs | every `Unpack`/`Pack` of the on-disk records over byte lists | nom error kinds |
| Checksum | checksum.rs | `write_checksum`, `metadata_block_type` with all salts | CRC32C itself is a parameter |
| Superblock | thin,cache,era/superblock.rs | pack/unpack of the three superblocks at byte level, flags | reading the block (parameter) |
| Node, BTree | pdata/btree.rs, btree_error.rs, btree_lookup.rs, btree_iterator.rs | `unpack_node` (all acceptance conditions), `pack_node`, `KeyRange`, `split_key_ranges`, lookup, iterator, node paths | error values reduced to kinds |
| Xml | xml.rs, {thin,cache,era}/xml.rs | writers, attribute text and its parsing, numbers, unescaping, parsers of all elements, the event loops, `read_superblock` | quick_xml's cutting of a file into tags; character references by number count as errors; the delta writer is in Delta |
| NodePath | pdata/btree_error.rs:220-290 | encoding and decoding of node paths, base64 | an assertion on the VM output counts as an error |
| Walker, LeafWalker | pdata/btree_walker.rs, btree_leaf_walker.rs | the walk with its space map, failure memory, visitors, `btree_to_map`, `btree_to_key_set`, leaf walker with sharing | the threaded walk is modelled as the sequential one (same visits, order unspecified in the code) |
| Builder, ArrayBuilder, ArrayBlock | pdata/btree_builder.rs, array_builder.rs, array.rs | node builder with balancing and reference counts, index levels, `release_leaves`, array blocks, byte layout of array blocks | writing goes to an abstract store through the batcher interface |
| SpaceMap, Bitmap, SpaceMapDisk, SpaceMapCheck | pdata/space_map/*.rs | in-core maps (core, restricted, restricted-two), bitmaps, index entries, overflow tree, `write_disk_sm`, `write_metadata_sm`, checker, leak repair | `Mutex` wrappers |
| Batcher | write_batcher.rs | queue, alloc, read, flush, crash at any point | error of whole batches only where stated |
| Bitset | pdata/bitset.rs, array_walker.rs | `CheckedBitSet`, `read_bitset*`, array walker and its error grouping |  |
| Gaps, BlockIo | io_engine/gaps.rs, io_engine/utils.rs, io_engine/sync.rs (`read_many`) | run planning, vectored I/O with partial transfers and errors, simple I/O | `O_DIRECT`, alignment of buffers, the async (io_uring) and spindle engines |
| Copier, CopyQueue, Rescue | copier/*.rs | reader/writer threads as a transition system, batching, worker thread, rescue copier per page | `IgnoreProgress` |
| Units, Sizes | units.rs, commands/utils.rs, thin/cache metadata_size.rs, run_iter.rs | parsing and printing of sizes (with f64 as exact rationals where stated), size estimates, `RunIter` | clap |
| Migrate | thin/migrate/{base,stream,metadata,devices}.rs | stream of chunks over the B-tree iterator, copy operations, the tool as a relation over the batcher and copier models, device numbers, table parsers | ioctls, udev, opening and sizing of files, progress |
| DumpRuns, Gatherer, ThinDump, ThinRestore, ThinRestoreSm | thin/{dump,runs,metadata,restore,ir}.rs | gathering of shared runs, metadata passes, dump visitor stream, restorer state machine, shared sub-trees, superblock | XML text (see Xml) |
| ThinCheck, ThinCheckTool | thin/check.rs | node collection, leaf reading, summaries, all options, space map checks, repair and flag clearing, metadata snapshot | message texts; the concurrent passes are a relation over all orders |
| Repair | thin/metadata_repair.rs | collection of candidate roots, summaries, pairing, sorting, rebuilt superblock, overrides | log messages |
| Delta, Rmap, Trim, Shrink | thin/{delta,delta_visitor,rmap,trim,shrink}.rs, shrink/toplevel.rs | the complete transformation from mapping trees to output | discard ioctl, superblock attributes of delta |
| ThinRepair | thin/{repair,dump,metadata}.rs | the whole of thin_repair, dump_with_formatter with --repair, --dev-id and --skip-mappings | find_roots_with_flags, metadata_snap |
| ThinLs | thin/ls.rs, grid_layout.rs | all passes of the counting with any thread order, both space maps, the table, metadata snapshots | uuid and message texts, monitor |
| ThinStat | thin/stat.rs | all three histograms, with the shared walker | floating-point percentages and averages, printing |
| Engines | io_engine/{async_,core,spindle,sync}.rs, run_iter.rs | read, read_many, write, write_many of all engines, the cache of the spindle engine | io_uring itself (the order and outcome of requests are arbitrary), opening of files, O_DIRECT alignment |
| Generators | cache/metadata_generator.rs, era/metadata_generator.rs | CacheGenerator, CleanShutdownMeta, IndependentSequence, through the models of the restorers | the random number generators (their results are arbitrary), SetNeedsCheck and the other in-place operations |
| Damage | devtools/damage_generator.rs, pdata/space_map/allocated_blocks.rs, commands/engine.rs (thin_valid_blocks) | search for blocks with a count, change of counts in bitmaps, blocks in use; the command line and counts above 2 (unfinished in the code) are not modelled |
| SbEdit | thin/metadata_generator.rs, thin/damage_generator.rs, cache/metadata_generator.rs (setting fields of the superblock) | the operations on bytes; I/O errors are not modelled |
| FrontEnd | commands/utils.rs, file_utils.rs, guards of commands/*.rs | checks of input and output, prompts; stat and open are a parameter, clap is not modelled |
| RestoreIo | write_batcher.rs, {thin,cache,era}/restore.rs, space_map/metadata.rs, */superblock.rs | calls of a restore on batcher, space map and engine; crash points | torn blocks; the calls are any sequence |
| Human | thin/human_readable_format.rs | text of every visitor call | the output stream |
| Report | report.rs | outcome, levels, calls as atomic steps, percentage | drawing of the progress bar |
| HashVec | utils/hashvec.rs | all functions | iterators over mutable values |
| Cli | bin/pdata_tools.rs, commands/{utils,engine,thin_metadata_size,cache_metadata_size}.rs | choice of the tool, exit status, engine options, size estimates and the line printed | clap; decimals of floats below one |
| WritebackTool | commands/cache_writeback.rs: run | the check, then the writeback, on one device | checks of arguments (Cli), messages |
| Lcg | random.rs | all functions | messages |
| Ioctl | ioctl.rs, BLKDISCARD, BLKGETSIZE64 | all macros, both layouts | the ioctls themselves |
| Ramdisk | io_engine/ramdisk.rs: Ramdisk::invalidate, is_valid_range, VectoredIo, FileExt | bytes as a list, failing pages as a list | offsets cut to 32 bits, locks, try_clone |
| TrimTool | commands/thin_trim.rs, thin/trim.rs: read_bitmaps, trim_data_device | check, then trim; sizes of 64 bits; discards that fail | checks of arguments (Cli), messages |
| CopyProgress | copier/report.rs | sums, percentage and line of errors, with the calls of both copiers | drawing |
| CacheIr, CacheDump, CacheRestore, CacheCheck, CacheWriteback, CacheRepair | cache/*.rs | dump (both versions, damaged arrays), restore, check with all options, writeback with retries and metadata update, repair | utf-8 check of the policy |
| BitScan, EraRestore, EraTool, EraInvalidate, EraLogical, EraCheck, EraDump | era/{dump,restore,repair,invalidate,check}.rs | bit scanning, restore, logical and physical dump, invalidate, check | message texts |
| Pack, PackTop | pack/{delta_list,node_encode,vm,toplevel}.rs | delta lists, VM, node encoders, chunking, shuffles and frame order | zlib |

Not modelled at all: `commands/*.rs` except those listed above (argument parsing), progress bars' drawing, `thin_explore`,
`io_engine/buffer.rs`, `pdata/btree_merge.rs` (unfinished in the code), device-mapper calls, allocation failure and performance.


## Property by property

Status and theorem lists are in `MANIFEST.json`; the notes there name the findings.  A `partial` status means that the English claim is false of the code (then a `_refuted`
theorem with a witness stands beside the strongest version that holds) or that a stated part is not covered.

| id | property | plan: model and proof | status |
|---|---|---|---|
| C01 | On-disk records round-trip | little-endian codec and each record's pack/unpack; algebraic round trip | proved |
| C02 | Superblocks round-trip through write and read | superblock pack/unpack as field sequences; composed from C01 | proved |
| C03 | Checksums identify the block type that was written | checksum word xor salt, CRC a parameter; xor algebra, salts distinct | proved |
| C04 | B-tree nodes accepted by the reader are well formed | `unpack_node` over byte lists; acceptance characterised by an equivalence | proved |
| C05 | B-tree node pack/unpack round-trip | `pack_node` then `unpack_node`; round trip | proved |
| C06 | Space map counts follow the operation history | in-core space maps as state machines; refinement to `Nat -> Nat`, induction over histories | proved |
| C07 | Space map allocated-block count is exact | invariant over histories; refutation for the two-bit map | partial |
| C08 | Space map allocation is safe and complete | invariant of the cursor; safety and completeness of `alloc` | partial |
| C09 | Write batcher: reads see the latest write | batcher over an abstract disk; refinement to the overlay of queued writes | proved |
| C10 | Write batcher: flush makes the disk equal to the sequential writes, a crash loses only queued writes | flush and crash as any prefix of the queue | partial |
| C11 | B-tree builder keeps exactly the entries pushed | builder over abstract nodes; invariant by induction over pushes | proved |
| C12 | B-tree builder output is balanced and well filled | same invariant: fill, keys, height | proved |
| C13 | B-tree lookup agrees with the map the tree stores | structural induction over trees of any height | proved |
| C14 | B-tree iteration returns all entries in key order exactly once | path invariant of the iterator | partial |
| C15 | Tree walk visits every leaf entry once, in order, and detects key-range damage | induction over the walk; coverage by a measure on unseen blocks; refutations | partial |
| C16 | Splitting a key range partitions it | list induction on `split_key_ranges` | partial |
| C17 | Array builder stores every pushed value at its index | array builder composed with the B-tree builder | proved |
| C18 | Bitset reading returns each stored bit, and unknown for damaged parts | pointwise semantics of the bitset reader | proved |
| C19 | Space map serialisation round-trip | bitmaps and index written and read back; history of counts while the map writes itself | partial |
| C20 | Space map checker reports every difference | exact characterisation of the bitmap comparison; composition with tree walks | partial |
| C21 | Leak repair changes only leaked blocks | pointwise effect of any subset of the repair's writes | partial |
| C22 | Shared-run gathering is lossless and splits exactly at sharing boundaries | invariants on the link graph of the gatherer | proved |
| C23 | thin_dump mapping runs are lossless and maximal | list induction on the run builder: lossless and maximal | proved |
| C24 | thin_restore accepts exactly well-nested metadata | restorer as a state machine over event streams | partial |
| C25 | Restoring a dump reproduces every device's mappings | dump stream composed with the restorer and the tree builder | proved |
| C26 | thin_trim discards only unused data blocks, and all of them | pointwise set equality of discarded ranges | proved |
| C27 | thin_delta reports exactly the differences | merge of two mapping streams; pointwise and maximal | proved |
| C28 | thin_rmap reports exactly the thin blocks that map into the requested regions | tree walk with a collecting visitor; refutation for shared sub-trees | partial |
| C29 | Shrinking remaps every high block to a distinct free low block | relocation as an injective partial map; copies in any order | proved |
| C30 | Delta/VM compression of integers is lossless | delta list to VM instructions and back | proved |
| C31 | Packing a metadata node is lossless | node encoders per block type | partial |
| C32 | thin_metadata_pack includes every metadata block | chunk arithmetic; every permutation of frames | partial |
| C33 | Cache metadata survives restore and dump | restore composed with dump on arrays and bitsets | proved |
| C34 | cache_check accepts mappings only if they are consistent | check as a fold over the shown entries; exactness | proved |
| C35 | cache_writeback marks a block clean only after it was copied | selection, copying with retries, metadata update; invariant over outcomes | proved |
| C36 | Era writeset dumping is exact | pointwise bit semantics | proved |
| C37 | Era restore stores exactly the marked blocks | bits set per word; refutations where the code marks extra blocks | partial |
| C38 | era_invalidate reports every block written since the threshold | union of writesets from the threshold; refutations | partial |
| C39 | Read aggregation covers each requested block and respects the size limit | list induction through the planning pipeline | proved |
| C40 | Block copier copies or reports every operation, under every interleaving | two threads as a transition system; invariant, progress, termination measure | proved |
| C41 | Rescue copier never writes data it did not read | per-page fold with all outcomes | proved |
| C42 | Vectored block I/O terminates with one result per buffer | oracle of answers; refutation of termination at end of file | partial |
| C43 | Storage size parsing and printing | parser as an equivalence with a grammar; exact rationals for f64 | partial |
| C44 | Metadata size estimates are sufficient, monotone and capped | arithmetic; wrap-around witnesses | partial |
| C45 | Range iteration splits a bitmap into maximal used/unused runs | tiling by maximal runs, uniqueness | proved |
| C46 | Repair chooses only consistent roots, newest first | summaries as trees; order theory of time counts; refutations | partial |
| C47 | thin_check counts mappings exactly and clears needs_check only when asked and clean | summaries by induction over trees; whole tool as a function of options and oracles | partial |
| C48 | Walking any metadata image terminates | measure: unseen blocks | proved |
| C49 | Builder reference counts and copy-on-write safety | reference counts in the builder invariant | proved |
| C50 | Region arguments are parsed exactly | parser equivalence | proved |
| C51 | A logical era dump gives each block the era of its latest write | pointwise maximum over writesets | proved |
| C52 | Superblock fields are stored at the kernel's offsets | byte offsets read off the packed superblock | proved |
| C53 | cache_check changes the metadata only after a complete check, and only to clear leaks and needs_check | control flow of the whole cache_check with any failing write | proved |
| C54 | Node paths printed by one tool are understood by another | encoder bytes, base64 groups, VM of C30; length bound of 9 bytes per number | proved |
| C55 | A dump written as XML is restored as the same events | attribute scanner as a state machine, fold over attributes, relation between tags and events, then any visitor; composed with dump and restore | proved |
| C56 | What cache_restore writes passes cache_check | the batcher records a prefix of the device through all builders (Prop/Cursor), so the space map is exact (C19); layout of the restored device meets the completeness theorem of the check | proved |
| C57 | What thin_restore writes passes thin_check | a restore is composed with both space map writers (Model/ThinRestoreSm); the resulting trees, mapped value by value to what the checker reads (Prop/TreeMap), form a pool that meets the hypotheses of the exactness theorem of C47; reference counts of shared leaves by counting tree blocks | proved |
| C58 | thin_migrate copies exactly the mapped blocks | the stream over the iterator model of C14: induction over the remaining entries gives the chunks as an exact tiling; composed with batches and copier (C40) | proved |
| C59 | thin_migrate never takes one device for another | arithmetic on the device number; parser after printer by induction on decimal digits | proved |
| C60 | era_check accepts era metadata exactly if no era lies in the future | the array walker of the cache check with another visitor; intact metadata as a layout in a store, exactness by induction over writesets and array blocks | proved |
| C61 | What era_restore writes passes era_check | an invariant over the events read so far (restored_done) and the layout of C60; the space map by the writer of C26; acceptance by running a document of the right form | proved |
| C62 | era_dump reports exactly the metadata, and can be restored | the array walk of C42 and the bit scan of C36 over any bitset; the round trip by C61 and the XML round trip of C43 | proved |
| C63 | era_repair keeps all marks | the dump of C62 fed to the restorer of C61; the ranges within words by C37; witnesses that crossing ranges are not repaired exactly | partial |
| C64 | cache_repair keeps the cache | the dump of C33/C32 fed to the restorer; C56 for the check; a witness for the lost dirtiness after an unclean shutdown | partial |
| C65 | thin_repair recovers a whole pool | find_roots (C46), the choice of the superblock (C47), the dump of clean trees (C39) and the restore (C38, C57) put together; a pool is given by its trees, the output by the trees it holds; a witness for the non-fatal errors | partial |
| C66 | thin_ls shows the right figures | the collection of nodes as in thin_check (C43) with counters that stop at two; what two means for trees that may share nodes: another device has the block; the summaries by induction over the trees; the table as a function of its rows, and a reader for it | proved |
| C67 | What thin_ls shows of a damaged pool is right | the summaries of thin_ls have those of thin_check inside (a projection), so soundness of the latter (C44) carries over; a witness for overlapping leaves | partial |
| C68 | thin_stat counts references right | histograms as sorted lists of counts; the bitmaps and the overflow tree together give each block once, by counting positions | proved |
| C69 | thin_stat counts mapping runs right | the walker shows each leaf once on any graph (an invariant on its counters); the run builder is that of thin_dump (C23); refutations for shared leaves | partial |
| C70 | Every I/O engine reads what is there and writes what it was given | requests of a ring carried out in any order with any outcome; the synchronous engine by composition of the run splitter (C39) and vectored writes (C42); the spindle engine by an invariant over the runs of blocks in use and losslessness of the packer (C31) | partial |
| C71 | cache_generate_metadata writes the cache that was asked for, and it passes cache_check | invariant of the set of origin blocks (sorted, as long as the counter, within the origin); sorting a duplicate-free list is strictly increasing; composition with restore_accepts and restore_check of the cache | proved |
| C72 | era_generate_metadata writes the eras that were asked for, and it passes era_check | the k-th draw belongs to block k, by induction over the ranges; composition with restore_accepts and restore_check of the era tools | partial |
| C73 | create-metadata-leaks does exactly the damage asked for, thin_check notices it and undoes it | exact result of the search by induction over bitmaps; exact effect of the adjustment on every entry; composition with the checker's specification | partial |
| C74 | The engine for spindles knows every block that is in use | the set is exact by induction over the index entries | proved |
| C75 | Setting a field of a superblock in place changes nothing else | the parsers run backwards give the bytes of every field; position by position comparison with the packed bytes | partial |
| C76 | Metadata is not overwritten by thin_metadata_pack and thin_metadata_unpack without consent | exact condition of the guard, for any content and answer | proved |
| C77 | The checkers take metadata and refuse XML, and outputs that are too small are refused | exact condition of the guards; the first bytes of a packed superblock | partial |
| C78 | An interrupted restore leaves the old superblock or complete metadata | calls named by handles of allocated blocks; invariant: block 0 counted, never held, never queued; the batcher theorems for completeness; small refutations | partial |
| C79 | The human readable dump loses nothing | each call's text is prefix free: numbers end at the next character that is no digit, names at the newline, the uuid at the last quote | partial |
| C80 | The outcome of a report does not depend on the schedule | calls as atomic steps, interleavings as an inductive relation; the outcome is the maximum of the severities | partial |
| C81 | The map used by thin_ls keeps the order of insertion | representation invariant: the index map is the inverse of the list of keys | proved |
| C82 | What thin_restore builds is what ends up on the device | every function of the builders only allocates, writes blocks it allocated, and changes counts of those (Prop/RestoreTrace); these steps are translated to calls of the batcher (Prop/RestoreImage) | proved |
| C83 | What cache_restore and era_restore build is what ends up on the device | as C82, with the array builders (Prop/CacheRestoreImage, Prop/EraRestoreImage) | proved |
| C84 | The tool named on the command line runs, and its status and messages tell how it ended | `main` and `to_exit_code` as functions of argument lists and error chains; names of paths against a grammar (Prop/Cli) | partial |
| C85 | The size estimators accept the documented options and print the size they compute | accepted option values as arithmetic conditions, the printed line by division with remainder (Prop/CliSize) | partial |
| C86 | The progress shown during a copy is right | the copiers' transition systems with a trace of calls to the reporter; statistics only grow (Prop/CopyProgress) | partial |
| C87 | thin_trim leaves the data of thin devices alone | the model of thin_check followed by that of trim.rs on the same device; soundness of the check (C47) and exactness of the ranges (C26) are composed (Prop/TrimTool) | partial |
| C88 | cache_writeback touches nothing if the metadata is bad, and otherwise writes back what is dirty | the model of cache_check followed by the relation of cache_writeback on the same device; soundness of the check (C34) discharges the consistency assumed in C35 | partial |
| C89 | Test patterns tell every block from every other | the generator as a recurrence modulo 2^64; induction on words, inverse of the multiplier, powers of the step by induction on j for 2^j | proved |
| C90 | The kernel reads in a request code what it was made of | codes as sums of shifted fields; arithmetic for both layouts | proved |
| C91 | From the document given to cache_restore to the data on the origin | composition of what cache_restore lays out (C56) with the command (C88): the blocks wanted are the dirty mappings of the document | proved |
| C92 | Injected errors fail exactly the transfers that touch them | bytes as lists; pages of a range characterised by the bytes in it; induction on the buffers | proved |

## Axioms

`#print axioms` of every theorem in the manifest, run against the committed build.  No axiom of our own, no compiled evaluation.

* **none** (14): `Batch.batcher_flush_block_error_refuted`, `BT.split_first_key_unchecked_refuted`, `Sizes.thinSize_overflow_refuted`, `Sizes.cacheSize_overflow_refuted`, `arrayBlock_capacity_refuted`, `CacheM.hint_without_mapping_refuted`, `Stat.run_length_refuted`, `Eng.spindle_write_fails`, `Human.human_empty_map`, `Rpt.verbose_wraps_refuted`, `Rpt.percent_zero_refuted`, `Cli.useSnap_iff`, `Cli.builds_refuted`, `CopyProg.percent_small_refuted`

* **propext** (77): `packRoot_128`, `hint_roundtrip`, `SM.core_inc_wraps`, `SM.two_nr_allocated_refuted`, `SM.restricted_alloc_full_err`, `SM.two_alloc_refuted`, `BT.iterator_empty_leaf_refuted`, `BT.walk_range_damage_refuted`, `BT.walk_shared_split_error_refuted`, `Bld.build_order_refuted`, `Bld.empty_leaf_refused`, `Dump.dump_runs_layout`, `Sizes.cacheSize_cap`, `Trim.trim_refuses`, `Arr.chunk_length`, `Arr.push_bounds`, `Bits.readChecked_maxEntries_refuted`, `EraR.restore_unordered_refuted`, `EraR.restore_empty_refuted`, `EraI.invalidate_current_refuted`, `EraL.dumpLogical_too_many_refuted`, `EraL.dumpLogical_extra_bit_refuted`, `TDump.dump_details_by_position_refuted`, `SMD.writeMetadataSm_gap_refuted`, `SMC.check_overflow_missing_refuted`, `SMC.check_short_index_refuted`, `SMC.check_index_keys_refuted`, `SMC.check_index_counted_refuted`, `Delta.verbose_data_refuted`, `Shrink.shrink_size_refuted`, `CacheM.dump_version`, `CacheM.hint_length_panics`, `CacheM.check_shared_root_refuted`, `CacheM.check_block_size_refuted`, `CacheM.check_short_array_refuted`, `Rep.rebuild_fails`, `Rep.override_size_refuted`, `Rep.demo_rebuild`, `TChk.check_wide_pointer_refuted`, `TChk.check_data_range_refuted`, `TChk.check_twice_refuted`, `TChk.check_conflict`, `Xml.read_iff`, `Xml.noname_panics`, `CacheM.restore_duplicate_refuted`, `CacheM.restore_hintless_refuted`, `CacheM.restore_wide_hints_refuted`, `EraC.check_short_array_refuted`, `EraC.check_current_refuted`, `EraC.check_future_writeset_refuted`, `EraC.check_shared_refuted`, `EraT.restore_future_refuted`, `EraT.restore_same_era_leaks_refuted`, `EraD.dump_gap_refuted`, `EraD.dump_empty_refuted`, `EraD.repair_crossing_refuted`, `EraD.repair_crossing_fails_refuted`, `Ls.ls_twice_refuted`, `Ls.ls_empty_refuted`, `Ls.ls_overlap_refuted`, `Stat.run_cut_refuted`, `Eng.async_read_correct`, `Gen.eraGen_crossing_refuted`, `Gen.eraGen_spurious_refuted`, `Dmg.createLeaks_whole_refuted`, `Dmg.createLeaks_larger_refuted`, `RIo.restore_block_error_refuted`, `RIo.restore_over_old_refuted`, `RIo.restore_no_barrier_refuted`, `Cli.exit_status`, `Cli.builds_partial`, `Cli.cache_wrap_refuted`, `Cli.understated_refuted`, `TrimTool.command_stops`, `Ioctl.codes_kernel`, `Ioctl.size_overflow_refuted`, `Ram.writeV_partial_refuted`

* **propext, Quot.sound** (106): `cache_long_policy_name_panics`, `writeChecksum_isSome_iff`, `calcMaxEntries_room`, `Batch.batcher_reads_latest`, `Batch.batcher_flush_complete`, `Batch.batcher_crash_in_flush`, `BT.iterator_correct`, `BT.iterator_empty`, `Bld.build_rejects`, `Bld.build_rejects_after_value`, `Bld.build_rejects_after_leaves`, `Bld.pushAll_ok_sorted`, `Gaps.find_runs_nogap_spec`, `Gaps.split_zero_refuted`, `Dump.dump_runs_exact`, `Units.pretty_exact_float`, `Sizes.thinSize_sufficient`, `Sizes.thinSize_mono`, `Sizes.cacheSize_eq`, `Sizes.cacheSize_mono`, `Sizes.tiles_unique`, `Units.parseRange_iff`, `Scan.words_enough`, `Arr.chunk_get`, `Arr.arrayOf_default`, `Bits.readChecked_clean`, `Bits.goodLeaf_iff`, `Pack.examined_partial`, `Pack.examined_small`, `Rst.unclosed_section_accepted`, `Rst.trailing_error_after_write_refuted`, `Rst.duplicate_device_accepted`, `TDump.restored_metadata`, `Layout.thin_read_snap`, `Layout.era_read_snap`, `SMD.writeMetadataSm_free_refuted`, `bitmap_unpack_valid`, `SMC.check_truncation_refuted`, `SMC.repair_shared_refuted`, `SMC.repair_index_refuted`, `Delta.record_good`, `Rmap.rmap_shared_refuted`, `Cop.copy_terminates`, `Cop.simple_readCall`, `Cop.simple_writeCall`, `CopyQ.batches_correct`, `Bio.simpleRead_correct`, `Bio.simpleWrite_correct`, `CacheM.nrOrigin_spec`, `CacheM.check_cleared`, `CacheM.clear_uuid_refuted`, `Wb.writeback_untouched`, `mapping_setDirty`, `Rep.compareTC_total`, `Rep.override_spec`, `Rep.readOrRebuild_spec`, `Rep.healthy_lost_refuted`, `Rep.collect_panics_refuted`, `Rep.root_location_refuted`, `Rep.demo_healthy`, `Rep.demo_collect`, `TChk.check_loop_refuted`, `TChk.check_overlap_refuted`, `TChk.check_writes`, `TChk.check_clears`, `TChk.check_skip_refuted`, `NPath.decode_encode64`, `Xml.parseDef_sound`, `Xml.parsePair_sound`, `EraC.check_sbOnly`, `EraC.demo_layout`, `EraC.check_last_block_refuted`, `EraT.docOf_eraDoc`, `CacheM.repair_unclean_refuted`, `Eng.async_write_correct`, `Eng.core_readMany_correct`, `Eng.core_writeMany_correct`, `Gen.cacheGen_hotspot_refuted`, `Gen.eraGen_total`, `Gen.sequence_wrap_refuted`, `Gen.eraGen_last_refuted`, `Dmg.createLeaks_unreadable`, `Dmg.allocated_exact`, `Dmg.valid_covers`, `SbEdit.no_superblock`, `Front.yesNo_iff`, `Front.restore_overwrites`, `Front.repair_sizes`, `Front.output_iff`, `RIo.restore_flush_error`, `Human.human_last`, `Human.human_map_line`, `Human.human_newline_refuted`, `Rpt.outcome_any_schedule`, `Rpt.errors_printed`, `Rpt.printed_reported`, `Rpt.verbose_ok`, `Rpt.percent_le`, `HVec.firstKeys_spec`, `Cli.number_total`, `TrimTool.command_quiet`, `TrimTool.command_refuses`, `TrimTool.trimData_unreadable`, `Lcg.fill_words`, `Lcg.word_inj`, `Ram.invalidate_empty_refuted`

* **propext, Classical.choice, Quot.sound** (381): `blockTime_roundtrip`, `blockTime_roundtrip_iff`, `deviceDetail_roundtrip`, `smRoot_roundtrip`, `packRoot_roundtrip`, `indexEntry_roundtrip`, `mapping_roundtrip`, `writeset_roundtrip`, `u64_roundtrip`, `u32_roundtrip`, `records_exactSize`, `thin_superblock_roundtrip`, `cache_superblock_roundtrip`, `cache_superblock_readback`, `era_superblock_roundtrip`, `write_then_type`, `checksum_word_unique`, `type_sound`, `node_accept_iff`, `node_accept_sound`, `node_roundtrip`, `SM.core_history`, `SM.restricted_history`, `SM.core_nr_allocated`, `SM.two_inc_nr_allocated_partial`, `SM.core_alloc`, `Batch.batcher_crash_prefix`, `BT.lookup_correct`, `BT.walk_clean`, `BT.walk_ok_covers`, `BT.walk_error_sticks`, `BT.walk_once`, `BT.split_key_ranges_spec_partial`, `BT.walk_terminates`, `Bld.build_correct`, `Bld.buildTree_correct`, `Bld.releaseLeaves_correct`, `Gaps.generate_runs_spec`, `Gaps.readMany_correct`, `Gather.gather_correct`, `Units.parseSize_iff`, `Units.show_parse_partial`, `Units.show_parse_refuted`, `Units.prettySize_spec`, `Units.names_parse`, `Sizes.thinSize_cap`, `Sizes.checkDataBlockSize_iff`, `Sizes.checkCacheBlockSize_iff`, `Sizes.runs_tile`, `Trim.trim_exact`, `Trim.trim_bytes`, `Scan.markedRanges_exact`, `Arr.buildArray_correct`, `Arr.buildBlocks_correct`, `Arr.arrayOf_pushed`, `Arr.buildBlocks_rejects`, `arrayBlock_roundtrip`, `arrayHeader_roundtrip`, `Bits.readChecked_exact`, `Bits.readBitset_exact`, `arrayBlock_accept_iff`, `arrayBlock_values`, `EraR.restore_exact_partial`, `EraR.restore_keeps_marks`, `EraR.pushes_sorted`, `EraR.restore_crossing_refuted`, `EraI.invalidate_exact_partial`, `EraI.invalidate_no_writesets_refuted`, `EraL.dumpLogical_exact`, `EraL.dumpLogical_ok`, `EraL.ordered_iff`, `Pack.packU64s_lossless`, `Pack.packShifted_lossless`, `Pack.packLiteral_lossless`, `Pack.packNode_lossless_partial`, `Pack.packBlock_lossless_partial`, `Pack.packNode_accepts`, `Pack.packBlock_lossless_refuted`, `Pack.examined_refuted`, `Pack.pack_unpack_partial`, `Rst.accepted_well_nested_partial`, `Rst.superblock_written_after`, `Rst.eof_accepted_only_when_complete`, `TDump.dump_restore`, `TDump.dump_document`, `Rst.restore_correct`, `LW.walk_leaves`, `LW.btreeToMap_contents`, `Xml.dump_xml_restore`, `Rst.restore_in_range`, `LW.btreeToMap_sound`, `Layout.thin_superblock_layout`, `Layout.cache_superblock_layout`, `Layout.era_superblock_layout`, `SMD.writeDiskSm_correct`, `SMD.writeDiskSm_core`, `SMD.writeMetadataSm_correct_partial`, `SMD.hist_prefix`, `bitmap_roundtrip`, `index_roundtrip`, `SMC.checkLow_spec`, `SMC.checkMeta_sound_partial`, `SMC.checkDisk_sound_partial`, `SMC.checkLow_complete`, `SMC.checkDisk_written`, `SMC.checkMeta_written`, `SMC.repair_row`, `SMC.repair_correct`, `Delta.dumpDelta_exact`, `Delta.getMappings_spec`, `Delta.dumpDiff_exact`, `Delta.getMappings_sound`, `Delta.verboseTags_nested`, `Rmap.rmap_exact_partial`, `Rmap.rmap_shared_partial`, `Rmap.complete_spec`, `BT.walk_sh`, `BT.walk_closed`, `Shrink.shrink_plan`, `Shrink.shrink_data`, `Shrink.shrink_document`, `Shrink.shrink_metadata`, `Cop.copy_correct`, `Cop.copy_progress`, `Cop.copy_completes`, `Cop.sources_unchanged`, `Cop.only_destinations`, `Cop.vectored_readCall`, `Cop.vectored_writeCall`, `CopyQ.threaded_copy_correct`, `Resc.rescue_correct`, `Bio.readBlocks_sound`, `Bio.readBlocks_partial`, `Bio.writeBlocks_sound`, `Bio.writeBlocks_partial`, `Bio.readBlocks_eof_refuted`, `Bio.readBlocks_short_refuted`, `Bio.writeBlocks_full_refuted`, `CacheM.roundtrip`, `CacheM.restored_dump`, `CacheM.restore_accepts`, `CacheM.dump_exact`, `CacheM.dump_empty_panics`, `CacheM.dump_sound`, `CacheM.dump_unread_dirty`, `CacheM.checkMappings_exact`, `CacheM.check_sound`, `CacheM.check_complete`, `CacheM.maps1_exact`, `CacheM.maps2_exact`, `CacheM.check_counts`, `CacheM.check_hint_size`, `CacheM.check_writes`, `CacheM.check_clears`, `Wb.writeback_safe`, `Wb.writeback_success`, `Wb.writeback_exact`, `Wb.writeback_complete`, `Wb.syncCopy_ok`, `Wb.rescueCopy_ok`, `Wb.select_stored`, `Wb.updateV1_stored`, `Wb.updateV2_stored`, `Wb.writeback_unmapped_dirty_refuted`, `Rep.compareTC_newer`, `Rep.findPairs_exact`, `Rep.collect_exact`, `Rep.collect_total`, `Rep.valid_mappings`, `Rep.valid_details`, `Rep.valid_dev`, `Rep.mapTree_found`, `Rep.detTree_found`, `Rep.devTree_found`, `Rep.identical_sound`, `Rep.identical_clean`, `Rep.identical_nr`, `Rep.findRoots_pairs`, `Rep.compat_found`, `Rep.healthy_compat`, `Rep.rebuild_onDisk`, `Rep.rebuild_inCore`, `Rep.demo_compat`, `Rep.findRoots_alone`, `Rep.findRoots_alone_found`, `TChk.check_sound_partial`, `TChk.check_exact`, `TChk.collect_exact`, `TChk.leaves_exact`, `TChk.check_pool_sound`, `TChk.check_pool_complete`, `TChk.refs_le_devices`, `TChk.data_le_devices`, `TChk.createMetaSm_room`, `TChk.check_snapshot`, `NPath.path_roundtrip`, `NPath.path_roundtrip_partial`, `NPath.path_wrap_refuted`, `NPath.path_long_refuted`, `NPath.path_text_panics`, `Xml.thin_roundtrip`, `Xml.cache_roundtrip`, `Xml.era_roundtrip`, `Xml.thin_readSuperblock`, `Xml.thin_accepted`, `Xml.parseTSb_sound`, `Xml.parseTDev_sound`, `Xml.parseSingle_sound`, `Xml.parseRangeMap_sound`, `Xml.parseCSb_sound`, `Xml.parseCMap_sound`, `Xml.parseCHint_sound`, `Xml.parseESb_sound`, `Xml.parseBit_sound`, `Xml.restore_xml`, `Xml.escape_refuted`, `Xml.quote_refuted`, `Xml.discards_refuted`, `CacheM.restore_check`, `CacheM.restore_check_width`, `CacheM.smWriter_ok`, `Rst.restore_check`, `Rst.restoreAll_post`, `Rst.parts_of`, `Rst.restore_check_demo`, `Rst.restore_check_refuted`, `Rst.shows_present`, `Mig.migrate_correct`, `Mig.migrate_new_file`, `Mig.stream_exact`, `Mig.copyOps_exact`, `Mig.migrate_exists`, `Mig.migrate_old_content_refuted`, `Mig.splitDev_small`, `Mig.splitDev_inj`, `Mig.splitDev_refuted`, `Mig.parseThinTable_print`, `Mig.parsePoolTable_print`, `Mig.parseU32_big`, `EraC.check_exact`, `EraC.check_sound`, `EraC.eras_exact`, `EraC.bits_exact`, `EraT.restore_check`, `EraT.restore_contents`, `EraT.restore_counts`, `EraT.restore_accepts`, `EraT.restored_done`, `EraT.pushesW_inWord`, `EraT.smWriter_sm`, `EraD.dump_exact`, `EraD.dumpLogical_exact`, `EraD.dump_sound`, `EraD.roundtrip`, `EraD.readSet_stored`, `EraD.writesets_stored`, `EraD.done_dump`, `EraD.demo_metadata`, `EraD.repair_exact_partial`, `EraD.repair_keeps`, `EraD.repair_checked`, `CacheM.repair_exact`, `CacheM.repair_sound`, `CacheM.repair_checked`, `CacheM.repair_empty_refuted`, `TRep.repair_pool`, `TRep.repair_lost_superblock`, `TRep.repair_lost_details`, `TRep.dump_pool`, `TRep.dump_skip`, `TRep.repair_underfull_refuted`, `TRep.repair_pool_demo`, `TRep.repair_lost_superblock_demo`, `TRep.repair_lost_details_demo`, `Ls.ls_exact`, `Ls.ls_readable`, `Ls.count_exact`, `Ls.table_aligned`, `Ls.field_names`, `Ls.count_range_refuted`, `Ls.ls_sound_partial`, `Ls.count_sound_partial`, `Stat.data_blocks_exact`, `Stat.metadata_blocks_exact`, `Stat.hist_total`, `Stat.data_blocks_sound`, `Stat.metadata_blocks_sound`, `Stat.run_hist_partial`, `Stat.run_leaves_exact`, `Stat.data_runs_sound`, `Stat.run_shared_refuted`, `Eng.async_readMany_correct`, `Eng.async_writeMany_refuted`, `Eng.async_writeMany_lost`, `Eng.async_flush_refuted`, `Eng.sync_writeMany_sound`, `Eng.sync_writeMany_returns`, `Eng.spindle_readMany_partial`, `Eng.spindle_cached`, `Eng.spindle_alias_refuted`, `Eng.spindle_new_iff`, `Gen.cacheGen_exact`, `Gen.cacheGen_check`, `Gen.cacheGen_ends`, `Gen.eraGen_exact_partial`, `Gen.eraGen_check_partial`, `Gen.sequence_exact`, `Dmg.createLeaks_exact_partial`, `Dmg.adjust_spec`, `Dmg.leaks_found`, `Dmg.damage_fails`, `Dmg.find_last_refuted`, `SbEdit.thinSetNeedsCheck_spec`, `SbEdit.damageOverride_spec`, `SbEdit.cacheSetFlags_spec`, `SbEdit.cacheSetVersion_spec`, `SbEdit.cacheSetVersion_lost`, `SbEdit.thin_lost`, `SbEdit.thin_uuid_refuted`, `Front.overwrite_consent`, `Front.overwrite_free`, `Front.overwrite_unreadable_refuted`, `Front.checkGuard_iff`, `Front.metadata_taken`, `Front.xml_declaration_refuted`, `RIo.restore_block0`, `RIo.restore_error_keeps_block0`, `RIo.restore_ok_complete`, `RIo.restore_crash_partial`, `Human.human_lossless`, `HVec.hashvec_correct`, `RTr.restore_image_on_device`, `RTr.restore_image_demo`, `RTr.cache_restore_on_device`, `RTr.era_restore_on_device`, `RTr.cache_restore_demo`, `RTr.era_restore_demo`, `Cli.fileName_iff`, `Cli.main_run_iff`, `Cli.main_panic_iff`, `Cli.main_panic_refuted`, `Cli.exit_message`, `Cli.engine_iff`, `Cli.thin_accepts`, `Cli.thin_estimate`, `Cli.cache_accepts`, `Cli.number_agrees`, `Cli.short_line_reads_back`, `Cli.thin_exact`, `Cli.tebibyte_line_refuted`, `CopyProg.sync_fair`, `CopyProg.rescue_fair`, `CopyProg.percent_monotone`, `CopyProg.final_shown`, `CopyProg.anySync_fair`, `CopyProg.sync_session`, `TrimTool.command_safe`, `TrimTool.command_exact`, `TrimTool.command_256_refuted`, `WbTool.command_refuses`, `WbTool.command_dataerr`, `WbTool.command_metadata`, `WbTool.command_inconsistent`, `WbTool.command_safe`, `WbTool.command_success`, `WbTool.command_exact`, `WbTool.command_empty_refuted`, `Lcg.verify_exact`, `Lcg.word_distinct`, `Lcg.word_period`, `Ioctl.ioc_fields`, `Ioctl.ioc_inj`, `Ioctl.macro_fields`, `WbTool.restored_accepted`, `WbTool.restored_writeback`, `WbTool.restored_exact`, `Ram.invalidate_exact`, `Ram.read_exact`, `Ram.write_exact`, `Ram.writeV_exact`, `Ram.readV_exact`

