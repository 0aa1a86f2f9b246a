{
 "claims": [
  {
   "property": "C01",
   "status": "proved",
   "theorems": [
    "Verif.blockTime_roundtrip",
    "Verif.blockTime_roundtrip_iff",
    "Verif.deviceDetail_roundtrip",
    "Verif.smRoot_roundtrip",
    "Verif.packRoot_roundtrip",
    "Verif.packRoot_128",
    "Verif.indexEntry_roundtrip",
    "Verif.mapping_roundtrip",
    "Verif.hint_roundtrip",
    "Verif.writeset_roundtrip",
    "Verif.u64_roundtrip",
    "Verif.u32_roundtrip",
    "Verif.records_exactSize"
   ],
   "note": ""
  },
  {
   "property": "C02",
   "status": "proved",
   "theorems": [
    "Verif.thin_superblock_roundtrip",
    "Verif.cache_superblock_roundtrip",
    "Verif.cache_superblock_readback",
    "Verif.cache_long_policy_name_panics",
    "Verif.era_superblock_roundtrip"
   ],
   "note": ""
  },
  {
   "property": "C03",
   "status": "proved",
   "theorems": [
    "Verif.write_then_type",
    "Verif.writeChecksum_isSome_iff",
    "Verif.checksum_word_unique",
    "Verif.type_sound"
   ],
   "note": "CRC32C is a parameter: the theorems hold for every checksum function."
  },
  {
   "property": "C04",
   "status": "proved",
   "theorems": [
    "Verif.node_accept_iff",
    "Verif.node_accept_sound"
   ],
   "note": "u32 addition value_size+8 modelled with release-mode wrap-around; the bound on bytes read is proved independently of it."
  },
  {
   "property": "C05",
   "status": "proved",
   "theorems": [
    "Verif.node_roundtrip",
    "Verif.calcMaxEntries_room"
   ],
   "note": "arbitrary content of the uncleared block memory after the packed bytes"
  },
  {
   "property": "C06",
   "status": "proved",
   "theorems": [
    "Verif.SM.core_history",
    "Verif.SM.restricted_history",
    "Verif.SM.core_inc_wraps"
   ],
   "note": "CoreSpaceMap and RestrictedSpaceMap, every history of calls; core_inc_wraps records the release-mode wrap-around excluded by the hypothesis"
  },
  {
   "property": "C07",
   "status": "partial",
   "theorems": [
    "Verif.SM.core_nr_allocated",
    "Verif.SM.restricted_history",
    "Verif.SM.two_nr_allocated_refuted",
    "Verif.SM.two_inc_nr_allocated_partial"
   ],
   "note": "false of RestrictedTwoSpaceMap::set (witness proved); proved for CoreSpaceMap, RestrictedSpaceMap and for increment-only histories of RestrictedTwoSpaceMap"
  },
  {
   "property": "C08",
   "status": "partial",
   "theorems": [
    "Verif.SM.core_alloc",
    "Verif.SM.restricted_history",
    "Verif.SM.restricted_alloc_full_err",
    "Verif.SM.two_alloc_refuted"
   ],
   "note": "false of RestrictedTwoSpaceMap::alloc (witness proved); proved for CoreSpaceMap; RestrictedSpaceMap may answer Err instead of None when full with the cursor at 0"
  },
  {
   "property": "C09",
   "status": "proved",
   "theorems": [
    "Verif.Batch.batcher_reads_latest"
   ],
   "note": "device without faults; the contents type and the checksum stamping are parameters"
  },
  {
   "property": "C10",
   "status": "partial",
   "theorems": [
    "Verif.Batch.batcher_flush_complete",
    "Verif.Batch.batcher_crash_prefix",
    "Verif.Batch.batcher_crash_in_flush",
    "Verif.Batch.batcher_flush_block_error_refuted"
   ],
   "note": "proved for a device without faults and for any crash point; false when the engine reports an error for a single block (flush ignores it), witness proved"
  },
  {
   "property": "C13",
   "status": "proved",
   "theorems": [
    "Verif.BT.lookup_correct"
   ],
   "note": "every well-formed stored tree of any height and fan-out; the node reader is the acceptance relation of C04"
  },
  {
   "property": "C14",
   "status": "partial",
   "theorems": [
    "Verif.BT.iterator_correct",
    "Verif.BT.iterator_empty",
    "Verif.BT.iterator_empty_leaf_refuted"
   ],
   "note": "proved for every stored tree without empty non-root leaves; false when a non-root leaf is empty (the iterator stops early), witness proved"
  },
  {
   "property": "C15",
   "status": "partial",
   "theorems": [
    "Verif.BT.walk_clean",
    "Verif.BT.walk_ok_covers",
    "Verif.BT.walk_error_sticks",
    "Verif.BT.walk_once",
    "Verif.BT.walk_range_damage_refuted",
    "Verif.BT.walk_shared_split_error_refuted"
   ],
   "note": "clean trees are reported exactly and Ok implies every reachable readable block was covered; on any graph of blocks, and however often the walker is used, a leaf is shown at most once and with what is stored there; false for key-range damage and out-of-range children (witnesses proved); multi-threaded walk modelled sequentially"
  },
  {
   "property": "C16",
   "status": "partial",
   "theorems": [
    "Verif.BT.split_key_ranges_spec_partial",
    "Verif.BT.split_first_key_unchecked_refuted"
   ],
   "note": "the first key of a node is never compared with its range, witness proved"
  },
  {
   "property": "C48",
   "status": "proved",
   "theorems": [
    "Verif.BT.walk_terminates"
   ],
   "note": "recursion depth bounded by the number of blocks, any image, any visitor"
  },
  {
   "property": "C11",
   "status": "proved",
   "theorems": [
    "Verif.Bld.build_correct",
    "Verif.Bld.build_rejects",
    "Verif.Bld.build_rejects_after_value",
    "Verif.Bld.build_rejects_after_leaves",
    "Verif.Bld.pushAll_ok_sorted",
    "Verif.Bld.build_order_refuted",
    "Verif.Bld.empty_leaf_refused"
   ],
   "note": "values and pre-built shared leaves in any mix, all capacities (leaf >= 2, internal >= 4), including reference counts; the rejection half holds for key/value pushes, and build_order_refuted shows it is false once pre-built leaves are pushed first"
  },
  {
   "property": "C12",
   "status": "proved",
   "theorems": [
    "Verif.Bld.build_correct",
    "Verif.Bld.buildTree_correct"
   ],
   "note": "fields filled, keys, stored and ordered of Result"
  },
  {
   "property": "C49",
   "status": "proved",
   "theorems": [
    "Verif.Bld.build_correct",
    "Verif.Bld.releaseLeaves_correct"
   ],
   "note": "fields rc, mem and log of Result"
  },
  {
   "property": "C39",
   "status": "proved",
   "theorems": [
    "Verif.Gaps.generate_runs_spec",
    "Verif.Gaps.readMany_correct",
    "Verif.Gaps.find_runs_nogap_spec",
    "Verif.Gaps.split_zero_refuted"
   ],
   "note": "for every request list, threshold and limit >= 1; with a limit of zero the splitting loop provably never ends (split_zero_refuted), which no caller in the code passes"
  },
  {
   "property": "C22",
   "status": "proved",
   "theorems": [
    "Verif.Gather.gather_correct"
   ],
   "note": "for all lists of sequences below the capacity, also with repetitions; extraction is shown to end within capacity rounds"
  },
  {
   "property": "C23",
   "status": "proved",
   "theorems": [
    "Verif.Dump.dump_runs_exact",
    "Verif.Dump.dump_runs_layout"
   ],
   "note": "for any leaves; block numbers as naturals"
  },
  {
   "property": "C43",
   "status": "partial",
   "theorems": [
    "Verif.Units.parseSize_iff",
    "Verif.Units.show_parse_partial",
    "Verif.Units.show_parse_refuted",
    "Verif.Units.prettySize_spec",
    "Verif.Units.pretty_exact_float",
    "Verif.Units.names_parse"
   ],
   "note": "parsing proved as an equivalence; print/parse round trip holds for every unit but tebibytes, for which it is refuted for every number"
  },
  {
   "property": "C44",
   "status": "partial",
   "theorems": [
    "Verif.Sizes.thinSize_sufficient",
    "Verif.Sizes.thinSize_mono",
    "Verif.Sizes.thinSize_cap",
    "Verif.Sizes.checkDataBlockSize_iff",
    "Verif.Sizes.checkCacheBlockSize_iff",
    "Verif.Sizes.cacheSize_eq",
    "Verif.Sizes.cacheSize_mono",
    "Verif.Sizes.cacheSize_cap",
    "Verif.Sizes.thinSize_overflow_refuted",
    "Verif.Sizes.cacheSize_overflow_refuted"
   ],
   "note": "holds unless the u64 arithmetic wraps; witnesses of the wrap around proved"
  },
  {
   "property": "C45",
   "status": "proved",
   "theorems": [
    "Verif.Sizes.runs_tile",
    "Verif.Sizes.tiles_unique"
   ],
   "note": "runs_tile gives the tiling, tiles_unique that it determines the output"
  },
  {
   "property": "C50",
   "status": "proved",
   "theorems": [
    "Verif.Units.parseRange_iff"
   ],
   "note": "equivalence, any string"
  },
  {
   "property": "C26",
   "status": "proved",
   "theorems": [
    "Verif.Trim.trim_exact",
    "Verif.Trim.trim_bytes",
    "Verif.Trim.trim_refuses"
   ],
   "note": "for any bitmaps; reading the bitmaps off the disk and the device's discard call are not modelled"
  },
  {
   "property": "C36",
   "status": "proved",
   "theorems": [
    "Verif.Scan.markedRanges_exact",
    "Verif.Scan.words_enough"
   ],
   "note": "for both word sizes in the code; u32 wrap around of the positions for more than 2^32-32 bits is not modelled"
  },
  {
   "property": "C17",
   "status": "proved",
   "theorems": [
    "Verif.Arr.buildArray_correct",
    "Verif.Arr.buildBlocks_correct",
    "Verif.Arr.chunk_get",
    "Verif.Arr.chunk_length",
    "Verif.Arr.arrayOf_pushed",
    "Verif.Arr.arrayOf_default",
    "Verif.Arr.push_bounds",
    "Verif.Arr.buildBlocks_rejects",
    "Verif.arrayBlock_roundtrip",
    "Verif.arrayHeader_roundtrip"
   ],
   "note": "any size, any pushes; composed with the B-tree builder for the index; the byte layout of a block is proved separately"
  },
  {
   "property": "C18",
   "status": "proved",
   "theorems": [
    "Verif.Bits.readChecked_exact",
    "Verif.Bits.readChecked_clean",
    "Verif.Bits.goodLeaf_iff",
    "Verif.Bits.readBitset_exact",
    "Verif.Bits.readChecked_maxEntries_refuted",
    "Verif.arrayBlock_accept_iff",
    "Verif.arrayBlock_values",
    "Verif.arrayBlock_capacity_refuted"
   ],
   "note": "for any leaves with distinct keys; the refuted theorem shows the side condition on the declared capacity is needed"
  },
  {
   "property": "C37",
   "status": "partial",
   "theorems": [
    "Verif.EraR.restore_exact_partial",
    "Verif.EraR.restore_keeps_marks",
    "Verif.EraR.pushes_sorted",
    "Verif.EraR.restore_crossing_refuted",
    "Verif.EraR.restore_unordered_refuted",
    "Verif.EraR.restore_empty_refuted"
   ],
   "note": "exact for ranges within one 64-bit word, never loses a marked block for ordered ranges; a range crossing a word boundary marks extra blocks (witness proved)"
  },
  {
   "property": "C38",
   "status": "partial",
   "theorems": [
    "Verif.EraI.invalidate_exact_partial",
    "Verif.EraI.invalidate_no_writesets_refuted",
    "Verif.EraI.invalidate_current_refuted"
   ],
   "note": "exact when there is at least one archived writeset and the era array precedes them; without archived writesets nothing is reported, and the current writeset is ignored (both proved)"
  },
  {
   "property": "C51",
   "status": "proved",
   "theorems": [
    "Verif.EraL.dumpLogical_exact",
    "Verif.EraL.dumpLogical_ok",
    "Verif.EraL.ordered_iff",
    "Verif.EraL.dumpLogical_too_many_refuted",
    "Verif.EraL.dumpLogical_extra_bit_refuted"
   ],
   "note": "for every set of writesets no larger than the number of eras so far; beyond that they are silently dropped (proved)"
  },
  {
   "property": "C30",
   "status": "proved",
   "theorems": [
    "Verif.Pack.packU64s_lossless",
    "Verif.Pack.packShifted_lossless",
    "Verif.Pack.packLiteral_lossless"
   ],
   "note": "All lists the length fields can express; the VM leaves exactly the bytes that followed."
  },
  {
   "property": "C31",
   "status": "partial",
   "theorems": [
    "Verif.Pack.packNode_lossless_partial",
    "Verif.Pack.packBlock_lossless_partial",
    "Verif.Pack.packNode_accepts",
    "Verif.Pack.packBlock_lossless_refuted"
   ],
   "note": "Lossless for every block except leaves that claim 508 entries of a size other than 8; for those the full statement is refuted (a stray literal byte desynchronises the stream)."
  },
  {
   "property": "C32",
   "status": "partial",
   "theorems": [
    "Verif.Pack.examined_partial",
    "Verif.Pack.examined_refuted",
    "Verif.Pack.examined_small",
    "Verif.Pack.pack_unpack_partial"
   ],
   "note": "True when the chunk size divides the device size (then pack+unpack restores every metadata block, for every shuffle, frame order and write order; zlib trusted); refuted for every other size: some block is never examined."
  },
  {
   "property": "C24",
   "status": "partial",
   "theorems": [
    "Verif.Rst.accepted_well_nested_partial",
    "Verif.Rst.superblock_written_after",
    "Verif.Rst.eof_accepted_only_when_complete",
    "Verif.Rst.unclosed_section_accepted",
    "Verif.Rst.trailing_error_after_write_refuted",
    "Verif.Rst.duplicate_device_accepted"
   ],
   "note": "Every accepted stream has exactly one superblock first, sections properly opened and mappings only inside them, up to the end of the superblock; the consumer itself (without the XML parser) accepts an unclosed section at the end of the superblock, and errors that follow the end of the superblock come after the superblock was written (both proved as counterexamples)."
  },
  {
   "property": "C25",
   "status": "proved",
   "theorems": [
    "Verif.TDump.dump_restore",
    "Verif.TDump.dump_document",
    "Verif.TDump.restored_metadata",
    "Verif.Rst.restore_correct",
    "Verif.LW.walk_leaves",
    "Verif.LW.btreeToMap_contents",
    "Verif.TDump.dump_details_by_position_refuted",
    "Verif.Xml.dump_xml_restore",
    "Verif.Rst.restore_in_range",
    "Verif.LW.btreeToMap_sound"
   ],
   "note": "For all consistent metadata (any sharing between devices, any selection of devices): the dump succeeds and restoring it gives the same devices; what is restored is consistent metadata again. If the two top level trees disagree on the device ids, details are matched by position (proved as a counterexample)."
  },
  {
   "property": "C52",
   "status": "proved",
   "theorems": [
    "Verif.Layout.thin_superblock_layout",
    "Verif.Layout.cache_superblock_layout",
    "Verif.Layout.era_superblock_layout",
    "Verif.Layout.thin_read_snap",
    "Verif.Layout.era_read_snap"
   ],
   "note": ""
  },
  {
   "property": "C19",
   "status": "partial",
   "theorems": [
    "Verif.SMD.writeDiskSm_correct",
    "Verif.SMD.writeDiskSm_core",
    "Verif.SMD.writeMetadataSm_correct_partial",
    "Verif.SMD.hist_prefix",
    "Verif.SMD.writeMetadataSm_free_refuted",
    "Verif.SMD.writeMetadataSm_gap_refuted",
    "Verif.bitmap_roundtrip",
    "Verif.bitmap_unpack_valid",
    "Verif.index_roundtrip"
   ],
   "note": "Full for the data space map. Metadata space map: the count of every block (including the blocks of the space map itself) is always right, for every history of a device the tools create; the number of free blocks per bitmap is right unless the device is so full that a freed block is allocated again while the space map is written (counterexample proved: then the number wraps)."
  },
  {
   "property": "C20",
   "status": "partial",
   "theorems": [
    "Verif.SMC.checkLow_spec",
    "Verif.SMC.checkMeta_sound_partial",
    "Verif.SMC.checkDisk_sound_partial",
    "Verif.SMC.checkLow_complete",
    "Verif.SMC.checkDisk_written",
    "Verif.SMC.checkMeta_written",
    "Verif.SMC.check_truncation_refuted",
    "Verif.SMC.check_overflow_missing_refuted",
    "Verif.SMC.check_short_index_refuted",
    "Verif.SMC.check_index_keys_refuted",
    "Verif.SMC.check_index_counted_refuted"
   ],
   "note": "The bitmap check is characterised exactly (succeeds iff ..., lists exactly the bitmaps with leaks); success implies agreement but for listed leaks for every block that has a count on disk and whose expected count is below 256 or not 0..2 modulo 256; what the writer writes passes. The full claim is false of the code: five refutations (count compared modulo 256, missing overflow keys, too few bitmaps, index keys ignored, index root counted before)."
  },
  {
   "property": "C21",
   "status": "partial",
   "theorems": [
    "Verif.SMC.repair_row",
    "Verif.SMC.repair_correct",
    "Verif.SMC.repair_shared_refuted",
    "Verif.SMC.repair_index_refuted"
   ],
   "note": "Proved for every subset of the writes (crash or failed writes) under the hypothesis that bitmaps are in different blocks, which is necessary (repair_shared_refuted). The index entries' free counts are not updated by the code (repair_index_refuted)."
  },
  {
   "property": "C27",
   "status": "proved",
   "theorems": [
    "Verif.Delta.dumpDelta_exact",
    "Verif.Delta.record_good",
    "Verif.Delta.getMappings_spec",
    "Verif.Delta.dumpDiff_exact",
    "Verif.Delta.verbose_data_refuted",
    "Verif.Delta.getMappings_sound",
    "Verif.Delta.verboseTags_nested"
   ],
   "note": "dumpDiff_exact: for clean mapping trees the output (simple or verbose) lists exactly the blocks mapped on one side, each once, in order and in the right class. verbose_data_refuted: the data_begin attribute of the verbose output is wrong after a merge. The transaction of the superblock and its attributes are not modelled."
  },
  {
   "property": "C28",
   "status": "partial",
   "theorems": [
    "Verif.Rmap.rmap_exact_partial",
    "Verif.Rmap.rmap_shared_partial",
    "Verif.Rmap.rmap_shared_refuted",
    "Verif.Rmap.complete_spec",
    "Verif.BT.walk_sh",
    "Verif.BT.walk_closed"
   ],
   "note": "Exact (each mapping once, sorted by data block) if the devices share no metadata. With any sharing: success, every line is true, and every mapping is listed for at least one device. The full claim is false of the code: a shared subtree is listed for the first device only (rmap_shared_refuted)."
  },
  {
   "property": "C29",
   "status": "proved",
   "theorems": [
    "Verif.Shrink.shrink_plan",
    "Verif.Shrink.shrink_data",
    "Verif.Shrink.shrink_document",
    "Verif.Shrink.shrink_metadata",
    "Verif.Shrink.shrink_size_refuted"
   ],
   "note": "for all event streams without empty runs and all sizes: fails iff no relocation exists; otherwise injective move of exactly the high used blocks to unused low ones, copies in any order/any prefix never touch a used block, document and restored metadata follow the move. RangeSet is modelled by its documented behaviour. Finding: nr_data_blocks in the superblock is not updated (shrink_size_refuted)."
  },
  {
   "property": "C40",
   "status": "proved",
   "theorems": [
    "Verif.Cop.copy_correct",
    "Verif.Cop.copy_progress",
    "Verif.Cop.copy_terminates",
    "Verif.Cop.copy_completes",
    "Verif.Cop.sources_unchanged",
    "Verif.Cop.only_destinations",
    "Verif.Cop.vectored_readCall",
    "Verif.Cop.vectored_writeCall",
    "Verif.Cop.simple_readCall",
    "Verif.Cop.simple_writeCall",
    "Verif.CopyQ.batches_correct",
    "Verif.CopyQ.threaded_copy_correct"
   ],
   "note": "The two threads are a transition system; all interleavings, all answers of the devices within the contract of read_blocks/write_blocks, which both implementations are proved to meet. Also: no deadlock, termination, at every intermediate point (crash) only destinations have changed. Batching and the worker thread that stops at the first error included."
  },
  {
   "property": "C41",
   "status": "proved",
   "theorems": [
    "Verif.Resc.rescue_correct"
   ],
   "note": "All outcomes per page and operation; statistics exact."
  },
  {
   "property": "C42",
   "status": "partial",
   "theorems": [
    "Verif.Bio.readBlocks_sound",
    "Verif.Bio.readBlocks_partial",
    "Verif.Bio.writeBlocks_sound",
    "Verif.Bio.writeBlocks_partial",
    "Verif.Bio.readBlocks_eof_refuted",
    "Verif.Bio.readBlocks_short_refuted",
    "Verif.Bio.writeBlocks_full_refuted",
    "Verif.Bio.simpleRead_correct",
    "Verif.Bio.simpleWrite_correct"
   ],
   "note": "Proved when every successful call moves at least one block and whole blocks only. Without it the claim is false of the code: at the end of a file read_blocks loops for ever (readBlocks_eof_refuted), a short read that is no multiple of the block size breaks an assertion (readBlocks_short_refuted). SimpleBlockIo: no condition."
  },
  {
   "property": "C33",
   "status": "proved",
   "theorems": [
    "Verif.CacheM.roundtrip",
    "Verif.CacheM.restored_dump",
    "Verif.CacheM.restore_accepts",
    "Verif.CacheM.dump_exact",
    "Verif.CacheM.dump_empty_panics",
    "Verif.CacheM.dump_version",
    "Verif.CacheM.hint_without_mapping_refuted",
    "Verif.CacheM.hint_length_panics",
    "Verif.CacheM.dump_sound",
    "Verif.CacheM.dump_unread_dirty"
   ],
   "note": "Dump and restore are modelled down to array blocks and index trees; restored_dump holds of every accepted document. The space map writer is abstract there, what is assumed of it is proved of build_metadata_sm by CacheM.smWriter_ok (C56). Findings: a version 1 cache of no blocks is restored but the dump panics; hints of unmapped blocks are dropped; a hint of another length than 4 panics; the uuid is lost. The XML text is C55."
  },
  {
   "property": "C34",
   "status": "proved",
   "theorems": [
    "Verif.CacheM.checkMappings_exact",
    "Verif.CacheM.check_sound",
    "Verif.CacheM.check_complete",
    "Verif.CacheM.maps1_exact",
    "Verif.CacheM.maps2_exact",
    "Verif.CacheM.check_shared_root_refuted",
    "Verif.CacheM.check_block_size_refuted",
    "Verif.CacheM.check_short_array_refuted",
    "Verif.CacheM.check_counts",
    "Verif.CacheM.check_hint_size",
    "Verif.CacheM.nrOrigin_spec"
   ],
   "note": "Exact for all undamaged arrays that share no blocks, both versions, any number of array blocks and index levels, and for any device in terms of the entries the walk shows (maps1_exact, maps2_exact). Findings: a mapping array whose index was already counted (shared with the dirty bitset) is not looked at; a zero data block size panics; an array shorter than the cache is not noticed."
  },
  {
   "property": "C53",
   "status": "proved",
   "theorems": [
    "Verif.CacheM.check_writes",
    "Verif.CacheM.check_clears",
    "Verif.CacheM.check_cleared",
    "Verif.CacheM.clear_uuid_refuted"
   ],
   "note": "For every device and every pattern of failing writes. Finding: clearing the flag rewrites the superblock and zeroes the uuid."
  },
  {
   "property": "C35",
   "status": "proved",
   "theorems": [
    "Verif.Wb.writeback_safe",
    "Verif.Wb.writeback_success",
    "Verif.Wb.writeback_exact",
    "Verif.Wb.writeback_complete",
    "Verif.Wb.writeback_untouched",
    "Verif.Wb.syncCopy_ok",
    "Verif.Wb.rescueCopy_ok",
    "Verif.Wb.select_stored",
    "Verif.Wb.updateV1_stored",
    "Verif.Wb.updateV2_stored",
    "Verif.Wb.writeback_unmapped_dirty_refuted",
    "Verif.mapping_setDirty"
   ],
   "note": "For undamaged metadata of either version, any outcome of every device access over all passes and any outcome of metadata writes (a failed write leaves the block unchanged; torn writes not modelled). Success iff every wanted block was copied needs consistent mappings: in version 2 a dirty bit on an unmapped block makes the tool fail (refuted variant)."
  },
  {
   "property": "C46",
   "status": "partial",
   "theorems": [
    "Verif.Rep.compareTC_newer",
    "Verif.Rep.compareTC_total",
    "Verif.Rep.findPairs_exact",
    "Verif.Rep.collect_exact",
    "Verif.Rep.collect_total",
    "Verif.Rep.valid_mappings",
    "Verif.Rep.valid_details",
    "Verif.Rep.valid_dev",
    "Verif.Rep.mapTree_found",
    "Verif.Rep.detTree_found",
    "Verif.Rep.devTree_found",
    "Verif.Rep.identical_sound",
    "Verif.Rep.identical_clean",
    "Verif.Rep.identical_nr",
    "Verif.Rep.findRoots_pairs",
    "Verif.Rep.compat_found",
    "Verif.Rep.healthy_compat",
    "Verif.Rep.rebuild_onDisk",
    "Verif.Rep.rebuild_inCore",
    "Verif.Rep.rebuild_fails",
    "Verif.Rep.override_spec",
    "Verif.Rep.readOrRebuild_spec",
    "Verif.Rep.override_size_refuted",
    "Verif.Rep.healthy_lost_refuted",
    "Verif.Rep.collect_panics_refuted",
    "Verif.Rep.root_location_refuted",
    "Verif.Rep.demo_healthy",
    "Verif.Rep.demo_compat",
    "Verif.Rep.demo_collect",
    "Verif.Rep.demo_rebuild",
    "Verif.Rep.findRoots_alone",
    "Verif.Rep.findRoots_alone_found"
   ],
   "note": "Pairing, comparator, collection of candidate roots and the rebuilt superblock are proved for all devices and overrides. The full claim is false of the code: an override can give a data size below what the trees require (override_size_refuted), healthy metadata can be lost and the collection can panic (healthy_lost_refuted, collect_panics_refuted). Wrap of u32 time counts and of max_tid+1 not covered."
  },
  {
   "property": "C47",
   "status": "partial",
   "theorems": [
    "Verif.TChk.check_sound_partial",
    "Verif.TChk.check_exact",
    "Verif.TChk.collect_exact",
    "Verif.TChk.leaves_exact",
    "Verif.TChk.check_loop_refuted",
    "Verif.TChk.check_wide_pointer_refuted",
    "Verif.TChk.check_overlap_refuted",
    "Verif.TChk.check_data_range_refuted",
    "Verif.TChk.check_writes",
    "Verif.TChk.check_clears",
    "Verif.TChk.check_skip_refuted",
    "Verif.TChk.check_pool_sound",
    "Verif.TChk.check_pool_complete",
    "Verif.TChk.refs_le_devices",
    "Verif.TChk.data_le_devices",
    "Verif.TChk.check_twice_refuted",
    "Verif.TChk.check_conflict",
    "Verif.TChk.createMetaSm_room",
    "Verif.TChk.check_snapshot"
   ],
   "note": "Sound for trees without overlapping mappings, any read errors and any scheduling of the threads; exact for undamaged trees with any sharing. The whole tool: it writes only what repair and clear were asked for (check_writes, check_clears), and with full checking passes a pool iff trees and space maps are right (check_pool_sound, check_pool_complete). Findings: a single device mapping a data block twice is accepted if the count says 2; --skip-mappings clears the flag unchecked; a node that is its own descendant overflows the stack, wide pointers, overlaps and data blocks out of range are accepted."
  },
  {
   "property": "C54",
   "status": "proved",
   "theorems": [
    "Verif.NPath.path_roundtrip",
    "Verif.NPath.path_roundtrip_partial",
    "Verif.NPath.decode_encode64",
    "Verif.NPath.path_wrap_refuted",
    "Verif.NPath.path_long_refuted",
    "Verif.NPath.path_text_panics"
   ],
   "note": "Base64 is modelled as documented. Findings: a path of 128 blocks wraps the count byte, a long one (from 14 blocks on, depending on the numbers) or a text whose length is no multiple of four panics."
  },
  {
   "property": "C55",
   "status": "proved",
   "theorems": [
    "Verif.Xml.thin_roundtrip",
    "Verif.Xml.cache_roundtrip",
    "Verif.Xml.era_roundtrip",
    "Verif.Xml.thin_readSuperblock",
    "Verif.Xml.read_iff",
    "Verif.Xml.thin_accepted",
    "Verif.Xml.parseTSb_sound",
    "Verif.Xml.parseTDev_sound",
    "Verif.Xml.parseDef_sound",
    "Verif.Xml.parseSingle_sound",
    "Verif.Xml.parseRangeMap_sound",
    "Verif.Xml.parseCSb_sound",
    "Verif.Xml.parseCMap_sound",
    "Verif.Xml.parseCHint_sound",
    "Verif.Xml.parseESb_sound",
    "Verif.Xml.parsePair_sound",
    "Verif.Xml.parseBit_sound",
    "Verif.Xml.restore_xml",
    "Verif.Xml.dump_xml_restore",
    "Verif.Xml.escape_refuted",
    "Verif.Xml.quote_refuted",
    "Verif.Xml.noname_panics",
    "Verif.Xml.discards_refuted"
   ],
   "note": "quick_xml is trusted to cut the file into tags; attribute text, numbers, strings, base64, tag matching and the visitor loops are modelled. dump_xml_restore composes it with C25. Findings: strings are not escaped when written but unescaped when read (escape_refuted, quote_refuted); a def or ref without name panics; discards are written but cannot be read."
  },
  {
   "property": "C56",
   "status": "proved",
   "theorems": [
    "Verif.CacheM.restore_check",
    "Verif.CacheM.restore_check_width",
    "Verif.CacheM.smWriter_ok",
    "Verif.CacheM.restore_duplicate_refuted",
    "Verif.CacheM.restore_hintless_refuted",
    "Verif.CacheM.restore_wide_hints_refuted"
   ],
   "note": "Composes the models of the restorer, the space map writer and the checker. Findings: hint_width 0 (a policy without hints, such as cleaner) makes cache_check report leaked blocks, other widths than 4 are restored but rejected, duplicate origin blocks are restored."
  },
  {
   "property": "C57",
   "status": "proved",
   "theorems": [
    "Verif.Rst.restore_check",
    "Verif.Rst.restoreAll_post",
    "Verif.Rst.parts_of",
    "Verif.Rst.restore_check_demo",
    "Verif.Rst.restore_check_refuted",
    "Verif.Rst.shows_present"
   ],
   "note": "Composes the models of the restorer (C25), the space map writers (C18, C19) and the whole checker (C47). Finding: mapped_blocks of the document is copied without a look, so a document with a wrong number is restored but rejected (restore_check_refuted). The image holds decoded blocks; that blocks decode to what was encoded is C01/C04."
  },
  {
   "property": "C58",
   "status": "proved",
   "theorems": [
    "Verif.Mig.migrate_correct",
    "Verif.Mig.migrate_new_file",
    "Verif.Mig.stream_exact",
    "Verif.Mig.copyOps_exact",
    "Verif.Mig.migrate_exists",
    "Verif.Mig.migrate_old_content_refuted"
   ],
   "note": "Composes the stream with the batcher and the two-threaded copier (C40). Assumes the block sizes of snapshot and table agree. Finding: the option --zero-dest is accepted but never used, so a destination with old content keeps it where the source is unmapped (migrate_old_content_refuted)."
  },
  {
   "property": "C59",
   "status": "proved",
   "theorems": [
    "Verif.Mig.splitDev_small",
    "Verif.Mig.splitDev_inj",
    "Verif.Mig.splitDev_refuted",
    "Verif.Mig.parseThinTable_print",
    "Verif.Mig.parsePoolTable_print",
    "Verif.Mig.parseU32_big"
   ],
   "note": "Finding: a device with a minor of 256 or more is never recognised (splitDev_refuted)."
  },
  {
   "property": "C60",
   "status": "proved",
   "theorems": [
    "Verif.EraC.check_exact",
    "Verif.EraC.check_sound",
    "Verif.EraC.check_sbOnly",
    "Verif.EraC.eras_exact",
    "Verif.EraC.bits_exact",
    "Verif.EraC.demo_layout",
    "Verif.EraC.check_last_block_refuted",
    "Verif.EraC.check_short_array_refuted",
    "Verif.EraC.check_current_refuted",
    "Verif.EraC.check_future_writeset_refuted",
    "Verif.EraC.check_shared_refuted"
   ],
   "note": "check_exact is over era arrays that leave room for one more array block below 2^32 entries: in the last block the u32 positions wrap and its eras go unchecked (wrap_unchecked, check_last_block_refuted). Findings, each with a witness that the check accepts: the length of the era array is not compared with nr_blocks, the current writeset is not looked at, the eras of archived writesets are not compared with the current one, two writesets may share a bitset."
  },
  {
   "property": "C61",
   "status": "proved",
   "theorems": [
    "Verif.EraT.restore_check",
    "Verif.EraT.restore_contents",
    "Verif.EraT.restore_counts",
    "Verif.EraT.restore_accepts",
    "Verif.EraT.restored_done",
    "Verif.EraT.pushesW_inWord",
    "Verif.EraT.docOf_eraDoc",
    "Verif.EraT.smWriter_sm",
    "Verif.EraT.restore_future_refuted",
    "Verif.EraT.restore_same_era_leaks_refuted"
   ],
   "note": "The marks of a writeset are given as the words that the code pushes (pushesW); pushesW_inWord says they are the document's marks for ranges within words (C37 says what happens otherwise). Finding: a second writeset of the same era replaces the first, whose blocks stay allocated for ever (restore_same_era_leaks_refuted)."
  },
  {
   "property": "C62",
   "status": "proved",
   "theorems": [
    "Verif.EraD.dump_exact",
    "Verif.EraD.dumpLogical_exact",
    "Verif.EraD.dump_sound",
    "Verif.EraD.roundtrip",
    "Verif.EraD.readSet_stored",
    "Verif.EraD.writesets_stored",
    "Verif.EraD.done_dump",
    "Verif.EraD.demo_metadata",
    "Verif.EraD.dump_gap_refuted",
    "Verif.EraD.dump_empty_refuted"
   ],
   "note": "Writesets must have consecutive eras up to the current one, as the kernel writes them: era_restore and era_check accept metadata with gaps, which era_dump refuses (dump_gap_refuted). Metadata for no blocks makes the dump panic (dump_empty_refuted). The round trip is for writesets with at least one bit."
  },
  {
   "property": "C63",
   "status": "partial",
   "theorems": [
    "Verif.EraD.repair_exact_partial",
    "Verif.EraD.repair_keeps",
    "Verif.EraD.repair_checked",
    "Verif.EraD.repair_crossing_refuted",
    "Verif.EraD.repair_crossing_fails_refuted"
   ],
   "note": "Proved in full: the output passes the check, no mark is lost. The rest is false of the code: ranges that cross a multiple of 64 are handed to the restorer whole, which then marks blocks of the next words or fails (repair_crossing_refuted, repair_crossing_fails_refuted). repair_exact_partial: without such ranges the repair is exact and fails for lack of space only."
  },
  {
   "property": "C64",
   "status": "partial",
   "theorems": [
    "Verif.CacheM.repair_exact",
    "Verif.CacheM.repair_sound",
    "Verif.CacheM.repair_checked",
    "Verif.CacheM.repair_unclean_refuted",
    "Verif.CacheM.repair_empty_refuted"
   ],
   "note": "All but the last sentence is proved; the last is false of the code for a cache that was not shut down cleanly: every block then counts as dirty, but the repaired metadata always claims a clean shutdown, so that cache_writeback (and the kernel) leave blocks out (repair_unclean_refuted). A cache without blocks makes the repair panic (repair_empty_refuted)."
  },
  {
   "property": "C65",
   "status": "partial",
   "theorems": [
    "Verif.TRep.repair_pool",
    "Verif.TRep.repair_lost_superblock",
    "Verif.TRep.repair_lost_details",
    "Verif.TRep.dump_pool",
    "Verif.TRep.dump_skip",
    "Verif.TRep.repair_underfull_refuted",
    "Verif.TRep.repair_pool_demo",
    "Verif.TRep.repair_lost_superblock_demo",
    "Verif.TRep.repair_lost_details_demo"
   ],
   "note": "Proved for pools whose mapping trees also pass the non-fatal checks and that the search can recognise (C46: some data block other than 0 in every leaf, mapped_blocks adding up to the number of mappings, roots not referenced by other nodes). Without the first the claim is false of the code: the search for roots overlooks a node with too few entries, and the dump after it does not, so that the repair gives up on a readable pool (repair_underfull_refuted); without the second C46's refutations apply."
  },
  {
   "property": "C66",
   "status": "proved",
   "theorems": [
    "Verif.Ls.ls_exact",
    "Verif.Ls.ls_readable",
    "Verif.Ls.count_exact",
    "Verif.Ls.table_aligned",
    "Verif.Ls.field_names",
    "Verif.Ls.ls_twice_refuted",
    "Verif.Ls.ls_empty_refuted",
    "Verif.Ls.count_range_refuted"
   ],
   "note": "The conditions in the statement are needed: a data block that one device maps twice is shown as shared with nobody (ls_twice_refuted), and a mapping beyond the data device ends the tool with a panic (count_range_refuted). A device without mappings has HIGHEST_BLOCK 0 like one that maps block 0 (ls_empty_refuted). Sizes in bytes are below 2^64."
  },
  {
   "property": "C67",
   "status": "partial",
   "theorems": [
    "Verif.Ls.ls_sound_partial",
    "Verif.Ls.count_sound_partial",
    "Verif.Ls.ls_overlap_refuted"
   ],
   "note": "Proved for devices whose mappings do not overlap; for those the claim is false of the code: an overlapping subtree is left out of the figures without an error (ls_overlap_refuted). Block numbers are below 2^32, as in every valid metadata device."
  },
  {
   "property": "C68",
   "status": "proved",
   "theorems": [
    "Verif.Stat.data_blocks_exact",
    "Verif.Stat.metadata_blocks_exact",
    "Verif.Stat.hist_total",
    "Verif.Stat.data_blocks_sound",
    "Verif.Stat.metadata_blocks_sound"
   ],
   "note": "bitmap entries beyond the last block are zero, as the space maps written by the tools have it"
  },
  {
   "property": "C69",
   "status": "partial",
   "theorems": [
    "Verif.Stat.run_hist_partial",
    "Verif.Stat.run_leaves_exact",
    "Verif.Stat.data_runs_sound",
    "Verif.Stat.run_shared_refuted",
    "Verif.Stat.run_cut_refuted",
    "Verif.Stat.run_length_refuted"
   ],
   "note": "The histogram is right for devices that share no metadata blocks (run_hist_partial); with shared leaves it is false of the code: a run is missed or cut at a leaf that another device has too (run_shared_refuted, run_cut_refuted), and lengths are kept modulo 2^32 (run_length_refuted). The claim about leaves and covered mappings is proved for any sharing (run_leaves_exact), for pools of less than 2^32 mappings."
  },
  {
   "property": "C70",
   "status": "partial",
   "theorems": [
    "Verif.Eng.async_readMany_correct",
    "Verif.Eng.async_read_correct",
    "Verif.Eng.async_write_correct",
    "Verif.Eng.async_writeMany_refuted",
    "Verif.Eng.async_writeMany_lost",
    "Verif.Eng.async_flush_refuted",
    "Verif.Eng.sync_writeMany_sound",
    "Verif.Eng.sync_writeMany_returns",
    "Verif.Eng.core_readMany_correct",
    "Verif.Eng.core_writeMany_correct",
    "Verif.Eng.spindle_readMany_partial",
    "Verif.Eng.spindle_cached",
    "Verif.Eng.spindle_alias_refuted",
    "Verif.Eng.spindle_new_iff",
    "Verif.Eng.spindle_write_fails",
    "Verif.Gaps.readMany_correct"
   ],
   "note": "False of the code in two places, with proofs: the asynchronous engine's write_many reads instead of writing, reports success and overwrites the caller's buffers, so a write batcher on it loses everything (async_writeMany_refuted, async_flush_refuted); the spindle engine answers a block beyond 2^32 with another one (spindle_alias_refuted). Everything else is proved."
  },
  {
   "property": "C71",
   "status": "proved",
   "theorems": [
    "Verif.Gen.cacheGen_exact",
    "Verif.Gen.cacheGen_check",
    "Verif.Gen.cacheGen_ends",
    "Verif.Gen.cacheGen_hotspot_refuted"
   ],
   "note": "The draws are a parameter; what the generator asks the restorer for goes through the model of the restorer (C15). A hotspot size of 0 never ends (cacheGen_hotspot_refuted), no origin blocks and more than 100 percent dirty are panics of the random number library."
  },
  {
   "property": "C72",
   "status": "partial",
   "theorems": [
    "Verif.Gen.eraGen_exact_partial",
    "Verif.Gen.eraGen_check_partial",
    "Verif.Gen.eraGen_total",
    "Verif.Gen.sequence_exact",
    "Verif.Gen.sequence_wrap_refuted",
    "Verif.Gen.eraGen_last_refuted",
    "Verif.Gen.eraGen_crossing_refuted",
    "Verif.Gen.eraGen_spurious_refuted"
   ],
   "note": "The document is exactly as asked for below the limits of 32 bits (false at 2^32 - 1 blocks: sequence_wrap_refuted; and for the last era: eraGen_last_refuted). What is written is exact and passes era_check if no run of marked blocks crosses a multiple of 64; otherwise the restorer fails (eraGen_crossing_refuted) or marks blocks that were not drawn (eraGen_spurious_refuted)."
  },
  {
   "property": "C73",
   "status": "partial",
   "theorems": [
    "Verif.Dmg.createLeaks_exact_partial",
    "Verif.Dmg.adjust_spec",
    "Verif.Dmg.leaks_found",
    "Verif.Dmg.damage_fails",
    "Verif.Dmg.createLeaks_unreadable",
    "Verif.Dmg.find_last_refuted",
    "Verif.Dmg.createLeaks_whole_refuted",
    "Verif.Dmg.createLeaks_larger_refuted"
   ],
   "note": "Proved for devices that are not larger than the space map and not a multiple of 16320 blocks. False of the code otherwise: if the device is a multiple of 16320 blocks the last bitmap is never searched (find_last_refuted, createLeaks_whole_refuted), and if the device is larger than the space map blocks beyond the end of the space map are picked (createLeaks_larger_refuted). Counts above 2 are unfinished in the code."
  },
  {
   "property": "C74",
   "status": "proved",
   "theorems": [
    "Verif.Dmg.allocated_exact",
    "Verif.Dmg.valid_covers"
   ],
   "note": "block numbers below 2^32, as the engine keeps them in 32 bits (see C70)"
  },
  {
   "property": "C75",
   "status": "partial",
   "theorems": [
    "Verif.SbEdit.thinSetNeedsCheck_spec",
    "Verif.SbEdit.damageOverride_spec",
    "Verif.SbEdit.no_superblock",
    "Verif.SbEdit.cacheSetFlags_spec",
    "Verif.SbEdit.cacheSetVersion_spec",
    "Verif.SbEdit.cacheSetVersion_lost",
    "Verif.SbEdit.thin_lost",
    "Verif.SbEdit.thin_uuid_refuted"
   ],
   "note": "Proved for all fields the tools know, as values and byte by byte, and for all other blocks. False for what they do not know: the uuid, and in a pool the feature flags, are set to zero (thin_lost, thin_uuid_refuted). Changing the version from 2 to 1 drops the root of the dirty bits, as a comment in the code says (cacheSetVersion_spec, cacheSetVersion_lost)."
  },
  {
   "property": "C76",
   "status": "proved",
   "theorems": [
    "Verif.Front.overwrite_consent",
    "Verif.Front.overwrite_free",
    "Verif.Front.yesNo_iff",
    "Verif.Front.overwrite_unreadable_refuted",
    "Verif.Front.restore_overwrites"
   ],
   "note": "An output that can be written but not read is overwritten without a question, as a comment in the code says (overwrite_unreadable_refuted). The tools that restore or repair never ask (restore_overwrites)."
  },
  {
   "property": "C77",
   "status": "partial",
   "theorems": [
    "Verif.Front.checkGuard_iff",
    "Verif.Front.metadata_taken",
    "Verif.Front.xml_declaration_refuted",
    "Verif.Front.repair_sizes",
    "Verif.Front.output_iff"
   ],
   "note": "Exactly which files are taken is proved (checkGuard_iff). False of the code in two places: a document that begins with an XML declaration is taken, as the code looks for ?xml without the bracket before it (xml_declaration_refuted); and metadata whose checksum is the four bytes ?xml is refused, but no other (metadata_taken)."
  },
  {
   "property": "C78",
   "status": "partial",
   "theorems": [
    "Verif.RIo.restore_block0",
    "Verif.RIo.restore_error_keeps_block0",
    "Verif.RIo.restore_ok_complete",
    "Verif.RIo.restore_crash_partial",
    "Verif.RIo.restore_flush_error",
    "Verif.RIo.restore_block_error_refuted",
    "Verif.RIo.restore_over_old_refuted",
    "Verif.RIo.restore_no_barrier_refuted"
   ],
   "note": "Proved for all programs that write blocks they allocated (as the builders do), for all crash points on a device that keeps what it was given, with single blocks written whole. False of the code: errors of single blocks are dropped and the superblock is written all the same (restore_block_error_refuted); there is no barrier before the superblock, so a volatile cache may keep it and lose a node (restore_no_barrier_refuted); and over old metadata the old superblock stays valid while its nodes are overwritten (restore_over_old_refuted)."
  },
  {
   "property": "C79",
   "status": "partial",
   "theorems": [
    "Verif.Human.human_lossless",
    "Verif.Human.human_last",
    "Verif.Human.human_map_line",
    "Verif.Human.human_newline_refuted",
    "Verif.Human.human_empty_map"
   ],
   "note": "Proved for all metadata whose names and uuid hold no newline; absent flags are shown as 0 and an absent version as 2. With newlines two different dumps can have the same text (human_newline_refuted)."
  },
  {
   "property": "C80",
   "status": "partial",
   "theorems": [
    "Verif.Rpt.outcome_any_schedule",
    "Verif.Rpt.errors_printed",
    "Verif.Rpt.printed_reported",
    "Verif.Rpt.verbose_ok",
    "Verif.Rpt.verbose_wraps_refuted",
    "Verif.Rpt.percent_le",
    "Verif.Rpt.percent_zero_refuted"
   ],
   "note": "Proved but for two corners where it is false of the code: -v given 253 times is refused and 254 times hides errors, as an 8 bit sum wraps (verbose_wraps_refuted), and a total of zero divides by zero (percent_zero_refuted)."
  },
  {
   "property": "C81",
   "status": "proved",
   "theorems": [
    "Verif.HVec.hashvec_correct",
    "Verif.HVec.firstKeys_spec"
   ],
   "note": "The standard hash map is trusted to be a map."
  },
  {
   "property": "C82",
   "status": "proved",
   "theorems": [
    "Verif.RTr.restore_image_on_device",
    "Verif.RTr.restore_image_demo"
   ],
   "note": "The device stores what it is given, with single blocks written whole; what it may lose otherwise is C78. What the image means is C57."
  },
  {
   "property": "C83",
   "status": "proved",
   "theorems": [
    "Verif.RTr.cache_restore_on_device",
    "Verif.RTr.era_restore_on_device",
    "Verif.RTr.cache_restore_demo",
    "Verif.RTr.era_restore_demo"
   ],
   "note": "As C82. The model keeps array values as words, so which arrays have values of 4 and which of 8 bytes is left to the encoding. For era_restore the document ends with its superblock, as XML nesting makes it."
  },
  {
   "property": "C84",
   "status": "partial",
   "theorems": [
    "Verif.Cli.fileName_iff",
    "Verif.Cli.main_run_iff",
    "Verif.Cli.main_panic_iff",
    "Verif.Cli.main_panic_refuted",
    "Verif.Cli.exit_status",
    "Verif.Cli.exit_message",
    "Verif.Cli.engine_iff",
    "Verif.Cli.useSnap_iff",
    "Verif.Cli.builds_partial",
    "Verif.Cli.builds_refuted"
   ],
   "note": "Proved but for two places where it is false of the code: a path that names nothing (such as ..) is a panic and not the usage text, and exactly then (main_panic_iff); and the spindle engine panics for cache and era tools, and only for those (builds_partial, builds_refuted)."
  },
  {
   "property": "C85",
   "status": "partial",
   "theorems": [
    "Verif.Cli.thin_accepts",
    "Verif.Cli.thin_estimate",
    "Verif.Cli.cache_accepts",
    "Verif.Cli.number_agrees",
    "Verif.Cli.number_total",
    "Verif.Cli.short_line_reads_back",
    "Verif.Cli.thin_exact",
    "Verif.Cli.cache_wrap_refuted",
    "Verif.Cli.understated_refuted",
    "Verif.Cli.tebibyte_line_refuted"
   ],
   "note": "Sizes below one unit are printed as the shortest decimal of a float, which is not modelled. False of the code: rounding can print less than the estimate (understated_refuted); tebibytes are called terabytes (tebibyte_line_refuted); and for devices within 1 GiB of 2^64 bytes the number of blocks wraps around (cache_wrap_refuted)."
  },
  {
   "property": "C86",
   "status": "partial",
   "theorems": [
    "Verif.CopyProg.sync_fair",
    "Verif.CopyProg.rescue_fair",
    "Verif.CopyProg.percent_monotone",
    "Verif.CopyProg.final_shown",
    "Verif.CopyProg.anySync_fair",
    "Verif.CopyProg.sync_session",
    "Verif.CopyProg.percent_small_refuted"
   ],
   "note": "Proved when the reporter is given the number of blocks (at least, for the first part) and that number times 100 fits in 64 bits. With a number that is too small, which thin_migrate takes unchecked from the device details, the percentage passes 100 and wraps around at 256 (percent_small_refuted)."
  },
  {
   "property": "C87",
   "status": "partial",
   "theorems": [
    "Verif.TrimTool.command_stops",
    "Verif.TrimTool.command_quiet",
    "Verif.TrimTool.command_refuses",
    "Verif.TrimTool.command_safe",
    "Verif.TrimTool.command_exact",
    "Verif.TrimTool.trimData_unreadable",
    "Verif.TrimTool.command_256_refuted"
   ],
   "note": "The first three hold for whatever is on the metadata device. The last two are proved for pools without metadata snapshot whose trees can be read and whose data device has fewer than 2^64 bytes, as long as there are at most 255 devices or fewer than 256 leaves map the block; beyond that it is false of the code: the check compares counts modulo 256, so the data of 256 devices is discarded if the bitmap says 0 (command_256_refuted)."
  },
  {
   "property": "C88",
   "status": "partial",
   "theorems": [
    "Verif.WbTool.command_refuses",
    "Verif.WbTool.command_dataerr",
    "Verif.WbTool.command_metadata",
    "Verif.WbTool.command_inconsistent",
    "Verif.WbTool.command_safe",
    "Verif.WbTool.command_success",
    "Verif.WbTool.command_exact",
    "Verif.WbTool.command_empty_refuted"
   ],
   "note": "Proved in full for caches with at least one block whose arrays share no blocks. For a cache of version 1 without blocks, which passes the check, the last sentence is false of the code: the command crashes (command_empty_refuted). A panic of the check (C34) is a crash instead of status 65."
  },
  {
   "property": "C89",
   "status": "proved",
   "theorems": [
    "Verif.Lcg.fill_words",
    "Verif.Lcg.verify_exact",
    "Verif.Lcg.word_inj",
    "Verif.Lcg.word_distinct",
    "Verif.Lcg.word_period"
   ],
   "note": ""
  },
  {
   "property": "C90",
   "status": "proved",
   "theorems": [
    "Verif.Ioctl.ioc_fields",
    "Verif.Ioctl.ioc_inj",
    "Verif.Ioctl.macro_fields",
    "Verif.Ioctl.codes_kernel",
    "Verif.Ioctl.size_overflow_refuted"
   ],
   "note": "The sizes must fit: a larger one is cut off silently (size_overflow_refuted); the tools use 0, 4 and 8."
  },
  {
   "property": "C91",
   "status": "proved",
   "theorems": [
    "Verif.WbTool.restored_accepted",
    "Verif.WbTool.restored_writeback",
    "Verif.WbTool.restored_exact"
   ],
   "note": "Composition of cache_restore (real space map writer), cache_check and cache_writeback in one statement about the document; demo_restored is a complete run."
  },
  {
   "property": "C92",
   "status": "proved",
   "theorems": [
    "Verif.Ram.invalidate_exact",
    "Verif.Ram.read_exact",
    "Verif.Ram.write_exact",
    "Verif.Ram.writeV_exact",
    "Verif.Ram.readV_exact",
    "Verif.Ram.writeV_partial_refuted",
    "Verif.Ram.invalidate_empty_refuted"
   ],
   "note": "The comment in the code promises more for vectored writes (that they fail as a whole), which is false: the buffers before the broken page are written (writeV_partial_refuted). An empty range with an unaligned start breaks a page (invalidate_empty_refuted)."
  }
 ]
}