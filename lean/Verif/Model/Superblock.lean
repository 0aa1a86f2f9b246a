import Verif.Model.Checksum
import Verif.Model.Records

/-!
# Superblocks (`src/thin/superblock.rs`, `src/cache/superblock.rs`, `src/era/superblock.rs`)

The device is a total map from block number to 4096-byte block (`src/io_engine/base.rs` `IoEngine`);
reads and writes that fail in the kernel are not modelled here, so a result of `none` means that the Rust
function returned `Err` (or panicked, where a comment says so) because of the data.
-/

namespace Verif

/-- Contents of a metadata device, by block number. -/
abbrev Disk := Nat → Bytes

/-- `IoEngine::write` of one block. -/
def Disk.write (d : Disk) (loc : Nat) (b : Bytes) : Disk := fun i => if i = loc then b else d i

/-- `Block::zeroed` filled through a `Cursor` (e.g. `src/thin/superblock.rs:140-146`): bytes not written stay
zero, writing past the end of the 4096-byte block is an error. -/
def padBlock (b : Bytes) : Option Bytes :=
  if b.length ≤ BLOCK_SIZE then some (b ++ List.replicate (BLOCK_SIZE - b.length) 0) else none

/-- The common tail of the three `write_superblock`: pad, checksum, write to `SUPERBLOCK_LOCATION`
(`src/thin/superblock.rs:139-155`, `src/cache/superblock.rs:203-219`, `src/era/superblock.rs:146-162`). -/
def writeSb (crc : Bytes → UInt32) (t : BT) (d : Disk) (packed : Option Bytes) : Option Disk := do
  let p ← packed
  let b ← padBlock p
  let b ← writeChecksum crc b t
  some (d.write 0 b)

/-- The common body of the three `read_superblock` (`src/thin/superblock.rs:90-102` etc.). -/
def readSb {α : Type} (crc : Bytes → UInt32) (t : BT) (unpack : Parser α) (d : Disk) (loc : Nat) : Option α :=
  if metadataBlockType crc (d loc) ≠ t then none
  else match unpack (d loc) with
    | some (sb, _) => some sb
    | none => none

namespace Thin

/-- `src/thin/superblock.rs:32-47` -/
structure Superblock where
  needs_check : Bool
  block : Nat
  version : Nat
  time : Nat
  transaction_id : Nat
  metadata_snap : Nat
  data_sm_root : Bytes
  metadata_sm_root : Bytes
  mapping_root : Nat
  details_root : Nat
  data_block_size : Nat
  nr_metadata_blocks : Nat
  deriving DecidableEq, Repr

/-- `src/thin/superblock.rs:49-88` -/
def unpackSb : Parser Superblock := fun i => do
  let (_csum, i) ← leU32 i
  let (flags, i) ← leU32 i
  let (block, i) ← leU64 i
  let (_uuid, i) ← takeB 16 i
  let (_magic, i) ← leU64 i
  let (version, i) ← leU32 i
  let (time, i) ← leU32 i
  let (transaction_id, i) ← leU64 i
  let (metadata_snap, i) ← leU64 i
  let (data_sm_root, i) ← takeB 128 i
  let (metadata_sm_root, i) ← takeB 128 i
  let (mapping_root, i) ← leU64 i
  let (details_root, i) ← leU64 i
  let (data_block_size, i) ← leU32 i
  let (_metadata_block_size, i) ← leU32 i
  let (nr_metadata_blocks, i) ← leU64 i
  some ({ needs_check := (flags &&& 1) != 0, block, version, time, transaction_id, metadata_snap,
          data_sm_root, metadata_sm_root, mapping_root, details_root, data_block_size, nr_metadata_blocks }, i)

/-- `src/thin/superblock.rs:114-137` -/
def packSb (sb : Superblock) : Bytes :=
  w32 0 ++ (w32 (if sb.needs_check then 1 else 0) ++ (w64 sb.block ++ (List.replicate 16 0 ++ (w64 27022010 ++
  (w32 sb.version ++ (w32 sb.time ++ (w64 sb.transaction_id ++ (w64 sb.metadata_snap ++ (sb.data_sm_root ++
  (sb.metadata_sm_root ++ (w64 sb.mapping_root ++ (w64 sb.details_root ++ (w32 sb.data_block_size ++ (w32 8 ++
  w64 sb.nr_metadata_blocks))))))))))))))

/-- `src/thin/superblock.rs:139-155` -/
def writeSuperblock (crc : Bytes → UInt32) (d : Disk) (sb : Superblock) : Option Disk :=
  writeSb crc .thinSuperblock d (some (packSb sb))

/-- `src/thin/superblock.rs:90-102` -/
def readSuperblock (crc : Bytes → UInt32) (d : Disk) (loc : Nat) : Option Superblock :=
  readSb crc .thinSuperblock unpackSb d loc

/-- `src/thin/superblock.rs:104-110` -/
def readSuperblockSnap (crc : Bytes → UInt32) (d : Disk) : Option Superblock := do
  let actual ← readSuperblock crc d 0
  if actual.metadata_snap = 0 then none else readSuperblock crc d actual.metadata_snap

end Thin

namespace Cache

/-- `src/cache/superblock.rs:20-55` -/
structure Superblock where
  clean_shutdown : Bool
  needs_check : Bool
  block : Nat
  version : Nat
  policy_name : Bytes
  policy_version : List Nat
  policy_hint_size : Nat
  metadata_sm_root : Bytes
  mapping_root : Nat
  dirty_root : Option Nat
  hint_root : Nat
  discard_root : Nat
  discard_block_size : Nat
  discard_nr_blocks : Nat
  data_block_size : Nat
  cache_blocks : Nat
  compat_flags : Nat
  compat_ro_flags : Nat
  incompat_flags : Nat
  read_hits : Nat
  read_misses : Nat
  write_hits : Nat
  write_misses : Nat
  deriving DecidableEq, Repr

/-- `src/cache/superblock.rs:91-96` -/
def readDirty (version : Nat) : Parser (Option Nat) := fun i =>
  if version ≥ 2 then
    match leU64 i with
    | some (root, m) => some (some root, m)
    | none => none
  else some (none, i)

/-- `src/cache/superblock.rs:57-127` -/
def unpackSb : Parser Superblock := fun i => do
  let (_csum, i) ← leU32 i
  let (flags, i) ← leU32 i
  let (block, i) ← leU64 i
  let (_uuid, i) ← takeB 16 i
  let (_magic, i) ← leU64 i
  let (version, i) ← leU32 i
  let (policy_name, i) ← takeB 16 i
  let (policy_hint_size, i) ← leU32 i
  let (metadata_sm_root, i) ← takeB 128 i
  let (mapping_root, i) ← leU64 i
  let (hint_root, i) ← leU64 i
  let (discard_root, i) ← leU64 i
  let (discard_block_size, i) ← leU64 i
  let (discard_nr_blocks, i) ← leU64 i
  let (data_block_size, i) ← leU32 i
  let (_metadata_block_size, i) ← leU32 i
  let (cache_blocks, i) ← leU32 i
  let (compat_flags, i) ← leU32 i
  let (compat_ro_flags, i) ← leU32 i
  let (incompat_flags, i) ← leU32 i
  let (read_hits, i) ← leU32 i
  let (read_misses, i) ← leU32 i
  let (write_hits, i) ← leU32 i
  let (write_misses, i) ← leU32 i
  let (vsn_major, i) ← leU32 i
  let (vsn_minor, i) ← leU32 i
  let (vsn_patch, i) ← leU32 i
  let (dirty_root, i) ← readDirty version i
  some ({ clean_shutdown := (flags &&& 1) != 0, needs_check := (flags &&& 2) != 0, block, version,
          policy_name := policy_name.takeWhile (· != 0),
          policy_version := [vsn_major, vsn_minor, vsn_patch], policy_hint_size, metadata_sm_root, mapping_root,
          dirty_root, hint_root, discard_root, discard_block_size, discard_nr_blocks, data_block_size,
          cache_blocks, compat_flags, compat_ro_flags, incompat_flags, read_hits, read_misses, write_hits,
          write_misses }, i)

/-- `src/cache/superblock.rs:197-199` -/
def packDirty : Option Nat → Bytes
  | some r => w64 r
  | none => []

/-- `src/cache/superblock.rs:150-199`: everything written after the checksum word; `v0 v1 v2` are
`policy_version[0..3]`. -/
def packFields (sb : Superblock) (v0 v1 v2 : Nat) : Bytes :=
  w32 ((if sb.clean_shutdown then 1 else 0) ||| (if sb.needs_check then 2 else 0)) ++
  (w64 sb.block ++ (List.replicate 16 0 ++ (w64 0o6142003 ++ (w32 sb.version ++
  ((sb.policy_name ++ List.replicate (16 - sb.policy_name.length) 0) ++ (w32 sb.policy_hint_size ++
  (sb.metadata_sm_root ++ (w64 sb.mapping_root ++ (w64 sb.hint_root ++ (w64 sb.discard_root ++
  (w64 sb.discard_block_size ++ (w64 sb.discard_nr_blocks ++ (w32 sb.data_block_size ++ (w32 8 ++
  (w32 sb.cache_blocks ++ (w32 sb.compat_flags ++ (w32 sb.compat_ro_flags ++ (w32 sb.incompat_flags ++
  (w32 sb.read_hits ++ (w32 sb.read_misses ++ (w32 sb.write_hits ++ (w32 sb.write_misses ++
  (w32 v0 ++ (w32 v1 ++ (w32 v2 ++
  packDirty sb.dirty_root)))))))))))))))))))))))))

/-- `src/cache/superblock.rs:146-201`; `none` is the panic of `policy_name[..len]` for a name longer than 16
bytes or of `policy_version[2]` for fewer than three components. -/
def packSb (sb : Superblock) : Option Bytes :=
  if sb.policy_name.length ≤ 16 then
    match sb.policy_version with
    | v0 :: v1 :: v2 :: _ => some (w32 0 ++ packFields sb v0 v1 v2)
    | _ => none
  else none

/-- `src/cache/superblock.rs:203-219` -/
def writeSuperblock (crc : Bytes → UInt32) (d : Disk) (sb : Superblock) : Option Disk :=
  writeSb crc .cacheSuperblock d (packSb sb)

/-- `src/cache/superblock.rs:129-141` -/
def readSuperblock (crc : Bytes → UInt32) (d : Disk) (loc : Nat) : Option Superblock :=
  readSb crc .cacheSuperblock unpackSb d loc

end Cache

namespace Era

/-- `src/era/superblock.rs:20-43` -/
structure Superblock where
  clean_shutdown : Bool
  block : Nat
  version : Nat
  metadata_sm_root : Bytes
  data_block_size : Nat
  nr_blocks : Nat
  current_era : Nat
  current_writeset : Writeset
  writeset_tree_root : Nat
  era_array_root : Nat
  metadata_snap : Nat
  deriving DecidableEq, Repr

/-- `src/era/superblock.rs:45-86` -/
def unpackSb : Parser Superblock := fun i => do
  let (_csum, i) ← leU32 i
  let (flags, i) ← leU32 i
  let (block, i) ← leU64 i
  let (_uuid, i) ← takeB 16 i
  let (_magic, i) ← leU64 i
  let (version, i) ← leU32 i
  let (metadata_sm_root, i) ← takeB 128 i
  let (data_block_size, i) ← leU32 i
  let (_metadata_block_size, i) ← leU32 i
  let (nr_blocks, i) ← leU32 i
  let (current_era, i) ← leU32 i
  let (nr_bits, i) ← leU32 i
  let (root, i) ← leU64 i
  let (writeset_tree_root, i) ← leU64 i
  let (era_array_root, i) ← leU64 i
  let (metadata_snap, i) ← leU64 i
  some ({ clean_shutdown := (flags &&& 1) != 0, block, version, metadata_sm_root, data_block_size, nr_blocks,
          current_era, current_writeset := { nr_bits, root }, writeset_tree_root, era_array_root,
          metadata_snap }, i)

/-- `src/era/superblock.rs:112-144` -/
def packSb (sb : Superblock) : Bytes :=
  w32 0 ++ (w32 (if sb.clean_shutdown then 1 else 0) ++ (w64 sb.block ++ (List.replicate 16 0 ++
  (w64 0o17660203573 ++ (w32 sb.version ++ (sb.metadata_sm_root ++ (w32 sb.data_block_size ++ (w32 8 ++
  (w32 sb.nr_blocks ++ (w32 sb.current_era ++ (w32 sb.current_writeset.nr_bits ++
  (w64 sb.current_writeset.root ++ (w64 sb.writeset_tree_root ++ (w64 sb.era_array_root ++
  w64 sb.metadata_snap))))))))))))))

/-- `src/era/superblock.rs:146-162` -/
def writeSuperblock (crc : Bytes → UInt32) (d : Disk) (sb : Superblock) : Option Disk :=
  writeSb crc .eraSuperblock d (some (packSb sb))

/-- `src/era/superblock.rs:88-100` -/
def readSuperblock (crc : Bytes → UInt32) (d : Disk) (loc : Nat) : Option Superblock :=
  readSb crc .eraSuperblock unpackSb d loc

/-- `src/era/superblock.rs:100-106` -/
def readSuperblockSnap (crc : Bytes → UInt32) (d : Disk) : Option Superblock := do
  let actual ← readSuperblock crc d 0
  if actual.metadata_snap = 0 then none else readSuperblock crc d actual.metadata_snap

end Era

end Verif
