import Verif.Model.Node

/-!
# Blocks of a space map on disk (`src/pdata/space_map/common.rs`, `src/pdata/space_map/metadata.rs`)
-/

namespace Verif

/-- `BitmapEntry`, `src/pdata/space_map/common.rs:60-64` -/
inductive BE where
  | small (n : Nat)
  | overflow
  deriving DecidableEq, Repr

/-- `Bitmap`, `src/pdata/space_map/common.rs:66-70` -/
structure Bitmap where
  blocknr : Nat
  entries : List BE
  deriving DecidableEq, Repr

/-- `(BLOCK_SIZE - header_size) / 8`, `src/pdata/space_map/common.rs:16,82-83` -/
def WORDS_PER_BITMAP : Nat := (BLOCK_SIZE - 16) / 8

/-- `ENTRIES_PER_BITMAP`, `src/pdata/space_map/common.rs:15-17` -/
def ENTRIES_PER_BITMAP : Nat := WORDS_PER_BITMAP * 8 * 4

/-- the two bits of an entry, `src/pdata/space_map/common.rs:93-98` -/
def BE.ofCode : Nat → BE
  | 0 => .small 0
  | 1 => .small 2
  | 2 => .small 1
  | _ => .overflow

/-- the loop of `src/pdata/space_map/common.rs:88-99` -/
def unpackWord : Nat → Nat → List BE
  | 0, _ => []
  | n + 1, w => BE.ofCode (w &&& 3) :: unpackWord n (w >>> 2)

/-- the loop of `src/pdata/space_map/common.rs:85-102` -/
def unpackWords : Nat → Parser (List BE)
  | 0, i => some ([], i)
  | n + 1, i => do
    let (w, i) ← leU64 i
    let (es, i) ← unpackWords n i
    some (unpackWord 32 w ++ es, i)

/-- `src/pdata/space_map/common.rs:77-105` -/
def Bitmap.unpack : Parser Bitmap := fun i => do
  let (_csum, i) ← leU32 i
  let (_not_used, i) ← leU32 i
  let (blocknr, i) ← leU64 i
  let (entries, i) ← unpackWords WORDS_PER_BITMAP i
  some ({ blocknr, entries }, i)

/-- the two bits that are added at the top of the word, `src/pdata/space_map/common.rs:120-134`; `none` is the error for
counts above two -/
def BE.code : BE → Option Nat
  | .small 0 => some 0
  | .small 1 => some 2
  | .small 2 => some 1
  | .small _ => none
  | .overflow => some 3

/-- the inner loop of `src/pdata/space_map/common.rs:117-135` -/
def packEntries : List BE → Nat → Option Nat
  | [], w => some w
  | e :: es, w => do
    let c ← e.code
    packEntries es ((w >>> 2) ||| (c <<< 62))

/-- `src/pdata/space_map/common.rs:115-139`: chunks of 32 entries, each a word -/
def packWords (es : List BE) : Option Bytes :=
  if h : es = [] then some []
  else do
    let w ← packEntries (es.take 32) 0
    let rest ← packWords (es.drop 32)
    some (w64 (w >>> (64 - (es.take 32).length * 2)) ++ rest)
termination_by es.length
decreasing_by
  have : es.length ≠ 0 := by simpa using h
  simp only [List.length_drop]; omega

/-- `src/pdata/space_map/common.rs:109-142` -/
def Bitmap.pack (b : Bitmap) : Option Bytes := do
  let ws ← packWords b.entries
  some (w32 0 ++ (w32 0 ++ (w64 b.blocknr ++ ws)))

/-- `write_bitmap`, `src/pdata/space_map/common.rs:360-373`: the block at `loc`, which was zeroed -/
def bitmapBlock (crc : Bytes → UInt32) (loc : Nat) (es : List BE) : Option Bytes := do
  let p ← Bitmap.pack { blocknr := loc, entries := es }
  let b ← fillBlock (List.replicate BLOCK_SIZE 0) p
  writeChecksum crc b .bitmap

/-- `MetadataIndex`, `src/pdata/space_map/metadata.rs:22-25` -/
structure MetadataIndex where
  blocknr : Nat
  indexes : List IndexEntry
  deriving DecidableEq, Repr

/-- `src/pdata/space_map/metadata.rs:17` -/
def MAX_METADATA_BITMAPS : Nat := 255

/-- `src/pdata/space_map/metadata.rs:32-43`: entries from the first that points to block 0 on are dropped -/
def MetadataIndex.unpack : Parser MetadataIndex := fun i => do
  let (_csum, i) ← leU32 i
  let (_padding, i) ← leU32 i
  let (blocknr, i) ← leU64 i
  let (indexes, i) ← countP IndexEntry.unpack MAX_METADATA_BITMAPS i
  some ({ blocknr, indexes := indexes.takeWhile fun e => e.blocknr != 0 }, i)

/-- `src/pdata/space_map/metadata.rs:47-59`; `none` is the `assert!` -/
def MetadataIndex.pack (m : MetadataIndex) : Option Bytes :=
  if m.indexes.length ≤ MAX_METADATA_BITMAPS then
    some (w32 0 ++ (w32 0 ++ (w64 m.blocknr ++ (m.indexes.map IndexEntry.pack).flatten)))
  else none

/-- the last part of `write_metadata_sm`, `src/pdata/space_map/metadata.rs:175-183`: the index block at `loc`, which was zeroed -/
def indexBlock (crc : Bytes → UInt32) (loc : Nat) (ies : List IndexEntry) : Option Bytes := do
  let p ← MetadataIndex.pack { blocknr := loc, indexes := ies }
  let b ← fillBlock (List.replicate BLOCK_SIZE 0) p
  writeChecksum crc b .index

/-- `load_metadata_index` with `verify_checksum`, `src/pdata/space_map/metadata.rs:62-80`; `need` is the number of bitmaps for
the size of the device -/
def loadMetadataIndex (crc : Bytes → UInt32) (loc : Nat) (data : Bytes) (need : Nat) : Option (List IndexEntry) :=
  if metadataBlockType crc data = .index then
    match MetadataIndex.unpack data with
    | none => none
    | some (m, _) => if m.blocknr ≠ loc then none else some (m.indexes.take need)
  else none

end Verif
