import Verif.Model.Bytes

/-!
# Fixed-size on-disk records

Each `pack`/`unpack` pair below is a transliteration of the Rust `Pack`/`Unpack` impl it cites.
Rust integers are `Nat`s; the `WF` predicates say which values the Rust *types* can hold
(they are not extra assumptions), the `Fits` predicates say which values the *on-disk layout* can hold.
-/

namespace Verif

/-- `src/pdata/unpack.rs:9-33`: `Unpack`/`Pack` trait: a codec with a declared disk size.
`Hint::unpack` panics on short input (slice index); like nom errors this is `none` here. -/
structure Codec (α : Type) where
  diskSize : Nat
  pack : α → Bytes
  unpack : Parser α

/-- `src/pdata/unpack.rs` `impl Unpack/Pack for u64`. -/
def u64Codec : Codec Nat := { diskSize := 8, pack := w64, unpack := leU64 }
/-- `src/pdata/unpack.rs` `impl Unpack/Pack for u32`. -/
def u32Codec : Codec Nat := { diskSize := 4, pack := w32, unpack := leU32 }

/-- `src/thin/block_time.rs:10-14` -/
structure BlockTime where
  block : Nat
  time : Nat
  deriving DecidableEq, Repr

/-- `src/thin/block_time.rs:36-41`: `(block << 24) | time`, the shift is on a `u64`, so high bits are lost. -/
def BlockTime.pack (bt : BlockTime) : Bytes := w64 (((bt.block <<< 24) % 2 ^ 64) ||| bt.time)

/-- `src/thin/block_time.rs:21-33` -/
def BlockTime.unpack : Parser BlockTime := fun i => do
  let (n, i) ← leU64 i
  some ({ block := n >>> 24, time := n &&& (2 ^ 24 - 1) }, i)

/-- `src/thin/block_time.rs:16-41` -/
def blockTimeCodec : Codec BlockTime := { diskSize := 8, pack := BlockTime.pack, unpack := BlockTime.unpack }

/-- `src/thin/device_detail.rs:10-16` -/
structure DeviceDetail where
  mapped_blocks : Nat
  transaction_id : Nat
  creation_time : Nat
  snapshotted_time : Nat
  deriving DecidableEq, Repr

/-- `src/thin/device_detail.rs:52-59` -/
def DeviceDetail.pack (d : DeviceDetail) : Bytes :=
  w64 d.mapped_blocks ++ w64 d.transaction_id ++ w32 d.creation_time ++ w32 d.snapshotted_time

/-- `src/thin/device_detail.rs:34-49` -/
def DeviceDetail.unpack : Parser DeviceDetail := fun i => do
  let (mapped_blocks, i) ← leU64 i
  let (transaction_id, i) ← leU64 i
  let (creation_time, i) ← leU32 i
  let (snapshotted_time, i) ← leU32 i
  some ({ mapped_blocks, transaction_id, creation_time, snapshotted_time }, i)

/-- `src/thin/device_detail.rs:29-59` -/
def deviceDetailCodec : Codec DeviceDetail :=
  { diskSize := 24, pack := DeviceDetail.pack, unpack := DeviceDetail.unpack }

/-- `src/pdata/space_map/common.rs:147-153` -/
structure SMRoot where
  nr_blocks : Nat
  nr_allocated : Nat
  bitmap_root : Nat
  ref_count_root : Nat
  deriving DecidableEq, Repr

/-- `src/pdata/space_map/common.rs:178-185` -/
def SMRoot.pack (r : SMRoot) : Bytes :=
  w64 r.nr_blocks ++ w64 r.nr_allocated ++ w64 r.bitmap_root ++ w64 r.ref_count_root

/-- `src/pdata/space_map/common.rs:160-175` -/
def SMRoot.unpack : Parser SMRoot := fun i => do
  let (nr_blocks, i) ← leU64 i
  let (nr_allocated, i) ← leU64 i
  let (bitmap_root, i) ← leU64 i
  let (ref_count_root, i) ← leU64 i
  some ({ nr_blocks, nr_allocated, bitmap_root, ref_count_root }, i)

/-- `src/pdata/space_map/common.rs:155-185` -/
def smRootCodec : Codec SMRoot := { diskSize := 32, pack := SMRoot.pack, unpack := SMRoot.unpack }

/-- `src/pdata/space_map/common.rs:187-192` `pack_root`: writes the root at the start of a zeroed buffer of
`size` bytes; a cursor over a slice that is too small returns an error. -/
def packRoot (r : SMRoot) (size : Nat) : Option Bytes :=
  if r.pack.length ≤ size then some (r.pack ++ List.replicate (size - r.pack.length) 0) else none

/-- `src/pdata/space_map/common.rs:21-26` -/
structure IndexEntry where
  blocknr : Nat
  nr_free : Nat
  none_free_before : Nat
  deriving DecidableEq, Repr

/-- `src/pdata/space_map/common.rs:49-55` -/
def IndexEntry.pack (e : IndexEntry) : Bytes := w64 e.blocknr ++ w32 e.nr_free ++ w32 e.none_free_before

/-- `src/pdata/space_map/common.rs:33-46` -/
def IndexEntry.unpack : Parser IndexEntry := fun i => do
  let (blocknr, i) ← leU64 i
  let (nr_free, i) ← leU32 i
  let (none_free_before, i) ← leU32 i
  some ({ blocknr, nr_free, none_free_before }, i)

/-- `src/pdata/space_map/common.rs:28-55` -/
def indexEntryCodec : Codec IndexEntry := { diskSize := 16, pack := IndexEntry.pack, unpack := IndexEntry.unpack }

/-- `src/cache/mapping.rs:20-24` -/
structure Mapping where
  oblock : Nat
  flags : Nat
  deriving DecidableEq, Repr

/-- `src/cache/mapping.rs:27-29` -/
def Mapping.isValid (m : Mapping) : Bool := (m.flags &&& 1) != 0
/-- `src/cache/mapping.rs:31-33` -/
def Mapping.isDirty (m : Mapping) : Bool := (m.flags &&& 2) != 0
/-- `src/cache/mapping.rs:35-41`; `flags` is a `u32`, `!2u32 = 2^32 - 3`. -/
def Mapping.setDirty (m : Mapping) (d : Bool) : Mapping :=
  { m with flags := if d then m.flags ||| 2 else m.flags &&& (2 ^ 32 - 3) }

/-- `src/cache/mapping.rs:64-69` -/
def Mapping.pack (m : Mapping) : Bytes := w64 (((m.oblock <<< 16) % 2 ^ 64) ||| m.flags)

/-- `src/cache/mapping.rs:49-61` -/
def Mapping.unpack : Parser Mapping := fun i => do
  let (n, i) ← leU64 i
  some ({ oblock := n >>> 16, flags := n &&& (2 ^ 16 - 1) }, i)

/-- `src/cache/mapping.rs:44-69` -/
def mappingCodec : Codec Mapping := { diskSize := 8, pack := Mapping.pack, unpack := Mapping.unpack }

/-- `src/cache/hint.rs:10-13`: `hint: [u8; 4]` -/
structure Hint where
  hint : Bytes
  deriving DecidableEq, Repr

/-- `src/cache/hint.rs:31-38` -/
def Hint.pack (h : Hint) : Bytes := h.hint
/-- `src/cache/hint.rs:20-28` (a short input panics in the code, `none` here) -/
def Hint.unpack : Parser Hint := fun i => do
  let (h, i) ← takeB 4 i
  some ({ hint := h }, i)

/-- `src/cache/hint.rs:15-38` -/
def hintCodec : Codec Hint := { diskSize := 4, pack := Hint.pack, unpack := Hint.unpack }

/-- `src/era/writeset.rs:9-13` -/
structure Writeset where
  nr_bits : Nat
  root : Nat
  deriving DecidableEq, Repr

/-- `src/era/writeset.rs:27-32` -/
def Writeset.pack (w : Writeset) : Bytes := w32 w.nr_bits ++ w64 w.root
/-- `src/era/writeset.rs:20-24` -/
def Writeset.unpack : Parser Writeset := fun i => do
  let (nr_bits, i) ← leU32 i
  let (root, i) ← leU64 i
  some ({ nr_bits, root }, i)

/-- `src/era/writeset.rs:15-32` -/
def writesetCodec : Codec Writeset := { diskSize := 12, pack := Writeset.pack, unpack := Writeset.unpack }

end Verif
