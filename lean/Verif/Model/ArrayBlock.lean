import Verif.Model.Node

/-!
# Array blocks on disk (`src/pdata/array.rs`)
-/

namespace Verif

/-- `src/pdata/array.rs:19-24` -/
structure ArrayHeader where
  max_entries : Nat
  nr_entries : Nat
  value_size : Nat
  blocknr : Nat
  deriving DecidableEq, Repr

/-- `src/pdata/array.rs:16` -/
def ARRAY_HEADER_SIZE : Nat := 24

/-- `src/pdata/array.rs:31-47` -/
def ArrayHeader.unpack : Parser ArrayHeader := fun i => do
  let (_csum, i) ← leU32 i
  let (max_entries, i) ← leU32 i
  let (nr_entries, i) ← leU32 i
  let (value_size, i) ← leU32 i
  let (blocknr, i) ← leU64 i
  some ({ max_entries, nr_entries, value_size, blocknr }, i)

/-- `src/pdata/array.rs:51-58` -/
def ArrayHeader.pack (h : ArrayHeader) : Bytes :=
  w32 0 ++ (w32 h.max_entries ++ (w32 h.nr_entries ++ (w32 h.value_size ++ w64 h.blocknr)))

/-- `src/pdata/array.rs:63-66` -/
structure ArrayBlock (V : Type) where
  header : ArrayHeader
  values : List V

/-- `src/pdata/array.rs:155-187`; the `u32` product and sum wrap around in a release build (a debug build panics). -/
def unpackArrayBlock {V : Type} (c : Codec V) (data : Bytes) : Option (ArrayBlock V) :=
  match ArrayHeader.unpack data with
  | none => none
  | some (h, i) =>
    if h.value_size ≠ c.diskSize then none
    else if (h.value_size * h.max_entries % 2 ^ 32 + ARRAY_HEADER_SIZE) % 2 ^ 32 > BLOCK_SIZE then none
    else if h.nr_entries > h.max_entries then none
    else match countP c.unpack h.nr_entries i with
      | none => none
      | some (values, _) => some { header := h, values := values }

/-- `src/pdata/array.rs:189-198` -/
def packArrayBlock {V : Type} (c : Codec V) (b : ArrayBlock V) : Bytes :=
  b.header.pack ++ (b.values.map c.pack).flatten

/-- `src/pdata/array.rs:202-204` -/
def arrayMaxEntries (valueSize : Nat) : Nat := (BLOCK_SIZE - ARRAY_HEADER_SIZE) / valueSize

/-- `ArrayIO::write`, `write_array_block`, `src/pdata/array_builder.rs:149-176`: the block made of `values` at `loc`;
`old` is what the block's memory held before -/
def arrayBlockBytes {V : Type} (crc : Bytes → UInt32) (c : Codec V) (old : Bytes) (loc : Nat) (values : List V) :
    Option Bytes := do
  let h : ArrayHeader :=
    { max_entries := arrayMaxEntries c.diskSize, nr_entries := values.length, value_size := c.diskSize, blocknr := loc }
  let b ← fillBlock old (packArrayBlock c { header := h, values := values })
  writeChecksum crc b .array

/-- `visit_array_block`, `src/pdata/array_walker.rs:51-66`: check the type, unpack -/
def checkAndUnpackArray {V : Type} (crc : Bytes → UInt32) (c : Codec V) (data : Bytes) : Option (ArrayBlock V) :=
  if metadataBlockType crc data = .array then unpackArrayBlock c data else none

end Verif
