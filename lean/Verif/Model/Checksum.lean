import Verif.Model.Bytes

/-!
# Block checksums (`src/checksum.rs`)

CRC32C is a parameter `crc : Bytes → UInt32` of the model (the `crc32c` crate is trusted).
-/

namespace Verif

/-- `src/checksum.rs:7` and `src/io_engine/base.rs` -/
def BLOCK_SIZE : Nat := 4096

/-- `src/checksum.rs:20-32` -/
inductive BT where
  | thinSuperblock | cacheSuperblock | eraSuperblock | node | index | bitmap | array | unknown
  deriving DecidableEq, Repr

/-- `src/checksum.rs:8-14` and the match at `:63-74`; `none` is the "Invalid block type" error. -/
def BT.salt : BT → Option UInt32
  | .thinSuperblock => some 160774
  | .cacheSuperblock => some 9031977
  | .eraSuperblock => some 146538381
  | .node => some 121107
  | .bitmap => some 240779
  | .index => some 160478
  | .array => some 595846735
  | .unknown => none

/-- `src/checksum.rs:16-18` -/
def checksum (crc : Bytes → UInt32) (buf : Bytes) : UInt32 := crc (buf.drop 4) ^^^ 0xffffffff

/-- `src/checksum.rs:45-54` -/
def typeOfSalt (s : UInt32) : BT :=
  if s = 160774 then .thinSuperblock
  else if s = 9031977 then .cacheSuperblock
  else if s = 146538381 then .eraSuperblock
  else if s = 121107 then .node
  else if s = 240779 then .bitmap
  else if s = 160478 then .index
  else if s = 595846735 then .array
  else .unknown

/-- `src/checksum.rs:34-55` -/
def metadataBlockType (crc : Bytes → UInt32) (buf : Bytes) : BT :=
  if buf.length ≠ BLOCK_SIZE then .unknown
  else
    let sumOnDisk := UInt32.ofNat (leVal (buf.take 4))
    typeOfSalt (checksum crc buf ^^^ sumOnDisk)

/-- `src/checksum.rs:57-80`; the result is the updated buffer, `none` an error. -/
def writeChecksum (crc : Bytes → UInt32) (buf : Bytes) (kind : BT) : Option Bytes :=
  if buf.length ≠ BLOCK_SIZE then none
  else
    match kind.salt with
    | none => none
    | some salt => some (leBytes 4 (checksum crc buf ^^^ salt).toNat ++ buf.drop 4)

end Verif
