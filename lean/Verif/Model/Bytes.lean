/-!
# Little-endian integer codec

Models the primitives the code uses for all on-disk records:
* writing: `byteorder::WriteBytesExt::{write_u8,write_u16,write_u32,write_u64}::<LittleEndian>`
* reading: `nom::number::complete::{le_u16,le_u32,le_u64}` and `nom::bytes::complete::take`
  (used throughout `src/pdata/unpack.rs`, `src/pdata/btree.rs`, ...).

A byte string is a `List UInt8`.  A Rust integer of width 8*k is a `Nat` below `256^k`; the writers reduce
modulo `256^k` exactly like an `as` cast would.  A reader returns `none` when the input is too short
(nom's `Err(Incomplete/Eof)`), otherwise the value and the remaining input.
-/

namespace Verif

abbrev Bytes := List UInt8

/-- The result of a nom parser: `none` is an error, otherwise (remaining input, value) in swapped order. -/
abbrev Parser (α : Type) := Bytes → Option (α × Bytes)

/-- `write_uN::<LittleEndian>` for N = 8*k (byteorder). -/
def leBytes : Nat → Nat → Bytes
  | 0, _ => []
  | k + 1, v => UInt8.ofNat (v % 256) :: leBytes k (v / 256)

/-- Value of a little-endian byte string. -/
def leVal : Bytes → Nat
  | [] => 0
  | b :: bs => b.toNat + 256 * leVal bs

/-- `nom::bytes::complete::take(n)`. -/
def takeB (n : Nat) : Parser Bytes := fun i =>
  if n ≤ i.length then some (i.take n, i.drop n) else none

/-- `le_uN` for N = 8*k: fails when fewer than `k` bytes are left. -/
def leU (k : Nat) : Parser Nat := fun i =>
  match takeB k i with
  | some (b, r) => some (leVal b, r)
  | none => none

/-- `le_u32` -/
abbrev leU32 : Parser Nat := leU 4
/-- `le_u64` -/
abbrev leU64 : Parser Nat := leU 8
/-- `write_u32::<LittleEndian>` -/
abbrev w32 (v : Nat) : Bytes := leBytes 4 v
/-- `write_u64::<LittleEndian>` -/
abbrev w64 (v : Nat) : Bytes := leBytes 8 v

end Verif
