import Verif.Model.Xml

/-!
# The human readable dump (`src/thin/human_readable_format.rs`)

What `thin_dump --format human_readable` prints for each call of the visitor.  The calls are those of `Model/Xml.lean`.
Writing to the output is trusted to keep the bytes.
-/

namespace Verif.Human

open Verif.Xml (Str TEv TSb TDev TMap)
open Verif.Units (showNat)

/-- `, ` and a number, as in the format string of `src/thin/human_readable_format.rs:23-31` -/
def field (n : Nat) : Str := [',', ' '] ++ showNat n

/-- the optional last field, `src/thin/human_readable_format.rs:34-38` -/
def snapField : Option Nat → Str
  | some b => field b
  | none => []

/-- `superblock_b`, `src/thin/human_readable_format.rs:20-41`: `begin superblock: "uuid", time, transaction, flags, version,
data block size, nr data blocks[, metadata snap]` (`METADATA_VERSION` is 2, line 17) -/
def sbLine (sb : TSb) : Str :=
  ['b', 'e', 'g', 'i', 'n', ' ', 's', 'u', 'p', 'e', 'r', 'b', 'l', 'o', 'c', 'k', ':', ' ', '"'] ++ sb.uuid ++ ['"'] ++ field sb.time ++ field sb.transaction ++ field (sb.flags.getD 0) ++
  field (sb.version.getD 2) ++ field sb.blockSize ++ field sb.nrData ++
  snapField sb.snap ++ ['\n']

/-- `device_b`, `src/thin/human_readable_format.rs:58-66` -/
def devLines (d : TDev) : Str :=
  ['d', 'e', 'v', 'i', 'c', 'e', ':', ' '] ++ showNat d.id ++ ['\n', 'm', 'a', 'p', 'p', 'e', 'd', '_', 'b', 'l', 'o', 'c', 'k', 's', ':', ' '] ++ showNat d.mapped ++
  ['\n', 't', 'r', 'a', 'n', 's', 'a', 'c', 't', 'i', 'o', 'n', ':', ' '] ++ showNat d.transaction ++ ['\n', 'c', 'r', 'e', 'a', 't', 'i', 'o', 'n', ' ', 't', 'i', 'm', 'e', ':', ' '] ++ showNat d.creation ++
  ['\n', 's', 'n', 'a', 'p', ' ', 't', 'i', 'm', 'e', ':', ' '] ++ showNat d.snapTime ++ ['\n']

/-- `begin + len - 1` on 64 bit words, `src/thin/human_readable_format.rs:78,80` (release build: wraps) -/
def lastOf (b len : Nat) : Nat := (b + len + (2 ^ 64 - 1)) % 2 ^ 64

/-- `map`, `src/thin/human_readable_format.rs:73-84`: `    (b..e) -> (b..e), time` -/
def mapText (thin thinEnd data dataEnd time : Nat) : Str :=
  [' ', ' ', ' ', ' ', '('] ++ showNat thin ++ ['.', '.'] ++ showNat thinEnd ++ [')', ' ', '-', '>', ' ', '('] ++
  showNat data ++ ['.', '.'] ++ showNat dataEnd ++ [')', ',', ' '] ++ showNat time ++ ['\n']

/-- `map`, `src/thin/human_readable_format.rs:73-84` -/
def mapLine (m : TMap) : Str := mapText m.thin (lastOf m.thin m.len) m.data (lastOf m.data m.len) m.time

/-- what each call writes, `src/thin/human_readable_format.rs:19-95` -/
def write : TEv → Str
  | .sbB sb => sbLine sb
  | .sbE => ['e', 'n', 'd', ' ', 's', 'u', 'p', 'e', 'r', 'b', 'l', 'o', 'c', 'k', '\n']
  | .defB name => ['d', 'e', 'f', ':', ' '] ++ name ++ ['\n']
  | .defE => ['\n']
  | .devB d => devLines d
  | .devE => ['\n']
  | .map m => mapLine m
  | .ref name => [' ', ' ', ' ', ' ', 'r', 'e', 'f', ':', ' '] ++ name ++ ['\n']
  | .eof => []

/-- the whole output -/
def writeAll (es : List TEv) : Str := es.flatMap write

end Verif.Human
