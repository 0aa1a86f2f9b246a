import Verif.Model.Records

/-!
# Cache metadata as a document (`src/cache/ir.rs`)

The XML text itself (`src/cache/xml.rs`) is not modelled: a document is the sequence of visitor calls that `xml::read` makes
(`src/cache/xml.rs:188-252`), and which `XmlWriter` turns back into text.
-/

namespace Verif.CacheM

/-- `src/cache/ir.rs:5-12`; `policy` as its bytes -/
structure SbIr where
  uuid : Bytes
  blockSize : Nat
  nrCacheBlocks : Nat
  policy : Bytes
  hintWidth : Nat
  deriving DecidableEq, Repr

/-- calls of `MetadataVisitor`, `src/cache/ir.rs:41-58` -/
inductive Ev where
  | superblockB (sb : SbIr)
  | superblockE
  | mappingsB
  | mappingsE
  | mapping (cblock oblock : Nat) (dirty : Bool)
  | hintsB
  | hintsE
  | hint (cblock : Nat) (data : Bytes)
  | discardsB
  | discardsE
  | discard (b e : Nat)
  | eof
  deriving DecidableEq, Repr

/-- the word of a mapping, `src/cache/mapping.rs:64-69` (`Mapping.pack` writes these 8 bytes) -/
def mapWord (m : Mapping) : Nat := ((m.oblock <<< 16) % 2 ^ 64) ||| m.flags

/-- `src/cache/mapping.rs:49-61` on the word -/
def ofWord (n : Nat) : Mapping := { oblock := n >>> 16, flags := n &&& (2 ^ 16 - 1) }

/-- a hint's four bytes as one number, `src/cache/hint.rs:19-38` -/
def hintWord (data : Bytes) : Nat := leVal data

/-- … and back -/
def hintBytes (w : Nat) : Bytes := leBytes 4 w

end Verif.CacheM
