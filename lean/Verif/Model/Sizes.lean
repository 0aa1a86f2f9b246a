/-!
# Metadata size estimates (`src/thin/metadata_size.rs`, `src/cache/metadata_size.rs`) and `RunIter` (`src/run_iter.rs`)

`u64` arithmetic wraps, as in the release build (`Cargo.toml` does not turn on overflow checks).
-/

namespace Verif.Sizes

/-- `u64` wrap around -/
def w64 (n : Nat) : Nat := n % 2 ^ 64

/-- `src/io_engine/base.rs` (`BLOCK_SIZE`) -/
def blockSize : Nat := 4096

/-- `src/pdata/space_map/common.rs:15` (`ENTRIES_PER_BITMAP`), `src/pdata/space_map/metadata.rs:17-18` -/
def maxMetadataBlocks : Nat := 255 * (((4096 - 16) / 8) * 32)

/-- `src/pdata/btree.rs` (`calc_max_entries`) for 8 byte values: `((4096 - 32) / (8 + 8)) / 3 * 3` -/
def maxEntries : Nat := (4096 - 32) / (8 + 8) / 3 * 3

/-- `src/math.rs:5-10` on `u64` -/
def divUp (v d : Nat) : Nat := w64 (v + (d - 1)) / d

/-- `src/thin/metadata_size.rs:19-29` -/
def checkDataBlockSize (bs : Nat) : Bool :=
  if bs = 0 ∨ bs &&& (65536 - 1) ≠ 0 then false else if bs > 1073741824 then false else true

/-- `src/thin/metadata_size.rs:32-44` -/
def thinSize (nrBlocks maxThins : Nat) : Nat :=
  let perNode := maxEntries / 2
  let nrLeaves := divUp nrBlocks perNode
  let n := w64 (w64 (1 + nrLeaves) + maxThins)
  w64 (min n maxMetadataBlocks * blockSize)

/-- `src/cache/metadata_size.rs:16-26` -/
def checkCacheBlockSize (bs : Nat) : Bool :=
  if bs = 0 ∨ bs &&& (32768 - 1) ≠ 0 then false else if bs > 1073741824 then false else true

/-- `src/cache/metadata_size.rs:29-42` -/
def cacheSize (nrBlocks hintWidth : Nat) : Nat :=
  let mappingSize := w64 (nrBlocks <<< 4)
  let hintSize := w64 (nrBlocks * (hintWidth + 8))
  min (w64 (w64 (4 * 1024 * 1024 + mappingSize) + hintSize)) (maxMetadataBlocks * blockSize)

/-! ## `RunIter` -/

/-- the loop of `src/run_iter.rs:33-35`: the first position from `cur` on whose bit is not `b` (at most `len`); the
last argument is `len - cur` -/
def skipRun (bits : Nat → Bool) (b : Bool) : Nat → Nat → Nat
  | cur, 0 => cur
  | cur, n + 1 => if bits cur = b then skipRun bits b (cur + 1) n else cur

/-- `src/run_iter.rs:25-38` called until it returns nothing, from position `cur`.  The first argument bounds the number
of calls. -/
def runIter (bits : Nat → Bool) (len : Nat) : Nat → Nat → List (Bool × Nat × Nat)
  | 0, _ => []
  | fuel + 1, cur =>
    if cur = len then []
    else
      let e := skipRun bits (bits cur) (cur + 1) (len - (cur + 1))
      (bits cur, cur, e) :: runIter bits len fuel e

/-- `RunIter::new(bits, len).collect()` -/
def runs (bits : Nat → Bool) (len : Nat) : List (Bool × Nat × Nat) := runIter bits len len 0

end Verif.Sizes
