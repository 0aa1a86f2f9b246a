import Verif.Model.SpaceMapCheck
import Verif.Model.Generators

/-!
# Damage on purpose, and the blocks in use (`src/devtools/damage_generator.rs`, `src/pdata/space_map/allocated_blocks.rs`)

As in `Model/SpaceMapCheck.lean`, `rd loc` is what the block at `loc` is as a bitmap, and `ies` are the entries of the index block as `load_metadata_index` returns
them (`Model/Bitmap.lean`).  `epb` are the entries to a bitmap, `dev` is the number of blocks of the device.
-/

namespace Verif.Dmg

/-- the inner loop, `src/devtools/damage_generator.rs:40-45`: the blocks from `blocknr` on whose entry is `rc` -/
def findEntries (rc : Nat) : List BE → Nat → List Nat
  | [], _ => []
  | e :: es, blocknr => if e = .small rc then blocknr :: findEntries rc es (blocknr + 1) else findEntries rc es (blocknr + 1)

/-- the loop of `src/devtools/damage_generator.rs:31-49`; `none`: a bitmap cannot be read -/
def findLoop (rd : Nat → Option (Bool × List BE)) (epb dev rc : Nat) : List Nat → Nat → Option (List Nat)
  | [], _ => some []
  | loc :: locs, blocknr =>
    match rd loc with
    | none => none
    | some (_, es) =>
      let len := if locs = [] then dev % epb else epb
      match findLoop rd epb dev rc locs (blocknr + len) with
      | none => none
      | some more => some (findEntries rc (es.take len) blocknr ++ more)

/-- `find_blocks_of_rc` for counts below three, `src/devtools/damage_generator.rs:17-49` -/
def findSmall (rd : Nat → Option (Bool × List BE)) (epb dev rc : Nat) (ies : List IndexEntry) : Option (List Nat) :=
  findLoop rd epb dev rc (ies.map (·.blocknr)) 0

/-- `blocks_to_bitmaps`, `src/pdata/space_map/metadata.rs:87-103`; `none` is the `assert!` -/
def blocksToBitmaps (epb : Nat) : List Nat → Nat → Option (List Nat)
  | [], _ => some []
  | b :: bs, last =>
    if b / epb < MAX_METADATA_BITMAPS then
      match blocksToBitmaps epb bs (b / epb) with
      | none => none
      | some r => some (if b / epb ≠ last then b / epb :: r else r)
    else none

/-- the inner loop of `adjust_bitmap_entries`, `src/devtools/damage_generator.rs:89-93`: the entries, and the blocks that are left -/
def setBelow (epb high : Nat) (entry : BE) : List Nat → List BE → List BE × List Nat
  | [], es => (es, [])
  | b :: bs, es => if b < high then setBelow epb high entry bs (es.set (b % epb) entry) else (es, b :: bs)

/-- the loop of `src/devtools/damage_generator.rs:85-104`: what is to be written; `none`: a bitmap cannot be read, or there is no such bitmap -/
def adjustLoop (rd : Nat → Option (Bool × List BE)) (epb : Nat) (entry : BE) (locs : List Nat) : List Nat → List Nat → Option (List (Nat × List BE))
  | [], _ => some []
  | idx :: bi, blocks =>
    match locs[idx]? with
    | none => none
    | some loc =>
      match rd loc with
      | none => none
      | some (_, es) =>
        let r := setBelow epb (epb * (idx + 1)) entry blocks es
        match adjustLoop rd epb entry locs bi r.2 with
        | none => none
        | some more => some ((loc, r.1) :: more)

/-- `adjust_bitmap_entries`, `src/devtools/damage_generator.rs:63-114`, for a count below three; `wr` tells which of the writes happen -/
def adjust (wr : Nat → Bool) (rd : Nat → Option (Bool × List BE)) (epb : Nat) (ies : List IndexEntry) (blocks : List Nat) (rc : Nat) :
    Option (Nat → Option (Bool × List BE)) :=
  match blocksToBitmaps epb blocks MAX_METADATA_BITMAPS with
  | none => none
  | some bi => (adjustLoop rd epb (.small rc) (ies.map (·.blocknr)) bi blocks).map fun plan => SMC.writeMany wr plan 0 rd

/-- `create_metadata_leaks`, `src/devtools/damage_generator.rs:116-154`: the device afterwards; `none`: an error or a panic, with nothing written (counts above
two are not implemented).  `shuffle` is what the shuffle makes of the blocks found. -/
def createLeaks (wr : Nat → Bool) (rd : Nat → Option (Bool × List BE)) (epb dev : Nat) (ies : List IndexEntry) (nr expected actual : Nat)
    (shuffle : List Nat → List Nat) : Option (Nat → Option (Bool × List BE)) :=
  if expected > 2 then none
  else
    match findSmall rd epb dev expected ies with
    | none => none
    | some blocks =>
      if blocks.length < nr then none
      else if actual > 2 then none
      else adjust wr rd epb ies (Gen.sortBy id ((shuffle blocks).take nr)) actual

/-! ## The blocks in use, for the spindle engine -/

/-- the entries of a bitmap, `src/pdata/space_map/allocated_blocks.rs:45-51`: into the set, with 32 bits -/
def addUsed : List BE → Nat → List Nat → List Nat
  | [], _, bits => bits
  | e :: es, b, bits => addUsed es (b + 1) (if e = .small 0 then bits else Gen.insertSorted (b % 2 ^ 32) bits)

/-- `src/pdata/space_map/allocated_blocks.rs:40-52` -/
def usedLoop (rd : Nat → Option (Bool × List BE)) (epb : Nat) : List (Nat × Nat) → List Nat → Option (List Nat)
  | [], bits => some bits
  | (key, loc) :: infos, bits =>
    match rd loc with
    | none => none
    | some (_, es) => usedLoop rd epb infos (addUsed es (key * epb) bits)

/-- `allocated_blocks`, `src/pdata/space_map/allocated_blocks.rs:16-55`: the bitmaps are read in the order of their places -/
def allocated (rd : Nat → Option (Bool × List BE)) (epb : Nat) (ies : List IndexEntry) : Option (List Nat) :=
  usedLoop rd epb (Gen.sortBy (·.2) (ies.zipIdx.map fun e => (e.2, e.1.blocknr))) []

/-- the last step of `thin_valid_blocks`, `src/commands/engine.rs:105-109,125-146`: all blocks if anything cannot be read (`ies` is `none` if the
superblock or the index block cannot be) -/
def validBlocks (rd : Nat → Option (Bool × List BE)) (epb dev : Nat) (ies : Option (List IndexEntry)) : List Nat :=
  match ies with
  | none => List.range (dev % 2 ^ 32)
  | some ies => (allocated rd epb ies).getD (List.range (dev % 2 ^ 32))

end Verif.Dmg
