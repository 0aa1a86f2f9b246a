import Verif.Model.Bitset
import Verif.Model.BitScan

/-!
# era_invalidate (`src/era/invalidate.rs`)

Arrays are given by the leaves of their index tree and a reader of array blocks, as in `Verif.Model.Bitset`.  The map of
archived writesets (`btree_to_map`, a `BTreeMap`) is a list in key order.  Positions are natural numbers (no overflow of
`usize`).  `None` is an error return (or, for the scan, a loop that does not end).
-/

namespace Verif.EraI

open Verif.BT (KeyRange)
open Verif.Bits (ABlock walkLeaves)

/-- the leaves of an array's index tree -/
abbrev Leaves := List (KeyRange × List (Nat × Nat))

/-- the loop of `src/era/invalidate.rs:40-42`: `zip` with the words from `idx` on, ending with the shorter of the two -/
def orWords : List Nat → Nat → List Nat → List Nat
  | [], _, ws => ws
  | v :: vs, idx, ws =>
    match ws[idx]? with
    | none => ws
    | some d => orWords vs (idx + 1) (ws.set idx (d ||| v))

/-- `BitsetCollator::visit`, `src/era/invalidate.rs:37-46` -/
def visitBits (index : Nat) (b : ABlock) (ws : List Nat) : Bool × List Nat :=
  (true, orWords b.values (index * b.maxEntries) ws)

/-- the loop of `src/era/invalidate.rs:79-95` and the store after it; `idx` and `buf` are the position and contents of the
word `dest` refers to; `none` is "array index out of bounds" -/
def eraLoop (threshold : Nat) : List Nat → Nat → Nat → Nat → List Nat → Option (List Nat)
  | [], _, idx, buf, ws => some (ws.set idx buf)
  | e :: es, blk, idx, buf, ws =>
    if e < threshold then eraLoop threshold es (blk + 1) idx buf ws
    else
      let steps := (blk >>> 6) - idx
      if steps > 0 then
        match (ws.set idx buf)[idx + steps]? with
        | none => none
        | some d => eraLoop threshold es (blk + 1) (idx + steps) (d ||| (1 <<< (blk &&& 63))) (ws.set idx buf)
      else eraLoop threshold es (blk + 1) idx (buf ||| (1 <<< (blk &&& 63))) ws

/-- `EraArrayCollator::visit`, `src/era/invalidate.rs:68-99`; what a failed call leaves behind does not matter, the walk
then fails -/
def visitEras (threshold index : Nat) (b : ABlock) (ws : List Nat) : Bool × List Nat :=
  let blk := index * b.maxEntries
  match ws[blk >>> 6]? with
  | none => (false, ws)
  | some d =>
    match eraLoop threshold (b.values.take b.maxEntries) blk (blk >>> 6) d ws with
    | none => (false, ws)
    | some ws => (true, ws)

/-- `collate_writeset`, `src/era/invalidate.rs:103-112` -/
def collateWriteset (read : Nat → Option ABlock) (leaves : Leaves) (ws : List Nat) : Option (List Nat) :=
  match walkLeaves read visitBits leaves (0, ws) with
  | (0, ws) => some ws
  | _ => none

/-- `collate_era_array`, `src/era/invalidate.rs:114-124` -/
def collateEraArray (read : Nat → Option ABlock) (threshold : Nat) (leaves : Leaves) (ws : List Nat) : Option (List Nat) :=
  match walkLeaves read (visitEras threshold) leaves (0, ws) with
  | (0, ws) => some ws
  | _ => none

/-- the loop of `src/era/invalidate.rs:135-140` -/
def collateAll (read : Nat → Option ABlock) (threshold : Nat) : List (Nat × Leaves) → List Nat → Option (List Nat)
  | [], ws => some ws
  | w :: rest, ws =>
    if w.1 % 2 ^ 32 < threshold then collateAll read threshold rest ws
    else
      match collateWriteset read w.2 ws with
      | none => none
      | some ws => collateAll read threshold rest ws

/-- `mark_blocks_since`, `src/era/invalidate.rs:126-150`; `readW` reads blocks of 64-bit words, `readE` blocks of 32-bit
eras -/
def markBlocksSince (readW readE : Nat → Option ABlock) (nrBlocks threshold : Nat) (wsets : List (Nat × Leaves))
    (eraLeaves : Leaves) : Option (List Nat) :=
  match collateAll readW threshold wsets (List.replicate (Arr.divUp nrBlocks 64) 0) with
  | none => none
  | some ws =>
    match wsets.head? with
    | none => some ws
    | some w => if w.1 % 2 ^ 32 > threshold then collateEraArray readE threshold eraLeaves ws else some ws

/-- `invalidate`, `src/era/invalidate.rs:248-266`: the ranges written to the output (`emit_blocks`, lines 179-226) -/
def invalidate (readW readE : Nat → Option ABlock) (nrBlocks threshold : Nat) (wsets : List (Nat × Leaves))
    (eraLeaves : Leaves) : Option (List (Nat × Nat)) :=
  match markBlocksSince readW readE nrBlocks threshold wsets eraLeaves with
  | none => none
  | some ws => Scan.markedRanges 64 nrBlocks ws

/-- the fields of the superblock (`src/era/superblock.rs:33-53`) with the trees they point to -/
structure Sb where
  nrBlocks : Nat
  wsets : List (Nat × Leaves)
  eras : Leaves
  currentEra : Nat
  current : Option Leaves

/-- `invalidate` as called: the superblock read and the threshold given, `src/era/invalidate.rs:248-266` -/
def invalidateSb (readW readE : Nat → Option ABlock) (sb : Sb) (threshold : Nat) : Option (List (Nat × Nat)) :=
  invalidate readW readE sb.nrBlocks threshold sb.wsets sb.eras

end Verif.EraI
