import Verif.Model.LeafWalker
import Verif.Model.SpaceMapDisk

/-!
# Checking and repairing space maps (`src/pdata/space_map/checker.rs`)

`exp` are the expected counts, one for every block.  A block of the metadata device is seen either as a node of a tree or as a
bitmap: `rd loc` is `none` if it cannot be read, else whether its checksum is that of a bitmap, and the entries that unpacking it gives
(unpacking a block of the right size never fails, see `Model/Bitmap.lean`).
-/

namespace Verif.SMC

open Verif.BT (Blk Event WSt)
open Verif.SMD (SVal)

/-- `BitmapLeak`, `src/pdata/space_map/checker.rs:17-20` -/
structure Leak where
  blocknr : Nat
  loc : Nat
  deriving DecidableEq, Repr

/-- `OverflowChecker::visit`, `src/pdata/space_map/checker.rs:36-56`; a key beyond the end panics -/
def overflowOk (exp : List Nat) (es : List (Nat × SVal)) : Bool :=
  es.all fun e => match e.2 with
    | .rc v => exp[e.1]? = some v
    | .ie _ => false

/-- `OverflowChecker` as a visitor, `src/pdata/space_map/checker.rs:35-65` -/
def overflowVis (exp : List Nat) : List (Event SVal) → Event SVal → Bool := fun _ e =>
  match e with
  | .visit _ _ es => overflowOk exp es
  | _ => true

/-- what the loop over the entries of a bitmap computes, `src/pdata/space_map/checker.rs:125-152` -/
structure Row where
  leaks : Nat
  failed : Bool
  blocknr : Nat
  deriving DecidableEq, Repr

/-- `src/pdata/space_map/checker.rs:125-152`: the entries from block `blocknr` on; the expected count is compared with eight bits -/
def checkEntries (exp : List Nat) : List BE → Nat → Row
  | [], blocknr => ⟨0, false, blocknr⟩
  | e :: es, blocknr =>
    match exp[blocknr]? with
    | none => ⟨0, false, blocknr⟩
    | some expected =>
      let r := checkEntries exp es (blocknr + 1)
      match e with
      | .small actual =>
        if actual = 1 ∧ expected = 0 then { r with leaks := r.leaks + 1 }
        else if actual ≠ expected % 256 then { r with failed := true }
        else r
      | .overflow => if expected < 3 then { r with failed := true } else r

/-- `src/pdata/space_map/checker.rs:104-161`: the bitmaps at `locs`; `none` is an error -/
def checkLoop (rd : Nat → Option (Bool × List BE)) (exp : List Nat) : List Nat → Nat → Option (Bool × List Leak)
  | [], _ => some (false, [])
  | loc :: locs, blocknr =>
    match rd loc with
    | none => none
    | some (isBitmap, es) =>
      let r := checkEntries exp es blocknr
      match checkLoop rd exp locs r.blocknr with
      | none => none
      | some (failed, ls) =>
        some (!isBitmap || r.failed || failed, if r.leaks > 0 then ⟨blocknr, loc⟩ :: ls else ls)

/-- `check_low_ref_counts`, `src/pdata/space_map/checker.rs:81-173` -/
def checkLow (rd : Nat → Option (Bool × List BE)) (exp : List Nat) (entries : List IndexEntry) : Option (List Leak) :=
  match checkLoop rd exp (entries.map (·.blocknr)) 0 with
  | none => none
  | some (failed, ls) => if failed then none else some ls

/-- `inc_entries`, `src/pdata/space_map/checker.rs:69-76`, on the walker's view of the metadata space map; errors are errors -/
def incEntries : List IndexEntry → WSt SVal → Option (WSt SVal)
  | [], st => some st
  | ie :: ies, st =>
    match st.smInc ie.blocknr with
    | none => none
    | some (_, st) => incEntries ies st

/-- the values of a map of index entries; another kind of value cannot be in the tree -/
def indexValues (m : List (Nat × SVal)) : List IndexEntry := m.filterMap fun e => match e.2 with | .ie i => some i | .rc _ => none

/-- `gather_disk_index_entries`, `src/pdata/space_map/checker.rs:175-193`; `io`, `rdn` are the engine and the parser of nodes -/
def gatherDisk (io : Nat → Bool) (rdn : Bool → Nat → Option (Blk SVal)) (fuel root : Nat) (st : WSt SVal) : Option (List IndexEntry × WSt SVal) :=
  let r := BT.walk io rdn (fun _ _ => true) fuel [0] root { st with log := [], fails := fun _ => false }
  if r.2 = .ok then
    let es := indexValues (LW.collected r.1.log [])
    (incEntries es r.1).map fun st => (es, st)
  else none

/-- `check_disk_space_map`, `src/pdata/space_map/checker.rs:216-243`: `st` holds the counts of the metadata space map -/
def checkDisk (io : Nat → Bool) (rdn : Bool → Nat → Option (Blk SVal)) (rd : Nat → Option (Bool × List BE)) (fuel : Nat) (root : SMRoot)
    (exp : List Nat) (st : WSt SVal) : Option (List Leak × WSt SVal) :=
  match gatherDisk io rdn fuel root.bitmap_root st with
  | none => none
  | some (ies, st) =>
    let r := BT.walk io rdn (overflowVis exp) fuel [0] root.ref_count_root { st with log := [], fails := fun _ => false }
    if r.2 = .ok then (checkLow rd exp ies).map fun l => (l, r.1) else none

/-- the last two steps of `check_metadata_space_map`, `src/pdata/space_map/checker.rs:265-275`, on the index entries of the index
block: here the walker has a space map of its own, and all counts are known -/
def checkMeta (io : Nat → Bool) (rdn : Bool → Nat → Option (Blk SVal)) (rd : Nat → Option (Bool × List BE)) (fuel nr : Nat) (root : SMRoot)
    (exp : List Nat) (ies : List IndexEntry) : Option (List Leak) :=
  let r := BT.walk io rdn (overflowVis exp) fuel [0] root.ref_count_root (WSt.fresh nr 1 true)
  if r.2 = .ok then checkLow rd exp ies else none

/-! ## Repair -/

/-- `src/pdata/space_map/checker.rs:301-314` -/
def repairEntries (exp : List Nat) : List BE → Nat → List BE
  | [], _ => []
  | e :: es, blocknr =>
    match exp[blocknr]? with
    | none => e :: es
    | some expected => (if e = .small 1 ∧ expected = 0 then .small 0 else e) :: repairEntries exp es (blocknr + 1)

/-- the first loop, `src/pdata/space_map/checker.rs:296-324`: what is to be written where; `none` if a block cannot be read again -/
def repairPlan (rd : Nat → Option (Bool × List BE)) (exp : List Nat) : List Leak → Option (List (Nat × List BE))
  | [] => some []
  | l :: ls =>
    match rd l.loc, repairPlan rd exp ls with
    | some (_, es), some p => some ((l.loc, repairEntries exp es l.blocknr) :: p)
    | _, _ => none

/-- `engine.write_many`, `src/pdata/space_map/checker.rs:326-332`: `wr` tells which of the writes happen (all of them, unless the engine
reports an error or the machine stops) -/
def writeMany (wr : Nat → Bool) : List (Nat × List BE) → Nat → (Nat → Option (Bool × List BE)) → (Nat → Option (Bool × List BE))
  | [], _, rd => rd
  | w :: ws, i, rd => writeMany wr ws (i + 1) (if wr i then fun x => if x = w.1 then some (true, w.2) else rd x else rd)

/-- `repair_space_map`, `src/pdata/space_map/checker.rs:280-333`: the device afterwards; `none` if nothing was written -/
def repair (wr : Nat → Bool) (rd : Nat → Option (Bool × List BE)) (exp : List Nat) (leaks : List Leak) : Option (Nat → Option (Bool × List BE)) :=
  (repairPlan rd exp leaks).map fun p => writeMany wr p 0 rd

end Verif.SMC
