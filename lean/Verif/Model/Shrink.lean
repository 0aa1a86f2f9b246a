import Verif.Model.ThinDump

/-!
# `thin_shrink` (`src/thin/shrink.rs`, `src/shrink/toplevel.rs`)

Block numbers are natural numbers (sums of a block and a length in the same device, no wrap).  A range is a pair of its first block and the block
after its last.  `rangemap::RangeSet` is a library: `insertRange` and `gaps` model its documented behaviour (a sorted list of ranges that
neither overlap nor touch; inserting an empty range panics).  Copying the data is the list of copy operations here, the copier is
modelled in `Model/Copier.lean`; opening and writing of files is not modelled.
-/

namespace Verif.Shrink

open Verif.Dump (Run)
open Verif.Rst (Ev SbIR)
open Verif.BT (Blk)

/-- `BlockRange`, `src/shrink/toplevel.rs:5` -/
abbrev R := Nat × Nat

/-- `RangeSet::insert` of a range that is not empty -/
def insertRange (s e : Nat) : List R → List R
  | [] => [(s, e)]
  | (a, b) :: l =>
    if b < s then (a, b) :: insertRange s e l
    else if e < a then (s, e) :: (a, b) :: l
    else insertRange (min s a) (max e b) l

/-- `RangeSet::gaps` in `lo .. hi` -/
def gaps (lo hi : Nat) : List R → List R
  | [] => if lo < hi then [(lo, hi)] else []
  | (a, b) :: l => (if lo < a then [(lo, min a hi)] else []) ++ gaps (max lo b) hi l

/-- `build_remaps`, `src/shrink/toplevel.rs:17-60`: `r` and `f` are the heads of the lists, an exhausted iterator is the empty list.  The first
argument bounds the number of rounds: every round takes a range off one of the lists. -/
def buildLoop : Nat → List R → List R → Option (List (R × Nat))
  | _, [], _ => some []
  | 0, _ :: _, _ => none
  | _ + 1, _ :: _, [] => none
  | fuel + 1, r :: rs, f :: fs =>
    if r.1 ≥ r.2 then some []
    else if f.1 ≥ f.2 then none
    else if r.2 - r.1 < f.2 - f.1 then (buildLoop fuel rs ((f.1 + (r.2 - r.1), f.2) :: fs)).map ((r, f.1) :: ·)
    else if r.2 - r.1 = f.2 - f.1 then (buildLoop fuel rs fs).map ((r, f.1) :: ·)
    else (buildLoop fuel ((r.1 + (f.2 - f.1), r.2) :: rs) fs).map (((r.1, r.1 + (f.2 - f.1)), f.1) :: ·)

/-- `build_remaps`, `src/shrink/toplevel.rs:17-60` -/
def buildRemaps (rs fs : List R) : Option (List (R × Nat)) := buildLoop (rs.length + fs.length) rs fs

/-- `overlaps`, `src/shrink/toplevel.rs:107-117` -/
def overlaps (r1 r2 : R) (index : Nat) : Option Nat :=
  if r1.1 ≥ r2.2 then none else if r2.1 ≥ r1.2 then none else some index

/-- `find_first`, `src/shrink/toplevel.rs:121-146`; an index out of bounds would panic, here `none` -/
def findFirst (r : R) (remaps : List (R × Nat)) : Option Nat :=
  if remaps = [] then none
  else
    let s := BT.bsearch (remaps.map fun m => m.1.1) r.1
    if s.1 then some s.2
    else if s.2 = 0 then remaps[0]?.bind fun m => overlaps r m.1 0
    else if s.2 = remaps.length then remaps[s.2 - 1]?.bind fun m => overlaps r m.1 (s.2 - 1)
    else (remaps[s.2 - 1]?.bind fun m => overlaps r m.1 (s.2 - 1)).or (remaps[s.2]?.bind fun m => overlaps r m.1 s.2)

/-- the part of the loop of `remap` after a prefix was dealt with, `src/shrink/toplevel.rs:166-188`.  If something is left of `r` then `len` was the
length of what was left of `from`, so the index always advances. -/
def remapHere (r : R) (frm : R) (to : Nat) (rest : R → List R) : List R :=
  let start := to + (r.1 - frm.1)
  let len := min (r.2 - r.1) (frm.2 - r.1)
  (start, start + len) :: (if r.1 + len = r.2 then [] else rest (r.1 + len, r.2))

/-- the loop of `remap`, `src/shrink/toplevel.rs:155-189`, on the remaps from the current index on -/
def remapLoop (r : R) : List (R × Nat) → List R
  | [] => [r]
  | (frm, to) :: l =>
    if r.1 < frm.1 then
      let len := min (r.2 - r.1) (frm.1 - r.1)
      (r.1, r.1 + len) :: (if r.1 + len = r.2 then [] else remapHere (r.1 + len, r.2) frm to fun q => remapLoop q l)
    else remapHere r frm to fun q => remapLoop q l

/-- `remap`, `src/shrink/toplevel.rs:149-195` -/
def remap (r : R) (remaps : List (R × Nat)) : List R :=
  match findFirst r remaps with
  | some i => remapLoop r (remaps.drop i)
  | none => [r]

/-- `MappingCollector`, `src/thin/shrink.rs:67-71` -/
structure Coll where
  below : List R
  above : List R

/-- `MappingCollector::map`, `src/thin/shrink.rs:114-138`; `none`: an empty range panics -/
def collectMap (nr : Nat) (c : Coll) (m : Run) : Option Coll :=
  if m.data ≥ nr then
    if m.len = 0 then none else some { c with above := insertRange m.data (m.data + m.len) c.above }
  else if m.data + m.len ≤ nr then
    if m.len = 0 then none else some { c with below := insertRange m.data (m.data + m.len) c.below }
  else some { below := insertRange m.data nr c.below, above := insertRange nr (m.data + m.len) c.above }

/-- all mappings of a stream of events; the other calls do nothing (`src/thin/shrink.rs:90-112,140-146`) -/
def collectAll {N : Type} (nr : Nat) : Coll → List (Ev N) → Option Coll
  | c, [] => some c
  | c, .map m :: l => (collectMap nr c m).bind fun c => collectAll nr c l
  | c, _ :: l => collectAll nr c l

/-- `get_remaps`, `src/thin/shrink.rs:82-86` -/
def getRemaps (nr : Nat) (c : Coll) : Option (List (R × Nat)) := buildRemaps c.above (gaps 0 nr c.below)

/-- the copy operations of `copy_regions`, `src/thin/shrink.rs:49-58`: source and destination -/
def copyOps (remaps : List (R × Nat)) : List (Nat × Nat) :=
  remaps.flatMap fun m => (List.range (m.1.2 - m.1.1)).map fun i => (m.1.1 + i, m.2 + i)

/-- the loop of `DataRemapper::map`, `src/thin/shrink.rs:203-211` -/
def writeRuns (m : Run) : Nat → List R → List Run
  | _, [] => []
  | written, r :: rs => ⟨m.thin + written, r.1, m.time, r.2 - r.1⟩ :: writeRuns m (written + (r.2 - r.1)) rs

/-- `DataRemapper::map`, `src/thin/shrink.rs:193-215` -/
def remapRun (nr : Nat) (remaps : List (R × Nat)) (m : Run) : List Run :=
  if m.data + m.len < nr then [m] else writeRuns m 0 (remap (m.data, m.data + m.len) remaps)

/-- `DataRemapper`, `src/thin/shrink.rs:168-222`: all other calls are passed on -/
def remapEv {N : Type} (nr : Nat) (remaps : List (R × Nat)) : Ev N → List (Ev N)
  | .map m => (remapRun nr remaps m).map .map
  | e => [e]

/-- The plan: `build_remaps_from_xml` and the second pass of `rewrite_xml` (`src/thin/shrink.rs:248-252,264-288`): the copy operations and
what the writer gets.  `none`: an error or a panic before anything was written. -/
def shrinkEvents {N : Type} (nr : Nat) (evs : List (Ev N)) : Option (List (Nat × Nat) × List (Ev N)) := do
  let c ← collectAll nr ⟨[], []⟩ evs
  let remaps ← getRemaps nr c
  some (copyOps remaps, evs.flatMap (remapEv nr remaps))

/-- `rebuild_metadata`, `src/thin/shrink.rs:290-318`: dump, plan, and restore into a new device; copies that are done in between are in the result. -/
def rebuild (mem : Nat → Option (Blk Rst.Val)) (nrMeta : Nat) (sb : SbIR) (mappingRoot detailsRoot nr : Nat) (st : Bld.St Rst.Val) :
    Option (List (Nat × Nat) × Except Rst.RErr (Rst.R Nat)) := do
  let evs ← TDump.dump mem nrMeta sb mappingRoot detailsRoot none
  let plan ← shrinkEvents nr evs
  some (plan.1, Rst.run plan.2 (Rst.R.new Nat st))

end Verif.Shrink
