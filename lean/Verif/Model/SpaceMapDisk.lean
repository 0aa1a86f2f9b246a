import Verif.Model.Builder
import Verif.Model.Bitmap
import Verif.Model.ArrayBuilder

/-!
# Writing space maps (`src/pdata/space_map/common.rs`, `src/pdata/space_map/disk.rs`, `src/pdata/space_map/metadata.rs`)

`epb` is `ENTRIES_PER_BITMAP`.  The metadata device is that of `Model/Builder.lean`, with the bitmaps beside the nodes: a block
holds a bitmap only if the last write to it was one.  A bitmap is the list of entries that unpacking it gives
(`bitmap_roundtrip`).
-/

namespace Verif.SMD

open Verif.Bld (St Err NB NIO leafIO Item)
open Verif.Arr (divUp)

/-- the values of the two trees of a space map: reference counts above two, and the index -/
inductive SVal where
  | rc (n : Nat)
  | ie (e : IndexEntry)
  deriving DecidableEq, Repr

/-- the metadata device -/
structure SSt where
  bt : St SVal
  bm : Nat → Option (List BE)

/-- reading the bitmap in block `b` -/
def SSt.readBm (s : SSt) (b : Nat) : Option (List BE) :=
  match s.bt.mem b with
  | none => s.bm b
  | some _ => none

/-- `BTreeBuilder::new(Box::new(NoopRC {}))` -/
def io : NIO SVal SVal := leafIO (fun _ => []) (fun _ _ => true)

/-- `calc_max_entries` for the values of the overflow tree (4 bytes) -/
def capOv : Nat := 336

/-- `calc_max_entries` for index entries (16 bytes) -/
def capIx : Nat := 168

/-- `calc_max_entries` for internal nodes -/
def capI : Nat := 252

/-- the entry for a reference count, `src/pdata/space_map/common.rs:219-239,297-322` -/
def entryOf (rc : Nat) : BE := if rc < 3 then .small rc else .overflow

/-- store a bitmap in block `b` -/
def putBitmap (epb b : Nat) (es : List BE) (s : SSt) : SSt where
  bt := { s.bt with mem := fun x => if x = b then none else s.bt.mem x }
  bm := fun x => if x = b then some (es ++ List.replicate (epb - es.length) (.small 0)) else s.bm x

/-- `write_bitmap`, `src/pdata/space_map/common.rs:360-373` -/
def writeBitmap (epb : Nat) (es : List BE) (s : SSt) : Except Err (Nat × SSt) := do
  let r ← Bld.alloc s.bt
  .ok (r.1, putBitmap epb r.1 es { s with bt := r.2 })

/-- the variables of the inner loop of `write_common`, `src/pdata/space_map/common.rs:212-214`, and `overflow_builder` -/
structure Row where
  entries : List BE
  firstFree : Option Nat
  nrFree : Nat
  nb : NB SVal

/-- the inner loop, `src/pdata/space_map/common.rs:216-241`: the counts that are left, the position `i` of the next -/
def rowLoop (begin : Nat) : List Nat → Nat → Row → St SVal → Except Err (Row × St SVal)
  | [], _, row, s => .ok (row, s)
  | 0 :: cs, i, row, s =>
    rowLoop begin cs (i + 1)
      { row with entries := row.entries ++ [.small 0], firstFree := if row.firstFree.isNone then some i else row.firstFree } s
  | 1 :: cs, i, row, s =>
    rowLoop begin cs (i + 1) { row with entries := row.entries ++ [.small 1], nrFree := row.nrFree - 1 } s
  | 2 :: cs, i, row, s =>
    rowLoop begin cs (i + 1) { row with entries := row.entries ++ [.small 2], nrFree := row.nrFree - 1 } s
  | rc :: cs, i, row, s => do
    let r ← Bld.pushValue io (begin + i) (.rc rc) row.nb s
    rowLoop begin cs (i + 1) { row with entries := row.entries ++ [.overflow], nrFree := row.nrFree - 1, nb := r.1 } r.2

/-- the outer loop, `src/pdata/space_map/common.rs:209-252`: `n` rounds from bitmap `bm` on; `cs` are the counts of the space map
that is written -/
def bitmapLoop (epb : Nat) (cs : List Nat) : Nat → Nat → List IndexEntry → NB SVal → SSt → Except Err (List IndexEntry × NB SVal × SSt)
  | 0, _, ies, nb, s => .ok (ies, nb, s)
  | n + 1, bm, ies, nb, s => do
    let begin := bm * epb
    let len := min (cs.length - begin) epb
    let r ← rowLoop begin ((cs.drop begin).take len) 0 ⟨[], none, epb, nb⟩ s.bt
    let w ← writeBitmap epb r.1.entries { s with bt := r.2 }
    bitmapLoop epb cs n (bm + 1) (ies ++ [⟨w.1, r.1.nrFree, r.1.firstFree.getD len⟩]) r.1.nb w.2

/-- `overflow_builder.complete(w)`, `src/pdata/btree_builder.rs:488-494` -/
def completeTree (capI : Nat) (nb : NB SVal) (s : St SVal) : Except Err (Nat × St SVal) := do
  let r ← Bld.complete io nb s
  Bld.buildTree capI r.1 r.2

/-- `write_common`, `src/pdata/space_map/common.rs:196-256` -/
def writeCommon (epb : Nat) (cs : List Nat) (s : SSt) : Except Err (List IndexEntry × Nat × SSt) := do
  let r ← bitmapLoop epb cs (divUp cs.length epb) 0 [] (NB.new capOv false) s
  let t ← completeTree capI r.2.1 r.2.2.bt
  .ok (r.1, t.1, { r.2.2 with bt := t.2 })

/-- the pushes into the index tree, `src/pdata/space_map/disk.rs:13-16` -/
def indexItems (ies : List IndexEntry) : List (Item SVal) := ies.zipIdx.map fun e => .val e.2 (.ie e.1)

/-- `write_disk_sm`, `src/pdata/space_map/disk.rs:10-27`; `cs` are the counts, `nrAlloc` is `sm.get_nr_allocated()` -/
def writeDiskSm (epb : Nat) (cs : List Nat) (nrAlloc : Nat) (s : SSt) : Except Err (SMRoot × SSt) := do
  let c ← writeCommon epb cs s
  let x ← Bld.build io capIx capI (indexItems c.1) c.2.2.bt
  .ok (⟨cs.length, nrAlloc, x.1, c.2.1⟩, { c.2.2 with bt := x.2 })

/-! ## The metadata space map -/

/-- the set of allocated blocks in order, as `RangeSet::iter` gives them; blocks are below the size of the device -/
def sortedSet (n : Nat) (l : List Nat) : List Nat := (List.range n).filter fun b => l.contains b

/-- the variables of `write_metadata_common`, `src/pdata/space_map/common.rs:261-268` -/
structure MRow where
  bm : Nat
  nrFree : Nat
  nfb : Nat
  entries : List BE
  ies : List IndexEntry
  nb : NB SVal

/-- a new bitmap, `src/pdata/space_map/common.rs:265-268,288-292` -/
def MRow.fresh (epb bm : Nat) (ies : List IndexEntry) (nb : NB SVal) : MRow :=
  ⟨bm, epb, 0, List.replicate epb (.small 0), ies, nb⟩

/-- write the bitmap and remember its index entry, `src/pdata/space_map/common.rs:275-286,326-337` -/
def MRow.out (epb : Nat) (row : MRow) (s : SSt) : Except Err (List IndexEntry × SSt) := do
  let w ← writeBitmap epb row.entries s
  .ok (row.ies ++ [⟨w.1, row.nrFree, row.nfb⟩], w.2)

/-- the counts of a used block, `src/pdata/space_map/common.rs:299-321` -/
def MRow.used (row : MRow) (i : Nat) (e : BE) (nb : NB SVal) : MRow :=
  { row with nrFree := row.nrFree - 1, nfb := if i = row.nfb then i + 1 else row.nfb, entries := row.entries.set i e, nb := nb }

/-- the loop body, `src/pdata/space_map/common.rs:274-323`; `none` of `get` is an error of the space map -/
def metaBlock (epb b : Nat) (row : MRow) (s : SSt) : Except Err (MRow × SSt) := do
  let x ← (if b / epb ≠ row.bm then do
      let o ← row.out epb s
      .ok (MRow.fresh epb (b / epb) o.1 row.nb, o.2)
    else .ok (row, s))
  match x.2.bt.sm.get b with
  | none => .error .metaRc
  | some 0 => .ok ({ x.1 with entries := x.1.entries.set (b % epb) (.small 0) }, x.2)
  | some 1 => .ok (x.1.used (b % epb) (.small 1) x.1.nb, x.2)
  | some 2 => .ok (x.1.used (b % epb) (.small 2) x.1.nb, x.2)
  | some rc => do
    let r ← Bld.pushValue io b (.rc rc) x.1.nb x.2.bt
    .ok (x.1.used (b % epb) .overflow r.1, { x.2 with bt := r.2 })

/-- the loops of `src/pdata/space_map/common.rs:272-325` -/
def metaLoop (epb : Nat) : List Nat → MRow → SSt → Except Err (MRow × SSt)
  | [], row, s => .ok (row, s)
  | b :: bs, row, s => do
    let r ← metaBlock epb b row s
    metaLoop epb bs r.1 r.2

/-- the loop of `src/pdata/space_map/common.rs:343-354`: `n` empty bitmaps -/
def fillLoop (epb : Nat) : Nat → List IndexEntry → SSt → Except Err (List IndexEntry × SSt)
  | 0, ies, s => .ok (ies, s)
  | n + 1, ies, s => do
    let w ← writeBitmap epb (List.replicate epb (.small 0)) s
    fillLoop epb n (ies ++ [⟨w.1, epb, 0⟩]) w.2

/-- `write_metadata_common`, `src/pdata/space_map/common.rs:258-358`; `clear_allocations` (`src/write_batcher.rs:76-80`) at 271 -/
def writeMetadataCommon (epb : Nat) (s : SSt) : Except Err (List IndexEntry × Nat × SSt) := do
  let n := s.bt.sm.counts.length
  let r ← metaLoop epb (sortedSet n s.bt.allocs) (MRow.fresh epb 0 [] (NB.new capOv false)) { s with bt := { s.bt with allocs := [] } }
  let o ← r.1.out epb r.2
  let f ← fillLoop epb (divUp n epb - o.1.length) o.1 o.2
  let t ← completeTree capI r.1.nb f.2.bt
  .ok (f.1, t.1, { f.2 with bt := t.2 })

/-- the ranges of a set of blocks given in increasing order, as `RangeSet::into_iter` gives them -/
def ranges : List Nat → List (Nat × Nat)
  | [] => []
  | b :: bs =>
    match ranges bs with
    | (s, e) :: rs => if s = b + 1 then (b, e) :: rs else (b, b + 1) :: (s, e) :: rs
    | [] => [(b, b + 1)]

/-- the loop of `adjust_counts`, `src/pdata/space_map/metadata.rs:120-126`, on `first_free` -/
def bumpFree : Nat → Nat → Nat → Nat
  | 0, _, f => f
  | n + 1, a, f => bumpFree n (a + 1) (if f = a then a + 1 else f)

/-- the loop of `adjust_counts`, `src/pdata/space_map/metadata.rs:120-126`, on the entries -/
def setOnes : Nat → Nat → List BE → List BE
  | 0, _, es => es
  | n + 1, a, es => setOnes n (a + 1) (es.set a (.small 1))

/-- `adjust_counts`, `src/pdata/space_map/metadata.rs:104-139`; `nr_free` is 32 bits wide and wraps around -/
def adjustCounts (epb : Nat) (ie : IndexEntry) (begin fin : Nat) (s : SSt) : Except Err (IndexEntry × SSt) :=
  match s.readBm ie.blocknr with
  | none => .error .node
  | some es =>
    .ok (⟨ie.blocknr, (ie.nr_free + (2 ^ 32 - (fin - begin))) % 2 ^ 32, bumpFree (fin - begin) begin ie.none_free_before⟩,
      putBitmap epb ie.blocknr (setOnes (fin - begin) begin es) s)

/-- the inner loop of `src/pdata/space_map/metadata.rs:158-172`, over the index entries from bitmap `bm` on -/
def adjustRange (epb : Nat) (r : Nat × Nat) : Nat → List IndexEntry → SSt → Except Err (List IndexEntry × SSt)
  | _, [], s => .ok ([], s)
  | bm, ie :: ies, s => do
    let biBegin := r.1 / epb
    let biEnd := r.2 / epb + 1
    let x ← (if biBegin ≤ bm ∧ bm < biEnd then
        adjustCounts epb ie (if bm = biBegin then r.1 % epb else 0) (if bm = biEnd - 1 then r.2 % epb else epb) s
      else .ok (ie, s))
    let y ← adjustRange epb r (bm + 1) ies x.2
    .ok (x.1 :: y.1, y.2)

/-- the outer loop of `src/pdata/space_map/metadata.rs:157-173` -/
def adjustAll (epb : Nat) : List (Nat × Nat) → List IndexEntry → SSt → Except Err (List IndexEntry × SSt)
  | [], ies, s => .ok (ies, s)
  | r :: rs, ies, s => do
    let x ← adjustRange epb r 0 ies s
    adjustAll epb rs x.1 x.2

/-- `write_metadata_sm`, `src/pdata/space_map/metadata.rs:150-193`; the index block is returned as its list of entries
(`index_roundtrip`), more than 255 of them is a panic -/
def writeMetadataSm (epb : Nat) (s : SSt) : Except Err (SMRoot × List IndexEntry × SSt) := do
  let c ← writeMetadataCommon epb s
  let a ← Bld.alloc c.2.2.bt
  let x ← adjustAll epb (ranges (sortedSet a.2.sm.counts.length a.2.allocs)) c.1 { c.2.2 with bt := { a.2 with allocs := [] } }
  if x.1.length ≤ MAX_METADATA_BITMAPS then
    .ok (⟨x.2.bt.sm.counts.length, x.2.bt.sm.nrAlloc, a.1, c.2.1⟩, x.1, x.2)
  else .error .panic

end Verif.SMD
