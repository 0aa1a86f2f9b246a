import Verif.Model.ThinCheckTool
import Verif.Model.DumpRuns

/-!
# `thin_stat` (`src/thin/stat.rs`)

The device is that of the model of `thin_check`.  The text it prints has the histogram, its sum, and percentages and averages in floating point, which are left out.
-/

namespace Verif.Stat

open Verif.BT (Blk WSt Event)
open Verif.SMD (SVal)
open Verif.TChk (TDev)

/-- `BTreeMap<u32, u64>`, in order of keys -/
abbrev Hist := List (Nat × Nat)

/-- `*histogram.entry(k).or_insert(0) += 1`, `src/thin/stat.rs:50,83,237,258` -/
def bump (k : Nat) : Hist → Hist
  | [] => [(k, 1)]
  | e :: h => if k < e.1 then (k, 1) :: e :: h else if k = e.1 then (e.1, e.2 + 1) :: h else e :: bump k h

/-- `stat_low_ref_counts_in_bitmap`, `src/thin/stat.rs:79-89` -/
def statBitmap : List BE → Hist → Hist
  | [], h => h
  | .small c :: es, h => statBitmap es (if c > 0 ∧ c ≤ 2 then bump c h else h)
  | .overflow :: es, h => statBitmap es h

/-- `stat_low_ref_counts`, `src/thin/stat.rs:93-119`; `none` is an error -/
def statLow (bm : Nat → Option (Bool × List BE)) : List Nat → Hist → Option Hist
  | [], h => some h
  | loc :: locs, h =>
    match bm loc with
    | none => none
    | some (isBitmap, es) => if isBitmap then statLow bm locs (statBitmap es h) else none

/-- `RefCounter`, `src/thin/stat.rs:23-61`, called as the log says; the overflow tree has no other values than counts -/
def countRefs : List (Event SVal) → Hist → Hist
  | [], h => h
  | .visit _ _ es :: l, h => countRefs l (es.foldl (fun h e => match e.2 with | .rc v => bump v h | .ie _ => h) h)
  | _ :: l, h => countRefs l h

/-- `stat_overflow_ref_counts`, `src/thin/stat.rs:121-131` -/
def statOverflow (d : TDev) (root : Nat) (h : Hist) : Option Hist :=
  let r := BT.walk (fun b => decide (b < d.nr)) d.rdn (fun _ _ => true) (d.nr + 1) [0] root (WSt.fresh d.nr 1 true)
  if r.2 = .ok then some (countRefs r.1.log h) else none

/-- `stat_data_block_ref_counts`, `src/thin/stat.rs:63-67,133-142` -/
def statData (d : TDev) (root : SMRoot) : Option Hist :=
  match LW.btreeToMap d.rdn d.nr root.bitmap_root with
  | none => none
  | some m =>
    match statLow d.bm ((SMC.indexValues m).map (·.blocknr)) [] with
    | none => none
    | some h => statOverflow d root.ref_count_root h

/-- `stat_metadata_block_ref_counts`, `src/thin/stat.rs:69-77,144-156`; `d.index` is `load_metadata_index` -/
def statMeta (d : TDev) (root : SMRoot) : Option Hist :=
  match d.index root.bitmap_root with
  | none => none
  | some ies =>
    match statLow d.bm (ies.map (·.blocknr)) [] with
    | none => none
    | some h => statOverflow d root.ref_count_root h

/-- `histogram.values().sum()`, `src/thin/stat.rs:164,187,286` -/
def total (h : Hist) : Nat := (h.map (·.2)).sum

/-- `print_data_blocks_histogram`, `src/thin/stat.rs:159-179`: the histogram and the number of allocated blocks -/
def dataBlocks (unpackRoot : Bytes → Option SMRoot) (d : TDev) : Option (Hist × Nat) :=
  match d.sb with
  | none => none
  | some sb =>
    match unpackRoot sb.data_sm_root with
    | none => none
    | some root => (statData d root).map fun h => (h, total h)

/-- `print_metadata_blocks_histogram`, `src/thin/stat.rs:182-202` -/
def metadataBlocks (unpackRoot : Bytes → Option SMRoot) (d : TDev) : Option (Hist × Nat) :=
  match d.sb with
  | none => none
  | some sb =>
    match unpackRoot sb.metadata_sm_root with
    | none => none
    | some root => (statMeta d root).map fun h => (h, total h)

/-! ## Runs of mappings -/

/-- `RunLengthCounter`, `src/thin/stat.rs:206-223` -/
structure RunSt where
  hist : Hist
  run : Option Dump.Run
  leaves : Nat
  deriving DecidableEq, Repr

/-- a mapping as `BlockTime`, `src/thin/block_time.rs` -/
def toEntry (e : Nat × Nat) : Dump.Entry := ⟨e.1, e.2 >>> 24, e.2 % 2 ^ 24⟩

/-- `run.len as u32` -/
def addRun (h : Hist) (r : Dump.Run) : Hist := bump (r.len % 2 ^ 32) h

/-- the loop over a leaf, `src/thin/stat.rs:234-239` -/
def countLeaf : List (Nat × Nat) → Hist → Option Dump.Run → Hist × Option Dump.Run
  | [], h, r => (h, r)
  | e :: es, h, r =>
    match Dump.next r (toEntry e) with
    | (r, none) => countLeaf es h r
    | (r, some done) => countLeaf es (addRun h done) r

/-- `visit`, `visit_again` and `end_walk`, `src/thin/stat.rs:225-264`; `complete` (`src/thin/dump.rs:69-71`) leaves no run -/
def runStep (s : RunSt) : Event Nat → RunSt
  | .visit _ _ es => ⟨(countLeaf es s.hist s.run).1, (countLeaf es s.hist s.run).2, s.leaves + 1⟩
  | .again _ _ => s
  | .endWalk => ⟨match s.run with | none => s.hist | some r => addRun s.hist r, none, s.leaves⟩

/-- the loop over the devices, `src/thin/stat.rs:273-277`: one walker for all; an error ends it -/
def walkRoots (d : TDev) : List Nat → WSt Nat → Option (WSt Nat)
  | [], st => some st
  | root :: roots, st =>
    let r := BT.walk (fun b => decide (b < d.nr)) (fun _ b => d.low.rd b) (fun _ _ => true) (d.nr + 1) [] root st
    if r.2 = .ok then walkRoots d roots r.1 else none

/-- `stat_data_run_lengths`, `src/thin/stat.rs:266-280` -/
def runLengths (d : TDev) (mappingRoot : Nat) : Option (Hist × Nat) :=
  match LW.btreeToMap d.tops d.nr mappingRoot with
  | none => none
  | some m =>
    match walkRoots d (m.map (·.2)) (WSt.fresh d.nr 1 true) with
    | none => none
    | some st => some ((st.log.foldl runStep ⟨[], none, 0⟩).hist, (st.log.foldl runStep ⟨[], none, 0⟩).leaves)

/-- `print_data_run_length_histogram`, `src/thin/stat.rs:282-301`: the histogram, the number of runs and the number of leaves -/
def dataRuns (d : TDev) : Option (Hist × Nat × Nat) :=
  match d.sb with
  | none => none
  | some sb => (runLengths d sb.mapping_root).map fun r => (r.1, total r.1, r.2)

end Verif.Stat
