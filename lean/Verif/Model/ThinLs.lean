import Verif.Model.ThinCheckTool
import Verif.Model.Units

/-!
# `thin_ls` (`src/thin/ls.rs`) and the table it prints (`src/grid_layout.rs`)

The device is that of the model of `thin_check`, and so are the node map, `get_depth` and the checks of key ranges, which `ls.rs` holds copies of.  The space maps are
`RestrictedTwoSpaceMap`s: they count to two, and counting a block beyond their end is a panic (`FixedBitSet::insert`), which ends the process, also if it happens in a thread (the
join is unwrapped).  Messages, times and the monitor are not modelled; strings are lists of characters.
-/

namespace Verif.Ls

open Verif.BT (Blk KeyRange splitKeyRanges WSt)
open Verif.TChk (Dev Sm NodeMap Sum u32 setBit chunks leavesOf chunkRead chunkFail TDev)

/-- how something ends: `crash` is a panic or the exhausted stack -/
inductive Res (α : Type) where
  | ok (a : α)
  | err
  | crash
  deriving DecidableEq, Repr

/-- `RestrictedTwoSpaceMap::new`, `src/pdata/space_map/base.rs:306-314`; the operations are in `SM.Two` (C06), this is what they come down to for `inc(b, 1)` and `get` -/
def two (nr : Nat) : Sm := ⟨nr, 2, true, fun _ => 0⟩

/-! ## First pass: the internal nodes -/

/-- the loop of `read_node_` over the children, `src/thin/ls.rs:443-456`; `none` is a panic -/
def newKids (n : NodeMap) (depth : Nat) : List Nat → Sm → Option (Sm × List Nat)
  | [], sm => some (sm, [])
  | v :: vs, sm =>
    match TChk.isSeen (u32 v) sm with
    | none => none
    | some (sm, seen) =>
      match newKids n depth vs sm with
      | none => none
      | some (sm', ks) =>
        some (sm', if !seen || (decide (depth > 0) && decide (n.ty (u32 v) = .leaf)) || (decide (depth = 0) && decide (n.ty (u32 v) = .none)) then v :: ks else ks)

/-- the loop over the blocks read, `src/thin/ls.rs:465-482` -/
def readKids (d : Dev) (all : List Nat) (read : Nat → NodeMap → Sm → Option (NodeMap × Sm)) : List Nat → Nat → NodeMap → Sm → Option (NodeMap × Sm)
  | [], _, n, sm => some (n, sm)
  | v :: vs, i, n, sm =>
    if d.many all i then
      match read v n sm with
      | none => none
      | some (n, sm) => readKids d all read vs (i + 1) n sm
    else readKids d all read vs (i + 1) (n.insertError (u32 v)) sm

/-- `read_node`, `read_node_`, `src/thin/ls.rs:415-499` -/
def readNode (d : Dev) : Nat → Nat → NodeMap → Sm → Option (NodeMap × Sm)
  | depth, b, n, sm =>
    match d.rd b with
    | none => some (n.insertError (u32 b), sm)
    | some (.leaf _) => some (n, sm)
    | some (.internal ch) =>
      let n := n.insertInternal (u32 b) (ch.map fun c => (c.1, u32 c.2))
      match newKids n depth (ch.map (·.2)) sm with
      | none => none
      | some (sm, ks) =>
        match depth with
        | 0 => some (ks.foldl (fun n v => n.insertLeaf (u32 v)) n, sm)
        | depth + 1 => readKids d ks (readNode d depth) ks 0 n sm

/-- `read_internal_nodes`, `src/thin/ls.rs:534-566` -/
def readInternal (d : Dev) (root : Nat) (n : NodeMap) (sm : Sm) : Option (NodeMap × Sm) :=
  match TChk.isSeen root sm with
  | none => none
  | some (sm, true) => some (n, sm)
  | some (sm, false) =>
    match TChk.getDepth d (d.nr + 2) [] root with
    | some (some 0) => some (n.insertLeaf root, sm)
    | some (some (depth + 1)) => readNode d depth root n sm
    | _ => some (n, sm)

/-- `collect_nodes_in_use`, `src/thin/ls.rs:568-581` -/
def collectNodes (d : Dev) : List Nat → NodeMap → Sm → Option (NodeMap × Sm)
  | [], n, sm => some (n, sm)
  | r :: rs, n, sm =>
    match readInternal d (u32 r) n sm with
    | none => none
    | some (n, sm) => collectNodes d rs n sm

/-! ## Summaries -/

/-- `NodeSummary`, `src/thin/ls.rs:233-241`: that of `thin_check` and the number of shared mappings -/
structure LSum where
  sum : Sum
  shared : Nat
  deriving DecidableEq, Repr

/-- `NodeSummary::from_leaf`, `src/thin/ls.rs:244-261` -/
def LSum.ofLeaf (keys : List Nat) (shared : Nat) : LSum := ⟨Sum.ofLeaf keys, shared⟩

/-- `NodeSummary::error`, `src/thin/ls.rs:263-272` -/
def LSum.error : LSum := ⟨Sum.error, 0⟩

/-- `let _ = sum.append(..)`, `src/thin/ls.rs:274-291,653`: an overlap leaves the summary as it was -/
def LSum.add (s c : LSum) : LSum :=
  match s.sum.append c.sum with
  | none => s
  | some t => ⟨t, (s.shared + c.shared) % 2 ^ 64⟩

/-- the summaries, keyed by block -/
abbrev LSums := Nat → Option LSum

/-! ## Second pass: all leaves -/

/-- the loop over the values of a leaf, `src/thin/ls.rs:773-775`; `none` is a panic -/
def incData : List (Nat × Nat) → Sm → Option Sm
  | [], sm => some sm
  | e :: es, sm =>
    match sm.inc (e.2 >>> 24) with
    | none => none
    | some sm => incData es sm

/-- one block through `unpacker` (`src/thin/ls.rs:703-747`) and `summariser` (749-792) -/
def leafStep (d : Dev) (msm : Sm) (s : NodeMap × Sm × LSums) (b : Nat) : Option (NodeMap × Sm × LSums) :=
  match d.rd b with
  | none => some (s.1.insertError (u32 b), s.2.1, s.2.2)
  | some (.internal _) => some s
  | some (.leaf es) =>
    match incData es s.2.1 with
    | none => none
    | some dsm => some (s.1, dsm, if msm.cnt b > 1 then setBit s.2.2 (u32 b) (some (LSum.ofLeaf (es.map (·.1)) es.length)) else s.2.2)

/-- a state through all blocks -/
def leafSteps (d : Dev) (msm : Sm) : List Nat → NodeMap × Sm × LSums → Option (NodeMap × Sm × LSums)
  | [], s => some s
  | b :: bs, s =>
    match leafStep d msm s b with
    | none => none
    | some s => leafSteps d msm bs s

/-- `read_leaf_nodes`, `src/thin/ls.rs:840-933`: four unpackers and the summariser see the blocks in any order -/
def ReadLeaves (d : Dev) (n : NodeMap) (msm dsm : Sm) (r : Option (NodeMap × Sm × LSums)) : Prop :=
  ∃ order : List Nat, order.Perm ((chunks 1024 (d.nr + 1) (leavesOf d n)).flatMap (chunkRead d)) ∧
    r = leafSteps d msm order ((chunks 1024 (d.nr + 1) (leavesOf d n)).foldl (chunkFail d) n, dsm, fun _ => none)

/-! ## Third pass: the leaves that are not shared, again -/

/-- one block through `unpacker` and `exclusive_leaves_summariser` (`src/thin/ls.rs:794-838`) -/
def exclStep (d : Dev) (msm dsm : Sm) (s : NodeMap × LSums) (b : Nat) : NodeMap × LSums :=
  match d.rd b with
  | none => (s.1.insertError (u32 b), s.2)
  | some (.internal _) => s
  | some (.leaf es) =>
    if msm.cnt b = 1 then (s.1, setBit s.2 (u32 b) (some (LSum.ofLeaf (es.map (·.1)) (es.countP fun e => decide (dsm.cnt (e.2 >>> 24) > 1))))) else s

/-- the leaves to read, `src/thin/ls.rs:951-960` -/
def exclLeaves (d : Dev) (n : NodeMap) (msm : Sm) : List Nat := (leavesOf d n).filter fun b => decide (msm.cnt b = 1)

/-- `read_exclusive_leaves`, `src/thin/ls.rs:935-1034` -/
def ReadExcl (d : Dev) (n : NodeMap) (msm dsm : Sm) (m : LSums) (r : NodeMap × LSums) : Prop :=
  ∃ order : List Nat, order.Perm ((chunks 1024 (d.nr + 1) (exclLeaves d n msm)).flatMap (chunkRead d)) ∧
    r = order.foldl (exclStep d msm dsm) ((chunks 1024 (d.nr + 1) (exclLeaves d n msm)).foldl (chunkFail d) n, m)

/-! ## Fourth pass: counting -/

/-- the checks of a summary that is there already, `src/thin/ls.rs:599-624` -/
def recheck (ign isRoot : Bool) (kr : KeyRange) (s : LSum) : LSum :=
  if !ign && !isRoot && decide (s.sum.entries < TChk.MIN_ENTRIES) then LSum.error
  else if decide (s.sum.maps > 0) && (match kr.start with | some n => decide (n > s.sum.low) | none => false) then LSum.error
  else if decide (s.sum.maps > 0) && (match kr.fin with | some n => decide (n < s.sum.high) | none => false) then LSum.error
  else s

/-- the loop over the children, `src/thin/ls.rs:641-655` -/
def sumKids (f : KeyRange → Nat → LSums → Option (LSums × LSum)) : List (KeyRange × Nat) → LSums → LSum → Option (LSums × LSum)
  | [], m, acc => some (m, acc)
  | (kr, b) :: ks, m, acc =>
    match f kr b m with
    | none => none
    | some (m, c) => sumKids f ks m (acc.add c)

/-- all mappings below a shared internal node are shared, `src/thin/ls.rs:657-661` -/
def adjust (msm : Sm) (b : Nat) (s : LSum) : LSum := if msm.cnt b > 1 then ⟨s.sum, s.sum.maps⟩ else s

/-- `summarize_tree`, `src/thin/ls.rs:588-676`; `none` is the end of the fuel: the recursion of the code has no other limit than the stack -/
def summarize (n : NodeMap) (msm : Sm) (ign : Bool) : Nat → KeyRange → Bool → Nat → LSums → Option (LSums × LSum)
  | 0, _, _, _, _ => none
  | fuel + 1, kr, isRoot, b, m =>
    match m b with
    | some s => some (m, recheck ign isRoot kr s)
    | none =>
      if n.ty b = .internal then
        match n.info b with
        | none => some (m, LSum.error)
        | some ch =>
          if !ign && !isRoot && decide (ch.length < TChk.MIN_ENTRIES) then some (m, LSum.error)
          else
            match splitKeyRanges kr (ch.map (·.1)) with
            | none => some (m, LSum.error)
            | some krs =>
              match sumKids (fun kr b m => summarize n msm ign fuel kr false b m) (krs.zip (ch.map (·.2))) m ⟨⟨0, 0, 0, 0, 0⟩, 0⟩ with
              | none => none
              | some (m, s) => some (setBit m b (some (adjust msm b s)), adjust msm b s)
      else some (m, LSum.error)

/-- `count_mapped_blocks`, `src/thin/ls.rs:678-699` -/
def countMapped (n : NodeMap) (msm : Sm) (ign : Bool) (fuel : Nat) : List Nat → LSums → Option LSums
  | [], m => some m
  | r :: rs, m =>
    match summarize n msm ign fuel ⟨none, none⟩ true (u32 r) m with
    | none => none
    | some (m, _) => countMapped n msm ign fuel rs m

/-- `count_data_mappings_`, `src/thin/ls.rs:1038-1085`, with new space maps (1099-1104) -/
def Count (d : Dev) (ign : Bool) (fuel : Nat) (roots : List Nat) (nrData : Nat) (r : Res LSums) : Prop :=
  match collectNodes d roots NodeMap.empty (two d.nr) with
  | none => r = .crash
  | some (n, msm) =>
    ∃ r1, ReadLeaves d n msm (two nrData) r1 ∧
      match r1 with
      | none => r = .crash
      | some (n1, dsm, m1) =>
        ∃ r2, ReadExcl d n1 msm dsm m1 r2 ∧
          r = (match countMapped r2.1 msm ign fuel roots r2.2 with
            | none => .crash
            | some m => .ok m)

/-- the summaries of the roots, `src/thin/ls.rs:1121-1133`: all of them, and none with errors -/
def rootSums (roots : List Nat) (m : LSums) : Option (List LSum) :=
  let l := ((roots.map fun r => (m (u32 r)).filter fun s => decide (s.sum.errors = 0)).takeWhile Option.isSome).filterMap id
  if l.length ≠ roots.length then none else some l

/-! ## The table -/

/-- `OutputField`, `src/thin/ls.rs:34-61` -/
inductive Field where
  | dev | mappedBlocks | exclusiveBlocks | sharedBlocks | highestBlock
  | mappedSectors | exclusiveSectors | sharedSectors | highestSector
  | mappedBytes | exclusiveBytes | sharedBytes | highestByte
  | mapped | exclusive | shared | highestMapped
  | transaction | createTime | snapTime
  deriving DecidableEq, Repr

/-- `Display for OutputField`, `src/thin/ls.rs:100-133` -/
def Field.name : Field → List Char
  | .dev => "DEV".toList
  | .mappedBlocks => "MAPPED_BLOCKS".toList
  | .exclusiveBlocks => "EXCLUSIVE_BLOCKS".toList
  | .sharedBlocks => "SHARED_BLOCKS".toList
  | .highestBlock => "HIGHEST_BLOCK".toList
  | .mappedSectors => "MAPPED_SECTORS".toList
  | .exclusiveSectors => "EXCLUSIVE_SECTORS".toList
  | .sharedSectors => "SHARED_SECTORS".toList
  | .highestSector => "HIGHEST_SECTOR".toList
  | .mappedBytes => "MAPPED_BYTES".toList
  | .exclusiveBytes => "EXCLUSIVE_BYTES".toList
  | .sharedBytes => "SHARED_BYTES".toList
  | .highestByte => "HIGHEST_BYTE".toList
  | .mapped => "MAPPED".toList
  | .exclusive => "EXCLUSIVE".toList
  | .shared => "SHARED".toList
  | .highestMapped => "HIGHEST_MAPPED".toList
  | .transaction => "TRANSACTION".toList
  | .createTime => "CREATE_TIME".toList
  | .snapTime => "SNAP_TIME".toList

/-- `FromStr for OutputField`, `src/thin/ls.rs:63-98` -/
def Field.parse (s : List Char) : Option Field :=
  if s = "DEV".toList then some .dev
  else if s = "MAPPED_BLOCKS".toList then some .mappedBlocks
  else if s = "EXCLUSIVE_BLOCKS".toList then some .exclusiveBlocks
  else if s = "SHARED_BLOCKS".toList then some .sharedBlocks
  else if s = "HIGHEST_BLOCK".toList then some .highestBlock
  else if s = "MAPPED_SECTORS".toList then some .mappedSectors
  else if s = "EXCLUSIVE_SECTORS".toList then some .exclusiveSectors
  else if s = "SHARED_SECTORS".toList then some .sharedSectors
  else if s = "HIGHEST_SECTOR".toList then some .highestSector
  else if s = "MAPPED_BYTES".toList then some .mappedBytes
  else if s = "EXCLUSIVE_BYTES".toList then some .exclusiveBytes
  else if s = "SHARED_BYTES".toList then some .sharedBytes
  else if s = "HIGHEST_BYTE".toList then some .highestByte
  else if s = "MAPPED".toList then some .mapped
  else if s = "EXCLUSIVE".toList then some .exclusive
  else if s = "SHARED".toList then some .shared
  else if s = "HIGHEST_MAPPED".toList then some .highestMapped
  else if s = "TRANSACTION".toList then some .transaction
  else if s = "CREATE_TIME".toList then some .createTime
  else if s = "SNAP_TIME".toList then some .snapTime
  else none

/-- 64-bit arithmetic of a release build -/
def w64 (x : Nat) : Nat := x % 2 ^ 64

/-- `(x << 9) - 1` and `x - 1` where `x` may be 0 -/
def pred64 (x : Nat) : Nat := (x + (2 ^ 64 - 1)) % 2 ^ 64

/-- the value of a field, `src/thin/ls.rs:180-203` -/
def value (bs : Nat) (dev : Nat) (detail : DeviceDetail) (mapped shared high : Nat) : Field → Nat
  | .dev => dev
  | .transaction => detail.transaction_id
  | .createTime => detail.creation_time
  | .snapTime => detail.snapshotted_time
  | .mappedBlocks => mapped
  | .mappedSectors => w64 (mapped * bs)
  | .mappedBytes | .mapped => w64 (w64 (mapped * bs) <<< 9)
  | .exclusiveBlocks => w64 (mapped + 2 ^ 64 - shared)
  | .exclusiveSectors => w64 (w64 (mapped + 2 ^ 64 - shared) * bs)
  | .exclusiveBytes | .exclusive => w64 (w64 (w64 (mapped + 2 ^ 64 - shared) * bs) <<< 9)
  | .sharedBlocks => shared
  | .sharedSectors => w64 (shared * bs)
  | .sharedBytes | .shared => w64 (w64 (shared * bs) <<< 9)
  | .highestBlock => high
  | .highestSector => pred64 (w64 (w64 (high + 1) * bs))
  | .highestByte | .highestMapped => pred64 (w64 (w64 (w64 (high + 1) * bs) <<< 9))

/-- fields printed with a unit, `src/thin/ls.rs:205-213` -/
def Field.pretty : Field → Bool
  | .mapped | .exclusive | .shared | .highestMapped => true
  | _ => false

/-- a cell, `src/thin/ls.rs:205-213`; every 64-bit value has a unit (`Units.prettySize_spec`) -/
def cell (f : Field) (v : Nat) : List Char :=
  if f.pretty then
    match Units.prettySize v with
    | some (m, u) => Units.showNat m ++ u.short
    | none => []
  else Units.showNat v

/-- `GridLayout`, `src/grid_layout.rs:6-10` -/
structure Grid where
  grid : List (List (List Char))
  current : List (List Char)
  maxColumns : Nat
  deriving DecidableEq, Repr

/-- `new_with_size`, `src/grid_layout.rs:21-27` -/
def Grid.new (columns : Nat) : Grid := ⟨[], [], columns⟩

/-- `field`, `src/grid_layout.rs:29-31` -/
def Grid.field (g : Grid) (s : List Char) : Grid := { g with current := g.current ++ [s] }

/-- `new_row`, `src/grid_layout.rs:33-40` -/
def Grid.newRow (g : Grid) : Grid := ⟨g.grid ++ [g.current], [], if g.current.length > g.maxColumns then g.current.length else g.maxColumns⟩

/-- one row of `calc_field_widths`, `src/grid_layout.rs:45-47` -/
def widen : List (List Char) → List Nat → List Nat
  | _, [] => []
  | [], ws => ws
  | c :: cs, w :: ws => max w c.length :: widen cs ws

/-- `calc_field_widths`, `src/grid_layout.rs:42-50`; cells are ASCII -/
def Grid.widths (g : Grid) : List Nat := g.grid.foldl (fun ws row => widen row ws) (List.replicate g.maxColumns 0)

/-- `push_justified`, `src/grid_layout.rs:53-59` -/
def justified (s : List Char) (width : Nat) : List Char := List.replicate (width - s.length) ' ' ++ s ++ [' ']

/-- one line of `render`, `src/grid_layout.rs:65-69` -/
def line (widths : List Nat) (row : List (List Char)) : List Char := (row.zip widths).flatMap (fun c => justified c.1 c.2) ++ ['\n']

/-- `render`, `src/grid_layout.rs:61-74` -/
def Grid.render (g : Grid) : List Char := g.grid.flatMap (line g.widths)

/-- `push_headers`, `src/thin/ls.rs:154-163` -/
def pushHeaders (fields : List Field) (g : Grid) : Grid := if fields.isEmpty then g else (fields.foldl (fun g f => g.field f.name) g).newRow

/-- `push_row`, `src/thin/ls.rs:165-218` -/
def pushRow (fields : List Field) (bs dev : Nat) (detail : DeviceDetail) (mapped shared high : Nat) (g : Grid) : Grid :=
  if fields.isEmpty then g else (fields.foldl (fun g f => g.field (cell f (value bs dev detail mapped shared high f))) g).newRow

/-! ## The tool -/

/-- `ThinLsOptions`, `src/thin/ls.rs:1140-1146` -/
structure LsOpts where
  fields : List Field
  noHeaders : Bool
  snap : Bool
  deriving DecidableEq, Repr

/-- `some_counting_fields`, `src/thin/ls.rs:1164-1179` -/
def someCounting : List Field → Bool
  | [] => false
  | .dev :: fs | .transaction :: fs | .createTime :: fs | .snapTime :: fs => someCounting fs
  | _ :: _ => true

/-- the values a walk delivers, in the order of the visits (`ValueVecCollector`, `src/pdata/btree_walker.rs:453-487`) -/
def logValues {V : Type} : List (BT.Event V) → List V
  | [] => []
  | .visit _ _ es :: l => es.map (·.2) ++ logValues l
  | _ :: l => logValues l

/-- `btree_to_value_vec`, `src/pdata/btree_walker.rs:489-499`, of the top level (`src/thin/ls.rs:1093-1099`) -/
def valueVec (d : TDev) (root : Nat) : Option (List Nat) :=
  let r := BT.walk (fun b => decide (b < d.nr)) d.tops (fun _ _ => true) (d.nr + 1) [] root (WSt.fresh d.nr 1 true)
  if r.2 = .ok then some (logValues r.1.log) else none

/-- `count_data_mappings`, `src/thin/ls.rs:1087-1136`; `count` is what the threads make of it, related to `Count` in the theorems -/
def countMappings (unpackRoot : Bytes → Option SMRoot) (count : List Nat → Nat → Res LSums) (d : TDev) (sb : Thin.Superblock) (root : Nat) : Res (List LSum) :=
  match valueVec d root with
  | none => .err
  | some roots =>
    match unpackRoot sb.data_sm_root with
    | none => .err
    | some droot =>
      match unpackRoot sb.metadata_sm_root with
      | none => .err
      | some _ =>
        match count roots droot.nr_blocks with
        | .err => .err
        | .crash => .crash
        | .ok m =>
          match rootSums roots m with
          | none => .err
          | some l => .ok l

/-- the superblock to list, `src/thin/ls.rs:1184-1188`, `src/thin/superblock.rs:103-109` -/
def theSb (snap : Bool) (d : TDev) : Option Thin.Superblock :=
  if snap then
    match d.sb with
    | none => none
    | some sb => if sb.metadata_snap = 0 then none else d.sbAt sb.metadata_snap
  else d.sb

/-- `ls`, `src/thin/ls.rs:1181-1219`: the text it prints -/
def ls (unpackRoot : Bytes → Option SMRoot) (count : List Nat → Nat → Res LSums) (o : LsOpts) (d : TDev) : Res (List Char) :=
  match theSb o.snap d with
  | none => .err
  | some sb =>
    if TChk.consistent d sb then
      match LW.btreeToMap d.dets d.nr sb.details_root with
      | none => .err
      | some details =>
        let g := Grid.new o.fields.length
        let g := if o.noHeaders then g else pushHeaders o.fields g
        if someCounting o.fields then
          match d.sb with
          | none => .err
          | some actual =>
            match countMappings unpackRoot count d actual sb.mapping_root with
            | .err => .err
            | .crash => .crash
            | .ok mapped =>
              .ok ((details.zip mapped).foldl (fun g e => pushRow o.fields sb.data_block_size e.1.1 e.1.2 e.2.sum.maps e.2.shared e.2.sum.high g) g).render
        else .ok (details.foldl (fun g e => pushRow o.fields sb.data_block_size e.1 e.2 0 0 0 g) g).render
    else .err

end Verif.Ls
