import Verif.Model.ThinRestore
import Verif.Model.SpaceMapDisk
import Verif.Model.Superblock

/-!
# The end of a thin restore: space maps and superblock (`src/thin/restore.rs:185-224`)

`Model/ThinRestore.lean` models the trees; here are the two space maps and the superblock that `finalize` writes after them.  Simplification:
they are written after the end of the document has been seen, not before; no event after `superblock_e` but `eof` is accepted, and `eof` changes nothing.
-/

namespace Verif.Rst

open Verif.BT (Blk)
open Verif.SMD (SSt SVal)

/-- the counts of the data space map, `src/thin/restore.rs:238` and `MappingRC` (27-42) -/
def dataCounts (nrData : Nat) (log : List Nat) : List Nat := (List.range nrData).map fun b => log.count b

/-- `get_nr_allocated` of the data space map -/
def dataUsed (nrData : Nat) (log : List Nat) : Nat := (dataCounts nrData log).countP fun c => decide (0 < c)

/-- the same write batcher, for nodes with other values -/
def smStart (st : Bld.St Val) : SSt := ⟨⟨fun _ => none, st.sm, [], st.allocs⟩, fun _ => none⟩

/-- what is on the device after a restore, in the blocks that are in use: nodes of the mapping and device trees, nodes of the space maps, bitmaps, the index of the
metadata space map, the superblock -/
structure Image where
  nr : Nat
  nodes : Nat → Option (Blk Val)
  smNodes : Nat → Option (Blk SVal)
  bitmaps : Nat → Option (List BE)
  index : Nat → Option (List IndexEntry)
  sb : Thin.Superblock

/-- `write_superblock`, `src/thin/restore.rs:204-220`, without overrides -/
def superblockOf (out : SbOut) (dataRoot metaRoot : Bytes) (nrMeta : Nat) : Thin.Superblock where
  needs_check := false
  block := 0
  version := 2
  time := out.time
  transaction_id := out.transaction
  metadata_snap := 0
  data_sm_root := dataRoot
  metadata_sm_root := metaRoot
  mapping_root := out.mappingRoot
  details_root := out.detailsRoot
  data_block_size := out.blockSize
  nr_metadata_blocks := nrMeta

/-- the device in the end: the trees of `r`, the space maps under `S`, the index block `ies` of the metadata space map at `ix` -/
def imageOf {N : Type} (r : R N) (S : SSt) (ix : Nat) (ies : List IndexEntry) (sb : Thin.Superblock) : Image where
  nr := S.bt.sm.counts.length
  nodes := fun b => if 0 < r.st.sm.counts.getD b 0 ∧ b ≠ 0 then r.st.mem b else none
  smNodes := fun b => if 0 < r.st.sm.counts.getD b 0 ∨ b = ix then none else S.bt.mem b
  bitmaps := fun b => if 0 < r.st.sm.counts.getD b 0 ∨ b = ix then none else S.readBm b
  index := fun b => if b = ix then some ies else none
  sb := sb

/-- the space maps and the superblock, `src/thin/restore.rs:195-220,353-360` -/
def writeSms {N : Type} (epb : Nat) (r : R N) (out : SbOut) : Except RErr Image := do
  let d ← lift (SMD.writeDiskSm epb (dataCounts r.nrData r.st.log) (dataUsed r.nrData r.st.log) (smStart r.st))
  let m ← lift (SMD.writeMetadataSm epb d.2)
  match packRoot d.1 128, packRoot m.1 128 with
  | some db, some mb => .ok (imageOf r m.2.2 m.1.bitmap_root m.2.1 (superblockOf out db mb m.1.nr_blocks))
  | _, _ => .error .ctl

/-- a whole restore -/
def restoreAll {N : Type} [DecidableEq N] (epb : Nat) (evs : List (Ev N)) (st : Bld.St Val) : Except RErr Image := do
  let r ← run evs (R.new N st)
  match r.out with
  | none => .error .ctl
  | some out => writeSms epb r out

end Verif.Rst
