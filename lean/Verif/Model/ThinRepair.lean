import Verif.Model.Repair
import Verif.Model.ThinDump
import Verif.Model.ThinRestoreSm

/-!
# `thin_repair` as a whole, and the dump behind `thin_dump --repair` (`src/thin/repair.rs`, `src/thin/dump.rs`, `src/thin/metadata.rs`)

The search for roots (`Model/Repair.lean`), the dump (`Model/ThinDump.lean`) and the restore (`Model/ThinRestore.lean`, `Model/ThinRestoreSm.lean`) put together.
The damaged device is read through `rd`: what each of its blocks is if only fatal errors count.  `fine r b` says whether the node in `b`, read as a root or not, has
none of the non-fatal errors either (`src/pdata/btree.rs:164-177`).
-/

namespace Verif.TRep

open Verif.BT (Blk)
open Verif.Rst (Val Detail SbIR Ev RErr Image)
open Verif.Rep (Raw ThinSb btOf rd64 rdDet)
open Verif.TDump (Dev MEntry optimise dumpMetadata)

/-- the nodes of mapping trees with their values as `BlockTime`, read like `emit_leaf` does, `src/thin/dump.rs:234-253` -/
def mapNodes (rd : Nat → Option Raw) (b : Nat) : Option (Blk Val) :=
  match rd b with
  | some (.internal _ ch) => some (.internal ch)
  | some (.leaf _ es) => some (.leaf (es.map fun e => (e.1, .bt (btOf e.2).block (btOf e.2).time)))
  | _ => none

/-- reading with `ignore_non_fatal = false`, `src/pdata/btree.rs:164-177` -/
def strict {V : Type} (fine : Bool → Nat → Bool) (mem : Nat → Option (Blk V)) (isRoot : Bool) (b : Nat) : Option (Blk V) :=
  if fine isRoot b then mem b else none

/-- the same record in the two models -/
def toDetail (d : DeviceDetail) : Detail := ⟨d.mapped_blocks, d.transaction_id, d.creation_time, d.snapshotted_time⟩

/-- the devices of `build_metadata_with_dev`, `src/thin/metadata.rs:155-205`.  On disk, the two maps are put together by position. -/
def devicesOf (rd : Nat → Option Raw) (nr : Nat) : ThinSb → Option (List (Nat × Nat × Detail))
  | .onDisk sb =>
    match LW.btreeToMap (rdDet rd) nr sb.details_root, LW.btreeToMap (rd64 rd) nr sb.mapping_root with
    | some ds, some rs => some ((rs.zip (ds.map (·.2))).map fun p => (p.1.1, p.1.2, toDetail p.2))
    | _, _ => none
  | .inCore sb => some (sb.devices.map fun d => (d.1, d.2.1, toDetail d.2.2))

/-- `build_metadata_with_dev_` and `collect_leaves`, `src/thin/metadata.rs:97-153`: as `TDump.buildDevs`, but a walk stops at non-fatal errors too
(`LeafWalker::new(engine, &mut sm, false)`, line 105) -/
def buildDevs (fine : Bool → Nat → Bool) (mem : Nat → Option (Blk Val)) (nr : Nat) (devices : List (Nat × Nat × Detail)) : Option (List Dev) :=
  Gather.collect (fun d : Nat × Nat × Detail => (LW.walk (strict fine mem) nr d.2.1).map fun ls =>
    { id := d.1 % 2 ^ 32, detail := d.2.2, entries := ls.map fun l => .leaf l.2 }) devices

/-- `build_metadata_without_mappings`, `src/thin/metadata.rs:207-243` -/
def bareDevs (rd : Nat → Option Raw) (nr : Nat) : ThinSb → Option (List Dev)
  | .onDisk sb => (LW.btreeToMap (rdDet rd) nr sb.details_root).map fun ds => ds.map fun d => ⟨d.1 % 2 ^ 32, toDetail d.2, []⟩
  | .inCore sb => some (sb.devices.map fun d => ⟨d.1 % 2 ^ 32, toDetail d.2.2, []⟩)

/-- `to_superblock_ir`, `src/thin/dump.rs:318-344`, as far as a restore uses it -/
def sbIr : ThinSb → Option SbIR
  | .onDisk sb => (Rep.refNr sb).map fun n => ⟨sb.time, sb.transaction_id, sb.data_block_size, n⟩
  | .inCore sb => some ⟨sb.time, sb.tid, sb.blockSize, sb.nrData⟩

/-- `dump_with_formatter` after the superblock, `src/thin/dump.rs:402-409`; without selected devices and with mappings this is also the dump inside `repair`,
`src/thin/repair.rs:55-65` -/
def dumpSb (rd : Nat → Option Raw) (fine : Bool → Nat → Bool) (nr : Nat) (tsb : ThinSb) (sel : Option (List Nat)) (skip : Bool) : Option (List (Ev Nat)) :=
  if skip then
    match bareDevs rd nr tsb, sbIr tsb with
    | some devs, some sb => dumpMetadata (mapNodes rd) sb [] devs
    | _, _ => none
  else
    match (devicesOf rd nr tsb).bind fun ds => buildDevs fine (mapNodes rd) nr (TDump.selectDevs sel ds) with
    | none => none
    | some devs =>
      match optimise nr devs, sbIr tsb with
      | some md, some sb => dumpMetadata (mapNodes rd) sb md.1 md.2
      | _, _ => none

/-- `repair`, `src/thin/repair.rs:46-66`, after `find_roots` found `found`: `sb` is what `read_superblock` returned, `o` are the overrides, `n` and `mem` the size and
the old content of the output.  `none`: the repair stops before or during the dump (the superblock of the output is written last, at `superblock_e`: `src/thin/restore.rs:185-224,248-251`). -/
def repair (epb : Nat) (rd : Nat → Option Raw) (fine : Bool → Nat → Bool) (nr : Nat) (found : List Rep.Found) (sb : Option Thin.Superblock) (o : Rep.Overrides)
    (n : Nat) (mem : Nat → Option (Blk Val)) : Option (Except RErr Image) :=
  match (Rep.readOrRebuild found sb o).bind fun tsb => dumpSb rd fine nr tsb none false with
  | none => none
  | some evs => some (Rst.restoreAll epb evs ⟨mem, SM.Core.new (2 ^ 32 - 1) n, [], []⟩)

end Verif.TRep
