import Verif.Model.ThinCheck
import Verif.Model.SpaceMapCheck
import Verif.Model.Repair
import Verif.Model.Superblock

/-!
# `thin_check` as a whole (`src/thin/check.rs:855-1303`)

The readers of a `TDev` are those of the run: whether non-fatal errors are ignored is part of them.  Titles, messages and `print_info` (whose errors are dropped) are not modelled.
The second and third pass over the mapping trees are concurrent, so their result is handed in as `bot` (related to `Bottom` in the theorems).
-/

namespace Verif.TChk

open Verif.BT (Blk WSt)
open Verif.SMD (SVal)

/-- `ThinCheckOptions`, `src/thin/check.rs:41-53`; `snap` is `--metadata-snap` -/
structure TOpts where
  sbOnly : Bool
  skip : Bool
  ign : Bool
  repair : Bool
  clear : Bool
  snap : Bool
  overMap : Option Nat
  overDet : Option Nat
  deriving DecidableEq, Repr

/-- the metadata device -/
structure TDev where
  nr : Nat
  /-- the superblock, if it can be read -/
  sb : Option Thin.Superblock
  /-- what `read_superblock` makes of another block -/
  sbAt : Nat → Option Thin.Superblock
  dets : Bool → Nat → Option (Blk DeviceDetail)
  tops : Bool → Nat → Option (Blk Nat)
  low : Dev
  rdn : Bool → Nat → Option (Blk SVal)
  bm : Nat → Option (Bool × List BE)
  index : Nat → Option (List IndexEntry)

/-- how a run ends: `crash` is the exhausted stack of `summarize_tree` -/
inductive End where
  | ok
  | err
  | crash
  deriving DecidableEq, Repr

/-- `RestrictedSpaceMap::new` -/
def restricted (nr : Nat) : Sm := ⟨nr, 1, true, fun _ => 0⟩

/-- `core_sm`, `src/pdata/space_map/base.rs:162-170` -/
def coreSm (nr maxCount : Nat) : Sm := ⟨nr, if maxCount ≤ 255 then 255 else if maxCount ≤ 65535 then 65535 else 2 ^ 32 - 1, false, fun _ => 0⟩

/-- a space map as the tree walker sees it: a new walker knows no failed nodes -/
def Sm.toW {V : Type} (sm : Sm) : WSt V := ⟨sm.nr, sm.mx, sm.sat, sm.cnt, fun _ => false, []⟩

/-- and back -/
def Sm.withCounts (sm : Sm) (c : Nat → Nat) : Sm := { sm with cnt := c }

/-- `btree_to_map_with_sm`, `src/pdata/btree_walker.rs:331-343`; the counts stay as they are after an error -/
def toMap {V : Type} (d : TDev) (rd : Bool → Nat → Option (Blk V)) (root : Nat) (sm : Sm) : Option (List (Nat × V)) × Sm :=
  let r := BT.walk (fun b => decide (b < d.nr)) rd (fun _ _ => true) (d.nr + 1) [0] root sm.toW
  (if r.2 = .ok then some (LW.collected r.1.log []) else none, sm.withCounts r.1.seen)

/-- `create_metadata_sm`, `src/thin/check.rs:855-893` -/
def createMetaSm (d : TDev) (sb : Thin.Superblock) (snap : Option (Option Thin.Superblock)) : Option Sm :=
  match toMap d d.tops sb.mapping_root (restricted d.nr) with
  | (none, _) => none
  | (some roots, sm) =>
    match snap with
    | some (some s) =>
      match toMap d d.tops s.mapping_root sm with
      | (none, _) => none
      | (some roots', _) => some (coreSm d.nr (roots.length + roots'.length))
    | _ => some (coreSm d.nr roots.length)

/-- `inc_superblock`, `src/thin/check.rs:30-37` -/
def incSb (sm : Sm) (snap : Nat) : Option Sm :=
  match sm.inc 0 with
  | none => none
  | some sm => if snap > 0 then sm.inc snap else some sm

/-- `get_devices_`, `src/thin/check.rs:895-924` -/
def getDevices (d : TDev) (sb : Thin.Superblock) (sm : Sm) : Option (List (Nat × DeviceDetail) × List (Nat × Nat)) × Sm :=
  match toMap d d.dets sb.details_root sm with
  | (none, sm) => (none, sm)
  | (some devs, sm) =>
    match toMap d d.tops sb.mapping_root sm with
    | (none, sm) => (none, sm)
    | (some roots, sm) => (some (devs, roots), sm)

/-- a device: id, root and number of mappings -/
abbrev Thins := List (Nat × Nat × Nat)

/-- `roots.into_iter().zip(devs)`, `src/thin/check.rs:949-953,1005-1009` -/
def zipThins (roots : List (Nat × Nat)) (devs : List (Nat × DeviceDetail)) : Thins := (roots.zip devs).map fun e => (e.1.1, e.1.2, e.2.2.mapped_blocks)

/-- `get_thins_from_superblock`, `src/thin/check.rs:926-956`: the devices, and all roots -/
def thinsOfSb (d : TDev) (sb : Thin.Superblock) (sm : Sm) : Option (Thins × List Nat) × Sm :=
  match getDevices d sb sm with
  | (none, sm) => (none, sm)
  | (some (devs, roots), sm) => if roots.map (·.1) = devs.map (·.1) then (some (zipThins roots devs, roots.map (·.2)), sm) else (none, sm)

/-- `devices_identical` by `is_superblock_consistent`, `src/thin/metadata_repair.rs:51-73,810-823` -/
def consistent (d : TDev) (sb : Thin.Superblock) : Bool :=
  match Rep.keySet d.tops d.nr sb.mapping_root, Rep.keySet d.dets d.nr sb.details_root with
  | some a, some b => decide (a = b)
  | _, _ => false

/-- the roots of the snapshot that are not those of the same device of the superblock, `src/thin/check.rs:988-992` -/
def exclusive (thins : Thins) (roots : List (Nat × Nat)) : List (Nat × Nat) :=
  roots.filter fun e => !(thins.any fun t => decide (t.1 = e.1) && decide (t.2.1 = e.2))

/-- `get_thins_from_metadata_snap`, `src/thin/check.rs:958-1012` -/
def thinsOfSnap (d : TDev) (sb : Thin.Superblock) (thins : Thins) (sm : Sm) : Option (Thins × List Nat) × Sm :=
  if consistent d sb then
    match getDevices d sb sm with
    | (none, sm) => (none, sm)
    | (some (devs, roots), sm) =>
      let rex := exclusive thins roots
      let dex := devs.filter fun e => (rex.map (·.1)).contains e.1
      if dex.map (·.1) = rex.map (·.1) then (some (zipThins rex dex, roots.map (·.2)), sm) else (none, sm)
  else (none, sm)

/-- `create_data_sm`, `src/thin/check.rs:1049-1059` -/
def createDataSm (root : SMRoot) (nrDevs : Nat) : Sm := if nrDevs ≤ 1 then restricted root.nr_blocks else coreSm root.nr_blocks nrDevs

/-- `check_metadata_space_map`, `src/pdata/space_map/checker.rs:244-276`: the leaks, and the expected counts -/
def checkMetaSm (d : TDev) (root : SMRoot) (st : WSt SVal) : Option (List SMC.Leak × List Nat) :=
  let io := fun b => decide (b < d.nr)
  let r := BT.walk io d.rdn (fun _ _ => true) (d.nr + 1) [0] root.ref_count_root { st with log := [], fails := fun _ => false }
  if r.2 = .ok then
    match d.index root.bitmap_root with
    | none => none
    | some ies =>
      match r.1.smInc root.bitmap_root with
      | none => none
      | some (_, st) =>
        match SMC.incEntries ies st with
        | none => none
        | some st =>
          let exp := (List.range d.nr).map st.seen
          (SMC.checkMeta io d.rdn d.bm (d.nr + 1) d.nr root exp ies).map fun l => (l, exp)
  else none

/-- which writes reach the device: bitmaps of the data map, of the metadata map, the superblock -/
structure Wr where
  data : Nat → Bool
  metad : Nat → Bool
  sb : Bool

/-- `clear_needs_check_flag`, `src/thin/check.rs:1294-1301`; `writable` is how `mk_context` opened the device (817-823), else the write is an error -/
def clearFlag (w : Wr) (writable : Bool) (d : TDev) : TDev × End :=
  match d.sb with
  | none => (d, .err)
  | some sb =>
    if sb.needs_check then
      if writable && w.sb then ({ d with sb := some { sb with needs_check := false } }, .ok) else (d, .err)
    else (d, .ok)

/-- one of the repairs, `src/thin/check.rs:1250-1272` -/
def repairStep (wr : Nat → Bool) (o : TOpts) (d : TDev) (leaks : List SMC.Leak) (exp : List Nat) : TDev × End :=
  if leaks.isEmpty then (d, .ok)
  else if o.repair || o.clear then
    match SMC.repair wr d.bm exp leaks with
    | none => (d, .err)
    | some bm => ({ d with bm }, if (List.range leaks.length).all wr then .ok else .err)
  else if o.ign then (d, .ok) else (d, .err)

/-- the end of `check`, `src/thin/check.rs:1247-1281` -/
def finish (w : Wr) (o : TOpts) (d : TDev) (dl ml : List SMC.Leak) (dexp mexp : List Nat) : TDev × End :=
  match repairStep w.data o d dl dexp with
  | (d, .ok) =>
    match repairStep w.metad o d ml mexp with
    | (d, .ok) => if o.repair || o.clear then clearFlag w true d else (d, .ok)
    | r => r
  | r => r

/-- the two space maps, `src/thin/check.rs:1205-1245` -/
def checkMaps (unpackRoot : Bytes → Option SMRoot) (w : Wr) (o : TOpts) (d : TDev) (sb : Thin.Superblock) (msm dsm : Sm) : TDev × End :=
  match unpackRoot sb.data_sm_root with
  | none => (d, .err)
  | some droot =>
    let dexp := (List.range dsm.nr).map dsm.cnt
    match SMC.checkDisk (fun b => decide (b < d.nr)) d.rdn d.bm (d.nr + 1) droot dexp msm.toW with
    | none => (d, .err)
    | some (dl, st) =>
      match unpackRoot sb.metadata_sm_root with
      | none => (d, .err)
      | some mroot =>
        match checkMetaSm d mroot st with
        | none => (d, .err)
        | some (ml, mexp) => finish w o d dl ml dexp mexp

/-- the superblock of the metadata snapshot, `src/thin/check.rs:1082-1086` -/
def snapOf (d : TDev) (sb : Thin.Superblock) : Option (Option Thin.Superblock) := if sb.metadata_snap > 0 then some (d.sbAt sb.metadata_snap) else none

/-- the devices of the metadata snapshot, `src/thin/check.rs:1152-1163` -/
def snapThins (d : TDev) (snap : Option (Option Thin.Superblock)) (thins : Thins) (msm : Sm) : Option (Thins × List Nat) × Sm :=
  match snap with
  | none => (some ([], []), msm)
  | some none => (none, msm)
  | some (some s) => thinsOfSnap d s thins msm

/-- the roots to check, `all_roots` -/
def allRoots (roots : List Nat) (t : Option (Thins × List Nat)) : List Nat := roots ++ (match t with | some t => t.2 | none => [])

/-- the mapping trees and what follows, `src/thin/check.rs:1173-1292`: `bot` is the result of the passes over the mapping trees -/
def checkBottom (unpackRoot : Bytes → Option SMRoot) (bot : List Nat → Sm → Sm → Sm × Sm × Option Sums) (w : Wr) (o : TOpts) (d : TDev) (sb : Thin.Superblock)
    (thins : Thins) (roots : List Nat) (ts : Option (Thins × List Nat) × Sm) : TDev × End :=
  match unpackRoot sb.data_sm_root with
  | none => (d, .err)
  | some droot =>
    if (unpackRoot sb.metadata_sm_root).isNone then (d, .err)
    else
      let b := bot (allRoots roots ts.1) ts.2 (createDataSm droot (if o.snap then 1 else (allRoots roots ts.1).length))
      match b.2.2 with
      | none => (d, .crash)
      | some m =>
        if !checkMapped m thins then (d, .err)
        else
          match ts.1 with
          | none => (d, .err)
          | some t =>
            if !checkMapped m t.1 then (d, .err)
            else if o.snap then (d, .ok)
            else checkMaps unpackRoot w o d sb b.1 b.2.1

/-- `check`, `src/thin/check.rs:1082-1292`, after the superblock was read -/
def checkSb (unpackRoot : Bytes → Option SMRoot) (bot : List Nat → Sm → Sm → Sm × Sm × Option Sums) (w : Wr) (o : TOpts) (d : TDev) (sb : Thin.Superblock) : TDev × End :=
  if o.snap && ((snapOf d sb).getD none).isNone then (d, .err)
  else if o.sbOnly then (if o.clear then clearFlag w true d else (d, .ok))
  else
    match (if o.snap then some (restricted d.nr) else createMetaSm d sb (snapOf d sb)) with
    | none => (d, .err)
    | some msm =>
      match incSb msm sb.metadata_snap with
      | none => (d, .err)
      | some msm =>
        match (if o.snap then (some ([], []), msm) else thinsOfSb d sb msm) with
        | (none, _) => (d, .err)
        | (some (thins, roots), msm) =>
          if o.skip then clearFlag w (o.repair || o.clear) d
          else checkBottom unpackRoot bot w o d sb thins roots (snapThins d (snapOf d sb) thins msm)

/-- `check`, `src/thin/check.rs:1061-1079` -/
def check (unpackRoot : Bytes → Option SMRoot) (bot : List Nat → Sm → Sm → Sm × Sm × Option Sums) (w : Wr) (o : TOpts) (d : TDev) : TDev × End :=
  if (o.repair || o.clear) && (o.snap || o.overMap.isSome || o.overDet.isSome) then (d, .err)
  else
    match d.sb with
    | none => (d, .err)
    | some sb => checkSb unpackRoot bot w o d { sb with mapping_root := o.overMap.getD sb.mapping_root, details_root := o.overDet.getD sb.details_root }

end Verif.TChk
