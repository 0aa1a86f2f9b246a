import Verif.Model.CacheRestore
import Verif.Model.EraRestore
import Verif.Model.EraCheck
import Verif.Model.Xml

/-!
# `era_restore` as a whole (`src/era/restore.rs`)

As in `Model/CacheRestore.lean` one device holds all arrays and the tree of writesets, whose values are numbers (`EraC.wsWord`).  The events
are those of `Model/Xml.lean`.
-/

namespace Verif.EraT

open Verif.Arr (ASt AB AErr pushList completeArray divUp)
open Verif.CacheM (RErr SmImage)
open Verif.Xml (EEv ESb)
open Verif.EraC (wsWord)

/-- `Section`, `src/era/restore.rs:50-56` -/
inductive Section where
  | none
  | superblock
  | writeset
  | eraArray
  | finalized
  deriving DecidableEq, Repr

/-- parameters: entries per array block for 8 and 4 byte values, capacities of the leaves of array trees, of internal nodes, and of the leaves of
the tree of writesets, and the space map writer (`build_metadata_sm`, `src/era/restore.rs:277-282`) -/
structure Cfg where
  epb8 : Nat
  epb4 : Nat
  capL : Nat
  capI : Nat
  capW : Nat
  writeSm : ASt Nat → Except RErr (Bytes × SmImage × ASt Nat)

/-- `Restorer`, `src/era/restore.rs:58-68`, and the device; `out` is the superblock once written, `sm` the blocks of the space map -/
structure RSt where
  sb : Option ESb
  sets : List (Nat × Nat)
  wsB : Option (AB Nat)
  cur : Option (Nat × Nat)
  eraB : Option (AB Nat)
  buf : Nat
  ei : Nat
  sect : Section
  out : Option Era.Superblock
  sm : SmImage
  dev : ASt Nat

/-- `Restorer::new`, `src/era/restore.rs:71-83` -/
def RSt.new (dev : ASt Nat) : RSt :=
  { sb := none, sets := [], wsB := none, cur := none, eraB := none, buf := 0, ei := 0, sect := .none, out := none, sm := .empty, dev }

/-- pushes into a builder that is there -/
def pushAll (qs : List (Nat × Nat)) (b : Option (AB Nat)) (dev : ASt Nat) : Except RErr (AB Nat × ASt Nat) :=
  match b with
  | none => .error .panic
  | some ab =>
    match pushList qs ab dev with
    | .error e => .error (.arr e)
    | .ok r => .ok r

/-- `ArrayBuilder::complete` -/
def complete (cfg : Cfg) (ab : AB Nat) (dev : ASt Nat) : Except RErr (Nat × ASt Nat) :=
  match completeArray cfg.capL cfg.capI ab dev with
  | .error e => .error (.arr e)
  | .ok r => .ok r

/-- the tree of writesets, `src/era/restore.rs:92-99` -/
def buildSets (cfg : Cfg) (sets : List (Nat × Nat)) (dev : ASt Nat) : Except RErr (Nat × ASt Nat) :=
  match Bld.build (Bld.leafIO (fun _ => []) (fun _ _ => true)) cfg.capW cfg.capI (sets.map fun e => .val e.1 e.2) dev.bt with
  | .error e => .error (.arr (.io e))
  | .ok (root, bt) => .ok (root, { dev with bt })

/-- the superblock of `src/era/restore.rs:111-127` -/
def newSb (src : ESb) (smRoot : Bytes) (tree eras : Nat) : Era.Superblock :=
  { clean_shutdown := true, block := 0, version := 1, metadata_sm_root := smRoot, data_block_size := src.blockSize, nr_blocks := src.nrBlocks,
    current_era := src.currentEra, current_writeset := ⟨src.nrBlocks, 0⟩, writeset_tree_root := tree, era_array_root := eras, metadata_snap := 0 }

/-- the state after `finalize` -/
def finished (s : RSt) (sm : SmImage) (dev : ASt Nat) (sb : Era.Superblock) : RSt :=
  { s with sb := none, sets := [], eraB := none, sect := .finalized, sm, dev, out := some sb }

/-- `finalize`, `src/era/restore.rs:85-132` -/
def finalize (cfg : Cfg) (s : RSt) : Except RErr RSt :=
  match s.sb with
  | none => .error .section
  | some src =>
    match buildSets cfg s.sets s.dev with
    | .error e => .error e
    | .ok (tree, dev) =>
      match s.eraB with
      | none => .error .section
      | some ab =>
        match complete cfg ab dev with
        | .error e => .error e
        | .ok (eras, dev) =>
          match cfg.writeSm dev with
          | .error e => .error e
          | .ok (smRoot, sm, dev) => .ok (finished s sm dev (newSb src smRoot tree eras))

/-- the state after `superblock_b` -/
def begun (cfg : Cfg) (sb : ESb) (s : RSt) (bt : Bld.St Nat) : RSt :=
  { s with sb := some sb, wsB := none, eraB := some (AB.new cfg.epb4 sb.nrBlocks), sect := .superblock, dev := { s.dev with bt } }

/-- `superblock_b`, `src/era/restore.rs:137-153` -/
def superblockB (cfg : Cfg) (sb : ESb) (s : RSt) : Except RErr RSt :=
  if s.sect ≠ .none then .error .section
  else
    match Bld.alloc s.dev.bt with
    | .error e => .error (.arr (.io e))
    | .ok (b, bt) => if b ≠ 0 then .error .occupied else .ok (begun cfg sb s bt)

/-- `writeset_b`, `src/era/restore.rs:160-170` -/
def writesetB (cfg : Cfg) (era nrBits : Nat) (s : RSt) : Except RErr RSt :=
  if s.sect ≠ .superblock then .error .section
  else .ok { s with wsB := some (AB.new cfg.epb8 (divUp nrBits 64)), ei := 0, buf := 0, cur := some (era, nrBits), sect := .writeset }

/-- the state after `writeset_e` -/
def closed (s : RSt) (era nrBits root : Nat) (dev : ASt Nat) : RSt :=
  { s with wsB := none, cur := none, sets := Rst.insertId era (wsWord nrBits root) s.sets, sect := .superblock, dev }

/-- `writeset_e`, `src/era/restore.rs:172-199` -/
def writesetE (cfg : Cfg) (s : RSt) : Except RErr RSt :=
  if s.sect ≠ .writeset then .error .section
  else
    match s.wsB, s.cur with
    | some ab, some ws =>
      match pushAll [(s.ei, s.buf)] (some ab) s.dev with
      | .error e => .error e
      | .ok (ab, dev) =>
        match complete cfg ab dev with
        | .error e => .error e
        | .ok (root, dev) => .ok (closed s ws.1 ws.2 root dev)
    | _, _ => .error .section

/-- `writeset_blocks`, `src/era/restore.rs:201-243`: no check of the section; the pushes are those of `EraR.blocksW` -/
def writesetBlocks (b len : Nat) (s : RSt) : Except RErr RSt :=
  let t := EraR.blocksW ⟨s.ei, s.buf, []⟩ (b, len)
  match pushAll t.pushes s.wsB s.dev with
  | .error e => .error e
  | .ok (ab, dev) => .ok { s with wsB := some ab, ei := t.ei, buf := t.buf, dev }

/-- `era`, `src/era/restore.rs:261-265`: no check of the section -/
def era (block e : Nat) (s : RSt) : Except RErr RSt :=
  match pushAll [(block, e)] s.eraB s.dev with
  | .error err => .error err
  | .ok (ab, dev) => .ok { s with eraB := some ab, dev }

/-- one call, `src/era/restore.rs:136-273` -/
def step (cfg : Cfg) (s : RSt) : EEv → Except RErr RSt
  | .sbB sb => superblockB cfg sb s
  | .sbE => finalize cfg s
  | .wsB e n => writesetB cfg e n s
  | .wsE => writesetE cfg s
  | .blocks b len => writesetBlocks b len s
  | .eraB => if s.sect = .superblock then .ok { s with sect := .eraArray } else .error .section
  | .eraE => if s.sect = .eraArray then .ok { s with sect := .superblock } else .error .section
  | .era b e => era b e s
  | .eof => if s.sect = .finalized then .ok s else .error .section

/-- `xml::read`, `src/era/xml.rs:300-313`: call after call until the end or the first error -/
def run (cfg : Cfg) : List EEv → RSt → Except RErr RSt
  | [], s => .ok s
  | e :: es, s =>
    match step cfg s e with
    | .error err => .error err
    | .ok s => run cfg es s

/-- `restore`, `src/era/restore.rs:286-301`, on a device whose space map is new -/
def restore (cfg : Cfg) (doc : List EEv) (dev : ASt Nat) : Except RErr RSt := run cfg doc (RSt.new dev)

end Verif.EraT
