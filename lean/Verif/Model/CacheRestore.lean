import Verif.Model.ArrayBuilder
import Verif.Model.CacheIr
import Verif.Model.Superblock
import Verif.Model.SpaceMapDisk

/-!
# `cache_restore` (`src/cache/restore.rs`)

The array values are words (`Model/CacheIr.lean`), so that one device holds the three arrays.  `writeSm` is
`build_metadata_sm` (`src/cache/restore.rs:303-308`; `smWriter` is the model of what it is, the theorems on the round trip need less) and
`superblock write` is the last step; failing device writes are errors of `writeSm` or of the builders.
-/

namespace Verif.CacheM

open Verif.Arr (ASt AB AErr push completeArray divUp)

/-- `Section`, `src/cache/restore.rs:51-58` -/
inductive Section where
  | none
  | superblock
  | mappings
  | hints
  | finalized
  deriving DecidableEq, Repr

/-- errors: a call out of place, a failed push or write, a superblock that is not at its place, or a panic -/
inductive RErr where
  | section
  | occupied
  | panic
  | arr (e : AErr)
  deriving DecidableEq, Repr

/-- what the blocks of the metadata space map hold: nodes of its overflow tree, bitmaps, and the index block -/
structure SmImage where
  nodes : Nat → Option (BT.Blk SMD.SVal)
  bitmaps : Nat → Option (List BE)
  index : Nat → Option (List IndexEntry)

/-- nothing written -/
def SmImage.empty : SmImage := ⟨fun _ => none, fun _ => none, fun _ => none⟩

/-- parameters: entries per block for 8 and 4 byte values, node capacities of the index trees, the metadata version, and the
space map writer -/
structure Cfg where
  epb8 : Nat
  epb4 : Nat
  capL : Nat
  capI : Nat
  version : Nat
  writeSm : ASt Nat → Except RErr (Bytes × SmImage × ASt Nat)

/-- `Restorer`, `src/cache/restore.rs:60-74`, and the device; `out` is the superblock once written, `sm` the blocks of the
space map (a block of it is no longer a block of `dev`) -/
structure RSt where
  sb : Option SbIr
  mapB : Option (AB Nat)
  dirtyB : Option (AB Nat)
  hintB : Option (AB Nat)
  mapRoot : Option Nat
  dirtyRoot : Option Nat
  hintRoot : Option Nat
  discardRoot : Option Nat
  dirty : Nat × Nat
  sect : Section
  clean : Bool
  out : Option Cache.Superblock
  sm : SmImage
  dev : ASt Nat

/-- `Restorer::new`, `src/cache/restore.rs:77-93`, and `omit_clean_shutdown` (95-101) when `clean = false` -/
def RSt.new (dev : ASt Nat) (clean : Bool) : RSt :=
  { sb := none, mapB := none, dirtyB := none, hintB := none, mapRoot := none, dirtyRoot := none, hintRoot := none,
    discardRoot := none, dirty := (0, 0), sect := .none, clean, out := none, sm := .empty, dev }

/-- a push into a builder that is there -/
def pushInto (i v : Nat) (b : Option (AB Nat)) (dev : ASt Nat) : Except RErr (AB Nat × ASt Nat) :=
  match b with
  | none => .error .panic
  | some ab =>
    match push i v ab dev with
    | .error e => .error (.arr e)
    | .ok r => .ok r

/-- completing a builder that may be there, `src/cache/restore.rs:128-131,146-149` -/
def completeOpt (cfg : Cfg) (b : Option (AB Nat)) (old : Option Nat) (dev : ASt Nat) : Except RErr (Option Nat × ASt Nat) :=
  match b with
  | none => .ok (old, dev)
  | some ab =>
    match completeArray cfg.capL cfg.capI ab dev with
    | .error e => .error (.arr e)
    | .ok (root, dev) => .ok (some root, dev)

/-- `set_dirty`, `src/cache/restore.rs:103-119` -/
def setDirty (c : Nat) (s : RSt) : Except RErr RSt :=
  let index := c >>> 6
  let mask := (1 <<< (c &&& 63)) % 2 ^ 64
  if index = s.dirty.1 then .ok { s with dirty := (s.dirty.1, s.dirty.2 ||| mask) }
  else
    match pushInto s.dirty.1 s.dirty.2 s.dirtyB s.dev with
    | .error e => .error e
    | .ok (ab, dev) => .ok { s with dirtyB := some ab, dev, dirty := (index, mask) }

/-- the dirty array in `finalize`, `src/cache/restore.rs:133-144`: the buffered word goes first -/
def completeDirty (cfg : Cfg) (s : RSt) : Except RErr (Option Nat × ASt Nat) :=
  match s.dirtyB with
  | none => .ok (s.dirtyRoot, s.dev)
  | some ab =>
    match push s.dirty.1 s.dirty.2 ab s.dev with
    | .error e => .error (.arr e)
    | .ok (ab, dev) => completeOpt cfg (some ab) s.dirtyRoot dev

/-- the superblock of `src/cache/restore.rs:157-182`; `read_misses` is 9 in the code -/
def newSb (cfg : Cfg) (clean : Bool) (src : SbIr) (smRoot : Bytes) (mapRoot : Nat) (dirtyRoot : Option Nat) (hintRoot discardRoot : Nat) :
    Cache.Superblock :=
  { clean_shutdown := clean, needs_check := false, block := 0, version := cfg.version, policy_name := src.policy,
    policy_version := [2, 0, 0], policy_hint_size := src.hintWidth, metadata_sm_root := smRoot, mapping_root := mapRoot,
    dirty_root := dirtyRoot, hint_root := hintRoot, discard_root := discardRoot, discard_block_size := 0,
    discard_nr_blocks := 0, data_block_size := src.blockSize, cache_blocks := src.nrCacheBlocks, compat_flags := 0,
    compat_ro_flags := 0, incompat_flags := 0, read_hits := 0, read_misses := 9, write_hits := 0, write_misses := 0 }

/-- the device as the space map writer starts: no block holds a part of a space map -/
def smStart (dev : ASt Nat) : SMD.SSt := ⟨⟨fun _ => none, dev.bt.sm, [], dev.bt.allocs⟩, fun _ => none⟩

/-- the blocks that were written for the space map hold nothing else any more -/
def smOver (root : SMRoot) (S : SMD.SSt) (dev : ASt Nat) : ASt Nat :=
  let touched := fun b => (S.bt.mem b).isSome || (S.bm b).isSome || b == root.bitmap_root
  { bt := { dev.bt with mem := fun b => if touched b then none else dev.bt.mem b, sm := S.bt.sm, allocs := S.bt.allocs }
    arr := fun b => if touched b then none else dev.arr b }

/-- `build_metadata_sm`, `src/cache/restore.rs:303-308`; `SPACE_MAP_ROOT_SIZE` is 128 -/
def smWriter (epb : Nat) (dev : ASt Nat) : Except RErr (Bytes × SmImage × ASt Nat) :=
  match SMD.writeMetadataSm epb (smStart dev) with
  | .error e => .error (.arr (.io e))
  | .ok (root, ies, S) =>
    match packRoot root 128 with
    | none => .error .panic
    | some b => .ok (b, ⟨S.bt.mem, S.readBm, fun x => if x = root.bitmap_root then some ies else none⟩, smOver root S dev)

/-- `finalize`, `src/cache/restore.rs:121-187` -/
def finalize (cfg : Cfg) (s : RSt) : Except RErr RSt :=
  match s.sb with
  | none => .error .section
  | some src =>
    match completeOpt cfg s.mapB s.mapRoot s.dev with
    | .error e => .error e
    | .ok (mapRoot, dev) =>
      match completeDirty cfg { s with dev } with
      | .error e => .error e
      | .ok (dirtyRoot, dev) =>
        match completeOpt cfg s.hintB s.hintRoot dev with
        | .error e => .error e
        | .ok (hintRoot, dev) =>
          match cfg.writeSm dev with
          | .error e => .error e
          | .ok (smRoot, sm, dev) =>
            match mapRoot, hintRoot, s.discardRoot with
            | some m, some h, some dr =>
              .ok { s with sb := none, mapB := none, dirtyB := none, hintB := none, mapRoot := some m, dirtyRoot,
                           hintRoot := some h, sect := .finalized, sm, dev,
                           out := some (newSb cfg s.clean src smRoot m dirtyRoot h dr) }
            | _, _, _ => .error .panic

/-- `superblock_b`, `src/cache/restore.rs:191-213` -/
def superblockB (cfg : Cfg) (sb : SbIr) (s : RSt) : Except RErr RSt :=
  if s.sect ≠ .none then .error .section
  else
    match Bld.alloc s.dev.bt with
    | .error e => .error (.arr (.io e))
    | .ok (b, bt) =>
      if b ≠ 0 then .error .occupied
      else
        match completeArray cfg.capL cfg.capI (AB.new cfg.epb8 0) { s.dev with bt } with
        | .error e => .error (.arr e)
        | .ok (root, dev) =>
          .ok { s with sb := some sb, mapB := some (AB.new cfg.epb8 sb.nrCacheBlocks),
                       dirtyB := if cfg.version > 1 then some (AB.new cfg.epb8 (divUp sb.nrCacheBlocks 64)) else s.dirtyB,
                       hintB := some (AB.new cfg.epb4 sb.nrCacheBlocks), discardRoot := some root,
                       sect := .superblock, dev }

/-- `mapping`, `src/cache/restore.rs:236-254`: no check of the section -/
def mapping (cfg : Cfg) (c o : Nat) (dirty : Bool) (s : RSt) : Except RErr RSt :=
  let r := if dirty && cfg.version != 1 then setDirty c s else .ok s
  match r with
  | .error e => .error e
  | .ok s =>
    match pushInto c (mapWord ⟨o, if dirty && cfg.version == 1 then 3 else 1⟩) s.mapB s.dev with
    | .error e => .error e
    | .ok (ab, dev) => .ok { s with mapB := some ab, dev }

/-- `hint`, `src/cache/restore.rs:272-279`: `try_into` fails unless there are four bytes -/
def hint (c : Nat) (data : Bytes) (s : RSt) : Except RErr RSt :=
  if data.length ≠ 4 then .error .panic
  else
    match pushInto c (hintWord data) s.hintB s.dev with
    | .error e => .error e
    | .ok (ab, dev) => .ok { s with hintB := some ab, dev }

/-- one call, `src/cache/restore.rs:190-299` -/
def step (cfg : Cfg) (s : RSt) : Ev → Except RErr RSt
  | .superblockB sb => superblockB cfg sb s
  | .superblockE => finalize cfg s
  | .mappingsB => if s.sect = .superblock then .ok { s with sect := .mappings } else .error .section
  | .mappingsE => if s.sect = .mappings then .ok { s with sect := .superblock } else .error .section
  | .mapping c o d => mapping cfg c o d s
  | .hintsB => if s.sect = .superblock then .ok { s with sect := .hints } else .error .section
  | .hintsE => if s.sect = .hints then .ok { s with sect := .superblock } else .error .section
  | .hint c data => hint c data s
  | .discardsB => .ok s
  | .discardsE => .ok s
  | .discard _ _ => .ok s
  | .eof => if s.sect = .finalized then .ok s else .error .section

/-- `xml::read`, `src/cache/xml.rs:238-252`: call after call until the end or the first error -/
def run (cfg : Cfg) : List Ev → RSt → Except RErr RSt
  | [], s => .ok s
  | e :: es, s =>
    match step cfg s e with
    | .error err => .error err
    | .ok s => run cfg es s

/-- `restore`, `src/cache/restore.rs:312-331`, on a device whose space map is new -/
def restore (cfg : Cfg) (clean : Bool) (doc : List Ev) (dev : ASt Nat) : Except RErr RSt := run cfg doc (RSt.new dev clean)

end Verif.CacheM
