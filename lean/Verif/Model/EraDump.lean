import Verif.Model.CacheDump
import Verif.Model.BitScan
import Verif.Model.EraLogical
import Verif.Model.EraTool

/-!
# `era_dump` and `era_repair` (`src/era/dump.rs`, `src/era/repair.rs`)

The device is the `EDev` of `Model/EraCheck.lean`, the events are those of `Model/Xml.lean`.  An output that fails and what is output before an
error are not modelled.  The option `repair` is handed to the walkers as `ignore_non_fatal`, where it makes node checks less strict: it is part of
`EDev` (what can be read), not of the functions here.
-/

namespace Verif.EraD

open Verif.Bits (ABlock readBitset)
open Verif.CacheM (Dev DErr walkIndex leavesOf collectBlocks walkBlocks cblocks)
open Verif.EraC (EDev wsWord wsBits wsRoot)
open Verif.Xml (EEv ESb)

/-- `read_bitset` (`src/pdata/bitset.rs:169-179`) of a writeset: the 32-bit words -/
def readSet (d : Dev) (w : Nat) : Option (List Nat) :=
  let r := walkIndex d (wsRoot w)
  let bits := readBitset d.words (wsBits w) (leavesOf r.1.log)
  if r.2 = .ok then bits else none

/-- `dump_writeset`, `src/era/dump.rs:225-297`; the scan of the words always ends (C36), `panic` stands for it not ending -/
def dumpWriteset (d : Dev) (era w : Nat) : Except DErr (List EEv) :=
  match readSet d w with
  | none => .error .err
  | some words =>
    match Scan.markedRanges 32 (wsBits w) words with
    | none => .error .panic
    | some rs => .ok (.wsB era (wsBits w) :: (rs.map (fun r => .blocks r.1 r.2) ++ [.wsE]))

/-- the loop over the writesets, `src/era/dump.rs:328-330` -/
def dumpWritesets (d : Dev) : List (Nat × Nat) → Except DErr (List EEv)
  | [] => .ok []
  | e :: l =>
    match dumpWriteset d e.1 e.2 with
    | .error x => .error x
    | .ok evs =>
      match dumpWritesets d l with
      | .error x => .error x
      | .ok evs' => .ok (evs ++ evs')

/-- `EraEmitter::visit`, `src/era/dump.rs:36-48` -/
def visitEras (index : Nat) (b : ABlock) : Except DErr (List EEv) :=
  .ok ((b.values.zip (cblocks index b.maxEntries b.values.length)).map fun p => .era p.2 p.1)

/-- `LogicalEraEmitter::visit`, `src/era/dump.rs:130-151` -/
def visitLogical (a : EraL.Archive) (index : Nat) (b : ABlock) : Except DErr (List EEv) :=
  .ok ((b.values.zip (cblocks index b.maxEntries b.values.length)).map fun p =>
    match a.get p.2 with
    | some e => .era p.2 e
    | none => .era p.2 p.1)

/-- `dump_eras` and `dump_eras_logical`, `src/era/dump.rs:299-308,414-424` -/
def dumpEras (d : Dev) (visit : Nat → ABlock → Except DErr (List EEv)) (root : Nat) : Except DErr (List EEv) :=
  match collectBlocks d root with
  | .error e => .error e
  | .ok bs => walkBlocks d.hints visit bs

/-- the current writeset, if there is one, `src/era/dump.rs:352,358` -/
def currentSet (sb : Era.Superblock) : Option Nat :=
  if sb.current_writeset.root ≠ 0 then some (wsWord sb.current_writeset.nr_bits sb.current_writeset.root) else none

/-- `get_writesets_ordered`, `src/era/dump.rs:343-376` -/
def writesets (d : EDev) (sb : Era.Superblock) : Option (List (Nat × Nat)) :=
  match LW.btreeToMap d.wsRd d.dev.nr sb.writeset_tree_root with
  | none => none
  | some tree => EraL.ordered tree sb.current_era (currentSet sb)

/-- `src/era/dump.rs:318-323,434-439` -/
def xmlSb (sb : Era.Superblock) : ESb := ⟨[], sb.data_block_size, sb.nr_blocks, sb.current_era⟩

/-- `dump_metadata`, `src/era/dump.rs:310-341` -/
def dumpMetadata (d : EDev) (sb : Era.Superblock) : Except DErr (List EEv) :=
  match writesets d sb with
  | none => .error .err
  | some sets =>
    match dumpWritesets d.dev sets with
    | .error e => .error e
    | .ok ws =>
      match dumpEras d.dev visitEras sb.era_array_root with
      | .error e => .error e
      | .ok es => .ok (.sbB (xmlSb sb) :: (ws ++ (.eraB :: (es ++ [.eraE, .sbE, .eof]))))

/-- `dump_metadata_logical`, `src/era/dump.rs:426-450`; a failed collation is an error or a panic, here an error -/
def dumpMetadataLogical (d : EDev) (sb : Era.Superblock) : Except DErr (List EEv) :=
  match writesets d sb with
  | none => .error .err
  | some sets =>
    match EraL.collate (readSet d.dev) sb.nr_blocks sets with
    | none => .error .err
    | some a =>
      match dumpEras d.dev (visitLogical a) sb.era_array_root with
      | .error e => .error e
      | .ok es => .ok (.sbB (xmlSb sb) :: .eraB :: (es ++ [.eraE, .sbE, .eof]))

/-- `dump`, `src/era/dump.rs:455-475`: the calls of the output -/
def dump (logical : Bool) (d : EDev) : Except DErr (List EEv) :=
  match d.sb with
  | none => .error .err
  | some sb =>
    match writesets d sb with
    | none => .error .err
    | some sets => if logical && !sets.isEmpty then dumpMetadataLogical d sb else dumpMetadata d sb

/-- why a repair stops: the dump or the restore -/
inductive PErr where
  | dump (e : DErr)
  | restore (e : CacheM.RErr)

/-- `repair`, `src/era/repair.rs:46-57`: the calls of the dump go to a restorer on the output device, as they are (`src/era/dump.rs` hands over
whole ranges; only the XML writer of `era_dump` breaks them up).  Here all calls are made at the end: if the repair succeeds, that is the same. -/
def repair (cfg : EraT.Cfg) (d : EDev) (out : Arr.ASt Nat) : Except PErr EraT.RSt :=
  match d.sb with
  | none => .error (.dump .err)
  | some sb =>
    match dumpMetadata d sb with
    | .error e => .error (.dump e)
    | .ok evs =>
      match EraT.restore cfg evs out with
      | .error e => .error (.restore e)
      | .ok r => .ok r

end Verif.EraD
