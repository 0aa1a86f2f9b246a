import Verif.Model.LeafWalker
import Verif.Model.Gatherer

/-!
# Dumping thin metadata (`src/thin/metadata.rs`, `src/thin/dump.rs`)

From the roots in the superblock to the event stream.  Blocks are read through `mem`, the parsed content of every metadata
block; the checks of the parser are those of `Model/Node.lean`.  Any error or panic is `none`.
-/

namespace Verif.TDump

open Verif.BT (Blk)
open Verif.Rst (Val Detail SbIR DevIR Ev)

/-- `Entry`, `src/thin/metadata.rs:20-24` -/
inductive MEntry where
  | leaf (b : Nat)
  | ref (id : Nat)
  deriving Repr, DecidableEq

/-- `Device`, `src/thin/metadata.rs:32-37` -/
structure Dev where
  id : Nat
  detail : Detail
  entries : List MEntry
  deriving Repr

/-- values of the mapping tree -/
def asRoot : Val → Option Nat
  | .root b => some b
  | _ => none

/-- values of the details tree -/
def asDetail : Val → Option Detail
  | .det d => some d
  | _ => none

/-- `devices_iter`, `src/thin/metadata.rs:155-167`: the two maps are put together by position, and the ids of the details ignored.
(In this model one type of values serves both trees, a wrong kind of value is an error.) -/
def devicesIter (mem : Nat → Option (Blk Val)) (nr mappingRoot detailsRoot : Nat) : Option (List (Nat × Nat × Detail)) := do
  let details ← LW.btreeToMap (fun _ b => mem b) nr detailsRoot
  let roots ← LW.btreeToMap (fun _ b => mem b) nr mappingRoot
  Gather.collect (fun p : (Nat × Val) × Val =>
    match asRoot p.1.2, asDetail p.2 with
    | some r, some d => some (p.1.1, r, d)
    | _, _ => none) (roots.zip (details.map (·.2)))

/-- `build_metadata_with_dev_`, `src/thin/metadata.rs:125-153`, and `collect_leaves` (97-114): the leaves of every root.
Simplification: a root used by several devices is walked for each of them, with the same result.  The leaf walker never calls
`visit_again`, so all entries are leaves. -/
def buildDevs (mem : Nat → Option (Blk Val)) (nr : Nat) (devices : List (Nat × Nat × Detail)) : Option (List Dev) :=
  Gather.collect (fun d : Nat × Nat × Detail => (LW.walk (fun _ b => mem b) nr d.2.1).map fun ls =>
    { id := d.1 % 2 ^ 32, detail := d.2.2, entries := ls.map fun l => .leaf l.2 }) devices

/-- `build_metadata_with_dev`, `src/thin/metadata.rs:169-205`: only the selected devices, if some are selected -/
def selectDevs (sel : Option (List Nat)) (devices : List (Nat × Nat × Detail)) : List (Nat × Nat × Detail) :=
  match sel with
  | none => devices
  | some ids => devices.filter fun d => ids.contains d.1

/-- what `gather_entries` (`src/thin/metadata.rs:245-257`) feeds to the gatherer; without references -/
def leafSeq (es : List MEntry) : List Nat := es.filterMap fun e =>
  match e with
  | .leaf b => some b
  | .ref _ => none

/-- `BTreeMap::get` on the runs by their first block, `src/thin/metadata.rs:266-270`; the heads of runs are different -/
def findRun (runs : List (List Nat × Bool)) (b : Nat) : Option (List Nat × Bool) := runs.find? fun r => r.1.head? == some b

/-- `entries_to_runs`, `src/thin/metadata.rs:275-303`; the first argument bounds the number of rounds (every round consumes an entry) -/
def entriesToRuns (runs : List (List Nat × Bool)) : Nat → List MEntry → List MEntry
  | 0, _ => []
  | _ + 1, [] => []
  | fuel + 1, .ref id :: es => .ref id :: entriesToRuns runs fuel es
  | fuel + 1, .leaf b :: es =>
    match findRun runs b with
    | none => .leaf b :: entriesToRuns runs fuel es
    | some (run, shared) =>
      (if shared then [.ref b] else run.map .leaf) ++ entriesToRuns runs fuel ((MEntry.leaf b :: es).drop run.length)

/-- `build_defs`, `src/thin/metadata.rs:305-320` -/
def buildDefs (runs : List (List Nat × Bool)) : List (Nat × List MEntry) :=
  runs.filterMap fun r =>
    match r.1.head? with
    | none => none
    | some h => if r.2 then some (h, r.1.map .leaf) else none

/-- `optimise_metadata`, `src/thin/metadata.rs:322-346`, with `build_runs` (259-273) -/
def optimise (nr : Nat) (devs : List Dev) : Option (List (Nat × List MEntry) × List Dev) :=
  match Gather.gatherAll nr (devs.map fun d => leafSeq d.entries) with
  | none => none
  | some runs => some (buildDefs runs, devs.map fun d => { d with entries := entriesToRuns runs d.entries.length d.entries })

/-- the entries of a leaf, `emit_leaf`, `src/thin/dump.rs:232-253` -/
def readLeaf (mem : Nat → Option (Blk Val)) (b : Nat) : Option (List Dump.Entry) :=
  match mem b with
  | some (.leaf es) => Gather.collect (fun e : Nat × Val =>
      match e.2 with
      | .bt d t => some ⟨e.1, d, t⟩
      | _ => none) es
  | _ => none

/-- `emit_leaves`, `src/thin/dump.rs:273-286`, and `read_for` (255-271).  The whole list is read before anything is written;
the code writes as it goes, which only matters if there is an error. -/
def emitLeaves (mem : Nat → Option (Blk Val)) (bs : List Nat) : Option (List (Ev Nat)) :=
  (Gather.collect (readLeaf mem) bs).map fun ls => (Dump.dumpDevice ls).map .map

/-- the test `if !leaves.is_empty()`, `src/thin/dump.rs:301,311` -/
def flush (mem : Nat → Option (Blk Val)) (buf : List Nat) : Option (List (Ev Nat)) :=
  if buf = [] then some [] else emitLeaves mem buf

/-- `emit_entries`, `src/thin/dump.rs:288-316`; `buf` are the collected leaves -/
def emitEntries (mem : Nat → Option (Blk Val)) : List Nat → List MEntry → Option (List (Ev Nat))
  | buf, [] => flush mem buf
  | buf, .leaf b :: es => emitEntries mem (buf ++ [b]) es
  | buf, .ref id :: es =>
    match flush mem buf, emitEntries mem [] es with
    | some a, some r => some (a ++ .ref id :: r)
    | _, _ => none

/-- `dump_metadata`, `src/thin/dump.rs:346-379`; names are the numbers that are formatted there -/
def dumpMetadata (mem : Nat → Option (Blk Val)) (sb : SbIR) (defs : List (Nat × List MEntry)) (devs : List Dev) : Option (List (Ev Nat)) := do
  let a ← Gather.collect (fun d : Nat × List MEntry => (emitEntries mem [] d.2).map fun es => .defB d.1 :: (es ++ [.defE])) defs
  let b ← Gather.collect (fun d : Dev => (emitEntries mem [] d.entries).map fun es => .devB ⟨d.id, d.detail⟩ :: (es ++ [.devE])) devs
  some (.sbB sb :: ((a.flatten ++ b.flatten) ++ [.sbE, .eof]))

/-- `dump_with_formatter`, `src/thin/dump.rs:383-431`, without repair and without `skip_mappings` -/
def dump (mem : Nat → Option (Blk Val)) (nr : Nat) (sb : SbIR) (mappingRoot detailsRoot : Nat) (sel : Option (List Nat)) :
    Option (List (Ev Nat)) := do
  let devices ← devicesIter mem nr mappingRoot detailsRoot
  let devs ← buildDevs mem nr (selectDevs sel devices)
  let md ← optimise nr devs
  dumpMetadata mem sb md.1 md.2

end Verif.TDump
