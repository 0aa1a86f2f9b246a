import Verif.Model.LeafWalker
import Verif.Model.ThinRestore
import Verif.Model.ThinDump

/-!
# `thin_delta` (`src/thin/delta.rs`, `src/thin/delta_visitor.rs`)

Block numbers are natural numbers: sums like `thin_begin + len` are at most `2^64` for real trees, and the only one that can wrap
(the run that ends with key `2^64 - 1`) is never followed by another key.  The output is a list of XML tags; errors of the output
stream are not modelled.
-/

namespace Verif.Delta

open Verif.BT (Blk Event WSt)
open Verif.Rst (Val)

/-- `DataMapping`, `src/thin/delta_visitor.rs:13-19` -/
structure DM where
  thin : Nat
  data : Nat
  len : Nat
  deriving DecidableEq, Repr

/-- `DiffMapping` and `Delta`, `src/thin/delta_visitor.rs:21-37` -/
inductive Delta where
  | leftOnly (m : DM)
  | rightOnly (m : DM)
  | differ (thin left right len : Nat)
  | same (m : DM)
  deriving DecidableEq, Repr

/-- `RunBuilder::next`, `src/thin/delta.rs:33-46`: the new state and what is returned -/
def next (run : Option DM) (thin data : Nat) : Option DM × Option DM :=
  match run with
  | some r => if r.thin + r.len = thin ∧ r.data + r.len = data then (some { r with len := r.len + 1 }, none) else (some ⟨thin, data, 1⟩, some r)
  | none => (some ⟨thin, data, 1⟩, none)

/-- `MappingRecorder`, `src/thin/delta.rs:62-108`: all the leaves that are shown to it, then `complete` -/
def record : Option DM → List (Nat × Nat) → List DM
  | run, [] => run.toList
  | run, (k, v) :: es =>
    let r := next run k v
    r.2.toList ++ record r.1 es

/-- the entries of a call of `visit` (`end_walk` has none) -/
def visited {V : Type} : Event V → List (Nat × V)
  | .visit _ _ es => es
  | _ => []

/-- what the visitor was shown, in order; `none` for a value of another kind -/
def shown (log : List (Event Val)) : Option (List (Nat × Nat)) :=
  Gather.collect (fun e : Nat × Val => match e.2 with | .bt b _ => some (e.1, b) | _ => none)
    (log.flatMap visited)

/-- `get_mappings`, `src/thin/delta.rs:113-122` -/
def getMappings (mem : Nat → Option (Blk Val)) (nr root : Nat) : Option (List DM) :=
  let r := BT.walk (fun b => decide (b < nr)) (fun _ b => mem b) (fun _ _ => true) (nr + 1) [] root (WSt.fresh nr 1 true)
  if r.2 = .ok then (shown r.1.log).map (record none) else none

/-- `MappingStream::consume`, `src/thin/delta.rs:145-162`, on the current mapping and those that follow -/
def consume (len : Nat) : List DM → Option (List DM)
  | [] => none
  | cur :: rest =>
    if len > cur.len then none
    else if len = cur.len then some rest
    else some (⟨cur.thin + len, cur.data + len, cur.len - len⟩ :: rest)

/-- the two loops at the end, `src/thin/delta.rs:221-233` -/
def drain (f : DM → Delta) : List DM → Option (List Delta)
  | [] => some []
  | m :: ms => (consume m.len (m :: ms)).bind fun _ => (drain f ms).map (f m :: ·)

/-- `dump_delta_mappings`, `src/thin/delta.rs:165-236`: the calls of the visitor.  The first argument bounds the number of rounds of the
loop (175-219), see `dumpDelta`. -/
def loop : Nat → List DM → List DM → Option (List Delta)
  | 0, _, _ => none
  | _ + 1, [], rs => drain .rightOnly rs
  | _ + 1, ls, [] => drain .leftOnly ls
  | fuel + 1, lm :: ls, rm :: rs =>
    if lm.thin < rm.thin then
      let len := min lm.len (rm.thin - lm.thin)
      (consume len (lm :: ls)).bind fun ls => (loop fuel ls (rm :: rs)).map (.leftOnly ⟨lm.thin, lm.data, len⟩ :: ·)
    else if rm.thin < lm.thin then
      let len := min rm.len (lm.thin - rm.thin)
      (consume len (rm :: rs)).bind fun rs => (loop fuel (lm :: ls) rs).map (.rightOnly ⟨rm.thin, rm.data, len⟩ :: ·)
    else if lm.data = rm.data then
      let len := min lm.len rm.len
      (consume len (lm :: ls)).bind fun ls => (consume len (rm :: rs)).bind fun rs => (loop fuel ls rs).map (.same ⟨lm.thin, lm.data, len⟩ :: ·)
    else
      let len := min lm.len rm.len
      (consume len (lm :: ls)).bind fun ls => (consume len (rm :: rs)).bind fun rs => (loop fuel ls rs).map (.differ lm.thin lm.data rm.data len :: ·)

/-- how much there is to do: every round of the loop takes blocks or a mapping off a stream -/
def size (l : List DM) : Nat := (l.map fun m => m.len + 1).sum

/-- `dump_delta_mappings`, `src/thin/delta.rs:165-236` -/
def dumpDelta (ls rs : List DM) : Option (List Delta) := loop (size ls + size rs + 1) ls rs

/-- `DeltaType`, `src/thin/delta_visitor.rs:189-195` -/
inductive Kind where
  | leftOnly
  | rightOnly
  | differ
  | same
  deriving DecidableEq, Repr

/-- the constructor -/
def Delta.kind : Delta → Kind
  | .leftOnly _ => .leftOnly
  | .rightOnly _ => .rightOnly
  | .differ .. => .differ
  | .same _ => .same

/-- `thin_begin` of whatever is in it -/
def Delta.thin : Delta → Nat
  | .leftOnly m => m.thin
  | .rightOnly m => m.thin
  | .differ t _ _ _ => t
  | .same m => m.thin

/-- `len` of whatever is in it -/
def Delta.len : Delta → Nat
  | .leftOnly m => m.len
  | .rightOnly m => m.len
  | .differ _ _ _ n => n
  | .same m => m.len

/-- `cur.len += r.len` -/
def Delta.grow (n : Nat) : Delta → Delta
  | .leftOnly m => .leftOnly { m with len := m.len + n }
  | .rightOnly m => .rightOnly { m with len := m.len + n }
  | .differ t l r k => .differ t l r (k + n)
  | .same m => .same { m with len := m.len + n }

/-- `DeltaRunBuilder::next`, `src/thin/delta_visitor.rs:63-102`; the four cases are alike.  Data blocks are not compared. -/
def nextDelta (run : Option Delta) (d : Delta) : Option Delta × Option Delta :=
  match run with
  | some cur => if cur.kind = d.kind ∧ d.thin = cur.thin + cur.len then (some (cur.grow d.len), none) else (some d, some cur)
  | none => (some d, none)

/-- all calls of `delta`, then `complete` in `diff_e`, `src/thin/delta_visitor.rs:171-184,305-321` -/
def mergeRuns : Option Delta → List Delta → List Delta
  | run, [] => run.toList
  | run, d :: ds =>
    let r := nextDelta run d
    r.2.toList ++ mergeRuns r.1 ds

/-- `Snap`, `src/thin/delta_visitor.rs:39-42` -/
inductive Snap where
  | dev (id : Nat)
  | root (b : Nat)
  deriving DecidableEq, Repr

/-- the XML tags -/
inductive Tag where
  | superblock
  | endSuperblock
  | diff (l r : Snap)
  | endDiff
  | run (k : Kind) (thin len : Nat)
  | opened (k : Kind)
  | closed (k : Kind)
  | range (thin data len : Nat)
  | diffRange (thin left right len : Nat)
  deriving DecidableEq, Repr

/-- `SimpleXmlWriter::write_delta`, `src/thin/delta_visitor.rs:124-152` -/
def simpleTag (d : Delta) : Tag := .run d.kind d.thin d.len

/-- `write_delta_range`, `write_diff_range`, `src/thin/delta_visitor.rs:248-265` -/
def verboseTag : Delta → Tag
  | .leftOnly m => .range m.thin m.data m.len
  | .rightOnly m => .range m.thin m.data m.len
  | .same m => .range m.thin m.data m.len
  | .differ t l r n => .diffRange t l r n

/-- `update_type_tag`, `src/thin/delta_visitor.rs:234-246` -/
def updateType (cur : Option Kind) (k : Kind) : List Tag :=
  match cur with
  | some c => if k ≠ c then [.closed c, .opened k] else []
  | none => [.opened k]

/-- `VerboseXmlWriter::write_delta` for all runs, `src/thin/delta_visitor.rs:267-286`, then the closing tag of `diff_e` (309-311) -/
def verboseTags : Option Kind → List Delta → List Tag
  | cur, [] => cur.toList.map .closed
  | cur, d :: ds => updateType cur d.kind ++ verboseTag d :: verboseTags (some d.kind) ds

/-- the root of a snapshot, `src/thin/delta.rs:248-253,256-261` -/
def snapRoot (roots : List (Nat × Val)) : Snap → Option Nat
  | .dev id => (roots.find? (·.1 = id)).bind fun e => TDump.asRoot e.2
  | .root b => some b

/-- `dump_diff`, `src/thin/delta.rs:238-283`; the attributes of the superblock are left out -/
def dumpDiff (mem : Nat → Option (Blk Val)) (nr mappingRoot : Nat) (verbose : Bool) (s1 s2 : Snap) : Option (List Tag) := do
  let roots ← LW.btreeToMap (fun _ b => mem b) nr mappingRoot
  let root1 ← snapRoot roots s1
  let m1 ← getMappings mem nr root1
  let root2 ← snapRoot roots s2
  let m2 ← getMappings mem nr root2
  let ds ← dumpDelta m1 m2
  let runs := mergeRuns none ds
  some ([.superblock, .diff s1 s2] ++ (if verbose then verboseTags none runs else runs.map simpleTag) ++ [.endDiff, .endSuperblock])

end Verif.Delta
