import Verif.Model.Builder
import Verif.Model.DumpRuns

/-!
# Restoring thin metadata (`src/thin/restore.rs`)

The consumer of the event stream that `src/thin/xml.rs` (or a dump that is restored directly, as in `thin_repair`) produces.
Metadata blocks, their space map and the B-tree builder are those of `Model/Builder.lean`; the reference counts of the data
space map are the log of that model.  `N` is the type of names of shared sub trees.
-/

namespace Verif.Rst

open Verif.Bld (St NB Summary NIO Item leafIO)
open Verif.Dump (Run)

/-- `DeviceDetail`, `src/thin/device_detail.rs:11-16` -/
structure Detail where
  mapped : Nat
  transaction : Nat
  creation : Nat
  snap : Nat
  deriving Repr, DecidableEq

/-- the three kinds of values stored by a restore: mappings, device details, roots of mapping trees -/
inductive Val where
  | bt (block time : Nat)
  | det (d : Detail)
  | root (b : Nat)
  deriving Repr, DecidableEq

/-- `MappingRC` (`src/thin/restore.rs:27-42`) counts data blocks, `NoopRC` nothing -/
def refs : Val → List Nat
  | .bt b _ => [b]
  | _ => []

/-- whether the count of a value may be increased: the block exists and its count is below the limit, `u32::MAX`
(`src/thin/restore.rs:35-37,238`) -/
def rcOk (nrData : Nat) (log : List Nat) : Val → Bool
  | .bt b _ => decide (b < nrData) && decide (log.count b < 2 ^ 32 - 1)
  | _ => true

/-- `LeafIO` with the reference counter of the restore -/
def io (nrData : Nat) : NIO Val Val := leafIO refs (rcOk nrData)

/-- `ir::Superblock`, `src/thin/ir.rs:6-15`, as far as a restore uses it -/
structure SbIR where
  time : Nat
  transaction : Nat
  blockSize : Nat
  nrData : Nat
  deriving Repr, DecidableEq

/-- `ir::Device`, `src/thin/ir.rs:17-24` -/
structure DevIR where
  id : Nat
  detail : Detail
  deriving Repr, DecidableEq

/-- the calls of `MetadataVisitor`, `src/thin/ir.rs:42-58` -/
inductive Ev (N : Type) where
  | sbB (sb : SbIR)
  | sbE
  | defB (name : N)
  | defE
  | devB (d : DevIR)
  | devE
  | map (r : Run)
  | ref (name : N)
  | eof
  deriving Repr

/-- `src/thin/restore.rs:62-69` -/
inductive Sec where
  | none | superblock | device | def | finalized
  deriving Repr, DecidableEq

/-- `src/thin/restore.rs:46-49` -/
inductive MS (N : Type) where
  | def (name : N)
  | dev (id : Nat)
  deriving Repr

/-- what is written to the superblock, `src/thin/restore.rs:205-220` -/
structure SbOut where
  time : Nat
  transaction : Nat
  blockSize : Nat
  mappingRoot : Nat
  detailsRoot : Nat
  deriving Repr, DecidableEq

/-- `Restorer`, `src/thin/restore.rs:71-87`; `nrData` is the size of the data space map, `out` the superblock once written.
Overrides are not modelled. -/
structure R (N : Type) where
  st : St Val
  subs : List (N × List Summary)
  cur : Option (MS N × NB Val)
  dev : Option Detail
  sb : Option SbIR
  nrData : Nat
  devices : List (Nat × (Detail × Nat))
  sec : Sec
  out : Option SbOut

/-- `src/thin/restore.rs:90-103` -/
def R.new (N : Type) (st : St Val) : R N where
  st := st
  subs := []
  cur := none
  dev := none
  sb := none
  nrData := 0
  devices := []
  sec := .none
  out := none

/-- errors of the restorer itself, and of the builder -/
inductive RErr where
  | ctl
  | bld (e : Bld.Err)
  deriving Repr, DecidableEq

/-- errors of the builder end the restore -/
def lift {α : Type} : Except Bld.Err α → Except RErr α
  | .ok a => .ok a
  | .error e => .error (.bld e)

/-- capacities of leaves: `calc_max_entries` for values of 8, 24 and 8 bytes; of internal nodes -/
def capBt : Nat := 252
/-- see `capBt`; a device detail has 24 bytes -/
def capDet : Nat := 126
/-- see `capBt` -/
def capI : Nat := 252

/-- `BTreeMap::insert` (an existing key keeps its place, and gets the new value).  Simplification: names are kept in order
of insertion; only `release_subtrees` iterates over them. -/
def insertName {N α : Type} [DecidableEq N] (k : N) (v : α) : List (N × α) → List (N × α)
  | [] => [(k, v)]
  | p :: l => if p.1 = k then (k, v) :: l else p :: insertName k v l

/-- `BTreeMap::insert`, ordered by device id -/
def insertId {α : Type} (k : Nat) (v : α) : List (Nat × α) → List (Nat × α)
  | [] => [(k, v)]
  | p :: l => if k < p.1 then (k, v) :: p :: l else if k = p.1 then (k, v) :: l else p :: insertId k v l

/-- `BTreeMap::get` -/
def lookupName {N α : Type} [DecidableEq N] (k : N) (l : List (N × α)) : Option α := (l.find? (fun p => decide (p.1 = k))).map (·.2)

section
variable {N : Type} [DecidableEq N]

/-- `begin_section`, `src/thin/restore.rs:124-141` -/
def beginSection (sh : Bool) (m : MS N) (r : R N) : Except RErr (R N) :=
  match r.cur with
  | some _ => .error .ctl
  | none => .ok { r with cur := some (m, NB.new capBt sh) }

/-- `end_section`, `src/thin/restore.rs:143-153` -/
def endSection (r : R N) : Except RErr (MS N × List Summary × R N) :=
  match r.cur with
  | none => .error .ctl
  | some (m, nb) => do
    let c ← lift (Bld.complete (io r.nrData) nb r.st)
    .ok (m, c.1, { r with cur := none, st := c.2 })

/-- `build_device_details`, `src/thin/restore.rs:156-168`.  Simplification: the two trees are built one after the other; the
code pushes to both in one loop, which only affects which free blocks they get. -/
def buildDetails (r : R N) : Except RErr (Nat × Nat × R N) := do
  let d ← lift (Bld.build (io r.nrData) capDet capI (r.devices.map fun p => Item.val p.1 (.det p.2.1)) r.st)
  let m ← lift (Bld.build (io r.nrData) capBt capI (r.devices.map fun p => Item.val p.1 (.root p.2.2)) d.2)
  .ok (d.1, m.1, { r with st := m.2 })

/-- `finalize`, `src/thin/restore.rs:185-224` with `release_subtrees` (173-183); the space maps, which are written next
(196-202), are not part of this model. -/
def finalize (r : R N) : Except RErr (R N) :=
  match r.sb with
  | none => .error .ctl
  | some sb => do
    let b ← buildDetails { r with sb := none }
    let st ← lift (Bld.releaseLeaves (io b.2.2.nrData) (b.2.2.subs.flatMap (·.2)) b.2.2.st)
    .ok { b.2.2 with st := st, sec := .finalized, out := some ⟨sb.time, sb.transaction, sb.blockSize, b.2.1, b.1⟩ }

/-- the pushes of one `map` call, `src/thin/restore.rs:304-310`; `i` counts from `from'` -/
def pushRun (nrData : Nat) (r : Run) : Nat → Nat → NB Val → St Val → Except Bld.Err (NB Val × St Val)
  | 0, _, nb, s => .ok (nb, s)
  | n + 1, i, nb, s => do
    let x ← Bld.pushValue (io nrData) (r.thin + i) (.bt (r.data + i) r.time) nb s
    pushRun nrData r n (i + 1) x.1 x.2

/-- `src/thin/restore.rs:228-348` -/
def step (e : Ev N) (r : R N) : Except RErr (R N) :=
  match e with
  | .sbB sb =>
    if r.sec ≠ .none then .error .ctl
    else if ¬ (128 ≤ sb.blockSize ∧ sb.blockSize ≤ 2097152) ∨ sb.blockSize % 128 ≠ 0 then .error .ctl
    else do
      let a ← lift (Bld.alloc r.st)
      if a.1 ≠ 0 then .error .ctl
      else .ok { r with sb := some sb, nrData := sb.nrData, st := a.2, sec := .superblock }
  | .sbE => finalize r
  | .defB name => if r.sec ≠ .superblock then .error .ctl else beginSection true (.def name) { r with sec := .def }
  | .defE => do
    let x ← endSection r
    match x.1 with
    | .def name => .ok { x.2.2 with subs := insertName name x.2.1 x.2.2.subs, sec := .superblock }
    | .dev _ => .error .ctl
  | .devB d => if r.sec ≠ .superblock then .error .ctl else beginSection false (.dev d.id) { r with dev := some d.detail, sec := .device }
  | .devE =>
    match r.dev with
    | none => .error .ctl
    | some det => do
      let x ← endSection { r with dev := none }
      match x.1 with
      | .def _ => .error .ctl
      | .dev id => do
        let t ← lift (Bld.buildTree capI x.2.1 x.2.2.st)
        .ok { x.2.2 with devices := insertId id (det, t.1) x.2.2.devices, st := t.2, sec := .superblock }
  | .map run =>
    match r.cur with
    | none => .error .ctl
    | some (m, nb) => do
      let x ← lift (pushRun r.nrData run run.len 0 nb r.st)
      .ok { r with cur := some (m, x.1), st := x.2 }
  | .ref name =>
    match r.dev with
    | none => .error .ctl
    | some _ =>
      match lookupName name r.subs with
      | none => .error .ctl
      | some leaves =>
        match r.cur with
        | none => .error .ctl
        | some (m, nb) =>
          match leaves with
          | [] => .error (.bld .panic)
          | n :: ns => do
            let x ← lift (Bld.pushNodes (io r.nrData) n ns nb r.st)
            .ok { r with cur := some (m, x.1), st := x.2 }
  | .eof => if r.sec ≠ .finalized then .error .ctl else .ok r

/-- the loop of `src/thin/xml.rs:315-319`: events until the end of the input, the first error ends the restore -/
def run : List (Ev N) → R N → Except RErr (R N)
  | [], r => .ok r
  | e :: es, r => do
    let r ← step e r
    run es r

end

end Verif.Rst
