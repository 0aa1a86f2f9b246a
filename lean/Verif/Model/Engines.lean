import Verif.Model.Gaps
import Verif.Model.BlockIo
import Verif.Model.Batcher
import Verif.Model.PackTop

/-!
# The I/O engines (`src/io_engine/{async_,core,spindle,sync}.rs`, `src/run_iter.rs`)

Blocks are 4096 bytes.  Contents are of any type `β` where the engine does not look at them.
-/

namespace Verif.Eng

variable {β : Type}

/-! ## The asynchronous engine -/

/-- how io_uring completes a request: an error, or a number of bytes -/
inductive Compl where
  | err
  | done (n : Nat)
  deriving Repr, DecidableEq

/-- what is asked of the ring -/
inductive Op where
  | read
  | write
  deriving Repr, DecidableEq

/-- A request: `read_at` or `write_at`, the number of the caller's buffer, and the block at whose offset it is (`loc * BLOCK_SIZE`). -/
structure Req where
  op : Op
  buf : Nat
  loc : Nat
  deriving Repr, DecidableEq

/-- the device, and the caller's buffers -/
structure Ring (β : Type) where
  dev : Nat → β
  bufs : List β

/-- One request carried out by the kernel.  `ans` says how the request of each buffer ends; a transfer that is not of a whole block leaves
anything behind, `junk`. -/
def exec (ans : Nat → Compl) (junk : Nat → Option β) (s : Ring β) (r : Req) : Ring β :=
  match r.op with
  | .read =>
    match (if ans r.buf = .done 4096 then some (s.dev r.loc) else junk r.buf) with
    | some x => { s with bufs := s.bufs.set r.buf x }
    | none => s
  | .write =>
    match (if ans r.buf = .done 4096 then s.bufs[r.buf]? else junk r.buf) with
    | some x => { s with dev := fun b => if b = r.loc then x else s.dev b }
    | none => s

/-- the requests carried out in the order the kernel picks -/
def execAll (ans : Nat → Compl) (junk : Nat → Option β) (s : Ring β) (order : List Req) : Ring β :=
  order.foldl (exec ans junk) s

/-- the loop that submits one request for every block: `src/io_engine/async_.rs:90-94` (reads), `:140-144` (writes) -/
def submit (op : Op) (locs : List Nat) : List Req := locs.mapIdx fun i l => ⟨op, i, l⟩

/-- the indices whose completion is no success, `src/io_engine/async_.rs:96-109,146-158` -/
def errs (ans : Nat → Compl) (n : Nat) : List Nat := (List.range n).filter fun i => ans i ≠ .done 4096

/-- `AsyncIoEngine::read`, `src/io_engine/async_.rs:71-83`; `b` is the uninitialised content of the new block -/
def asyncRead (ans : Compl) (junk : Option β) (dev : Nat → β) (b : β) (loc : Nat) : Option β :=
  let s := exec (fun _ => ans) (fun _ => junk) ⟨dev, [b]⟩ ⟨.read, 0, loc⟩
  if ans = .done 4096 then s.bufs[0]? else none

/-- `AsyncIoEngine::read_many`, `src/io_engine/async_.rs:85-123`.  `order`: the requests in the order the kernel carried them out, some
permutation of `submit .read locs`. -/
def asyncReadMany (ans : Nat → Compl) (junk : Nat → Option β) (order : List Req) (dev : Nat → β) (fresh : List β) : List (Option β) :=
  let s := execAll ans junk ⟨dev, fresh⟩ order
  s.bufs.mapIdx fun i b => if i ∈ errs ans s.bufs.length then none else some b

/-- `AsyncIoEngine::write`, `src/io_engine/async_.rs:125-135`: the device and whether success is reported -/
def asyncWrite (ans : Compl) (junk : Option β) (dev : Nat → β) (loc : Nat) (b : β) : (Nat → β) × Bool :=
  let s := exec (fun _ => ans) (fun _ => junk) ⟨dev, [b]⟩ ⟨.write, 0, loc⟩
  (s.dev, ans = .done 4096)

/-- which request `AsyncIoEngine::write_many` submits: `src/io_engine/async_.rs:142` says `read_at` -/
def writeManyOp : Op := .read

/-- what `AsyncIoEngine::write_many` submits, `src/io_engine/async_.rs:140-144` -/
def writeManyReqs (blocks : List (Nat × β)) : List Req := submit writeManyOp (blocks.map (·.1))

/-- `AsyncIoEngine::write_many`, `src/io_engine/async_.rs:137-172`: device and buffers afterwards, and the results.  `order` is some
permutation of `writeManyReqs blocks`. -/
def asyncWriteMany (ans : Nat → Compl) (junk : Nat → Option β) (order : List Req) (dev : Nat → β) (blocks : List (Nat × β)) : Ring β × List Bool :=
  (execAll ans junk ⟨dev, blocks.map (·.2)⟩ order,
    (List.range blocks.length).map fun i => if i ∈ errs ans blocks.length then false else true)

/-! ## The synchronous engine -/

/-- the loop of `write_many_`, `src/io_engine/sync.rs:174-199`.  `ans k` is what the device answers in the `k`-th batch; `none` is a panic or no end. -/
def syncWriteGo (ans : Nat → Nat → Nat → Bio.WAns β) : Nat → List (Nat × Nat) → List β → (Nat → β) → Option ((Nat → β) × List Bool)
  | _, [], _, store => some (store, [])
  | k, (b, n) :: runs, bufs, store =>
    match Bio.writeBlocks 4096 (ans k) (b * 4096) (bufs.take n) store with
    | none => none
    | some r =>
      match syncWriteGo ans (k + 1) runs (bufs.drop n) r.1 with
      | none => none
      | some q => some (q.1, r.2 ++ q.2)

/-- `SyncIoEngine::write_many`, `src/io_engine/sync.rs:163-202,232-234`; the limit is `UIO_MAXIOV` -/
def syncWriteMany (maxIov : Nat) (ans : Nat → Nat → Nat → Bio.WAns β) (blocks : List (Nat × β)) (store : Nat → β) : Option ((Nat → β) × List Bool) :=
  syncWriteGo ans 0 (Gaps.findRunsNogap maxIov (blocks.map (·.1))) (blocks.map (·.2)) store

/-! ## The engine in memory -/

/-- `CoreIoEngine::read`, `src/io_engine/core.rs:55-70` -/
def coreRead (d : Batch.Disk β) (b : Nat) : Option β := if b ≥ d.nr then none else some (d.data b)

/-- `CoreIoEngine::read_many`, `src/io_engine/core.rs:72-78` -/
def coreReadMany (d : Batch.Disk β) (bs : List Nat) : List (Option β) := bs.map (coreRead d)

/-- `CoreIoEngine::write`, `src/io_engine/core.rs:80-89` -/
def coreWrite (d : Batch.Disk β) (loc : Nat) (x : β) : Batch.Disk β × Bool :=
  if loc ≥ d.nr then (d, false) else ({ d with data := fun b => if b = loc then x else d.data b }, true)

/-- `CoreIoEngine::write_many`, `src/io_engine/core.rs:91-97` -/
def coreWriteMany : Batch.Disk β → List (Nat × β) → Batch.Disk β × List Bool
  | d, [] => (d, [])
  | d, (l, x) :: bs =>
    let r := coreWrite d l x
    let q := coreWriteMany r.1 bs
    (q.1, r.2 :: q.2)

/-! ## The engine for spindles -/

/-- how far a run goes that began at `start` and has got to `current`, `src/run_iter.rs:32-34` -/
def runEnd (bits : Nat → Bool) (len : Nat) (b : Bool) : Nat → Nat → Nat
  | 0, current => current
  | fuel + 1, current => if current < len ∧ bits current = b then runEnd bits len b fuel (current + 1) else current

/-- `RunIter`, `src/run_iter.rs:23-38`: the runs from `current` on -/
def runIter (bits : Nat → Bool) (len : Nat) : Nat → Nat → List (Bool × Nat × Nat)
  | 0, _ => []
  | fuel + 1, current =>
    if current = len then []
    else
      let b := bits current
      let e := runEnd bits len b len (current + 1)
      (b, current, e) :: runIter bits len fuel e

/-- the compressed blocks, keyed by `u32` -/
abbrev Cmap := List (Nat × Bytes)

/-- `BTreeMap::insert`; a list with the latest binding first -/
def Cmap.insert (c : Cmap) (k : Nat) (z : Bytes) : Cmap := (k, z) :: c

/-- `BTreeMap::get` -/
def Cmap.get (c : Cmap) (k : Nat) : Option Bytes := List.lookup k c

/-- `BTreeMap::remove` -/
def Cmap.remove (c : Cmap) (k : Nat) : Cmap := c.filter (fun p => p.1 ≠ k)

/-- the loop of `pack_chunk`, `src/io_engine/spindle.rs:65-78`, over the blocks of a chunk that was read at file position `cur` (in blocks) and
is taken to start at block `block`; `none` is an error (the packer thread panics, and `new` fails when it waits for its result) -/
def packChunk (crc : Bytes → UInt32) (img : Nat → Bytes) : Nat → Nat → Nat → Cmap → Option Cmap
  | 0, _, _, c => some c
  | n + 1, cur, block, c =>
    if metadataBlockType crc (img cur) ≠ .unknown then
      match Pack.packBlock (metadataBlockType crc (img cur)) (img cur) with
      | none => none
      | some z => packChunk crc img n (cur + 1) (block + 1) (c.insert (block % 2 ^ 32) z)
    else packChunk crc img n (cur + 1) (block + 1) c

/-- the loop over a run of blocks in use, `src/io_engine/spindle.rs:127-133`: chunks of at most 16 k blocks; `nr` is the number of blocks of the
file, beyond which `read_exact` fails; the result is the file position and what has been packed -/
def readRun (crc : Bytes → UInt32) (nr : Nat) (img : Nat → Bytes) : Nat → Nat → Nat → Nat → Cmap → Option (Nat × Cmap)
  | 0, cur, _, _, c => some (cur, c)
  | fuel + 1, cur, start, fin, c =>
    if start ≥ fin then some (cur, c)
    else
      let len := min (fin - start) (16 * 1024)
      if cur + len > nr then none
      else
        match packChunk crc img len cur start c with
        | none => none
        | some c => readRun crc nr img fuel (cur + len) (start + len) fin c

/-- the loop of `SpindleIoEngine_::new`, `src/io_engine/spindle.rs:121-135` -/
def readRuns (crc : Bytes → UInt32) (nr : Nat) (img : Nat → Bytes) : List (Bool × Nat × Nat) → Nat → Cmap → Option Cmap
  | [], _, c => some c
  | (present, s, e) :: runs, cur, c =>
    if present = false then readRuns crc nr img runs (cur + (e - s)) c
    else
      match readRun crc nr img (e - s) cur s e c with
      | none => none
      | some r => readRuns crc nr img runs r.1 r.2

/-- `SpindleIoEngine_::new`, `src/io_engine/spindle.rs:107-146`; `bits` are the blocks in use.  The packer thread sees the chunks in the order they are
sent. -/
def spindleNew (crc : Bytes → UInt32) (nr : Nat) (img : Nat → Bytes) (bits : Nat → Bool) : Option Cmap :=
  readRuns crc nr img (runIter bits (nr % 2 ^ 32) (nr % 2 ^ 32) 0) 0 []

/-- `read_`, `src/io_engine/spindle.rs:148-157`, with `unpack_block`, `:45-54`.  The outer `none` is an error.  `ok` says whether the device can read the block. -/
def spindleRead (img : Nat → Bytes) (ok : Nat → Bool) (c : Cmap) (loc : Nat) : Option Bytes :=
  match c.get (loc % 2 ^ 32) with
  | some z =>
    match Pack.unpack z 4096 with
    | some (d, _) => some d
    | none => none
  | none => if ok loc then some (img loc) else none

/-- `read_many`, `src/io_engine/spindle.rs:200-207` -/
def spindleReadMany (img : Nat → Bytes) (ok : Nat → Bool) (c : Cmap) (locs : List Nat) : List (Option Bytes) := locs.map (spindleRead img ok c)

/-- `write_`, `src/io_engine/spindle.rs:159-163`: the file was opened for reading only (`:109-116`), so the system refuses.  The cache afterwards, and whether
success is reported. -/
def spindleWrite (c : Cmap) (loc : Nat) : Cmap × Bool := (c.remove (loc % 2 ^ 32), false)

end Verif.Eng
