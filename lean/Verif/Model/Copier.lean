import Verif.Model.BlockIo

/-!
# The copiers (`src/copier/*.rs`)

The reading thread and the writing thread of `SyncCopier::copy` run as a transition system: every call of the device, every message and every update of the
statistics is a step, and steps of the two threads are taken in any order.  What the devices answer is arbitrary, within the contract of `ReadBlocks` and
`WriteBlocks` (`Prop/BlockIo.lean` proves it of the two implementations).  A block on a device is named by the device and the byte position of the block; two blocks at
different positions are assumed not to overlap (offsets that agree modulo the block size, or different devices).  Progress reports are not modelled, nor
poisoned locks and failing threads.
-/

namespace Verif.Cop

variable {β : Type}

/-- `CopyOp`, `src/copier/base.rs:8-12` -/
structure CopyOp where
  src : Nat
  dst : Nat
  deriving Repr, DecidableEq

/-- `CopyStats`, `src/copier/base.rs:14-20`, without `nr_blocks` -/
structure Stats where
  nrCopied : Nat
  readErrors : List CopyOp
  writeErrors : List CopyOp
  deriving Repr, DecidableEq

/-- `Op`, `src/copier/sync_copier.rs:28-33` -/
structure Op where
  bbegin : Nat
  bend : Nat
  indexes : List Nat
  deriving Repr, DecidableEq

/-- the loop of `aggregate_ops`, `src/copier/sync_copier.rs:38-54`, with `last` -/
def aggregateFrom (last : Op) : List Op → List Op
  | [] => [last]
  | op :: ops =>
    if last.bend = op.bbegin then aggregateFrom { last with bend := op.bend, indexes := last.indexes ++ op.indexes } ops
    else last :: aggregateFrom op ops

/-- `aggregate_ops`, `src/copier/sync_copier.rs:35-57` -/
def aggregateOps : List Op → List Op
  | [] => []
  | op :: ops => aggregateFrom op ops

/-- one step of a stable sort by `block_begin` -/
def insertOp (o : Op) : List Op → List Op
  | [] => [o]
  | p :: l => if o.bbegin ≤ p.bbegin then o :: p :: l else p :: insertOp o l

/-- `sort_by(block_begin)`, `src/copier/sync_copier.rs:134,190` (a stable sort) -/
def sortOps : List Op → List Op
  | [] => []
  | o :: l => insertOp o (sortOps l)

/-- the reads of a chunk, `src/copier/sync_copier.rs:124-137` -/
def readOps (ops : List CopyOp) : List Op := aggregateOps (sortOps (ops.mapIdx fun i op => ⟨op.src, op.src + 1, [i]⟩))

/-- the writes of a chunk, `src/copier/sync_copier.rs:177-193`: only blocks that were read -/
def writeOps (ops : List CopyOp) (select : List Nat) : List Op :=
  aggregateOps (sortOps ((ops.mapIdx fun i op => if i ∈ select then some (⟨op.dst, op.dst + 1, [i]⟩ : Op) else none).filterMap id))

/-- `RoaringBitmap::insert` -/
def mark (s : List Nat) (i : Nat) : List Nat := if i ∈ s then s else i :: s

/-- the results of a call, `src/copier/sync_copier.rs:157-166,213-222`; `none`: the call failed as a whole -/
def markOk (indexes : List Nat) (results : Option (List Bool)) (s : List Nat) : List Nat :=
  match results with
  | none => s
  | some rs => ((rs.zip indexes).filter (·.1)).foldl (fun s p => mark s p.2) s

/-- a block on a device -/
abbrev Loc := Bool × Nat

/-- The parameters of a copier, `src/copier/sync_copier.rs:19-26`.  `inFile`: source and destination are the same device. -/
structure Cfg where
  bufferSize : Nat
  blockSize : Nat
  srcOffset : Nat
  dstOffset : Nat
  inFile : Bool

/-- the source of block `b`, `src/copier/sync_copier.rs:151` -/
def Cfg.srcLoc (c : Cfg) (b : Nat) : Loc := (false, b * c.blockSize + c.srcOffset)

/-- the destination of block `b`, `src/copier/sync_copier.rs:207` -/
def Cfg.dstLoc (c : Cfg) (b : Nat) : Loc := (!c.inFile, b * c.blockSize + c.dstOffset)

/-- what `read_blocks` may return for the blocks `loc 0`, `loc 1`, ... of a device: contents and results -/
def ReadCall (store : Loc → β) (loc : Nat → Loc) (n : Nat) (bufs : List β) (res : Option (List Bool)) : Prop :=
  bufs.length = n ∧ ∀ rs, res = some rs → rs.length = n ∧ ∀ j, rs[j]? = some true → bufs[j]? = some (store (loc j))

/-- what `write_blocks` may do and return for the blocks `loc 0`, `loc 1`, ... of a device -/
def WriteCall (store : Loc → β) (loc : Nat → Loc) (bufs : List β) (store' : Loc → β) (res : Option (List Bool)) : Prop :=
  (∀ l, (∀ j, j < bufs.length → l ≠ loc j) → store' l = store l) ∧
  ∀ rs, res = some rs → rs.length = bufs.length ∧ ∀ j x, rs[j]? = some true → bufs[j]? = some x → store' (loc j) = x

/-- the message to the writing thread, `src/copier/sync_copier.rs:267` -/
structure Msg (β : Type) where
  ops : List CopyOp
  ok : List Nat
  buf : List β

/-- the reading thread, `src/copier/sync_copier.rs:306-334` -/
inductive Reader (β : Type) where
  /-- before the next chunk -/
  | next
  /-- in `do_reads`: the calls that are left, the buffer and `success_bits` -/
  | reading (ops : List CopyOp) (todo : List Op) (buf : List β) (ok : List Nat)
  /-- before `tx.send` -/
  | sending (m : Msg β)
  /-- after `drop(tx)` -/
  | done

/-- the writing thread, `src/copier/sync_copier.rs:274-303` -/
inductive Writer (β : Type) where
  /-- before `rx.recv` -/
  | wait
  /-- in `do_writes`: the calls that are left and `success_bits` -/
  | writing (m : Msg β) (todo : List Op) (ok : List Nat)
  | stopped

/-- The whole program.  The channel holds one message. -/
structure St (β : Type) where
  chunks : List (List CopyOp)
  reader : Reader β
  queue : Option (Msg β)
  writer : Writer β
  store : Loc → β
  stats : Stats

/-- the chunk's ops that are not marked, `src/copier/sync_copier.rs:321-328` -/
def unmarked (ops : List CopyOp) (ok : List Nat) : List CopyOp :=
  (ops.mapIdx fun i op => if i ∈ ok then none else some op).filterMap id

/-- `src/copier/sync_copier.rs:291-298` -/
def failedWrites (ops : List CopyOp) (rok wok : List Nat) : List CopyOp :=
  (ops.mapIdx fun i op => if i ∈ rok ∧ i ∉ wok then some op else none).filterMap id

/-- the read errors of a chunk, `src/copier/sync_copier.rs:320-329` -/
def Stats.addRead (s : Stats) (ops : List CopyOp) (ok : List Nat) : Stats :=
  { s with readErrors := s.readErrors ++ (if ok.length ≠ ops.length then unmarked ops ok else []) }

/-- the outcome of a chunk, `src/copier/sync_copier.rs:291-303` -/
def Stats.addWrite (s : Stats) (ops : List CopyOp) (rok wok : List Nat) : Stats :=
  { s with nrCopied := s.nrCopied + wok.length, writeErrors := s.writeErrors ++ (if wok.length ≠ rok.length then failedWrites ops rok wok else []) }

/-- writing the iovec of a read into the buffer -/
def fill (buf : List β) (indexes : List Nat) (data : List β) : List β := (indexes.zip data).foldl (fun b p => b.set p.1 p.2) buf

/-- One step of one of the threads. -/
inductive Step (c : Cfg) : St β → St β → Prop
  /-- `src/copier/sync_copier.rs:308-312,119-137`: a new buffer (its content is arbitrary) -/
  | chunk (s : St β) (ops : List CopyOp) (rest : List (List CopyOp)) (buf : List β) : s.reader = .next → s.chunks = ops :: rest → buf.length = ops.length →
      Step c s { s with reader := .reading ops (readOps ops) buf [], chunks := rest }
  /-- one call of `read_blocks`, `src/copier/sync_copier.rs:141-169` -/
  | read (s : St β) (ops : List CopyOp) (o : Op) (todo : List Op) (buf : List β) (ok : List Nat) (data : List β) (res : Option (List Bool)) :
      s.reader = .reading ops (o :: todo) buf ok → ReadCall s.store (fun j => c.srcLoc (o.bbegin + j)) (o.bend - o.bbegin) data res →
      Step c s { s with reader := .reading ops todo (fill buf o.indexes data) (markOk o.indexes res ok) }
  /-- the end of `do_reads` and the errors, `src/copier/sync_copier.rs:320-329` -/
  | readDone (s : St β) (ops : List CopyOp) (buf : List β) (ok : List Nat) : s.reader = .reading ops [] buf ok →
      Step c s { s with reader := .sending ⟨ops, ok, buf⟩, stats := s.stats.addRead ops ok }
  /-- `tx.send`, `src/copier/sync_copier.rs:331-332`; it waits while the channel is full -/
  | send (s : St β) (m : Msg β) : s.reader = .sending m → s.queue = none → Step c s { s with reader := .next, queue := some m }
  /-- `drop(tx)`, `src/copier/sync_copier.rs:335` -/
  | drop (s : St β) : s.reader = .next → s.chunks = [] → Step c s { s with reader := .done }
  /-- `rx.recv`, `src/copier/sync_copier.rs:275-280` -/
  | recv (s : St β) (m : Msg β) : s.writer = .wait → s.queue = some m →
      Step c s { s with queue := none, writer := .writing m (writeOps m.ops m.ok) [] }
  /-- one call of `write_blocks`, `src/copier/sync_copier.rs:197-225` -/
  | write (s : St β) (m : Msg β) (o : Op) (todo : List Op) (ok : List Nat) (bufs : List β) (store' : Loc → β) (res : Option (List Bool)) :
      s.writer = .writing m (o :: todo) ok → bufs.length = o.bend - o.bbegin →
      (∀ j, j < o.bend - o.bbegin → bufs[j]? = o.indexes[j]?.bind fun i => m.buf[i]?) →
      WriteCall s.store (fun j => c.dstLoc (o.bbegin + j)) bufs store' res →
      Step c s { s with writer := .writing m todo (markOk o.indexes res ok), store := store' }
  /-- the statistics, `src/copier/sync_copier.rs:291-303` -/
  | writeDone (s : St β) (m : Msg β) (ok : List Nat) : s.writer = .writing m [] ok →
      Step c s { s with writer := .wait, stats := s.stats.addWrite m.ops m.ok ok }
  /-- `recv` fails when the channel is empty and closed, `src/copier/sync_copier.rs:276-278` -/
  | stop (s : St β) : s.writer = .wait → s.queue = none → (match s.reader with | .done => True | _ => False) → Step c s { s with writer := .stopped }

/-- `slice::chunks`; the first argument bounds the number of rounds -/
def chunksOf (n : Nat) : Nat → List CopyOp → List (List CopyOp)
  | 0, _ => []
  | _ + 1, [] => []
  | fuel + 1, l => l.take n :: chunksOf n fuel (l.drop n)

/-- The start of `copy`, `src/copier/sync_copier.rs:263-308` -/
def St.init (c : Cfg) (ops : List CopyOp) (store : Loc → β) : St β :=
  ⟨chunksOf (c.bufferSize / c.blockSize) ops.length ops, .next, none, .wait, store, ⟨0, [], []⟩⟩

/-- both threads have ended, and `copy` returns the statistics (`src/copier/sync_copier.rs:335-344`) -/
def St.finished (s : St β) : Prop := (match s.reader with | .done => True | _ => False) ∧ (match s.writer with | .stopped => True | _ => False)

/-- any number of steps -/
inductive Steps (c : Cfg) : St β → St β → Prop
  | refl (s : St β) : Steps c s s
  | tail {s t u : St β} : Steps c s t → Step c t u → Steps c s u

end Verif.Cop
