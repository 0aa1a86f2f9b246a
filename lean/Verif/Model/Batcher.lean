/-!
# The write batcher (`src/write_batcher.rs`)

Blocks are pairs (location, contents).  The contents type `D` and the checksum stamping `stamp` are parameters
(see `Model/Checksum.lean` for the real one).  The space map half (`alloc`, `alloc_zeroed`,
`clear_allocations`, lines 44-80) does not touch queue or disk; it is modelled with the b-tree builder.
-/

namespace Verif.Batch

variable {D K : Type}

/-- the device: `nr` blocks and their contents -/
structure Disk (D : Type) where
  nr : Nat
  data : Nat → D

/-- How the engine answers one `write_many` call (`src/io_engine/base.rs:96-101`): the whole call may fail, and
each block may fail on its own.  `skip i` says the i-th block of the call was not stored. -/
structure Resp where
  fail : Bool
  skip : Nat → Bool

/-- the answer of a device without faults -/
def Resp.good : Resp := ⟨false, fun _ => false⟩

/-- one device write; a block beyond the end cannot be stored -/
def Disk.put (d : Disk D) (loc : Nat) (x : D) : Disk D :=
  { d with data := fun b => if b = loc ∧ loc < d.nr then x else d.data b }

/-- `write_many`: blocks in order, minus the skipped ones -/
def Disk.putMany (skip : Nat → Bool) : Nat → Disk D → List (Nat × D) → Disk D
  | _, d, [] => d
  | i, d, (l, x) :: q => putMany skip (i + 1) (if skip i then d else d.put l x) q

/-- `src/write_batcher.rs:13-27` -/
structure Batcher (D : Type) where
  disk : Disk D
  batchSize : Nat
  queue : List (Nat × D)

/-- `src/write_batcher.rs:30-42` -/
def Batcher.new (disk : Disk D) (batchSize : Nat) : Batcher D := { disk, batchSize, queue := [] }

/-- `src/write_batcher.rs:85-91`: overwrite the last queued block with this location, if any -/
def hit (loc : Nat) (x : D) : List (Nat × D) → Option (List (Nat × D))
  | [] => none
  | (l, y) :: q =>
    match hit loc x q with
    | some q' => some ((l, y) :: q')
    | none => if l = loc then some ((l, x) :: q) else none

/-- `src/write_batcher.rs:118-121` after the queue was swapped out (94-96, 127-128): per-block results are
dropped, only a failure of the whole call is reported; the queue is empty afterwards in both cases. -/
def Batcher.flush_ (b : Batcher D) (r : Resp) : Batcher D × Bool :=
  ({ b with disk := b.disk.putMany r.skip 0 b.queue, queue := [] }, !r.fail)

/-- `src/write_batcher.rs:123-131` -/
def Batcher.flush (b : Batcher D) (r : Resp) : Batcher D × Bool :=
  if b.queue = [] then (b, true) else b.flush_ r

/-- `src/write_batcher.rs:82-101`; `stamp` is `checksum::write_checksum` and may refuse the kind.  The last
component is whether the call succeeded. -/
def Batcher.write (stamp : K → D → Option D) (b : Batcher D) (loc : Nat) (x : D) (kind : K) (r : Resp) :
    Batcher D × Bool :=
  match stamp kind x with
  | none => (b, false)
  | some x =>
    match hit loc x b.queue with
    | some q => ({ b with queue := q }, true)
    | none =>
      if b.queue.length = b.batchSize then
        let p := b.flush_ r
        if p.2 then ({ p.1 with queue := p.1.queue ++ [(loc, x)] }, true) else (p.1, false)
      else ({ b with queue := b.queue ++ [(loc, x)] }, true)

/-- search from the back of the queue -/
def lookupRev (loc : Nat) : List (Nat × D) → Option D
  | [] => none
  | (l, y) :: q =>
    match lookupRev loc q with
    | some x => some x
    | none => if l = loc then some y else none

/-- `src/write_batcher.rs:103-116` -/
def Batcher.read (b : Batcher D) (loc : Nat) : Option D :=
  match lookupRev loc b.queue with
  | some x => some x
  | none => if loc < b.disk.nr then some (b.disk.data loc) else none

/-- the calls a client makes; writes and flushes carry the engine's answer -/
inductive Call (D K : Type) where
  | write (loc : Nat) (x : D) (kind : K) (r : Resp)
  | read (loc : Nat)
  | flush (r : Resp)

/-- one call; the result says what the client sees -/
def Batcher.step (stamp : K → D → Option D) (b : Batcher D) : Call D K → Batcher D × (Bool × Option D)
  | .write l x k r => let p := b.write stamp l x k r; (p.1, (p.2, none))
  | .read l => (b, ((b.read l).isSome, b.read l))
  | .flush r => let p := b.flush r; (p.1, (p.2, none))

/-- a history -/
def Batcher.run (stamp : K → D → Option D) (b : Batcher D) : List (Call D K) → Batcher D × List (Bool × Option D)
  | [] => (b, [])
  | c :: cs =>
    let p := b.step stamp c
    let q := p.1.run stamp cs
    (q.1, p.2 :: q.2)

end Verif.Batch
