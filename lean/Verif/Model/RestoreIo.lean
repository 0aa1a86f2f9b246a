import Verif.Model.Batcher
import Verif.Model.SpaceMap

/-!
# What a restore does to the device, call by call

`thin_restore`, `thin_repair`, `cache_restore`, `cache_repair`, `era_restore` and `era_repair` all write their output in
the same way (`src/thin/restore.rs:176-224,229-245,391-405`, `src/cache/restore.rs:118-186,190-211`,
`src/era/restore.rs:84-135,137-153`): a fresh in-core space map for the metadata device, a `WriteBatcher` over it, the
first allocation must be block 0, everything else goes through `alloc` / `write` / `read` of the batcher, the space map
writer ends with a `flush`, and then the superblock is written directly through the engine.

A `Block` to write is only ever obtained from `alloc`, `alloc_zeroed` or from a `read` of a block allocated before (the
call sites of `WriteBatcher::write`: `src/pdata/btree_builder.rs:89-105`, `src/pdata/array_builder.rs:150-173`,
`src/pdata/space_map/common.rs:352-369`, `src/pdata/space_map/metadata.rs:98-131,152-183`).  So the calls are named by
*handles*: `write i` writes the i-th block the program has allocated.  What is stored is left open (`D`): any sequence of
calls is allowed, which covers the sequences the builders make for every input.
-/

namespace Verif.RIo

open Verif.Batch

variable {D K : Type}

/-- one call on the batcher or on its space map; `r` is the engine's answer to the `write_many` the call may make -/
inductive Op (D K : Type) where
  | alloc
  | inc (i : Nat)
  | dec (i : Nat)
  | write (i : Nat) (x : D) (k : K) (r : Resp)
  | read (l : Nat)
  | flush (r : Resp)

/-- batcher, metadata space map, and the blocks handed out to the program so far, oldest first -/
structure St (D : Type) where
  bt : Batcher D
  sm : SM.Core
  held : List Nat

/-- `src/write_batcher.rs:44-74` (`alloc`, `alloc_zeroed`): the lowest-level allocation; `None` is "out of metadata
space" -/
def St.alloc (s : St D) : St D × Option Nat :=
  match s.sm.alloc with
  | (sm, .block (some b)) => ({ s with sm := sm, held := s.held ++ [b] }, some b)
  | (sm, _) => ({ s with sm := sm }, none)

/-- one call; the result says whether the program sees `Ok`.  A handle that was never given out is not a call a program
can make: it is refused without effect. -/
def St.step (stamp : K → D → Option D) (s : St D) : Op D K → St D × Bool
  | .alloc => let p := s.alloc; (p.1, p.2.isSome)
  | .inc i =>
    match s.held[i]? with
    | some b => let p := s.sm.inc b 1; ({ s with sm := p.1 }, p.2 == .unit)
    | none => (s, false)
  | .dec i =>
    match s.held[i]? with
    | some b => let p := s.sm.dec b; ({ s with sm := p.1 }, p.2 != .err && p.2 != .panic)
    | none => (s, false)
  | .write i x k r =>
    match s.held[i]? with
    | some b => let p := s.bt.write stamp b x k r; ({ s with bt := p.1 }, p.2)
    | none => (s, false)
  | .read l => (s, (s.bt.read l).isSome)
  | .flush r => let p := s.bt.flush r; ({ s with bt := p.1 }, p.2)

/-- a program: it stops at the first call that fails (every call site uses `?`) -/
def St.run (stamp : K → D → Option D) (s : St D) : List (Op D K) → St D × Bool
  | [] => (s, true)
  | o :: os =>
    let p := s.step stamp o
    if p.2 then p.1.run stamp os else (p.1, false)

/-- `src/write_batcher.rs:134-138`: dropping the batcher flushes it (a failure panics) -/
def St.drop (s : St D) (r : Resp) : St D := { s with bt := (s.bt.flush r).1 }

/-- the start: `src/thin/restore.rs:399-400`, `src/cache/restore.rs:320-321`, `src/era/restore.rs:294-295`, with
`src/pdata/space_map/metadata.rs:143-148` -/
def start (d : Disk D) (batchSize nrEntries maxCount : Nat) : St D :=
  { bt := Batcher.new d batchSize, sm := SM.Core.new maxCount nrEntries, held := [] }

/-- `src/thin/restore.rs:239-242` (`cache` 197-200, `era` 143-146): take block 0 and forget the handle -/
def reserve (s : St D) : Option (St D) :=
  match s.alloc with
  | (s', some 0) => some { s' with held := [] }
  | _ => none

/-- how the engine answers the superblock's `write`: stored or not, reported or not -/
structure SbResp where
  stored : Bool
  ok : Bool

/-- `src/thin/superblock.rs:142-157` and its twins: the superblock goes to block 0, past the batcher -/
def St.writeSb (s : St D) (sb : D) (q : SbResp) : St D :=
  { s with bt := { s.bt with disk := if q.stored then s.bt.disk.put 0 sb else s.bt.disk } }

/-- the whole tool: reserve block 0, make the calls `body`, flush (`src/pdata/space_map/metadata.rs:184`), write the
superblock, drop the batcher.  Returns the device and whether the tool reports success. -/
def restore (stamp : K → D → Option D) (d : Disk D) (batchSize nrEntries maxCount : Nat) (body : List (Op D K))
    (fl : Resp) (sb : D) (q : SbResp) (last : Resp) : Disk D × Bool :=
  match reserve (start d batchSize nrEntries maxCount) with
  | none => (d, false)
  | some s =>
    let p := s.run stamp body
    if p.2 then
      let f := p.1.step stamp (.flush fl)
      if f.2 then (((f.1.writeSb sb q).drop last).bt.disk, q.ok)
      else ((f.1.drop last).bt.disk, false)
    else ((p.1.drop last).bt.disk, false)

end Verif.RIo
