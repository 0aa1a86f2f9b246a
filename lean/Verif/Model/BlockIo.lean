/-!
# Block I/O (`src/io_engine/utils.rs`)

A device is a store of blocks: `store pos` is the content of the block at byte position `pos` (blocks at positions that are not a multiple of the block size
apart are not used).  What the device answers to the calls, one after another, is given by a function of the number of the call and
the number of bytes asked for; it can be anything.
-/

namespace Verif.Bio

variable {β : Type}

/-- The answer of `read_vectored_at`: a number of bytes, whose blocks are then filled, or an error; what an error leaves in the buffers is arbitrary. -/
inductive RAns (β : Type) where
  | ok (n : Nat)
  | err (junk : Nat → Option β)

/-- The answer of `write_vectored_at`: as above; what an error leaves on the device in the blocks of the request is arbitrary. -/
abbrev WAns (β : Type) := RAns β

/-- buffers after an error -/
def spoil (junk : Nat → Option β) (bufs : List β) : List β := bufs.mapIdx fun i b => (junk i).getD b

/-- `VectoredBlockIo::read_blocks`, the loop of `src/io_engine/utils.rs:50-69`: content of the buffers and results.  `none`: the loop does not end, or a panic
(an answer that is no multiple of the block size, or larger than the request; the latter would wrap `remaining`). -/
def vread (bs : Nat) (ans : Nat → Nat → RAns β) (store : Nat → β) (i pos remaining : Nat) (bufs : List β) : Option (List β × List Bool) :=
  if remaining = 0 then some (bufs, [])
  else
    match ans i remaining with
    | .ok n =>
      if n > remaining ∨ n % bs ≠ 0 ∨ n / bs > bufs.length then none
      else vread bs ans store (i + 1) (pos + n) (remaining - n) (bufs.drop (n / bs)) >>= fun r =>
        some ((List.range (n / bs)).map (fun j => store (pos + j * bs)) ++ r.1, List.replicate (n / bs) true ++ r.2)
    | .err junk =>
      if bufs = [] ∨ bs > remaining then none
      else vread bs ans store (i + 1) (pos + bs) (remaining - bs) ((spoil junk bufs).drop 1) >>= fun r =>
        some ((spoil junk bufs).take 1 ++ r.1, false :: r.2)
partial_fixpoint

/-- `VectoredBlockIo::read_blocks`, `src/io_engine/utils.rs:37-72` -/
def readBlocks (bs : Nat) (ans : Nat → Nat → RAns β) (store : Nat → β) (pos : Nat) (bufs : List β) : Option (List β × List Bool) :=
  vread bs ans store 0 pos (bufs.length * bs) bufs

/-- one block on the device -/
def put (store : Nat → β) (pos : Nat) (x : β) : Nat → β := fun p => if p = pos then x else store p

/-- consecutive blocks on the device -/
def putAll (bs : Nat) (store : Nat → β) (pos : Nat) : List β → Nat → β
  | [] => store
  | x :: l => putAll bs (put store pos x) (pos + bs) l

/-- the device after an error for a request of `n` blocks -/
def spoilDev (bs : Nat) (junk : Nat → Option β) (store : Nat → β) (pos : Nat) : Nat → Nat → β
  | 0 => store
  | n + 1 => spoilDev bs (fun i => junk (i + 1)) (match junk 0 with | some x => put store pos x | none => store) (pos + bs) n

/-- `VectoredBlockIo::write_blocks`, the loop of `src/io_engine/utils.rs:88-104`: the device and results; `none` as above -/
def vwrite (bs : Nat) (ans : Nat → Nat → WAns β) (i pos remaining : Nat) (bufs : List β) (store : Nat → β) : Option ((Nat → β) × List Bool) :=
  if remaining = 0 then some (store, [])
  else
    match ans i remaining with
    | .ok n =>
      if n > remaining ∨ n % bs ≠ 0 ∨ n / bs > bufs.length then none
      else vwrite bs ans (i + 1) (pos + n) (remaining - n) (bufs.drop (n / bs)) (putAll bs store pos (bufs.take (n / bs))) >>= fun r =>
        some (r.1, List.replicate (n / bs) true ++ r.2)
    | .err junk =>
      if bufs = [] ∨ bs > remaining then none
      else vwrite bs ans (i + 1) (pos + bs) (remaining - bs) (bufs.drop 1) (spoilDev bs junk store pos bufs.length) >>= fun r =>
        some (r.1, false :: r.2)
partial_fixpoint

/-- `VectoredBlockIo::write_blocks`, `src/io_engine/utils.rs:75-107` -/
def writeBlocks (bs : Nat) (ans : Nat → Nat → WAns β) (pos : Nat) (bufs : List β) (store : Nat → β) : Option ((Nat → β) × List Bool) :=
  vwrite bs ans 0 pos (bufs.length * bs) bufs store

/-- `SimpleBlockIo::read_blocks`, `src/io_engine/utils.rs:122-136`: `none` is success of `read_exact_at`, `some junk` an error and what it leaves -/
def simpleRead (bs : Nat) (ans : Nat → Option (Option β)) (store : Nat → β) : Nat → Nat → List β → List β × List Bool
  | _, _, [] => ([], [])
  | i, pos, b :: bufs =>
    let r := simpleRead bs ans store (i + 1) (pos + bs) bufs
    match ans i with
    | none => (store pos :: r.1, true :: r.2)
    | some junk => (junk.getD b :: r.1, false :: r.2)

/-- `SimpleBlockIo::write_blocks`, `src/io_engine/utils.rs:139-153` -/
def simpleWrite (bs : Nat) (ans : Nat → Option (Option β)) : Nat → Nat → List β → (Nat → β) → (Nat → β) × List Bool
  | _, _, [], store => (store, [])
  | i, pos, b :: bufs, store =>
    match ans i with
    | none =>
      let r := simpleWrite bs ans (i + 1) (pos + bs) bufs (put store pos b)
      (r.1, true :: r.2)
    | some junk =>
      let r := simpleWrite bs ans (i + 1) (pos + bs) bufs (match junk with | some x => put store pos x | none => store)
      (r.1, false :: r.2)

end Verif.Bio
