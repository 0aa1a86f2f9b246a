import Verif.Model.BTree
import Verif.Model.CopyQueue

/-!
# `thin_migrate` (`src/thin/migrate/*.rs`)

The stream of chunks of a thin device, the copy operations made from it, the copying (with the models of the batcher and of the copier), and the device numbers and
device-mapper tables by which the devices are found.  Not modelled: the ioctls, udev, opening the files and the sizes of the devices (the destination is made as long as the source,
`src/thin/migrate/base.rs:90-130`), progress.  `u64` arithmetic is modulo `2^64`.
-/

namespace Verif.Mig

open Verif.BT Verif.Cop Verif.CopyQ

variable {V β : Type}

/-- `ChunkContents`, `src/thin/migrate/stream.rs:11-15` (`Discard` is never made) -/
inductive Contents where
  | copy
  | skip
  deriving Repr, DecidableEq

/-- `Chunk`, `src/thin/migrate/stream.rs:17-21` -/
structure Chunk where
  offset : Nat
  len : Nat
  contents : Contents
  deriving Repr, DecidableEq

/-- multiplication of `u64`s in a release build -/
def mul64 (a b : Nat) : Nat := a * b % 2 ^ 64

/-- `contiguous_run`, `src/thin/migrate/stream.rs:78-93`, after `count` blocks; fuel as in `Model/BTree.lean` -/
def contiguousRun (rd : Bool → Nat → Option (Blk V)) (start : Nat) : Nat → Stack V → Nat → Except RErr (Nat × Stack V)
  | 0, _, _ => .error .fuel
  | fuel + 1, stk, count =>
    match iterStep rd stk with
    | .error e => .error e
    | .ok stk' =>
      match iterGet stk' with
      | .error e => .error e
      | .ok none => .ok (count + 1, stk')
      | .ok (some e) => if e.1 ≠ start + (count + 1) then .ok (count + 1, stk') else contiguousRun rd start fuel stk' (count + 1)

/-- `ThinStream::next_chunk`, `src/thin/migrate/stream.rs:97-127`: the chunk, the iterator and `current_block` -/
def nextChunk (rd : Bool → Nat → Option (Blk V)) (fuel bs : Nat) (stk : Stack V) (cur : Nat) : Except RErr (Option (Chunk × Stack V × Nat)) :=
  match iterGet stk with
  | .error e => .error e
  | .ok none => .ok none
  | .ok (some e) =>
    if e.1 = cur then
      match contiguousRun rd e.1 fuel stk 0 with
      | .error e => .error e
      | .ok (n, stk') => .ok (some (⟨mul64 cur bs, mul64 n bs, .copy⟩, stk', e.1 + n))
    else .ok (some (⟨mul64 cur bs, mul64 (e.1 - cur) bs, .skip⟩, stk, e.1))

/-- the chunks `copy_regions` sees, `src/thin/migrate/base.rs:161-179` -/
def chunks (rd : Bool → Nat → Option (Blk V)) (fuel bs : Nat) : Nat → Stack V → Nat → Except RErr (List Chunk)
  | 0, _, _ => .error .fuel
  | n + 1, stk, cur =>
    match nextChunk rd fuel bs stk cur with
    | .error e => .error e
    | .ok none => .ok []
    | .ok (some (c, stk', cur')) =>
      match chunks rd fuel bs n stk' cur' with
      | .error e => .error e
      | .ok cs => .ok (c :: cs)

/-- the operations pushed for a chunk, `src/thin/migrate/base.rs:162-177`; `bs` is the block size of the pool's table -/
def chunkOps (bs : Nat) (c : Chunk) : List CopyOp :=
  match c.contents with
  | .skip => []
  | .copy => (List.range' (c.offset / bs) ((c.offset + c.len) % 2 ^ 64 / bs - c.offset / bs)).map fun b => ⟨b, b⟩

/-- what `ThinIterator::new` and the stream read from the pool's metadata: the superblock of the metadata snapshot (`none`: there is none, or it cannot be read) with
`details_root`, `mapping_root` and `data_block_size`, and the three kinds of trees -/
structure Meta (D : Type) where
  snap : Option (Nat × Nat × Nat)
  details : Bool → Nat → Option (Blk D)
  tops : Bool → Nat → Option (Blk Nat)
  maps : Bool → Nat → Option (Blk (Nat × Nat))

/-- failures of the tool -/
inductive Err where
  | noSnap
  | noDevice
  | tree (e : RErr)
  | bufferTooSmall
  deriving Repr, DecidableEq

/-- `read_by_thin_id`, `src/thin/migrate/metadata.rs:16-27` -/
def readById (rd : Bool → Nat → Option (Blk V)) (fuel root id : Nat) : Except Err V :=
  match lookup rd id fuel true root with
  | .error e => .error (.tree e)
  | .ok none => .error .noDevice
  | .ok (some v) => .ok v

/-- all that is pushed into the batcher: `ThinIterator::new`, `src/thin/migrate/metadata.rs:47-62`, and the loop of `copy_regions`, `src/thin/migrate/base.rs:161-179`.
`tbs`: the block size of the pool's table. -/
def copyOps {D : Type} (m : Meta D) (fuel tbs id : Nat) : Except Err (List CopyOp) :=
  match m.snap with
  | none => .error .noSnap
  | some (dr, mr, bs) =>
    match readById m.details fuel dr id with
    | .error e => .error e
    | .ok _ =>
      match readById m.tops fuel mr id with
      | .error e => .error e
      | .ok root =>
        match iterNew m.maps fuel root with
        | .error e => .error (.tree e)
        | .ok stk =>
          match chunks m.maps fuel bs fuel stk 0 with
          | .error e => .error (.tree e)
          | .ok cs => .ok (cs.flatMap (chunkOps tbs))

/-- `migrate`, `src/thin/migrate/base.rs:192-195`: the size of the buffer in sectors -/
def bufferSectors (opt : Option Nat) (tbs : Nat) : Nat := opt.getD (max tbs 131072)

/-- the copier of `copy_regions`, `src/thin/migrate/base.rs:141-148`: two devices, no offsets, sizes in bytes -/
def cfg (buf tbs : Nat) : Cfg := ⟨buf * 512, tbs * 512, 0, 0, false⟩

/-- The tool on readable metadata, `src/thin/migrate/base.rs:132-207`: `st` is the content of source (`false`) and destination (`true`) before, `st'` after; the second
case is `SyncCopier::new`, `src/copier/sync_copier.rs:64-68`.  The option
`zero_dest` (`src/thin/migrate/base.rs:38`) is not looked at.  Errors that end the loop early are not followed further (the tool fails). -/
inductive Migrate {D : Type} (m : Meta D) (fuel tbs id : Nat) (zeroDest : Bool) (opt : Option Nat) : (Loc → β) → (Loc → β) → Except Err Res → Prop
  | refused {s : Loc → β} {e : Err} : copyOps m fuel tbs id = .error e → Migrate m fuel tbs id zeroDest opt s s (.error e)
  | small {s : Loc → β} : bufferSectors opt tbs * 512 < tbs * 512 → Migrate m fuel tbs id zeroDest opt s s (.error .bufferTooSmall)
  | run {s t : Loc → β} {ops : List CopyOp} {r : Res} : copyOps m fuel tbs id = .ok ops → tbs * 512 ≤ bufferSectors opt tbs * 512 →
      Run (syncCopy (cfg (bufferSectors opt tbs) tbs)) (batches (bufferSectors opt tbs / tbs) ops) s t r → Migrate m fuel tbs id zeroDest opt s t (.ok r)

/-! ## Finding the devices -/

/-- `split_device_number`, `src/thin/migrate/devices.rs:17-22` -/
def splitDev (rdev : Nat) : Nat × Nat := (rdev / 2 ^ 8 % 2 ^ 32, rdev &&& 0xff)

/-- the digits a `u32` parser of nom takes, and what follows -/
def digits : List Char → List Char × List Char
  | [] => ([], [])
  | c :: cs => if c.isDigit then (c :: (digits cs).1, (digits cs).2) else ([], c :: cs)

/-- the value of a number -/
def value (ds : List Char) : Nat := ds.foldl (fun n c => n * 10 + (c.toNat - 48)) 0

/-- `nom::character::complete::u32`: one or more digits, and the value must fit -/
def parseU32 (s : List Char) : Option (Nat × List Char) :=
  if (digits s).1 = [] then none
  else if value (digits s).1 < 2 ^ 32 then some (value (digits s).1, (digits s).2) else none

/-- `char(':')` -/
def parseColon : List Char → Option (List Char)
  | c :: cs => if c = ':' then some cs else none
  | [] => none

/-- `multispace0` -/
def skipSpace : List Char → List Char
  | [] => []
  | c :: cs => if c = ' ' ∨ c = '\t' ∨ c = '\r' ∨ c = '\n' then skipSpace cs else c :: cs

/-- `multispace1`: at least one space, tab, carriage return or line feed -/
def parseSpace (s : List Char) : Option (List Char) := if skipSpace s = s then none else some (skipSpace s)

/-- `parse_dev`, `src/thin/migrate/devices.rs:98-106` -/
def parseDev (s : List Char) : Option ((Nat × Nat) × List Char) := do
  let (major, s) ← parseU32 s
  let s ← parseColon s
  let (minor, s) ← parseU32 s
  some ((major, minor), s)

/-- `parse_thin_table`, `src/thin/migrate/devices.rs:108-116`: pool device and thin id -/
def parseThinTable (s : List Char) : Option ((Nat × Nat) × Nat) := do
  let (pool, s) ← parseDev s
  let s ← parseSpace s
  let (id, _) ← parseU32 s
  some (pool, id)

/-- `parse_pool_table`, `src/thin/migrate/devices.rs:118-135`: metadata device, data device and block size -/
def parsePoolTable (s : List Char) : Option ((Nat × Nat) × (Nat × Nat) × Nat) := do
  let (md, s) ← parseDev s
  let s ← parseSpace s
  let (dd, s) ← parseDev s
  let s ← parseSpace s
  let (bs, _) ← parseU32 s
  some (md, dd, bs)

end Verif.Mig
