import Verif.Model.Pack
import Verif.Model.Checksum

/-!
# Packing and unpacking of whole images (`src/pack/toplevel.rs`)

The crc and the zlib codec are parameters (crates, trusted).  An image is a number of blocks and the contents of each block.
The threads only share the lock-protected output, to which each appends whole frames (`src/pack/toplevel.rs:128-130` holds the lock
for both writes of a frame), so a run is determined by the frames of each thread and by the order in which frames arrive.
-/

namespace Verif.Pack

/-- `src/pack/toplevel.rs:39`: the size of a chunk -/
def chunkSize (nrBlocks nrJobs : Nat) : Nat := max 128 (min (nrBlocks / (nrJobs * 64)) 4096)

/-- `src/pack/toplevel.rs:40` -/
def nrChunks (nrBlocks nrJobs : Nat) : Nat := nrBlocks / chunkSize nrBlocks nrJobs

/-- `src/pack/toplevel.rs:41-49`: the chunks before they are shuffled -/
def chunks (nrBlocks nrJobs : Nat) : List (Nat × Nat) :=
  let cs := chunkSize nrBlocks nrJobs
  let n := nrChunks nrBlocks nrJobs
  (List.range n).map (fun i => (i * cs, (i + 1) * cs)) ++ (if n * cs < nrBlocks then [(n * cs, nrBlocks)] else [])

/-- `src/pack/toplevel.rs:53-60`: chunks are dealt to the jobs; note that the loop runs over `0..nr_chunks` -/
def deal (shuffled : List (Nat × Nat)) (nrJobs : Nat) : Nat → List (List (Nat × Nat))
  | 0 => List.replicate nrJobs []
  | c + 1 => (deal shuffled nrJobs c).modify (c % nrJobs) (· ++ shuffled[c]?.toList)

/-- `mk_chunk_vecs`, `src/pack/toplevel.rs:38-63`, given what the shuffle (`:51`) made of the chunks -/
def mkChunkVecs (nrBlocks nrJobs : Nat) (shuffled : List (Nat × Nat)) : List (List (Nat × Nat)) :=
  deal shuffled nrJobs (nrChunks nrBlocks nrJobs)

/-- `src/pack/toplevel.rs:67` -/
def nrJobs (cpus nrBlocks : Nat) : Nat := max 1 (min cpus (nrBlocks / 128))

/-- the blocks of a chunk, in the order they are examined: `src/pack/toplevel.rs:116` -/
def chunkBlocks (c : Nat × Nat) : List Nat := List.range' c.1 (c.2 - c.1)

/-- `pack_block`, `src/pack/toplevel.rs:204-217`, with `src/pack/node_encode.rs:102-116` -/
def packBlock (kind : BT) (data : Bytes) : Option Bytes :=
  match kind with
  | .node => packNode data
  | .unknown => none
  | _ => packLiteral data

/-- the variables of `crunch`: `written`, what was fed to the encoder since it was reset, and the frames output -/
structure Crunch where
  written : Nat
  z : Bytes
  frames : List Bytes
  deriving Repr

/-- the body of the loop of `crunch`, `src/pack/toplevel.rs:116-134` -/
def crunchBlock (crc : Bytes → UInt32) (img : Nat → Bytes) (s : Crunch) (b : Nat) : Option Crunch :=
  if metadataBlockType crc (img b) = .unknown then some s
  else
    match packBlock (metadataBlockType crc (img b)) (img b) with
    | none => none
    | some p =>
      if s.written + 1 = 1024 then some ⟨0, [], s.frames ++ [s.z ++ (w64 b ++ p)]⟩
      else some ⟨s.written + 1, s.z ++ (w64 b ++ p), s.frames⟩

def crunchBlocks (crc : Bytes → UInt32) (img : Nat → Bytes) : List Nat → Crunch → Option Crunch
  | [], s => some s
  | b :: bs, s =>
    match crunchBlock crc img s b with
    | none => none
    | some s => crunchBlocks crc img bs s

/-- `crunch`, `src/pack/toplevel.rs:102-145`: the frames of a thread, before compression -/
def crunch (crc : Bytes → UInt32) (img : Nat → Bytes) (ranges : List (Nat × Nat)) : Option (List Bytes) :=
  match crunchBlocks crc img (ranges.flatMap chunkBlocks) ⟨0, [], []⟩ with
  | none => none
  | some s => some (if s.written > 0 then s.frames ++ [s.z] else s.frames)

/-- zlib -/
structure Codec where
  compress : Bytes → Bytes
  decompress : Bytes → Bytes

/-- `src/pack/toplevel.rs:126-130,138-141` -/
def frame (z : Codec) (raw : Bytes) : Bytes := w64 (z.compress raw).length ++ z.compress raw

/-- `write_header`, `src/pack/toplevel.rs:147-157` -/
def header (nrBlocks : Nat) : Bytes := w64 0xa537a0aa6309ef77 ++ (w64 3 ++ (w64 4096 ++ w64 nrBlocks))

/-- `read_header`, `src/pack/toplevel.rs:159-188` -/
def readHeader (i : Bytes) : Option (Nat × Bytes) := do
  let (magic, i) ← leU64 i
  if magic ≠ 0xa537a0aa6309ef77 then none
  else do
    let (version, i) ← leU64 i
    if version ≠ 3 then none
    else do
      let (bs, i) ← leU64 i
      if bs ≠ 4096 then none
      else leU64 i

/-- the loop of `decode_worker` over a frame, `src/pack/toplevel.rs:248-256`; a failed `unwrap` or `assert!` is `none` -/
def decodeFrame (crc : Bytes → UInt32) (i : Bytes) : Option (List (Nat × Bytes)) :=
  match leU64 i with
  | none => some []
  | some (b, i) =>
    match unpack i 4096 with
    | none => none
    | some (block, i) =>
      if metadataBlockType crc block = .unknown then none
      else decodeFrame crc i >>= fun rest => some ((b, block) :: rest)
partial_fixpoint

/-- the loop of `unpack` that hands frames to the workers, `src/pack/toplevel.rs:298-303` -/
def readFrames (i : Bytes) : Option (List Bytes) :=
  match leU64 i with
  | none => some []
  | some (len, i) =>
    match takeB len i with
    | none => none
    | some (f, i) => readFrames i >>= fun rest => some (f :: rest)
partial_fixpoint

/-- all frames decoded, by whichever worker -/
def decodeAll (crc : Bytes → UInt32) (z : Codec) : List Bytes → Option (List (Nat × Bytes))
  | [] => some []
  | f :: fs =>
    match decodeFrame crc (z.decompress f) with
    | none => none
    | some a =>
      match decodeAll crc z fs with
      | none => none
      | some b => some (a ++ b)

/-- `write_blocks`, `src/pack/toplevel.rs:228-237` -/
def writeAll : List (Nat × Bytes) → (Nat → Bytes) → Nat → Bytes
  | [], img => img
  | (b, block) :: ws, img => writeAll ws (fun i => if i = b then block else img i)

/-- a possible outcome of `pack` (`src/pack/toplevel.rs:65-100`): some shuffle of the chunks, the frames of each thread, and
some order in which they were appended -/
def Packed (crc : Bytes → UInt32) (z : Codec) (cpus nrBlocks : Nat) (img : Nat → Bytes) (file : Bytes) : Prop :=
  ∃ shuffled, shuffled.Perm (chunks nrBlocks (nrJobs cpus nrBlocks)) ∧
    ∃ outs : List (List Bytes), (mkChunkVecs nrBlocks (nrJobs cpus nrBlocks) shuffled).map (crunch crc img) = outs.map some ∧
      ∃ order : List Bytes, order.Perm outs.flatten ∧ file = header nrBlocks ++ order.flatMap (frame z)

/-- a possible outcome of `unpack` (`src/pack/toplevel.rs:264-313`): the blocks are written in some order to a file that is
all zeroes and has the size given in the header -/
def Unpacked (crc : Bytes → UInt32) (z : Codec) (file : Bytes) (nrBlocks : Nat) (img : Nat → Bytes) : Prop :=
  ∃ rest, readHeader file = some (nrBlocks, rest) ∧ nrBlocks ≠ 0 ∧
    ∃ frames, readFrames rest = some frames ∧
      ∃ blocks, decodeAll crc z frames = some blocks ∧
        ∃ order : List (Nat × Bytes), order.Perm blocks ∧ img = writeAll order (fun _ => List.replicate 4096 0)

end Verif.Pack
