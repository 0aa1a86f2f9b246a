import Verif.Model.Bitset
import Verif.Model.LeafWalker
import Verif.Model.CacheIr
import Verif.Model.Superblock

/-!
# `cache_dump` (`src/cache/dump.rs`, `src/dump_utils.rs`, `src/pdata/array_walker.rs:193-254`)

`Dev` is what the tool can read: `rd` the nodes of the index trees, `maps`, `words`, `hints` the array blocks of the three
value types (`none`: unreadable, a wrong checksum or type, or a failed unpack).  Not modelled: a failing output, and the
output produced before an error.  Space-map bookkeeping that the array walker shares with the tree walker for the array blocks
(`src/pdata/array_walker.rs:117-118`) is left out: it matters only if an array block is also referenced as a node.
-/

namespace Verif.CacheM

open Verif.BT (Blk KeyRange Event WSt)
open Verif.Bits (ABlock Checked goodLeaf readChecked)

/-- readable metadata of a device with `nr` blocks -/
structure Dev where
  nr : Nat
  rd : Bool → Nat → Option (Blk Nat)
  maps : Nat → Option ABlock
  words : Nat → Option ABlock
  hints : Nat → Option ABlock

/-- an error is returned, or the tool panics -/
inductive DErr where
  | err
  | panic
  deriving DecidableEq, Repr

/-- the leaf checks of both array visitors, `src/pdata/array_walker.rs:81-93,217-226` -/
def arrayVis (_ : List (Event Nat)) : Event Nat → Bool
  | .visit _ kr es => goodLeaf kr es
  | _ => true

/-- a walk of an index tree by a new walker, `src/pdata/array_walker.rs:169-177,250-252` -/
def walkIndex (d : Dev) (root : Nat) : WSt Nat × BT.Res :=
  BT.walk (fun b => decide (b < d.nr)) d.rd arrayVis (d.nr + 1) [0] root (WSt.fresh d.nr 1 true)

/-- the leaves a walk visited -/
def leavesOf : List (Event Nat) → List (KeyRange × List (Nat × Nat))
  | [] => []
  | .visit _ kr es :: l => (kr, es) :: leavesOf l
  | _ :: l => leavesOf l

/-- `collect_array_blocks_with_path`, `src/pdata/array_walker.rs:193-254`, without the paths.  `keys.first().unwrap()` of
line 217 panics on an empty leaf. -/
def collectBlocks (d : Dev) (root : Nat) : Except DErr (List (Nat × Nat)) :=
  let r := walkIndex d root
  if (leavesOf r.1.log).any (fun l => l.2.isEmpty) then .error .panic
  else if r.2 = .ok then .ok (LW.collected r.1.log [])
  else .error .err

/-- `read_bitset_checked`, `src/pdata/bitset.rs:137-150`: whether there was an error, and the bits -/
def readDirty (d : Dev) (root nrBits : Nat) : Bool × Checked :=
  let r := walkIndex d root
  let c := readChecked d.words nrBits (leavesOf r.1.log)
  (!(r.2 = .ok) || !(c.1 == 0), c.2)

/-- the cache blocks of an array block, `src/cache/dump.rs:53-55` (all three visitors): `u32` arithmetic wraps -/
def cblocks (index maxEntries len : Nat) : List Nat :=
  let cbegin := (index % 2 ^ 32) * maxEntries % 2 ^ 32
  let cend := (cbegin + len) % 2 ^ 32
  List.range' cbegin (cend - cbegin)

/-- the loop of `MappingEmitter::visit`, `src/cache/dump.rs:55-70` with `dirty = is_dirty`, and `119-137` with `dirty` from the
bitset; `valid_mappings.set` panics beyond the size of the cache -/
def emitMaps (dirty : Nat → Mapping → Bool) (cacheBlocks : Nat) : List (Nat × Nat) → Except DErr (List Ev)
  | [] => .ok []
  | (w, c) :: l =>
    let m := ofWord w
    if !m.isValid then emitMaps dirty cacheBlocks l
    else if c ≥ cacheBlocks then .error .panic
    else
      match emitMaps dirty cacheBlocks l with
      | .error e => .error e
      | .ok evs => .ok (.mapping c m.oblock (dirty c m) :: evs)

/-- the loop of `HintEmitter::visit`, `src/cache/dump.rs:163-174` -/
def emitHints (valid : Nat → Bool) : List (Nat × Nat) → List Ev
  | [] => []
  | (w, c) :: l => if valid c then .hint c (hintBytes w) :: emitHints valid l else emitHints valid l

/-- `walk_array_blocks`, `src/dump_utils.rs:35-68`: in the order of the indexes -/
def walkBlocks {α : Type} (read : Nat → Option ABlock) (visit : Nat → ABlock → Except DErr (List α)) :
    List (Nat × Nat) → Except DErr (List α)
  | [] => .ok []
  | (index, b) :: l =>
    match read b with
    | none => .error .err
    | some ab =>
      match visit index ab with
      | .error e => .error e
      | .ok evs =>
        match walkBlocks read visit l with
        | .error e => .error e
        | .ok evs' => .ok (evs ++ evs')

/-- the mapping visitors, `src/cache/dump.rs:52-73,116-139` -/
def visitMaps (dirty : Nat → Mapping → Bool) (cacheBlocks index : Nat) (b : ABlock) : Except DErr (List Ev) :=
  emitMaps dirty cacheBlocks (b.values.zip (cblocks index b.maxEntries b.values.length))

/-- the hint visitor, `src/cache/dump.rs:160-177` -/
def visitHints (valid : Nat → Bool) (index : Nat) (b : ABlock) : Except DErr (List Ev) :=
  .ok (emitHints valid (b.values.zip (cblocks index b.maxEntries b.values.length)))

/-- `valid_mappings` after the mappings were emitted -/
def validIn (evs : List Ev) (c : Nat) : Bool :=
  evs.any fun e => match e with | .mapping c' _ _ => c' == c | _ => false

/-- `dump_v1_mappings`, `src/cache/dump.rs:182-194` -/
def dumpV1 (d : Dev) (root cacheBlocks : Nat) : Except DErr (List Ev) :=
  match collectBlocks d root with
  | .error e => .error e
  | .ok bs => walkBlocks d.maps (visitMaps (fun _ m => m.isDirty) cacheBlocks) bs

/-- `dump_v2_mappings`, `src/cache/dump.rs:196-223`; a bit that was not read counts as dirty -/
def dumpV2 (d : Dev) (root cacheBlocks : Nat) (dirtyRoot : Option Nat) (repair : Bool) : Except DErr (List Ev) :=
  match dirtyRoot with
  | none => .error .err
  | some dr =>
    let bits := readDirty d dr cacheBlocks
    if bits.1 && !repair then .error .err
    else
      match collectBlocks d root with
      | .error e => .error e
      | .ok bs => walkBlocks d.maps (visitMaps (fun c _ => (bits.2 c).getD true) cacheBlocks) bs

/-- `dump_hint_array`, `src/cache/dump.rs:225-235` -/
def dumpHints (d : Dev) (root : Nat) (valid : Nat → Bool) : Except DErr (List Ev) :=
  match collectBlocks d root with
  | .error e => .error e
  | .ok bs => walkBlocks d.hints (visitHints valid) bs

/-- `dump_metadata`, `src/cache/dump.rs:317-369`; the policy name is taken to be valid UTF-8 -/
def dump (d : Dev) (sb : Cache.Superblock) (repair : Bool) : Except DErr (List Ev) :=
  let maps :=
    if sb.version = 1 then dumpV1 d sb.mapping_root sb.cache_blocks
    else if sb.version = 2 then dumpV2 d sb.mapping_root sb.cache_blocks sb.dirty_root repair
    else .error .err
  match maps with
  | .error e => .error e
  | .ok ms =>
    match dumpHints d sb.hint_root (validIn ms) with
    | .error e => .error e
    | .ok hs =>
      .ok ([.superblockB ⟨[], sb.data_block_size, sb.cache_blocks, sb.policy_name, sb.policy_hint_size⟩, .mappingsB] ++ ms ++
        [.mappingsE, .hintsB] ++ hs ++ [.hintsE, .superblockE, .eof])

end Verif.CacheM
