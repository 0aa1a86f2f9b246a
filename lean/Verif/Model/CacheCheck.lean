import Verif.Model.CacheDump
import Verif.Model.SpaceMapCheck

/-!
# `cache_check` (`src/cache/check.rs`)

The tool stops being interesting at the first fatal report: from then on its result is an error whatever follows
(`src/cache/check.rs:364-369`, every later exit being an error too), so the model returns the error at once.  Array blocks are counted
after their index tree was walked, not during the walk (`src/pdata/array_walker.rs:117-120`); the difference matters only if an
array block is at the same time a node of the same tree.
-/

namespace Verif.CacheM

open Verif.BT (Blk KeyRange Event WSt)
open Verif.Bits (ABlock Checked visitChecked walkLeaves)
open Verif.SMD (SVal)

/-- `FixedBitSet` of the `fixedbitset` crate; `bad` records a panic of `insert` beyond the end -/
structure BitSet where
  len : Nat
  bits : Nat → Bool
  bad : Bool

/-- `FixedBitSet::with_capacity` -/
def BitSet.new (len : Nat) : BitSet := ⟨len, fun _ => false, false⟩
/-- `FixedBitSet::contains` -/
def BitSet.contains (s : BitSet) (i : Nat) : Bool := decide (i < s.len) && s.bits i
/-- `FixedBitSet::grow` -/
def BitSet.grow (s : BitSet) (n : Nat) : BitSet := if n > s.len then { s with len := n } else s
/-- `FixedBitSet::insert` -/
def BitSet.insert (s : BitSet) (i : Nat) : BitSet :=
  if i < s.len then { s with bits := fun x => if x = i then true else s.bits x } else { s with bad := true }

/-- `DEFAULT_OBLOCKS`, `src/cache/check.rs:23` -/
def defaultOblocks : Nat := 16777216

/-- the limit and the bitset of `MappingChecker::new`, `src/cache/check.rs:42-54,134-152`, with `MAX_ORIGIN_BLOCKS` of
`src/cache/mapping.rs:10` -/
def newChecker (nrOrigin : Option Nat) : Nat × BitSet :=
  match nrOrigin with
  | some n => (n, BitSet.new n)
  | none => (2 ^ 48, BitSet.new defaultOblocks)

/-- `format1::check_flags`, `src/cache/check.rs:56-69` -/
def checkFlags1 (m : Mapping) : Bool :=
  if m.flags &&& (2 ^ 32 - 1 - (1 ||| 2)) ≠ 0 then false else !(!m.isValid && m.isDirty)

/-- `format2::check_flags`, `src/cache/check.rs:154-167` -/
def checkFlags2 (m : Mapping) (dirty : Option Bool) : Bool :=
  if m.flags &&& (2 ^ 32 - 1 - 1) ≠ 0 then false else !(!m.isValid && dirty.isSome && dirty.getD false)

/-- `check_oblock`, `src/cache/check.rs:71-94,169-191` -/
def checkOblock (lim : Nat) (m : Mapping) (seen : BitSet) : Bool × BitSet :=
  if !m.isValid then (if m.oblock > 0 then (false, seen) else (true, seen))
  else if m.oblock ≥ lim then (false, seen)
  else if m.oblock ≥ seen.len then (true, (seen.grow (m.oblock + 1)).insert m.oblock)
  else if seen.contains m.oblock then (false, seen)
  else (true, seen.insert m.oblock)

/-- the loops of `src/cache/check.rs:101-108,201-208`; the flag says that there was no error -/
def checkMaps (flags : Nat → Mapping → Bool) (lim : Nat) : List (Nat × Nat) → BitSet → Bool × BitSet
  | [], seen => (true, seen)
  | (w, c) :: l, seen =>
    let f := flags c (ofWord w)
    let o := checkOblock lim (ofWord w) seen
    let r := checkMaps flags lim l o.2
    (f && o.1 && r.1, r.2)

/-- `format1::MappingChecker::visit`, `src/cache/check.rs:98-116`: the cache block is not looked at -/
def visitMap1 (lim _index : Nat) (b : ABlock) (seen : BitSet) : Bool × BitSet :=
  checkMaps (fun _ m => checkFlags1 m) lim (b.values.map fun w => (w, 0)) seen

/-- `format2::MappingChecker::visit`, `src/cache/check.rs:195-216` -/
def visitMap2 (lim : Nat) (bits : Checked) (index : Nat) (b : ABlock) (seen : BitSet) : Bool × BitSet :=
  checkMaps (fun c m => checkFlags2 m (bits c)) lim (b.values.zip (cblocks index b.maxEntries b.values.length)) seen

/-- `HintChecker::visit`, `src/cache/check.rs:231-234` -/
def visitHint (_index : Nat) (_b : ABlock) (s : Unit) : Bool × Unit := (true, s)

/-! ## Walking with the common space map -/

/-- a walker on the tool's `CoreSpaceMap` of `u8` counters, `src/cache/check.rs:281` -/
def coreSt {V : Type} (nr : Nat) (seen : Nat → Nat) : WSt V :=
  { nr, mx := 255, sat := false, seen, fails := fun _ => false, log := [] }

/-- `sm.inc(b.loc, 1).unwrap()` for every array block, `src/pdata/array_walker.rs:118-119` -/
def incBlocks (nr : Nat) : List Nat → (Nat → Nat) → Except DErr (Nat → Nat)
  | [], seen => .ok seen
  | b :: bs, seen =>
    if b < nr ∧ seen b < 255 then incBlocks nr bs (fun x => if x = b then seen b + 1 else seen x) else .error .panic

/-- `ArrayWalker::walk`, `src/pdata/array_walker.rs:169-188`, on the common space map; the result of the visitor and the counts -/
def walkArray (d : Dev) (read : Nat → Option ABlock) {S : Type} (visit : Nat → ABlock → S → Bool × S) (root : Nat) (s : S) (seen : Nat → Nat) :
    Except DErr (S × (Nat → Nat)) :=
  let r := BT.walk (fun b => decide (b < d.nr)) d.rd arrayVis (d.nr + 1) [0] root (coreSt d.nr seen)
  let c := walkLeaves read visit (leavesOf r.1.log) (0, s)
  if r.2 = .ok ∧ c.1 = 0 then
    match incBlocks d.nr (((leavesOf r.1.log).flatMap (·.2)).map (·.2)) r.1.seen with
    | .error e => .error e
    | .ok seen => .ok (c.2, seen)
  else .error .err

/-! ## The tool -/

/-- the metadata device as the tool sees it: arrays, nodes of the space map's overflow tree, bitmaps, the index block of the space map
(with its checksum verified), and the superblock -/
structure CDev where
  dev : Dev
  rdn : Bool → Nat → Option (Blk SVal)
  bm : Nat → Option (Bool × List BE)
  index : Nat → Option (List IndexEntry)
  sb : Option Cache.Superblock

/-- `CacheCheckOptions`, `src/cache/check.rs:239-250` -/
structure COpts where
  sbOnly : Bool
  skipMappings : Bool
  skipHints : Bool
  skipDiscards : Bool
  ignoreNonFatal : Bool
  autoRepair : Bool
  clearNeedsCheck : Bool
  deriving DecidableEq, Repr

/-- `src/cache/check.rs:296-302`: the product wraps, a zero block size panics -/
def nrOrigin (sb : Cache.Superblock) : Except DErr (Option Nat) :=
  if sb.clean_shutdown && sb.discard_block_size > 0 && sb.discard_nr_blocks > 0 then
    if sb.data_block_size = 0 then .error .panic
    else .ok (some ((sb.discard_block_size * sb.discard_nr_blocks) % 2 ^ 64 / sb.data_block_size))
  else .ok none

/-- `src/cache/check.rs:305-335` -/
def checkMappings (d : Dev) (sb : Cache.Superblock) (origin : Option Nat) (seen : Nat → Nat) : Except DErr (Nat → Nat) :=
  let ck := newChecker origin
  if sb.version = 1 then
    match walkArray d d.maps (visitMap1 ck.1) sb.mapping_root ck.2 seen with
    | .error e => .error e
    | .ok (b, seen) => if b.bad then .error .panic else .ok seen
  else if sb.version = 2 then
    match sb.dirty_root with
    | none => .error .panic
    | some dr =>
      match walkArray d d.words (visitChecked sb.cache_blocks) dr (fun _ => none) seen with
      | .error e => .error e
      | .ok (bits, seen) =>
        match walkArray d d.maps (visitMap2 ck.1 bits) sb.mapping_root ck.2 seen with
        | .error e => .error e
        | .ok (b, seen) => if b.bad then .error .panic else .ok seen
  else .error .err

/-- `src/cache/check.rs:337-347` -/
def checkHints (d : Dev) (sb : Cache.Superblock) (seen : Nat → Nat) : Except DErr (Nat → Nat) :=
  if sb.hint_root ≠ 0 ∧ sb.policy_hint_size ≠ 0 then
    if sb.policy_hint_size ≠ 4 then .error .err
    else
      match walkArray d d.hints visitHint sb.hint_root () seen with
      | .error e => .error e
      | .ok (_, seen) => .ok seen
  else .ok seen

/-- `src/cache/check.rs:351-362` -/
def checkDiscards (d : Dev) (sb : Cache.Superblock) (seen : Nat → Nat) : Except DErr (Nat → Nat) :=
  if sb.discard_root ≠ 0 then
    match walkArray d d.words (visitChecked sb.discard_nr_blocks) sb.discard_root (fun _ => none) seen with
    | .error e => .error e
    | .ok (_, seen) => .ok seen
  else .ok seen

/-- `check_metadata_space_map`, `src/pdata/space_map/checker.rs:244-276`: the leaks, and the expected counts -/
def checkMetaSm (d : CDev) (root : SMRoot) (seen : Nat → Nat) : Except DErr (List SMC.Leak × List Nat) :=
  let io := fun b => decide (b < d.dev.nr)
  let r := BT.walk io d.rdn (fun _ _ => true) (d.dev.nr + 1) [0] root.ref_count_root (coreSt d.dev.nr seen)
  if r.2 = .ok then
    match d.index root.bitmap_root with
    | none => .error .err
    | some ies =>
      match r.1.smInc root.bitmap_root with
      | none => .error .err
      | some (_, st) =>
        match SMC.incEntries ies st with
        | none => .error .err
        | some st =>
          let exp := (List.range d.dev.nr).map st.seen
          match SMC.checkMeta io d.rdn d.bm (d.dev.nr + 1) d.dev.nr root exp ies with
          | none => .error .err
          | some leaks => .ok (leaks, exp)
  else .error .err

/-- the counting part of `check`, `src/cache/check.rs:304-362` -/
def checkArrays (d : CDev) (o : COpts) (sb : Cache.Superblock) : Except DErr (Nat → Nat) :=
  match nrOrigin sb with
  | .error e => .error e
  | .ok origin =>
    match (if o.skipMappings then .ok (fun b => if b = 0 then 1 else 0) else checkMappings d.dev sb origin (fun b => if b = 0 then 1 else 0)) with
    | .error e => .error e
    | .ok seen =>
      match (if o.skipHints then .ok seen else checkHints d.dev sb seen) with
      | .error e => .error e
      | .ok seen => if o.skipDiscards then .ok seen else checkDiscards d.dev sb seen

/-- `clear_needs_check_flag`, `src/cache/check.rs:406-413`; the superblock is not damaged by repairing bitmaps -/
def clearNeedsCheck (d : CDev) : CDev := { d with sb := d.sb.map fun sb => { sb with needs_check := false } }

/-- the outcome: an error or none -/
abbrev Outcome := Option DErr

/-- the end of `check`, `src/cache/check.rs:384-403`.  `wr i` tells whether the `i`-th bitmap write happens, `sbWr` whether the superblock
is written; a failed write is an error. -/
def finish (wr : Nat → Bool) (sbWr : Bool) (o : COpts) (d : CDev) (leaks : List SMC.Leak) (exp : List Nat) : CDev × Outcome :=
  let fix := o.autoRepair || o.clearNeedsCheck
  let r : CDev × Outcome :=
    if leaks.isEmpty then (d, none)
    else if fix then
      match SMC.repair wr d.bm exp leaks with
      | none => (d, some .err)
      | some bm => ({ d with bm }, if (List.range leaks.length).all wr then none else some .err)
    else if o.ignoreNonFatal then (d, none) else (d, some .err)
  match r.2 with
  | some e => (r.1, some e)
  | none =>
    if fix then
      match d.sb with
      | none => (r.1, some .err)
      | some sb => if sb.needs_check then (if sbWr then (clearNeedsCheck r.1, none) else (r.1, some .err)) else (r.1, none)
    else (r.1, none)

/-- `check`, `src/cache/check.rs:277-404`: the device afterwards, and the error; `root` is the unpacked space map root of the superblock -/
def check (wr : Nat → Bool) (sbWr : Bool) (o : COpts) (unpackRoot : Bytes → Option SMRoot) (d : CDev) : CDev × Outcome :=
  match d.sb with
  | none => (d, some .err)
  | some sb =>
    if sb.version ≥ 2 ∧ sb.dirty_root.getD 0 = 0 then (d, some .err)
    else if o.sbOnly then (d, none)
    else
      match checkArrays d o sb with
      | .error e => (d, some e)
      | .ok seen =>
        if o.skipMappings || o.skipHints || o.skipDiscards then (d, none)
        else
          match unpackRoot sb.metadata_sm_root with
          | none => (d, some .err)
          | some root =>
            match checkMetaSm d root seen with
            | .error e => (d, some e)
            | .ok (leaks, exp) => finish wr sbWr o d leaks exp

end Verif.CacheM
