import Verif.Model.CacheDump
import Verif.Model.CopyQueue

/-!
# `cache_writeback` (`src/cache/writeback.rs`)

The copiers are relations between the devices before and after a call and its statistics (`none`: the call failed as a whole); `Model/Copier.lean` and
`Model/Rescue.lean` are the real ones.  Array blocks are read through the checked reads of `Dev` also where the code does not verify the checksum (the same blocks
were verified by the walks before).  A write of metadata succeeds or leaves the block as it was: torn writes are not modelled.  Messages are not modelled.
-/

namespace Verif.Wb

open Verif.CacheM (Dev DErr walkIndex leavesOf readDirty cblocks ofWord mapWord)
open Verif.Bits (ABlock walkLeaves)
open Verif.BT (WSt)
open Verif.Cop (CopyOp Stats)

/-- a `RoaringBitmap`: its elements, increasing -/
abbrev RB := List Nat

/-- `RoaringBitmap::insert` -/
def ins (x : Nat) : RB → RB
  | [] => [x]
  | y :: l => if x < y then x :: y :: l else if x = y then y :: l else y :: ins x l

/-- `RoaringBitmap::remove` -/
def del (x : Nat) (l : RB) : RB := l.filter (· ≠ x)

/-- `|` of two bitmaps -/
def union (a b : RB) : RB := b.foldl (fun a x => ins x a) a

/-! ## Selecting blocks -/

/-- the three selectors, `src/cache/writeback.rs:56-104`, with `nr_blocks` -/
inductive Selector where
  | v1 (nr : Nat)
  | v2 (nr : Nat) (dirty : RB)
  | all (nr : Nat)

/-- `get_nr_to_writeback`, `src/cache/writeback.rs:62-64,80-82,97-99` -/
def Selector.nr : Selector → Nat
  | .v1 n => n
  | .v2 n _ => n
  | .all n => n

/-- `needs_writeback`, `src/cache/writeback.rs:66-68,84-86,101-103` -/
def Selector.needs : Selector → Nat → Mapping → Bool
  | .v1 _, _, m => m.isDirty
  | .v2 _ dirty, c, _ => decide (c ∈ dirty)
  | .all _, _, _ => true

/-- `ArrayWalker::walk` of the mappings, `src/pdata/array_walker.rs:169-188` -/
def walkMaps (d : Dev) {S : Type} (visit : Nat → ABlock → S → Bool × S) (root : Nat) (s : S) : Except DErr S :=
  let r := walkIndex d root
  let c := walkLeaves d.maps visit (leavesOf r.1.log) (0, s)
  if r.2 = .ok ∧ c.1 = 0 then .ok c.2 else .error .err

/-- `MappingCounter::visit`, `src/cache/writeback.rs:122-132` -/
def visitCount (pred : Mapping → Bool) (_index : Nat) (b : ABlock) (n : Nat) : Bool × Nat :=
  (true, b.values.foldl (fun n w => if (ofWord w).isValid && pred (ofWord w) then n + 1 else n) n)

/-- `count_mappings`, `src/cache/writeback.rs:134-145` -/
def countMappings (d : Dev) (root : Nat) (pred : Mapping → Bool) : Except DErr Nat :=
  match walkMaps d (visitCount pred) root 0 with
  | .error e => .error e
  | .ok n => .ok (n % 2 ^ 32)

/-- `v2_read_dirty_bitset`, `src/cache/writeback.rs:149-173`: the set bits, whether or not the cache block is mapped -/
def readDirtyV2 (d : Dev) (sb : Cache.Superblock) : Except DErr (Nat × RB) :=
  match sb.dirty_root with
  | none => .error .panic
  | some dr =>
    let bits := readDirty d dr sb.cache_blocks
    if bits.1 then .error .err
    else
      let dirty := (List.range sb.cache_blocks).filter fun i => (bits.2 i).getD false
      .ok (dirty.length % 2 ^ 32, dirty)

/-- `mk_selector`, `src/cache/writeback.rs:178-202` -/
def mkSelector (d : Dev) (sb : Cache.Superblock) : Except DErr Selector :=
  if sb.clean_shutdown then
    if sb.version = 1 then
      match countMappings d sb.mapping_root Mapping.isDirty with
      | .error e => .error e
      | .ok n => .ok (.v1 n)
    else if sb.version = 2 then
      match readDirtyV2 d sb with
      | .error e => .error e
      | .ok (n, dirty) => .ok (.v2 n dirty)
    else .error .panic
  else
    match countMappings d sb.mapping_root (fun _ => true) with
    | .error e => .error e
    | .ok n => .ok (.all n)

/-- the loop of `WritebackBatcher::visit`, `src/cache/writeback.rs:235-243` -/
def pushOps (sel : Selector) : List (Nat × Nat) → List CopyOp → List CopyOp
  | [], ops => ops
  | (w, c) :: l, ops =>
    pushOps sel l (if (ofWord w).isValid && sel.needs c (ofWord w) then ops ++ [⟨c, (ofWord w).oblock⟩] else ops)

/-- `WritebackBatcher::visit`, `src/cache/writeback.rs:230-246` -/
def visitBatch (sel : Selector) (index : Nat) (b : ABlock) (ops : List CopyOp) : Bool × List CopyOp :=
  (true, pushOps sel (b.values.zip (cblocks index b.maxEntries b.values.length)) ops)

/-- the operations pushed by the walk of `copy_all_dirty_blocks`, `src/cache/writeback.rs:653-657` -/
def allOps (d : Dev) (root : Nat) (sel : Selector) : Except DErr (List CopyOp) := walkMaps d (visitBatch sel) root []

/-- `btree_to_value_vec`, `src/pdata/btree_walker.rs:453-499`, of an index tree -/
def valueVec (d : Dev) (root : Nat) : Option (List Nat) :=
  let r := BT.walk (fun b => decide (b < d.nr)) d.rd (fun _ _ => true) (d.nr + 1) [0] root (WSt.fresh d.nr 1 true)
  if r.2 = .ok then some (((leavesOf r.1.log).flatMap (·.2)).map (·.2)) else none

/-- reading array block `index`: `src/cache/writeback.rs:683-684,688-689` (and `469-470,485-486`); an index beyond the vector is a panic -/
def load (read : Nat → Option ABlock) (ablocks : List Nat) (index : Nat) : Except DErr (Nat × ABlock) :=
  match ablocks[index]? with
  | none => .error .panic
  | some b =>
    match read b with
    | none => .error .err
    | some ab => .ok (b, ab)

/-- the loop of `copy_selected_blocks`, `src/cache/writeback.rs:685-699` -/
def lookupOps (read : Nat → Option ABlock) (ablocks : List Nat) (epb : Nat) : Nat → ABlock → RB → Except DErr (List CopyOp)
  | _, _, [] => .ok []
  | index, ab, c :: cs =>
    match (if c / epb ≠ index then (load read ablocks (c / epb)).map fun r => (c / epb, r.2) else .ok (index, ab)) with
    | .error e => .error e
    | .ok (index, ab) =>
      match ab.values[c % epb]? with
      | none => .error .panic
      | some w =>
        match lookupOps read ablocks epb index ab cs with
        | .error e => .error e
        | .ok ops => .ok (⟨c, (ofWord w).oblock⟩ :: ops)

/-- the operations of `copy_selected_blocks`, `src/cache/writeback.rs:680-699`; `epb` is `calc_max_entries::<Mapping>()` -/
def selectedOps (d : Dev) (epb root : Nat) (blocks : RB) : Except DErr (List CopyOp) :=
  match valueVec d root with
  | none => .error .err
  | some ablocks =>
    match load d.maps ablocks 0 with
    | .error e => .error e
    | .ok (_, ab) => lookupOps d.maps ablocks epb 0 ab blocks

/-! ## Copying -/

/-- what the copying thread returns, `src/cache/writeback.rs:407` -/
structure Sets where
  cleaned : RB
  readFailed : RB
  writeFailed : RB

/-- one turn of the loop of `ThreadedCopier::run_`, `src/cache/writeback.rs:412-436` -/
def account (ops : List CopyOp) (st : Stats) (x : Sets) : Sets :=
  let x := { x with cleaned := ops.foldl (fun a op => ins (op.src % 2 ^ 32) a) x.cleaned }
  let x := st.readErrors.foldl (fun x op =>
    { x with cleaned := del (op.src % 2 ^ 32) x.cleaned, readFailed := ins (op.src % 2 ^ 32) x.readFailed }) x
  st.writeErrors.foldl (fun x op =>
    { x with cleaned := del (op.src % 2 ^ 32) x.cleaned, writeFailed := ins (op.src % 2 ^ 32) x.writeFailed }) x

/-- a copier -/
abbrev Copy (σ : Type) := List CopyOp → σ → σ → Option Stats → Prop

/-- the calls of copiers that returned, in order -/
abbrev Calls := List (List CopyOp × Stats)

/-- `ThreadedCopier::run_`, `src/cache/writeback.rs:403-440`, for the messages it receives.  The result is `none` if the copier failed. -/
inductive Run {σ : Type} (copy : Copy σ) : List (List CopyOp) → Sets → σ → σ → Option Sets → Calls → Prop
  | closed (x : Sets) (s : σ) : Run copy [] x s s (some x) []
  | failed {ops msgs} {x : Sets} {s t : σ} : copy ops s t none → Run copy (ops :: msgs) x s t none []
  | next {ops msgs} {x : Sets} {s t u : σ} {st : Stats} {r : Option Sets} {tr : Calls} : copy ops s t (some st) →
      Run copy msgs (account ops st x) t u r tr → Run copy (ops :: msgs) x s u r ((ops, st) :: tr)

/-- the batches of a pass, `src/cache/writeback.rs:653,678`, through the channel to the copying thread -/
def Pass {σ : Type} (copy : Copy σ) (ops : List CopyOp) (s t : σ) (r : Option Sets) (tr : Calls) : Prop :=
  Run copy (CopyQ.batches 1000000 ops) ⟨[], [], []⟩ s t r tr

/-- `copy_all_dirty_blocks`, `src/cache/writeback.rs:633-663`.  When a walk fails, nobody waits for the thread, which may have done any part of its work. -/
inductive CopyAll {σ : Type} (copy : Copy σ) (d : Dev) (sb : Cache.Superblock) : σ → σ → Except DErr (Nat × Sets) → Calls → Prop
  /-- no copier (`src/cache/writeback.rs:570-579`) -/
  | create (s : σ) : CopyAll copy d sb s s (.error .err) []
  | selector {e : DErr} (s : σ) : mkSelector d sb = .error e → CopyAll copy d sb s s (.error e) []
  | walk {sel : Selector} {e : DErr} {s t : σ} {tr : Calls} : mkSelector d sb = .ok sel → allOps d sb.mapping_root sel = .error e →
      CopyAll copy d sb s t (.error e) tr
  | failed {sel : Selector} {ops : List CopyOp} {s t : σ} {tr : Calls} : mkSelector d sb = .ok sel → allOps d sb.mapping_root sel = .ok ops →
      Pass copy ops s t none tr → CopyAll copy d sb s t (.error .err) tr
  | ok {sel : Selector} {ops : List CopyOp} {s t : σ} {x : Sets} {tr : Calls} : mkSelector d sb = .ok sel → allOps d sb.mapping_root sel = .ok ops →
      Pass copy ops s t (some x) tr → CopyAll copy d sb s t (.ok (sel.nr, x)) tr

/-- `copy_selected_blocks`, `src/cache/writeback.rs:665-705`, with the construction of the copier -/
inductive CopySelected {σ : Type} (copy : Copy σ) (d : Dev) (epb root : Nat) (blocks : RB) : σ → σ → Except DErr Sets → Calls → Prop
  | create (s : σ) : CopySelected copy d epb root blocks s s (.error .err) []
  | lookup {e : DErr} {s t : σ} {tr : Calls} : selectedOps d epb root blocks = .error e → CopySelected copy d epb root blocks s t (.error e) tr
  | failed {ops : List CopyOp} {s t : σ} {tr : Calls} : selectedOps d epb root blocks = .ok ops → Pass copy ops s t none tr →
      CopySelected copy d epb root blocks s t (.error .err) tr
  | ok {ops : List CopyOp} {s t : σ} {x : Sets} {tr : Calls} : selectedOps d epb root blocks = .ok ops → Pass copy ops s t (some x) tr →
      CopySelected copy d epb root blocks s t (.ok x) tr

/-- at most `n` passes over what has failed: the `if` of `src/cache/writeback.rs:586-602` (`n = 1`) and the `while` of `src/cache/writeback.rs:605-621` -/
inductive Retry {σ : Type} (copy : Copy σ) (d : Dev) (epb root : Nat) : Nat → Sets → σ → σ → Except DErr Sets → Calls → Prop
  | clean {n : Nat} {x : Sets} (s : σ) : x.readFailed = [] → x.writeFailed = [] → Retry copy d epb root n x s s (.ok x) []
  | enough {x : Sets} (s : σ) : Retry copy d epb root 0 x s s (.ok x) []
  | error {n : Nat} {x : Sets} {s t : σ} {e : DErr} {tr : Calls} : ¬ (x.readFailed = [] ∧ x.writeFailed = []) →
      CopySelected copy d epb root (union x.readFailed x.writeFailed) s t (.error e) tr → Retry copy d epb root (n + 1) x s t (.error e) tr
  | again {n : Nat} {x y : Sets} {s t u : σ} {r : Except DErr Sets} {tr tr' : Calls} : ¬ (x.readFailed = [] ∧ x.writeFailed = []) →
      CopySelected copy d epb root (union x.readFailed x.writeFailed) s t (.ok y) tr →
      Retry copy d epb root n { y with cleaned := union x.cleaned y.cleaned } t u r tr' →
      Retry copy d epb root (n + 1) x s u r (tr ++ tr')

/-- `copy_dirty_blocks`, `src/cache/writeback.rs:554-631`, with the vectored, the simple and the rescuing copier -/
inductive CopyDirty {σ : Type} (copyV copyS copyR : Copy σ) (d : Dev) (sb : Cache.Superblock) (epb retries : Nat) :
    σ → σ → Except DErr (Nat × Sets) → Calls → Prop
  | first {s t : σ} {e : DErr} {tr : Calls} : CopyAll copyV d sb s t (.error e) tr → CopyDirty copyV copyS copyR d sb epb retries s t (.error e) tr
  | second {s t u : σ} {n : Nat} {x : Sets} {e : DErr} {tr tr' : Calls} : CopyAll copyV d sb s t (.ok (n, x)) tr →
      Retry copyS d epb sb.mapping_root 1 x t u (.error e) tr' → CopyDirty copyV copyS copyR d sb epb retries s u (.error e) (tr ++ tr')
  | third {s t u v : σ} {n : Nat} {x y : Sets} {e : DErr} {tr tr' tr'' : Calls} : CopyAll copyV d sb s t (.ok (n, x)) tr →
      Retry copyS d epb sb.mapping_root 1 x t u (.ok y) tr' → Retry copyR d epb sb.mapping_root retries y u v (.error e) tr'' →
      CopyDirty copyV copyS copyR d sb epb retries s v (.error e) (tr ++ tr' ++ tr'')
  | ok {s t u v : σ} {n : Nat} {x y z : Sets} {tr tr' tr'' : Calls} : CopyAll copyV d sb s t (.ok (n, x)) tr →
      Retry copyS d epb sb.mapping_root 1 x t u (.ok y) tr' → Retry copyR d epb sb.mapping_root retries y u v (.ok z) tr'' →
      CopyDirty copyV copyS copyR d sb epb retries s v (.ok (n, z)) (tr ++ tr' ++ tr'')

/-! ## Updating the metadata -/

/-- the array blocks of the metadata device, and the number of writes so far -/
structure USt where
  mem : Nat → Option ABlock
  writes : Nat

/-- writing an array block; `wok k`: whether write `k` succeeds -/
def USt.write (wok : Nat → Bool) (b : Nat) (ab : ABlock) (u : USt) : Except (DErr × USt) USt :=
  if wok u.writes then .ok ⟨fun x => if x = b then some ab else u.mem x, u.writes + 1⟩ else .error (.err, u)

/-- `set_dirty(false)` on one entry, `src/cache/writeback.rs:489`, packed again -/
def cleanWord (w : Nat) : Nat := mapWord ((ofWord w).setDirty false)

/-- the loop of `update_v1_metadata`, `src/cache/writeback.rs:473-499`; `b`, `ab` is the current block -/
def update1 (wok : Nat → Bool) (ablocks : List Nat) (epb : Nat) : Nat → Nat → ABlock → Bool → RB → USt → Except (DErr × USt) USt
  | _, b, ab, needs, [], u => if needs then u.write wok b ab else .ok u
  | index, b, ab, needs, c :: cs, u =>
    if c / epb ≠ index then
      match (if needs then u.write wok b ab else .ok u) with
      | .error e => .error e
      | .ok u =>
        match load u.mem ablocks (c / epb) with
        | .error e => .error (e, u)
        | .ok (b, ab) =>
          match ab.values[c % epb]? with
          | none => .error (.panic, u)
          | some w => update1 wok ablocks epb (c / epb) b { ab with values := ab.values.set (c % epb) (cleanWord w) } true cs u
    else
      match ab.values[c % epb]? with
      | none => .error (.panic, u)
      | some w => update1 wok ablocks epb index b { ab with values := ab.values.set (c % epb) (cleanWord w) } true cs u

/-- `update_v1_metadata`, `src/cache/writeback.rs:458-502` -/
def updateV1 (wok : Nat → Bool) (d : Dev) (epb root : Nat) (cleaned : RB) : Except (DErr × USt) USt :=
  match valueVec d root with
  | none => .error (.err, ⟨d.maps, 0⟩)
  | some ablocks =>
    match load d.maps ablocks 0 with
    | .error e => .error (e, ⟨d.maps, 0⟩)
    | .ok (b, ab) => update1 wok ablocks epb 0 b ab false cleaned ⟨d.maps, 0⟩

/-- `BitBlock`, `src/cache/writeback.rs:253-257` -/
structure BitBlock where
  index : Nat
  bitBegin : Nat
  block : ABlock

/-- `next_bitmap`, `src/cache/writeback.rs:311-322`, with `read_bits` and `write_bits` (`289-309`) -/
def nextBitmap (wok : Nat → Bool) (bitmaps : List Nat) (cur : Option BitBlock) (u : USt) : Except (DErr × USt) (BitBlock × USt) :=
  match cur with
  | some bb =>
    match bitmaps[bb.index]? with
    | none => .error (.panic, u)
    | some b =>
      match u.write wok b bb.block with
      | .error e => .error e
      | .ok u =>
        match load u.mem bitmaps (bb.index + 1) with
        | .error e => .error (e, u)
        | .ok (_, ab) => .ok (⟨bb.index + 1, bb.bitBegin + bb.block.values.length * 64, ab⟩, u)
  | none =>
    match load u.mem bitmaps 0 with
    | .error e => .error (e, u)
    | .ok (_, ab) => .ok (⟨0, 0, ab⟩, u)

/-- `get_bitmap`, `src/cache/writeback.rs:324-337`.  Every turn goes to the next bitmap and there is a panic beyond the last, so `fuel` of their number and one more is never
used up. -/
def getBitmap (wok : Nat → Bool) (bitmaps : List Nat) (bit : Nat) : Nat → Option BitBlock → USt → Except (DErr × USt) (BitBlock × USt)
  | fuel, cur, u =>
    match cur with
    | some bb =>
      if bb.bitBegin ≤ bit ∧ bb.bitBegin + bb.block.values.length * 64 > bit then .ok (bb, u)
      else
        match fuel with
        | 0 => .error (.panic, u)
        | fuel + 1 =>
          match nextBitmap wok bitmaps (some bb) u with
          | .error e => .error e
          | .ok (bb, u) => getBitmap wok bitmaps bit fuel (some bb) u
    | none =>
      match fuel with
      | 0 => .error (.panic, u)
      | fuel + 1 =>
        match nextBitmap wok bitmaps none u with
        | .error e => .error e
        | .ok (bb, u) => getBitmap wok bitmaps bit fuel (some bb) u

/-- `values[word] &= !(1 << bit)`, `src/cache/writeback.rs:358` -/
def clearBit (w bit : Nat) : Nat := w &&& (2 ^ 64 - 1 - 2 ^ bit)

/-- `set_bit(b, false)` for every cleaned block, then `flush`: `src/cache/writeback.rs:342-375,514-517`.  After an error or a panic there is no current block,
so `drop` writes nothing (`378-382`); the cleaned blocks being increasing, the assertion of line 345 holds. -/
def update2 (wok : Nat → Bool) (bitmaps : List Nat) : Option BitBlock → RB → USt → Except (DErr × USt) USt
  | none, [], u => .ok u
  | some bb, [], u =>
    match bitmaps[bb.index]? with
    | none => .error (.panic, u)
    | some b => u.write wok b bb.block
  | cur, c :: cs, u =>
    match getBitmap wok bitmaps c (bitmaps.length + 1) cur u with
    | .error e => .error e
    | .ok (bb, u) =>
      let word := (c - bb.bitBegin) / 64
      match bb.block.values[word]? with
      | none => .error (.panic, u)
      | some w =>
        update2 wok bitmaps (some { bb with block := { bb.block with values := bb.block.values.set word (clearBit w (c % 64)) } }) cs u

/-- `update_v2_metadata`, `src/cache/writeback.rs:504-520`, and `BitsetUpdater::new` (`268-287`) -/
def updateV2 (wok : Nat → Bool) (d : Dev) (root : Nat) (cleaned : RB) : Except (DErr × USt) USt :=
  match LW.btreeToMap d.rd d.nr root with
  | none => .error (.err, ⟨d.words, 0⟩)
  | some m =>
    if m.map (·.1) = List.range m.length then update2 wok (m.map (·.2)) none cleaned ⟨d.words, 0⟩
    else .error (.err, ⟨d.words, 0⟩)

/-- the outcome of an update, and the device it leaves -/
def finish (r : Except (DErr × USt) USt) (put : (Nat → Option ABlock) → Dev) : Option DErr × Dev :=
  match r with
  | .ok u => (none, put u.mem)
  | .error (e, u) => (some e, put u.mem)

/-- `update_metadata`, `src/cache/writeback.rs:445-456` -/
def updateMetadata (wok : Nat → Bool) (d : Dev) (sb : Cache.Superblock) (epb : Nat) (cleaned : RB) : Option DErr × Dev :=
  if sb.version = 1 then finish (updateV1 wok d epb sb.mapping_root cleaned) fun m => { d with maps := m }
  else if sb.version = 2 then
    match sb.dirty_root with
    | none => (some .panic, d)
    | some dr => finish (updateV2 wok d dr cleaned) fun m => { d with words := m }
  else (some .err, d)

/-! ## The tool -/

/-- `writeback`, `src/cache/writeback.rs:719-758`.  The result is `none` for success.  `aligned`: both offsets are multiples of the page size. -/
inductive Writeback {σ : Type} (copyV copyS copyR : Copy σ) (wok : Nat → Bool) (d : Dev) (sb : Cache.Superblock) (epb retries : Nat) (aligned update : Bool) :
    σ → σ → Option DErr × Dev → Calls → Prop
  | version (s : σ) : sb.version > 2 → Writeback copyV copyS copyR wok d sb epb retries aligned update s s (some .err, d) []
  | offsets (s : σ) : ¬ sb.version > 2 → aligned = false → Writeback copyV copyS copyR wok d sb epb retries aligned update s s (some .err, d) []
  | copying {s t : σ} {e : DErr} {tr : Calls} : ¬ sb.version > 2 → aligned = true →
      CopyDirty copyV copyS copyR d sb epb retries s t (.error e) tr → Writeback copyV copyS copyR wok d sb epb retries aligned update s t (some e, d) tr
  | updating {s t : σ} {n : Nat} {x : Sets} {e : DErr} {d' : Dev} {tr : Calls} : ¬ sb.version > 2 → aligned = true → update = true →
      CopyDirty copyV copyS copyR d sb epb retries s t (.ok (n, x)) tr → updateMetadata wok d sb epb x.cleaned = (some e, d') →
      Writeback copyV copyS copyR wok d sb epb retries aligned update s t (some e, d') tr
  | updated {s t : σ} {n : Nat} {x : Sets} {d' : Dev} {tr : Calls} : ¬ sb.version > 2 → aligned = true → update = true →
      CopyDirty copyV copyS copyR d sb epb retries s t (.ok (n, x)) tr → updateMetadata wok d sb epb x.cleaned = (none, d') →
      Writeback copyV copyS copyR wok d sb epb retries aligned update s t (if x.cleaned.length ≠ n then some .err else none, d') tr
  | kept {s t : σ} {n : Nat} {x : Sets} {tr : Calls} : ¬ sb.version > 2 → aligned = true → update = false →
      CopyDirty copyV copyS copyR d sb epb retries s t (.ok (n, x)) tr →
      Writeback copyV copyS copyR wok d sb epb retries aligned update s t (if x.cleaned.length ≠ n then some .err else none, d) tr

end Verif.Wb
