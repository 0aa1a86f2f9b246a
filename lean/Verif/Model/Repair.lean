import Verif.Model.LeafWalker
import Verif.Model.Records
import Verif.Model.Superblock

/-!
# Finding roots and rebuilding the superblock: `thin_repair` (`src/thin/metadata_repair.rs`)

A metadata block is what `gather_info` makes of its bytes (`Raw`).  Messages are not modelled.  `usize` has 64 bits; the sums of `u64` and `u32` wrap around
(release build).  `sort_unstable_by` returns some permutation that is sorted.
-/

namespace Verif.Rep

open Verif.BT (Blk WSt)

/-- A readable B-tree node with a good checksum; `blk` is the block number in its header.  Nodes that cannot be unpacked, nodes of other value sizes and internal nodes
with the value size of details are not distinguished from blocks that are no nodes: `gather_info` fails for all of them (`src/thin/metadata_repair.rs:500-535`). -/
inductive Raw where
  | internal (blk : Nat) (ch : List (Nat × Nat))
  | leaf (blk : Nat) (es : List (Nat × Nat))
  | details (blk : Nat) (es : List (Nat × DeviceDetail))
  deriving Repr, DecidableEq

/-! ## Infos -/

/-- `BTreeMap<u32, u32>`: pairs in key order -/
abbrev TC := List (Nat × Nat)

/-- `*entry(t).or_insert(0) += c` -/
def bump (t c : Nat) : TC → TC
  | [] => [(t, c % 2 ^ 32)]
  | (t', c') :: m => if t < t' then (t, c % 2 ^ 32) :: (t', c') :: m else if t = t' then (t, (c' + c) % 2 ^ 32) :: m else (t', c') :: bump t c m

/-- `merge_time_counts`, `src/thin/metadata_repair.rs:113-118` -/
def mergeTC (lhs rhs : TC) : TC := rhs.foldl (fun m e => bump e.1 e.2 m) lhs

/-- `DevInfo`, `src/thin/metadata_repair.rs:120-130` -/
structure DevInfo where
  b : Nat
  nrDevices : Nat
  nrMappings : Nat
  keyLow : Nat
  keyHigh : Nat
  tc : TC
  age : Nat
  highest : Nat
  pushed : Bool
  deriving Repr, DecidableEq

/-- `DevInfo::new`, `src/thin/metadata_repair.rs:133-145` -/
def DevInfo.new (b : Nat) : DevInfo := ⟨b, 0, 0, 0, 0, [], 0, 0, false⟩

/-- `DevInfo::push_child`, `src/thin/metadata_repair.rs:147-167` -/
def DevInfo.push (i c : DevInfo) : Option DevInfo :=
  if i.pushed && decide (c.keyLow ≤ i.keyHigh) then none
  else some
    { i with
      keyLow := if i.pushed then i.keyLow else c.keyLow
      pushed := true
      keyHigh := c.keyHigh
      nrDevices := (i.nrDevices + c.nrDevices) % 2 ^ 64
      nrMappings := (i.nrMappings + c.nrMappings) % 2 ^ 64
      tc := mergeTC i.tc c.tc
      age := max i.age c.age
      highest := max i.highest c.highest }

/-- `MappingsInfo`, `src/thin/metadata_repair.rs:170-179` -/
structure MapInfo where
  b : Nat
  nrMappings : Nat
  keyLow : Nat
  keyHigh : Nat
  tc : TC
  age : Nat
  highest : Nat
  pushed : Bool
  deriving Repr, DecidableEq

/-- `MappingsInfo::new`, `src/thin/metadata_repair.rs:182-193` -/
def MapInfo.new (b : Nat) : MapInfo := ⟨b, 0, 0, 0, [], 0, 0, false⟩

/-- `MappingsInfo::push_child`, `src/thin/metadata_repair.rs:195-214` -/
def MapInfo.push (i c : MapInfo) : Option MapInfo :=
  if i.pushed && decide (c.keyLow ≤ i.keyHigh) then none
  else some
    { i with
      keyLow := if i.pushed then i.keyLow else c.keyLow
      pushed := true
      keyHigh := c.keyHigh
      nrMappings := (i.nrMappings + c.nrMappings) % 2 ^ 64
      tc := mergeTC i.tc c.tc
      age := max i.age c.age
      highest := max i.highest c.highest }

/-- `DetailsInfo`, `src/thin/metadata_repair.rs:217-226` -/
structure DetInfo where
  b : Nat
  nrDevices : Nat
  nrMappings : Nat
  keyLow : Nat
  keyHigh : Nat
  maxTid : Nat
  age : Nat
  pushed : Bool
  deriving Repr, DecidableEq

/-- `DetailsInfo::new`, `src/thin/metadata_repair.rs:229-240` -/
def DetInfo.new (b : Nat) : DetInfo := ⟨b, 0, 0, 0, 0, 0, 0, false⟩

/-- `DetailsInfo::push_child`, `src/thin/metadata_repair.rs:242-258` -/
def DetInfo.push (i c : DetInfo) : Option DetInfo :=
  if i.pushed && decide (c.keyLow ≤ i.keyHigh) then none
  else some
    { i with
      keyLow := if i.pushed then i.keyLow else c.keyLow
      pushed := true
      keyHigh := c.keyHigh
      nrDevices := (i.nrDevices + c.nrDevices) % 2 ^ 64
      nrMappings := (i.nrMappings + c.nrMappings) % 2 ^ 64
      maxTid := max i.maxTid c.maxTid
      age := max i.age c.age }

/-- `NodeInfo`, `src/thin/metadata_repair.rs:261-265` -/
inductive Info where
  | dev (i : DevInfo)
  | mappings (i : MapInfo)
  | details (i : DetInfo)
  deriving Repr, DecidableEq

/-- one turn of the loops of `gather_dev_subtree_info`, `gather_mappings_subtree_info` and `gather_details_subtree_info`, `src/thin/metadata_repair.rs:297-304,317-324,337-344` -/
def pushKid : Info → Info → Option Info
  | .dev i, .dev c => (i.push c).map .dev
  | .mappings i, .mappings c => (i.push c).map .mappings
  | .details i, .details c => (i.push c).map .details
  | _, _ => none

/-- the empty info of the first child's kind, `src/thin/metadata_repair.rs:295,315,335,360-365` -/
def startKid (blk : Nat) : Info → Info
  | .dev _ => .dev (.new blk)
  | .mappings _ => .mappings (.new blk)
  | .details _ => .details (.new blk)

/-- the least key, or 0, `src/thin/metadata_repair.rs:385-388,418-421,443-446` -/
def firstKey {V : Type} (es : List (Nat × V)) : Nat := ((es.head?).map (·.1)).getD 0

/-- the greatest key, or 0 -/
def lastKey {V : Type} (es : List (Nat × V)) : Nat := ((es.getLast?).map (·.1)).getD 0

/-- the start of `gather_dev_leaf_info`, `src/thin/metadata_repair.rs:381-388` -/
def startDev (blk : Nat) (es : List (Nat × Nat)) : Info :=
  .dev { DevInfo.new blk with nrDevices := es.length, keyLow := firstKey es, keyHigh := lastKey es }

/-- one turn of its loop, `src/thin/metadata_repair.rs:390-403` -/
def pushDev : Info → Info → Option Info
  | .dev i, .mappings c => some (.dev
      { i with
        nrMappings := (i.nrMappings + c.nrMappings) % 2 ^ 64
        tc := mergeTC i.tc c.tc
        age := max i.age c.age
        highest := max i.highest c.highest })
  | _, _ => none

/-- `BlockTime` of a value, `src/thin/block_time.rs:21-33` -/
def btOf (v : Nat) : BlockTime := ⟨v >>> 24, v &&& (2 ^ 24 - 1)⟩

/-- `gather_mapping_leaf_info`, `src/thin/metadata_repair.rs:408-431` -/
def mapLeaf (blk : Nat) (es : List (Nat × Nat)) : MapInfo :=
  es.foldl (fun i e => { i with
      highest := max (btOf e.2).block i.highest
      tc := bump (btOf e.2).time 1 i.tc
      age := max i.age (btOf e.2).time })
    { MapInfo.new blk with nrMappings := es.length, keyLow := firstKey es, keyHigh := lastKey es }

/-- `gather_details_leaf_info`, `src/thin/metadata_repair.rs:433-456` -/
def detLeaf (blk : Nat) (es : List (Nat × DeviceDetail)) : DetInfo :=
  es.foldl (fun i e => { i with
      nrMappings := (i.nrMappings + e.2.mapped_blocks) % 2 ^ 64
      maxTid := max i.maxTid e.2.transaction_id
      age := max (max i.age e.2.creation_time) e.2.snapshotted_time })
    { DetInfo.new blk with nrDevices := es.length, keyLow := firstKey es, keyHigh := lastKey es }

/-- `maybe_top_level`, `src/thin/metadata_repair.rs:458-470` -/
def maybeTop (nr : Nat) (es : List (Nat × Nat)) : Bool := !es.isEmpty && es.all fun e => decide (e.2 ≤ nr)

/-! ## The collector -/

/-- `NodeCollector`, `src/thin/metadata_repair.rs:267-274` -/
structure St where
  examined : Nat → Bool
  referenced : Nat → Bool
  infos : Nat → Option Info

/-- the process ends: an index beyond a bit set, or (never, see `collect_fuel`) the model's recursion limit -/
inductive Stop where
  | panic
  | fuel
  deriving Repr, DecidableEq

/-- outcome of `get_info` and the like: the inner `none` is `Err` -/
abbrev Out := Except Stop (St × Option Info)

/-- the loops over children -/
def gatherKids (get : Nat → St → Out) (push : Info → Info → Option Info) : List Nat → Info → St → Out
  | [], acc, s => .ok (s, some acc)
  | c :: cs, acc, s =>
    match get c s with
    | .error e => .error e
    | .ok (s, none) => .ok (s, none)
    | .ok (s, some i) =>
      match push acc i with
      | none => .ok (s, none)
      | some acc => gatherKids get push cs acc s

/-- `gather_subtree_info`, `src/thin/metadata_repair.rs:349-373` -/
def gatherSubtree (get : Nat → St → Out) (blk : Nat) (ch : List (Nat × Nat)) (s : St) : Out :=
  match ch with
  | [] => .ok (s, none)
  | (_, c0) :: _ =>
    match get c0 s with
    | .error e => .error e
    | .ok (s, none) => .ok (s, none)
    | .ok (s, some first) =>
      match gatherKids get pushKid (ch.map (·.2)) (startKid blk first) s with
      | .error e => .error e
      | .ok (s, none) => .ok (s, none)
      | .ok (s, some info) => .ok ({ s with referenced := fun x => s.referenced x || decide (x ∈ ch.map (·.2)) }, some info)

/-- `gather_info`, `src/thin/metadata_repair.rs:500-535` -/
def gatherInfo (rd : Nat → Option Raw) (nr : Nat) (get : Nat → St → Out) (b : Nat) (s : St) : Out :=
  match rd b with
  | none => .ok (s, none)
  | some (.internal blk ch) => gatherSubtree get blk ch s
  | some (.leaf blk es) =>
    if maybeTop nr es then gatherKids get pushDev (es.map (·.2)) (startDev blk es) s
    else .ok (s, some (.mappings (mapLeaf blk es)))
  | some (.details blk es) => .ok (s, some (.details (detLeaf blk es)))

/-- `get_info`, `src/thin/metadata_repair.rs:543-554`; setting a bit beyond the end is a panic -/
def getInfo (rd : Nat → Option Raw) (nr : Nat) (fuel b : Nat) (s : St) : Out :=
  if s.examined b then .ok (s, s.infos b)
  else if b ≥ nr then .error .panic
  else
    match fuel with
    | 0 => .error .fuel
    | fuel + 1 =>
      match gatherInfo rd nr (getInfo rd nr fuel) b { s with examined := fun x => x == b || s.examined x } with
      | .error e => .error e
      | .ok (s, none) => .ok (s, none)
      | .ok (s, some i) => .ok ({ s with infos := fun x => if x = b then some i else s.infos x }, some i)

/-- the loop of `collect_infos`, `src/thin/metadata_repair.rs:556-561` -/
def collectFrom (rd : Nat → Option Raw) (nr : Nat) : List Nat → St → Except Stop St
  | [], s => .ok s
  | b :: bs, s =>
    match getInfo rd nr nr b s with
    | .error e => .error e
    | .ok (s, _) => collectFrom rd nr bs s

/-- `NodeCollector::new` and `collect_infos`, `src/thin/metadata_repair.rs:277-287,556-561` -/
def collect (rd : Nat → Option Raw) (nr : Nat) : Except Stop St :=
  collectFrom rd nr (List.range nr) ⟨fun _ => false, fun _ => false, fun _ => none⟩

/-- the mapping trees among the roots, `gather_roots`, `src/thin/metadata_repair.rs:563-581` -/
def devRoots (nr : Nat) (s : St) : List DevInfo :=
  (List.range nr).filterMap fun b => if s.referenced b then none else match s.infos b with | some (.dev i) => some i | _ => none

/-- the details trees among the roots -/
def detRoots (nr : Nat) (s : St) : List DetInfo :=
  (List.range nr).filterMap fun b => if s.referenced b then none else match s.infos b with | some (.details i) => some i | _ => none

/-! ## Pairs -/

/-- `std::cmp::Ordering` of two reversed iterators, the loop of `compare_time_counts`, `src/thin/metadata_repair.rs:588-621` -/
def compareRev : List (Nat × Nat) → List (Nat × Nat) → Ordering
  | [], [] => .eq
  | [], _ :: _ => .gt
  | _ :: _, [] => .lt
  | l :: ls, r :: rs =>
    if l.1 > r.1 then .lt
    else if r.1 > l.1 then .gt
    else if l.2 > r.2 then .lt
    else if r.2 > l.2 then .gt
    else compareRev ls rs

/-- `compare_time_counts`, `src/thin/metadata_repair.rs:587-622` -/
def compareTC (l r : TC) : Ordering := compareRev l.reverse r.reverse

/-- the loop of `lower_bound` (`below x key` is `x < key`) and `upper_bound` (`x <= key`), `src/thin/metadata_repair.rs:76-92,95-111`; the range is halved, so the fuel
is never used up -/
def boundLoop (below : DetInfo → Bool) (infos : List DetInfo) : Nat → Nat → Nat → Option Nat
  | fuel, start, stop =>
    if start < stop then
      match fuel with
      | 0 => none
      | fuel + 1 =>
        match infos[start + (stop - start) / 2]? with
        | none => none
        | some i => if below i then boundLoop below infos fuel (start + (stop - start) / 2 + 1) stop else boundLoop below infos fuel start (start + (stop - start) / 2)
    else some start

/-- `lower_bound`, `src/thin/metadata_repair.rs:76-92` -/
def lowerBound (infos : List DetInfo) (key : Nat) : Option Nat := boundLoop (fun i => decide (i.nrMappings < key)) infos infos.length 0 infos.length

/-- `upper_bound`, `src/thin/metadata_repair.rs:95-111` -/
def upperBound (infos : List DetInfo) (key : Nat) : Option Nat := boundLoop (fun i => decide (i.nrMappings ≤ key)) infos infos.length 0 infos.length

/-- the nodes as the walker of a mapping tree's top level sees them; non-fatal errors are ignored, so the root is nothing special -/
def rd64 (rd : Nat → Option Raw) (_root : Bool) (b : Nat) : Option (Blk Nat) :=
  match rd b with
  | some (.internal _ ch) => some (.internal ch)
  | some (.leaf _ es) => some (.leaf es)
  | _ => none

/-- the nodes as the walker of a details tree sees them -/
def rdDet (rd : Nat → Option Raw) (_root : Bool) (b : Nat) : Option (Blk DeviceDetail) :=
  match rd b with
  | some (.internal _ ch) => some (.internal ch)
  | some (.details _ es) => some (.leaf es)
  | _ => none

/-- `BTreeSet::insert` -/
def insKey (k : Nat) : List Nat → List Nat
  | [] => [k]
  | x :: l => if k < x then k :: x :: l else if k = x then x :: l else x :: insKey k l

/-- the keys a visitor was shown, `src/pdata/btree_walker.rs:413-429` -/
def keysOf {V : Type} : List (BT.Event V) → List Nat → List Nat
  | [], acc => acc
  | .visit _ _ es :: l, acc => keysOf l (es.foldl (fun a e => insKey e.1 a) acc)
  | _ :: l, acc => keysOf l acc

/-- `btree_to_key_set`, `src/pdata/btree_walker.rs:438-448` -/
def keySet {V : Type} (rd : Bool → Nat → Option (Blk V)) (nr root : Nat) : Option (List Nat) :=
  let r := BT.walk (fun b => decide (b < nr)) rd (fun _ _ => true) (nr + 1) [0] root (WSt.fresh nr 1 true)
  if r.2 = .ok then some (keysOf r.1.log []) else none

/-- `devices_identical`, `src/thin/metadata_repair.rs:51-73` -/
def identical (rd : Nat → Option Raw) (nr devRoot detRoot : Nat) : Bool :=
  match keySet (rd64 rd) nr devRoot, keySet (rdDet rd) nr detRoot with
  | some a, some b => decide (a = b)
  | _, _ => false

/-- `filter_details_roots`, `src/thin/metadata_repair.rs:624-637` -/
def filterDet (roots : List DetInfo) (nrDevices : List Nat) : List DetInfo := roots.filter fun r => nrDevices.contains r.nrDevices

/-- the distinct numbers of devices, `src/thin/metadata_repair.rs:646-651` -/
def distinctNr : List DevInfo → List Nat → List Nat
  | [], acc => acc
  | d :: ds, acc => distinctNr ds (if acc.contains d.nrDevices then acc else acc ++ [d.nrDevices])

/-- what `sort_unstable_by` may return -/
def Sorted {α : Type} (gt : α → α → Prop) (l l' : List α) : Prop := l'.Perm l ∧ l'.Pairwise fun x y => ¬ gt x y

/-- the loops of `find_root_pairs`, `src/thin/metadata_repair.rs:657-668`, over the sorted lists; `none` is a panic of the slice -/
def pairLoop (ident : DevInfo → DetInfo → Bool) (dets : List DetInfo) : List DevInfo → Option (List (DevInfo × DetInfo))
  | [] => some []
  | d :: ds =>
    match lowerBound dets d.nrMappings, upperBound dets d.nrMappings with
    | some lo, some hi =>
      if lo ≤ hi ∧ hi ≤ dets.length then
        (pairLoop ident dets ds).map fun rest => ((dets.drop lo).take (hi - lo)).filterMap (fun t => if ident d t then some (d, t) else none) ++ rest
      else none
    | _, _ => none

/-- `find_root_pairs`, `src/thin/metadata_repair.rs:639-671`: `devs'` are the sorted mapping roots and `pairs` the result -/
def FindPairs (rd : Nat → Option Raw) (nr : Nat) (devs : List DevInfo) (dets : List DetInfo) (devs' : List DevInfo) (pairs : Option (List (DevInfo × DetInfo))) : Prop :=
  Sorted (fun l r => compareTC l.tc r.tc = .gt) devs devs' ∧
  ∃ dets', Sorted (fun l r => l.nrMappings > r.nrMappings) (filterDet dets (distinctNr devs' [])) dets' ∧
    pairs = pairLoop (fun d t => identical rd nr d.b t.b) dets' devs'

/-! ## The superblock -/

/-- `TreeRoots`, `src/thin/metadata_repair.rs:37-40` -/
inductive Roots where
  | onDisk (mapping details : Nat)
  /-- device, root and number of mappings -/
  | inCore (devs : List (Nat × Nat × Nat))
  deriving Repr, DecidableEq

/-- `FoundRoots`, `src/thin/metadata_repair.rs:42-49` -/
structure Found where
  devices : Roots
  time : Nat
  tid : Nat
  nrData : Nat
  deriving Repr, DecidableEq

/-- `to_found_roots`, `src/thin/metadata_repair.rs:673-683` -/
def toFound (d : DevInfo) (t : DetInfo) : Found :=
  ⟨.onDisk d.b t.b, max d.age t.age, (t.maxTid + 1) % 2 ^ 64, (d.highest + 1) % 2 ^ 64⟩

/-- the devices of `to_partial_found_roots`, `src/thin/metadata_repair.rs:690-700` -/
def lookupDevs (s : St) : List (Nat × Nat) → Option (List (Nat × Nat × Nat))
  | [] => some []
  | (dev, root) :: l =>
    match s.infos root with
    | some (.mappings m) => (lookupDevs s l).map fun r => (dev, root, m.nrMappings) :: r
    | _ => none

/-- `to_partial_found_roots`, `src/thin/metadata_repair.rs:685-719` -/
def toPartial (rd : Nat → Option Raw) (nr : Nat) (s : St) (d : DevInfo) : Option Found :=
  match LW.btreeToMap (rd64 rd) nr d.b with
  | none => none
  | some roots => (lookupDevs s roots).map fun devs => ⟨.inCore devs, (d.age + 1) % 2 ^ 32, 1, (d.highest + 1) % 2 ^ 64⟩

/-- `collect::<Result<Vec<_>>>` -/
def allSome {α β : Type} (f : α → Option β) : List α → Option (List β)
  | [] => some []
  | x :: l => match f x with | none => none | some y => (allSome f l).map fun r => y :: r

/-- the end of `find_roots`, `src/thin/metadata_repair.rs:765-785`, from the sorted mapping roots and the pairs -/
def finishRoots (rd : Nat → Option Raw) (nr : Nat) (s : St) (devs' : List DevInfo) (pairs : List (DevInfo × DetInfo)) : Option (List Found) :=
  match pairs with
  | [] => if devs'.isEmpty then none else allSome (toPartial rd nr s) devs'
  | _ => some (pairs.map fun p => toFound p.1 p.2)

/-- `find_roots`, `src/thin/metadata_repair.rs:754-786`; `none` is an error -/
def FindRoots (rd : Nat → Option Raw) (nr : Nat) (r : Option (List Found)) : Prop :=
  ∃ s devs' pairs, collect rd nr = .ok s ∧ FindPairs rd nr (devRoots nr s) (detRoots nr s) devs' (some pairs) ∧ r = finishRoots rd nr s devs' pairs

/-- `check_data_block_size`, `src/thin/metadata_repair.rs:788-793` -/
def checkBs (bs : Nat) : Option Nat := if ¬ (128 ≤ bs ∧ bs ≤ 2097152) ∨ bs &&& 0x7f ≠ 0 then none else some bs

/-- `SuperblockOverrides`, `src/thin/metadata_repair.rs:26-30` -/
structure Overrides where
  tid : Option Nat
  blockSize : Option Nat
  nrData : Option Nat

/-- `CoreSuperblock`, `src/thin/metadata.rs:54-62` -/
structure CoreSb where
  devices : List (Nat × Nat × DeviceDetail)
  needsCheck : Bool
  version : Nat
  time : Nat
  tid : Nat
  blockSize : Nat
  nrData : Nat

/-- `ThinSuperblock`, `src/thin/metadata.rs:64-67` -/
inductive ThinSb where
  | onDisk (sb : Thin.Superblock)
  | inCore (sb : CoreSb)

/-- `build_devices`, `src/thin/metadata_repair.rs:838-854` -/
def buildDevices (devs : List (Nat × Nat × Nat)) (tid time : Nat) : List (Nat × Nat × DeviceDetail) :=
  devs.map fun d => (d.1, d.2.1, ⟨d.2.2, tid, time, time⟩)

/-- the block count in the reference's space map root, `src/thin/metadata_repair.rs:879-889` -/
def refNr (sb : Thin.Superblock) : Option Nat := (SMRoot.unpack sb.data_sm_root).map (·.1.nr_blocks)

/-- `rebuild_superblock`, `src/thin/metadata_repair.rs:856-938` -/
def rebuild (roots : Found) (ref : Option Thin.Superblock) (o : Overrides) : Option ThinSb :=
  match (o.blockSize.or (ref.map (·.data_block_size))).bind checkBs with
  | none => none
  | some bs =>
    let tid := ((o.tid.or (ref.map (·.transaction_id))).filter fun t => decide (t > roots.tid)).getD roots.tid
    let nrData := ((o.nrData.or (ref.bind refNr)).filter fun n => decide (n > roots.nrData)).getD roots.nrData
    let time := match ref with | none => roots.time | some sb => max sb.time roots.time
    match packRoot ⟨nrData, 0, 0, 0⟩ 128 with
    | none => none
    | some smRoot =>
      match roots.devices with
      | .onDisk m d => some (.onDisk
          { needs_check := false, block := 0, version := 2, time := time, transaction_id := tid, metadata_snap := 0, data_sm_root := smRoot
            metadata_sm_root := List.replicate 128 0, mapping_root := m, details_root := d, data_block_size := bs, nr_metadata_blocks := 0 })
      | .inCore devs => some (.inCore ⟨buildDevices devs (tid - 1) roots.time, false, 2, time, tid, bs, nrData⟩)

/-- `overrides`, `src/thin/metadata_repair.rs:945-963` -/
def override (sb : Thin.Superblock) (o : Overrides) : Option Thin.Superblock :=
  let sb := match o.tid with | none => sb | some t => { sb with transaction_id := max t sb.transaction_id }
  let sb := match o.blockSize with | none => sb | some bs => { sb with data_block_size := bs }
  match o.nrData with
  | none => some sb
  | some n =>
    match SMRoot.unpack sb.data_sm_root with
    | none => none
    | some (root, _) => (packRoot { root with nr_blocks := max n root.nr_blocks } 128).map fun r => { sb with data_sm_root := r }

/-- `is_superblock_consistent_`, `src/thin/metadata_repair.rs:825-836` -/
def consistentSb (sb : Thin.Superblock) (found : List Found) : Bool :=
  found.any fun f => match f.devices with | .onDisk m d => decide (sb.mapping_root = m ∧ sb.details_root = d) | .inCore _ => false

/-- `read_or_rebuild_superblock` after `find_roots`, `src/thin/metadata_repair.rs:974-985`; `sb` is what `read_superblock` returned.  `found[0]` of an empty list is
a panic; it is never empty. -/
def readOrRebuild (found : List Found) (sb : Option Thin.Superblock) (o : Overrides) : Option ThinSb :=
  match sb with
  | none => (found.head?).bind fun f => rebuild f none o
  | some sb =>
    if consistentSb sb found then
      match override sb o with
      | some sb => some (.onDisk sb)
      | none => (found.head?).bind fun f => rebuild f none o
    else (found.head?).bind fun f => rebuild f (some sb) o

end Verif.Rep
