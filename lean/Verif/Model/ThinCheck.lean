import Verif.Model.Walker

/-!
# `thin_check`, the mapping trees (`src/thin/check.rs:25-812`)

A device block is what `check_and_unpack_node` makes of it: `rd` under the options of the run (nodes of any fill are accepted, the root flag is set, `src/thin/check.rs:259,575`),
`rdl` when non-fatal errors are ignored (`get_depth`, 343); `none` if the block cannot be read or is refused.  The values of leaves are the 64-bit words; `BlockTime` is only
split where it is used.  `many vs i` tells whether the `i`-th block of a call of `read_many` on `vs` could be read; a failure of the whole call is a failure of all of its blocks
where both are treated alike (`readKids`), and `chunkOk` where they are not (`readLeaves`).  Messages, times and the monitor are not modelled.
-/

namespace Verif.TChk

open Verif.BT (Blk KeyRange splitKeyRanges)

/-- what the tool sees of the metadata device -/
structure Dev where
  nr : Nat
  rd : Nat → Option (Blk Nat)
  rdl : Nat → Option (Blk Nat)
  many : List Nat → Nat → Bool
  chunkOk : List Nat → Bool

/-- `x as u32` -/
def u32 (x : Nat) : Nat := x % 2 ^ 32

/-! ## The space maps of the run -/

/-- a space map of `nr` counters up to `mx` (`CoreSpaceMap`: an increment beyond is an error; `RestrictedSpaceMap`: `mx = 1`, it saturates), `src/pdata/space_map/base.rs` -/
structure Sm where
  nr : Nat
  mx : Nat
  sat : Bool
  cnt : Nat → Nat

/-- `inc(b, 1)`; an error changes nothing -/
def Sm.inc (sm : Sm) (b : Nat) : Option Sm :=
  if b < sm.nr then
    if sm.cnt b < sm.mx then some { sm with cnt := fun x => if x = b then sm.cnt b + 1 else sm.cnt x }
    else if sm.sat then some sm else none
  else none

/-- `is_seen`, `src/thin/check.rs:243-247` -/
def isSeen (loc : Nat) (sm : Sm) : Option (Sm × Bool) := (sm.inc loc).map fun sm => (sm, decide (sm.cnt loc > 1))

/-! ## The node map -/

/-- `NodeType`, `src/thin/check.rs:132-138` -/
inductive NT where
  | none
  | internal
  | leaf
  | error
  deriving DecidableEq, Repr

/-- `NodeMap`, `src/thin/check.rs:140-149`; keys and children of an internal node are one list; of an error only its presence is kept; the counter of leaves is only reported -/
structure NodeMap where
  lsb : Nat → Bool
  msb : Nat → Bool
  leafBit : Nat → Bool
  info : Nat → Option (List (Nat × Nat))
  errs : Nat → Bool

/-- `NodeMap::new`, `src/thin/check.rs:152-160` -/
def NodeMap.empty : NodeMap := ⟨fun _ => false, fun _ => false, fun _ => false, fun _ => Option.none, fun _ => false⟩

/-- `FixedBitSet::insert`, `HashVec::insert`; every block handed in was counted by the space map before, so it is in bounds -/
def setBit {α : Type} (f : Nat → α) (b : Nat) (v : α) : Nat → α := fun x => if x = b then v else f x

/-- `get_type`, `src/thin/check.rs:162-175` -/
def NodeMap.ty (n : NodeMap) (b : Nat) : NT :=
  if !n.lsb b && n.msb b then .error
  else if n.lsb b && !n.msb b then .leaf
  else if n.lsb b && n.msb b then .internal
  else .none

/-- `set_type_`, `src/thin/check.rs:177-204` -/
def NodeMap.setTy (n : NodeMap) (b : Nat) : NT → NodeMap
  | .leaf => { n with lsb := setBit n.lsb b true, leafBit := setBit n.leafBit b true }
  | .internal => { n with lsb := setBit n.lsb b true, msb := setBit n.msb b true, leafBit := setBit n.leafBit b false }
  | .error =>
    if n.leafBit b then { n with msb := setBit n.msb b true, lsb := setBit n.lsb b (!n.lsb b), leafBit := setBit n.leafBit b false }
    else { n with msb := setBit n.msb b true }
  | .none => n

/-- `insert_internal_node`, `src/thin/check.rs:206-215`; the result is always dropped -/
def NodeMap.insertInternal (n : NodeMap) (b : Nat) (i : List (Nat × Nat)) : NodeMap :=
  if n.ty b ≠ .none ∧ n.ty b ≠ .leaf then n else { n with info := setBit n.info b (some i) }.setTy b .internal

/-- `insert_leaf`, `src/thin/check.rs:217-224` -/
def NodeMap.insertLeaf (n : NodeMap) (b : Nat) : NodeMap := if n.ty b ≠ .none then n else n.setTy b .leaf

/-- `insert_error`, `src/thin/check.rs:226-235` -/
def NodeMap.insertError (n : NodeMap) (b : Nat) : NodeMap :=
  if n.ty b ≠ .none ∧ n.ty b ≠ .leaf then n else { n with errs := setBit n.errs b true }.setTy b .error

/-! ## First pass: the internal nodes -/

/-- the loop of `read_node_` over the children, `src/thin/check.rs:278-292`: the ones to look at; children that cannot be counted are left out -/
def newKids (n : NodeMap) (depth : Nat) : List Nat → Sm → Sm × List Nat
  | [], sm => (sm, [])
  | v :: vs, sm =>
    match isSeen (u32 v) sm with
    | none => newKids n depth vs sm
    | some (sm, seen) =>
      let r := newKids n depth vs sm
      (r.1, if !seen || (decide (depth > 0) && decide (n.ty (u32 v) = .leaf)) || (decide (depth = 0) && decide (n.ty (u32 v) = .none)) then v :: r.2 else r.2)

/-- the loop over the blocks read, `src/thin/check.rs:302-309`, or over all of them as errors, 311-317; `i` is the index in `all` -/
def readKids (d : Dev) (all : List Nat) (read : Nat → NodeMap → Sm → NodeMap × Sm) : List Nat → Nat → NodeMap → Sm → NodeMap × Sm
  | [], _, n, sm => (n, sm)
  | v :: vs, i, n, sm =>
    if d.many all i then
      let r := read v n sm
      readKids d all read vs (i + 1) r.1 r.2
    else readKids d all read vs (i + 1) (n.insertError (u32 v)) sm

/-- `read_node`, `read_node_`, `src/thin/check.rs:249-334` -/
def readNode (d : Dev) : Nat → Nat → NodeMap → Sm → NodeMap × Sm
  | depth, b, n, sm =>
    match d.rd b with
    | none => (n.insertError (u32 b), sm)
    | some (.leaf _) => (n, sm)
    | some (.internal ch) =>
      let n := n.insertInternal (u32 b) (ch.map fun c => (c.1, u32 c.2))
      let k := newKids n depth (ch.map (·.2)) sm
      match depth with
      | 0 => (k.2.foldl (fun n v => n.insertLeaf (u32 v)) n, k.1)
      | depth + 1 => readKids d k.2 (readNode d depth) k.2 0 n k.1

/-- the loop of `get_depth`, `src/thin/check.rs:346-363`: the first child that gives a depth; `path` is left as it was by a failure -/
def firstOk (f : List Nat → Nat → Option (Option Nat)) (path : List Nat) : List Nat → Option (Option Nat)
  | [] => some none
  | c :: cs =>
    if path.contains c then firstOk f path cs
    else
      match f (path ++ [c]) c with
      | none => none
      | some (some n) => some (some (n + 1))
      | some none => firstOk f path cs

/-- `get_depth`, `src/thin/check.rs:336-367`; `some none` is `Err`, `none` the end of the fuel (for undamaged trees `nr + 2` is enough, `getDepth_bal`) -/
def getDepth (d : Dev) : Nat → List Nat → Nat → Option (Option Nat)
  | 0, _, _ => none
  | fuel + 1, path, b =>
    match d.rdl b with
    | none => some none
    | some (.leaf _) => some (some 0)
    | some (.internal ch) => firstOk (getDepth d fuel) path (ch.map (·.2))

/-- `read_internal_nodes`, `src/thin/check.rs:369-400`; reading the root again gives what `get_depth` saw of it -/
def readInternal (d : Dev) (root : Nat) (n : NodeMap) (sm : Sm) : NodeMap × Sm :=
  match isSeen root sm with
  | none => (n, sm)
  | some (sm, true) => (n, sm)
  | some (sm, false) =>
    match getDepth d (d.nr + 2) [] root with
    | some (some 0) => (n.insertLeaf root, sm)
    | some (some (depth + 1)) => readNode d depth root n sm
    | _ => (n, sm)

/-- `collect_nodes_in_use`, `src/thin/check.rs:538-551` -/
def collectNodes (d : Dev) : List Nat → NodeMap → Sm → NodeMap × Sm
  | [], n, sm => (n, sm)
  | r :: rs, n, sm =>
    let p := readInternal d (u32 r) n sm
    collectNodes d rs p.1 p.2

/-! ## Second pass: the leaves -/

/-- `NodeSummary`, `src/thin/check.rs:76-83` -/
structure Sum where
  low : Nat
  high : Nat
  maps : Nat
  entries : Nat
  errors : Nat
  deriving DecidableEq, Repr

/-- `NodeSummary::from_leaf`, `src/thin/check.rs:86-102` -/
def Sum.ofLeaf (keys : List Nat) : Sum := ⟨keys.head?.getD 0, keys.getLast?.getD 0, keys.length, keys.length % 256, 0⟩

/-- `NodeSummary::error`, `src/thin/check.rs:104-112` -/
def Sum.error : Sum := ⟨0, 0, 0, 0, 1⟩

/-- `NodeSummary::append`, `src/thin/check.rs:114-130`; `none` is `Err` -/
def Sum.append (s c : Sum) : Option Sum :=
  if s.maps = 0 then some ⟨c.low, c.high, (s.maps + c.maps) % 2 ^ 64, (s.entries + 1) % 256, min (s.errors + c.errors) 255⟩
  else if c.maps > 0 then
    if c.low ≤ s.high then none
    else some ⟨s.low, c.high, (s.maps + c.maps) % 2 ^ 64, (s.entries + 1) % 256, min (s.errors + c.errors) 255⟩
  else some ⟨s.low, s.high, (s.maps + c.maps) % 2 ^ 64, (s.entries + 1) % 256, min (s.errors + c.errors) 255⟩

/-- `let _ = sum.append(..)`, `src/thin/check.rs:468`: an overlap leaves the summary as it was -/
def Sum.add (s c : Sum) : Sum := (s.append c).getD s

/-- the summaries, keyed by block -/
abbrev Sums := Nat → Option Sum

/-- the loop over the values of a leaf in `summariser`, `src/thin/check.rs:623-626`; errors are ignored -/
def incData (sm : Sm) (es : List (Nat × Nat)) : Sm := es.foldl (fun sm e => (sm.inc (e.2 >>> 24)).getD sm) sm

/-- one block through `unpacker` (`src/thin/check.rs:553-597`) and `summariser` (599-636).  The header of a good node holds its location (`check_and_unpack_node`), so the
summary is stored for the block itself. -/
def leafStep (d : Dev) (s : NodeMap × Sm × Sums) (b : Nat) : NodeMap × Sm × Sums :=
  match d.rd b with
  | none => (s.1.insertError (u32 b), s.2.1, s.2.2)
  | some (.internal _) => s
  | some (.leaf es) => (s.1, incData s.2.1 es, setBit s.2.2 (u32 b) (some (Sum.ofLeaf (es.map (·.1)))))

/-- `leaves.chunks(1024)`, `src/thin/check.rs:694` -/
def chunks (n : Nat) : Nat → List Nat → List (List Nat)
  | 0, _ => []
  | fuel + 1, l => if l = [] then [] else l.take n :: chunks n fuel (l.drop n)

/-- the leaves in disk order, `src/thin/check.rs:652-656` -/
def leavesOf (d : Dev) (n : NodeMap) : List Nat := (List.range d.nr).filter n.leafBit

/-- the blocks of a chunk that were read, `src/thin/check.rs:698-710`; the others are left out without a word, unless the whole chunk failed -/
def chunkRead (d : Dev) (c : List Nat) : List Nat := if d.chunkOk c then (c.zipIdx.filter fun e => d.many c e.2).map (·.1) else []

/-- a chunk that could not be read at all, `src/thin/check.rs:711-716` -/
def chunkFail (d : Dev) (n : NodeMap) (c : List Nat) : NodeMap := if d.chunkOk c then n else c.foldl (fun n b => n.insertError b) n

/-- `read_leaf_nodes`, `src/thin/check.rs:638-731`: four unpackers and the summariser see the blocks in any order `order`; the errors of the reading thread come first here
(they concern other blocks) -/
def ReadLeaves (d : Dev) (n : NodeMap) (dsm : Sm) (r : NodeMap × Sm × Sums) : Prop :=
  ∃ order : List Nat, order.Perm ((chunks 1024 (d.nr + 1) (leavesOf d n)).flatMap (chunkRead d)) ∧
    r = order.foldl (leafStep d) ((chunks 1024 (d.nr + 1) (leavesOf d n)).foldl (chunkFail d) n, dsm, fun _ => none)

/-! ## Third pass: counting -/

/-- `MIN_ENTRIES`, `src/thin/check.rs:28` -/
def MIN_ENTRIES : Nat := 84

/-- the checks of a summary that is there already, `src/thin/check.rs:415-438` -/
def recheck (ign isRoot : Bool) (kr : KeyRange) (s : Sum) : Sum :=
  if !ign && !isRoot && decide (s.entries < MIN_ENTRIES) then Sum.error
  else if decide (s.maps > 0) && (match kr.start with | some n => decide (n > s.low) | none => false) then Sum.error
  else if decide (s.maps > 0) && (match kr.fin with | some n => decide (n < s.high) | none => false) then Sum.error
  else s

/-- the loop over the children, `src/thin/check.rs:455-471` -/
def sumKids (f : KeyRange → Nat → Sums → Option (Sums × Sum)) : List (KeyRange × Nat) → Sums → Sum → Option (Sums × Sum)
  | [], m, acc => some (m, acc)
  | (kr, b) :: ks, m, acc =>
    match f kr b m with
    | none => none
    | some (m, c) => sumKids f ks m (acc.add c)

/-- `summarize_tree`, `src/thin/check.rs:403-485`; `none` is the end of the fuel: the recursion of the code has no other limit than the stack -/
def summarize (n : NodeMap) (ign : Bool) : Nat → KeyRange → Bool → Nat → Sums → Option (Sums × Sum)
  | 0, _, _, _, _ => none
  | fuel + 1, kr, isRoot, b, m =>
    match m b with
    | some s => some (m, recheck ign isRoot kr s)
    | none =>
      if n.ty b = .internal then
        match n.info b with
        | none => some (m, Sum.error)
        | some ch =>
          if !ign && !isRoot && decide (ch.length < MIN_ENTRIES) then some (m, Sum.error)
          else
            match splitKeyRanges kr (ch.map (·.1)) with
            | none => some (m, Sum.error)
            | some krs =>
              match sumKids (fun kr b m => summarize n ign fuel kr false b m) (krs.zip (ch.map (·.2))) m ⟨0, 0, 0, 0, 0⟩ with
              | none => none
              | some (m, s) => some (setBit m b (some s), s)
      else some (m, Sum.error)

/-- `count_mapped_blocks`, `src/thin/check.rs:742-761` -/
def countMapped (n : NodeMap) (ign : Bool) (fuel : Nat) : List Nat → Sums → Option Sums
  | [], m => some m
  | r :: rs, m =>
    match summarize n ign fuel ⟨none, none⟩ true (u32 r) m with
    | none => none
    | some (m, _) => countMapped n ign fuel rs m

/-- `check_mappings_bottom_level_`, `src/thin/check.rs:487-536`: the counts of metadata and data blocks, and the summaries -/
def Bottom (d : Dev) (ign : Bool) (fuel : Nat) (roots : List Nat) (msm dsm : Sm) (r : Sm × Sm × Option Sums) : Prop :=
  ∃ n' dsm' m, ReadLeaves d (collectNodes d roots NodeMap.empty msm).1 dsm (n', dsm', m) ∧
    r = ((collectNodes d roots NodeMap.empty msm).2, dsm', countMapped n' ign fuel roots m)

/-- one device of `check_mapped_blocks`, `src/thin/check.rs:774-802`: root and expected number of mappings -/
def devOk (m : Sums) (root mapped : Nat) : Bool :=
  match m (u32 root) with
  | none => false
  | some s => if s.errors > 0 then false else decide (s.maps = mapped)

/-- `check_mapped_blocks`, `src/thin/check.rs:765-812` -/
def checkMapped (m : Sums) (devs : List (Nat × Nat × Nat)) : Bool := devs.all fun e => devOk m e.2.1 e.2.2

end Verif.TChk
