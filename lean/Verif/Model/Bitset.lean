import Verif.Model.Walker
import Verif.Model.ArrayBuilder

/-!
# Reading arrays and bitsets (`src/pdata/array_walker.rs`, `src/pdata/bitset.rs`)

`read b` is what reading, checksumming and unpacking array block `b` gives (`src/pdata/array_walker.rs:51-66,95-125`):
`none` for any failure.  The leaves of the index tree are those a `BTreeWalker` visits (C13), given with their key ranges.
Positions are natural numbers: the `usize` products and shifts are taken not to overflow.
-/

namespace Verif.Bits

open Verif.BT (KeyRange)

/-- an array block of 64-bit words, `src/pdata/array.rs:63-66`: `max_entries` of the header, and the values -/
structure ABlock where
  maxEntries : Nat
  values : List Nat
  deriving Repr, DecidableEq

/-- `CheckedBitSet`, `src/pdata/bitset.rs:12-39`: two bits per entry, the first telling whether the second was read -/
abbrev Checked := Nat → Option Bool

/-- `src/pdata/bitset.rs:28-31` -/
def Checked.set (c : Checked) (i : Nat) (v : Bool) : Checked := fun x => if x = i then some v else c x

/-- the loop of `src/pdata/bitset.rs:77-80`: `n` rounds from position `bi` -/
def setBits (w : Nat) : Nat → Nat → Nat → Checked → Checked
  | 0, _, _, c => c
  | n + 1, bi, mask, c => setBits w n (bi + 1) ((mask <<< 1) % 2 ^ 64) (c.set bi (w &&& mask != 0))

/-- the loop of `src/pdata/bitset.rs:71-82` -/
def setWords (nr : Nat) : List Nat → Nat → Checked → Checked
  | [], _, c => c
  | w :: ws, b, c => setWords nr ws (b + 64) (setBits w (min (b + 64) nr - b) b 1 c)

/-- `BitsetVisitor::visit`, `src/pdata/bitset.rs:62-84`; the flag is `Ok` -/
def visitChecked (nr index : Nat) (b : ABlock) (c : Checked) : Bool × Checked :=
  let start := (index * b.maxEntries) <<< 6
  if start ≥ nr then (false, c) else (true, setWords nr b.values start c)

/-- the per-entry part of `BlockValueVisitor::visit`, `src/pdata/array_walker.rs:95-125`; counts the errors -/
def visitEntries (read : Nat → Option ABlock) {S : Type} (visit : Nat → ABlock → S → Bool × S) :
    List (Nat × Nat) → Nat × S → Nat × S
  | [], s => s
  | (k, v) :: es, (errs, s) =>
    match read v with
    | none => visitEntries read visit es (errs + 1, s)
    | some b =>
      let r := visit k b s
      visitEntries read visit es (if r.1 then errs else errs + 1, r.2)

/-- the checks of `src/pdata/array_walker.rs:77-93`: consecutive keys up to the end of the leaf's range -/
def goodLeaf (kr : KeyRange) (es : List (Nat × Nat)) : Bool :=
  match es.head?, es.getLast? with
  | some a, some b => a.1 + es.length == b.1 + 1 && (match kr.fin with | none => true | some e => b.1 + 1 == e)
  | _, _ => true

/-- `BlockValueVisitor::visit`, `src/pdata/array_walker.rs:69-128`, for every leaf, then the error count of
`ArrayWalker::walk`, `src/pdata/array_walker.rs:169-188` (a rejected leaf is an error of the tree walk) -/
def walkLeaves (read : Nat → Option ABlock) {S : Type} (visit : Nat → ABlock → S → Bool × S) :
    List (KeyRange × List (Nat × Nat)) → Nat × S → Nat × S
  | [], s => s
  | (kr, es) :: ls, (errs, s) =>
    if goodLeaf kr es then walkLeaves read visit ls (visitEntries read visit es (errs, s))
    else walkLeaves read visit ls (errs + 1, s)

/-- `read_bitset_checked`, `src/pdata/bitset.rs:137-150`: the number of errors (`None` iff zero) and the bits -/
def readChecked (read : Nat → Option ABlock) (nr : Nat) (leaves : List (KeyRange × List (Nat × Nat))) : Nat × Checked :=
  walkLeaves read (visitChecked nr) leaves (0, fun _ => none)

/-- writing one `u32` of the `FixedBitSet` through the iterator, `src/pdata/bitset.rs:115-117,125-127`; `none`: no more room -/
def putWord (ws : List Nat) (idx v : Nat) : Option (List Nat) := if idx < ws.length then some (ws.set idx v) else none

/-- the loop of `src/pdata/bitset.rs:113-129`; `none` is the error -/
def collectWords (idxEnd : Nat) : List Nat → Nat → List Nat → Option (List Nat)
  | [], _, ws => some ws
  | e :: es, idx, ws =>
    match putWord ws idx (e % 2 ^ 32) with
    | none => none
    | some ws =>
      if idx + 1 = idxEnd then some ws
      else
        match putWord ws (idx + 1) (e >>> 32) with
        | none => none
        | some ws => collectWords idxEnd es (idx + 2) ws

/-- `BitsetCollector::visit`, `src/pdata/bitset.rs:108-131`; what a failed call leaves behind does not matter since
`read_bitset` then fails -/
def visitCollect (nr index : Nat) (b : ABlock) (ws : List Nat) : Bool × List Nat :=
  match collectWords (Arr.divUp nr 32) b.values ((index * b.maxEntries) <<< 1) ws with
  | none => (false, ws)
  | some ws => (true, ws)

/-- `read_bitset`, `src/pdata/bitset.rs:169-179`, with `FixedBitSet::with_capacity(nr)` as its list of `u32` words -/
def readBitset (read : Nat → Option ABlock) (nr : Nat) (leaves : List (KeyRange × List (Nat × Nat))) : Option (List Nat) :=
  match walkLeaves read (visitCollect nr) leaves (0, List.replicate (Arr.divUp nr 32) 0) with
  | (0, ws) => some ws
  | _ => none

end Verif.Bits
