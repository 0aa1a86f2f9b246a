import Verif.Model.CacheCheck

/-!
# `era_check` (`src/era/check.rs`)

A value of the tree of archived writesets is the number its twelve bytes stand for (`src/era/writeset.rs:14-32`: `nr_bits`, then `root`, least
significant byte first).  As in `Model/CacheCheck.lean` the model stops at the first fatal report: from then on the result is an error whatever
follows (`src/era/check.rs:123-126,132-135,137-139`).  The walkers, and what they leave out, are those of `Model/CacheCheck.lean`.
-/

namespace Verif.EraC

open Verif.BT (Blk)
open Verif.Bits (ABlock visitChecked)
open Verif.CacheM (Dev DErr Outcome walkArray)

/-- `Writeset::pack`, `src/era/writeset.rs:26-31`, as a number -/
def wsWord (nrBits root : Nat) : Nat := nrBits + root * 2 ^ 32
/-- `nr_bits` of `Writeset::unpack`, `src/era/writeset.rs:19` -/
def wsBits (w : Nat) : Nat := w % 2 ^ 32
/-- `root` of `Writeset::unpack`, `src/era/writeset.rs:20` -/
def wsRoot (w : Nat) : Nat := w / 2 ^ 32

/-- the positions `dbegin..dend` of an array block, `src/era/check.rs:41-42`: `u32` arithmetic wraps, and then the range is empty -/
def dblocks (index maxEntries : Nat) : List Nat :=
  let dbegin := (index % 2 ^ 32) * maxEntries % 2 ^ 32
  let dend := (dbegin + maxEntries) % 2 ^ 32
  List.range' dbegin (dend - dbegin)

/-- `EraChecker::visit`, `src/era/check.rs:38-57`; the flag is `Ok` -/
def visitEra (cur index : Nat) (b : ABlock) (s : Unit) : Bool × Unit :=
  ((b.values.zip (dblocks index b.maxEntries)).all (fun e => !(decide (e.1 > cur))), s)

/-- the metadata device as the tool sees it: `dev` for the arrays (their blocks of 64-bit words are `dev.words`, those of 32-bit words
`dev.hints`), `wsRd` for the nodes of the tree of writesets, and the superblock if it can be read -/
structure EDev where
  dev : Dev
  wsRd : Bool → Nat → Option (Blk Nat)
  sb : Option Era.Superblock

/-- the loop over the writesets, `src/era/check.rs:115-127` -/
def checkWritesets (d : Dev) : List (Nat × Nat) → (Nat → Nat) → Except DErr (Nat → Nat)
  | [], seen => .ok seen
  | e :: l, seen =>
    match walkArray d d.words (visitChecked (wsBits e.2)) (wsRoot e.2) (fun _ => none) seen with
    | .error x => .error x
    | .ok (_, seen) => checkWritesets d l seen

/-- `check`, `src/era/check.rs:91-144`; `sbOnly` is the option.  The device is only read: there is nothing in the result but an error or none. -/
def check (sbOnly : Bool) (d : EDev) : Outcome :=
  match d.sb with
  | none => some .err
  | some sb =>
    if sb.version > 1 then some .err
    else if sbOnly then none
    else
      match LW.btreeToMap d.wsRd d.dev.nr sb.writeset_tree_root with
      | none => some .err
      | some m =>
        match checkWritesets d.dev m (fun b => if b = 0 then 1 else 0) with
        | .error e => some e
        | .ok seen =>
          match walkArray d.dev d.dev.hints (visitEra sb.current_era) sb.era_array_root () seen with
          | .error e => some e
          | .ok _ => none

end Verif.EraC
