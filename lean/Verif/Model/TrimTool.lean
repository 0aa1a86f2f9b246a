import Verif.Model.ThinCheckTool
import Verif.Model.Trim

/-!
# The command `thin_trim` (`src/commands/thin_trim.rs`, `src/thin/trim.rs`)

`E` stands for `ENTRIES_PER_BITMAP`.  The checks of the arguments (`src/commands/thin_trim.rs:57-79`) are those of `Model/Cli.lean`; messages are not modelled.
-/

namespace Verif.TrimTool

open Verif.TChk (TDev TOpts Wr Sm Sums)

/-- the data device: its size if that can be found out, whether it can be opened for writing, and which discards work -/
structure DataDev where
  size : Option Nat
  opens : Bool
  works : Nat → Bool

/-- how the command ends: exit status 0, 1 and 65, or a crash -/
inductive Code where
  | ok
  | err
  | dataerr
  | crash
  deriving DecidableEq, Repr

/-- the end of the command, the discards it asked for (offset and length in bytes; the last one may have failed), and the metadata device afterwards -/
structure Run where
  code : Code
  discards : List (Nat × Nat)
  md : TDev

/-- which blocks are in use: the test of `src/thin/trim.rs:48` and `:59` -/
def bits (es : List BE) : List Bool := es.map fun e => decide (e ≠ .small 0)

/-- the blocks of `read_many`; the first that cannot be read is an error, `src/thin/trim.rs:153-160` -/
def readRows (bm : Nat → Option (Bool × List BE)) : List IndexEntry → Option (List (List BE))
  | [] => some []
  | ie :: ies =>
    match bm ie.blocknr, readRows bm ies with
    | some (_, es), some rows => some (es :: rows)
    | _, _ => none

/-- `read_bitmaps`, `src/thin/trim.rs:148-163`, with `btree_to_map`, `src/pdata/btree_walker.rs:319-329`: a walker of its own.  The checksum of a bitmap is not looked at. -/
def readBitmaps (d : TDev) (root : Nat) : Option (List (List BE)) :=
  match (TChk.toMap d d.rdn root (TChk.restricted d.nr)).1 with
  | none => none
  | some m => readRows d.bm (SMC.indexValues m)

/-- the loop of `src/thin/trim.rs:183-205`: the discards asked for, and whether all of them worked -/
def issue (works : Nat → Bool) : List (Nat × Nat) → Nat → List (Nat × Nat) × Bool
  | [], _ => ([], true)
  | r :: rs, i => if works i then (r :: (issue works rs (i + 1)).1, (issue works rs (i + 1)).2) else ([r], false)

/-- the offsets and lengths are products of 64 bits (without overflow checks) -/
def wrap (r : Nat × Nat) : Nat × Nat := (r.1 % 2 ^ 64, r.2 % 2 ^ 64)

/-- `trim_data_device`, `src/thin/trim.rs:165-208`.  A panic of the iterator is a crash without discards; `Trim.trim` never is one for bitmaps of `E` entries. -/
def trimData (E : Nat) (unpackRoot : Bytes → Option SMRoot) (d : TDev) (sb : Thin.Superblock) (dd : DataDev) : Code × List (Nat × Nat) :=
  match unpackRoot sb.data_sm_root with
  | none => (.err, [])
  | some root =>
    match dd.size with
    | none => (.err, [])
    | some size =>
      if size < root.nr_blocks * (sb.data_block_size * 512) % 2 ^ 64 then (.err, [])
      else
        match readBitmaps d root.bitmap_root with
        | none => (.err, [])
        | some rows =>
          if !dd.opens then (.err, [])
          else
            match Trim.trim E root.nr_blocks (sb.data_block_size * 512) (rows.map bits) with
            | none => (.crash, [])
            | some none => (.err, [])
            | some (some ds) => (if (issue dd.works (ds.map wrap) 0).2 then .ok else .err, (issue dd.works (ds.map wrap) 0).1)

/-- the options of the check, `src/commands/thin_trim.rs:81-92` -/
def checkOpts : TOpts := ⟨false, false, false, false, false, false, none, none⟩

/-- `run`, `src/commands/thin_trim.rs:81-111`, with `trim`, `src/thin/trim.rs:232-237` -/
def command (E : Nat) (unpackRoot : Bytes → Option SMRoot) (bot : List Nat → Sm → Sm → Sm × Sm × Option Sums) (w : Wr) (d : TDev) (dd : DataDev) : Run :=
  match TChk.check unpackRoot bot w checkOpts d with
  | (d, .crash) => ⟨.crash, [], d⟩
  | (d, .err) => ⟨.dataerr, [], d⟩
  | (d, .ok) =>
    match d.sb with
    | none => ⟨.err, [], d⟩
    | some sb => ⟨(trimData E unpackRoot d sb dd).1, (trimData E unpackRoot d sb dd).2, d⟩

end Verif.TrimTool
