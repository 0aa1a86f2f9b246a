import Verif.Model.Units
import Verif.Model.Sizes

/-!
# Command lines: which tool runs, exit status, engines, and the size estimators

`src/bin/pdata_tools.rs`, `src/commands/utils.rs`, `src/commands/engine.rs`, `src/commands/thin_metadata_size.rs`,
`src/commands/cache_metadata_size.rs`.  Arguments are lists of characters (bytes of a path).  What the tools do with their
arguments is elsewhere; `clap` is trusted to apply the rules its builder is given.
-/

namespace Verif.Cli

open Verif.Units (Unit' showNat)

abbrev Str := List Char

/-! ## Paths -/

/-- pieces of a path between slashes -/
def pieces : Str → List Str
  | [] => [[]]
  | c :: cs =>
    if c = '/' then [] :: pieces cs
    else
      match pieces cs with
      | [] => [[c]]
      | p :: ps => (c :: p) :: ps

/-- `Path::file_name` of the standard library (used at `src/bin/pdata_tools.rs:7-10`): empty and `.` pieces do not count, the
last of the others is the name unless it is `..` -/
def fileName (p : Str) : Option Str :=
  match ((pieces p).filter fun q => q ≠ [] ∧ q ≠ ['.']).getLast? with
  | none => none
  | some n => if n = ['.', '.'] then none else some n

/-! ## `pdata_tools` -/

/-- `register_commands`, `src/bin/pdata_tools.rs:12-39` with the `name` of each command -/
def tools : List String :=
  ["cache_check", "cache_dump", "cache_metadata_size", "cache_repair", "cache_restore", "cache_writeback", "era_check", "era_dump", "era_invalidate",
   "era_repair", "era_restore", "thin_check", "thin_delta", "thin_dump", "thin_ls", "thin_metadata_pack", "thin_metadata_size", "thin_metadata_unpack",
   "thin_migrate", "thin_repair", "thin_restore", "thin_rmap", "thin_shrink", "thin_trim"]

/-- the tools by name -/
def isTool (n : Str) : Bool := tools.any fun t => t.toList == n

/-- what `main_` does: a tool with its arguments (the first is the name it is called by), the usage text with exit status
64, or a panic -/
inductive Act where
  | run (tool : Str) (args : List Str)
  | usage
  | panic
  deriving DecidableEq, Repr

/-- `src/bin/pdata_tools.rs:51-67`, once the name of the program itself is gone -/
def pick : List Str → Act
  | [] => .usage
  | q :: qs =>
    match fileName q with
    | none => .panic
    | some n => if isTool n then .run n (q :: qs) else .usage

/-- `src/bin/pdata_tools.rs:47-68` -/
def main : List Str → Act
  | [] => .usage
  | p :: ps =>
    match fileName p with
    | none => .panic
    | some n => if n = "pdata_tools".toList then pick ps else pick (p :: ps)

/-! ## Exit status -/

/-- an error: its messages from the outermost to the root cause, and whether the root cause is a broken pipe -/
structure Failure where
  outer : Str
  inner : List Str
  brokenPipe : Bool

/-- the text of `src/commands/utils.rs:174-178` -/
def Failure.text (e : Failure) : Str :=
  match e.inner.getLast? with
  | none => e.outer
  | some root => e.outer ++ [':', ' '] ++ root

/-- `to_exit_code`, `src/commands/utils.rs:162-187`: the status, and the fatal errors reported; `exitcode::USAGE` is 64 -/
def toExit {α : Type} : Except Failure α → Nat × List Str
  | .error e => (64, if e.brokenPipe then [] else [e.text])
  | .ok _ => (0, [])

/-! ## Engines -/

/-- `src/commands/engine.rs:15-21` -/
inductive Engine where
  | async
  | sync
  | spindle
  deriving DecidableEq, Repr

/-- `src/commands/engine.rs:23-29` -/
inductive Tool where
  | thin
  | cache
  | era
  | other
  deriving DecidableEq, Repr

/-- `parse_type`, `src/commands/engine.rs:56-78`; `io_uring` says whether the feature is compiled in -/
def parseEngine (io_uring : Bool) : Option Str → Option Engine
  | none => some .sync
  | some s =>
    if s = "sync".toList then some .sync
    else if s = "spindle".toList then some .spindle
    else if s = "async".toList then (if io_uring then some .async else none)
    else none

/-- `parse_engine_opts`, `src/commands/engine.rs:80-104`: does the tool read the metadata snapshot? -/
def useSnap (t : Tool) (flag : Bool) : Bool := (t == .thin || t == .era) && flag

/-- `EngineBuilder::build`, `src/commands/engine.rs:191-219` with `cache_valid_blocks` and `era_valid_blocks` (148-154): `false`
is the panic of `todo!()` -/
def builds (t : Tool) (e : Engine) : Bool := !(e == .spindle && (t == .cache || t == .era))

/-! ## Size estimators -/

/-- what the command line comes to: `clap` refuses it (status 2), the tool refuses it (status 64), or an estimate in bytes -/
inductive Est where
  | clap
  | refused
  | size (bytes : Nat)
  deriving DecidableEq, Repr

/-- `thin_metadata_size`, `src/commands/thin_metadata_size.rs:103-151,165-170`; sizes in bytes -/
def thinEst (pool block thins : Nat) : Est :=
  if !Sizes.checkDataBlockSize block then .refused
  else if pool < block then .refused
  else .size (Sizes.thinSize (pool / block) thins)

/-- `cache_metadata_size`, `src/commands/cache_metadata_size.rs:63-86,117-160`; sizes in bytes -/
def cacheEst (nrBlocks device block : Option Nat) (hintWidth : Nat) : Est :=
  if block.isSome != device.isSome then .clap
  else
    match nrBlocks with
    | some n => if block.isSome then .clap else .size (Sizes.cacheSize n hintWidth)
    | none =>
      match device, block with
      | some d, some b =>
        if !Sizes.checkCacheBlockSize b then .refused
        else if d < b then .refused
        else .size (Sizes.cacheSize (Sizes.divUp d b) hintWidth)
      | _, _ => .refused

/-- `{:.2}` of `bytes / unit`, in hundredths.  The division is one of 64 bit floats, but sizes are below 2^35 and so the
nearest hundredth is the right one; only a tie may go either way. -/
def hundredths (tie : Bool) (bytes unit : Nat) : Nat :=
  let q := 100 * bytes / unit
  let r := 100 * bytes % unit
  if 2 * r < unit then q else if 2 * r = unit ∧ tie = false then q else q + 1

/-- two digits after the point -/
def showHundredths (c : Nat) : Str :=
  showNat (c / 100) ++ ['.', Char.ofNat (48 + c / 10 % 10), Char.ofNat (48 + c % 10)]

/-- the number, `src/commands/thin_metadata_size.rs:170-176`, `src/commands/cache_metadata_size.rs:183-189`; `none`: the shortest
decimal of a float below one, which is not modelled -/
def number (tie : Bool) (bytes : Nat) (unit : Unit') : Option Str :=
  if bytes % unit.sizeBytes = 0 then some (showNat (bytes / unit.sizeBytes))
  else if bytes < unit.sizeBytes then none
  else some (showHundredths (hundredths tie bytes unit.sizeBytes))

/-- `-n`, `-n=short`, `-n=long` -/
inductive Format where
  | full
  | short
  | long
  | numeric
  deriving DecidableEq, Repr

/-- what follows the number, `src/commands/thin_metadata_size.rs:178-192` -/
def suffix (u : Unit') : Format → Str
  | .full => [' '] ++ u.long ++ ['s']
  | .short => u.letter
  | .long => u.long ++ ['s']
  | .numeric => []

/-- the line printed -/
def line (tie : Bool) (bytes : Nat) (u : Unit') (f : Format) : Option Str := (number tie bytes u).map (· ++ suffix u f)

end Verif.Cli
