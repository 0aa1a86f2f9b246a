import Verif.Model.Copier

/-!
# The rescue copier (`src/copier/rescue_copier.rs`)

One thread.  A device is a store of pages (4096 bytes).  The outcome of every read and write of a page is given by arbitrary functions of the number of the operation and
the page.  The block size is a number of pages (`src/copier/rescue_copier.rs:30-33`).
-/

namespace Verif.Resc

open Verif.Cop

variable {β : Type}

/-- `PAGE_SIZE`, `src/io_engine/base.rs`; `PAGE_SHIFT` is 12 -/
def pageSize : Nat := 4096

/-- `RescueCopier`, `src/copier/rescue_copier.rs:18-26`.  `pages` is `block_size / PAGE_SIZE`; `inFile`: both devices are the same. -/
structure Cfg where
  pages : Nat
  srcOffset : Nat
  dstOffset : Nat
  inFile : Bool

/-- page `i` of the source of `op`, `src/copier/rescue_copier.rs:86,120` -/
def Cfg.srcPage (c : Cfg) (op : CopyOp) (i : Nat) : Loc := (false, c.srcOffset + op.src * (c.pages * pageSize) + i * pageSize)

/-- page `i` of the destination of `op`, `src/copier/rescue_copier.rs:99-101,127` -/
def Cfg.dstPage (c : Cfg) (op : CopyOp) (i : Nat) : Loc := (!c.inFile, c.dstOffset + op.dst * (c.pages * pageSize) + i * pageSize)

/-- The outcome of an access: `none` is success; after a failure the page (in the buffer or on the device) holds the old content or anything else. -/
abbrev Outcome (β : Type) := Option (Option β)

/-- `do_read`, `src/copier/rescue_copier.rs:82-93`: the buffer, `read_success` and `read_fails` -/
def doRead (rd : Nat → Outcome β) (store : Loc → β) (loc : Nat → Loc) : Nat → List β → List Nat → List β × List Nat × Nat
  | _, [], ok => ([], ok, 0)
  | i, b :: buf, ok =>
    match rd i with
    | none =>
      let r := doRead rd store loc (i + 1) buf (mark ok i)
      (store (loc i) :: r.1, r.2.1, r.2.2)
    | some junk =>
      let r := doRead rd store loc (i + 1) buf ok
      (junk.getD b :: r.1, r.2.1, r.2.2 + 1)

/-- one page on a device -/
def put (store : Loc → β) (l : Loc) (x : β) : Loc → β := fun k => if k = l then x else store k

/-- `do_write`, `src/copier/rescue_copier.rs:95-105`: the device, the writes (in order) and `write_fails`.  `none`: an index beyond the buffer, a panic. -/
def doWrite (wr : Nat → Outcome β) (loc : Nat → Loc) (buf : List β) : List Nat → (Loc → β) → Option ((Loc → β) × List (Loc × β) × Nat)
  | [], store => some (store, [], 0)
  | i :: sel, store =>
    match buf[i]? with
    | none => none
    | some x =>
      match wr i with
      | none => (doWrite wr loc buf sel (put store (loc i) x)).map fun r => (r.1, (loc i, x) :: r.2.1, r.2.2)
      | some junk =>
        (doWrite wr loc buf sel (match junk with | some y => put store (loc i) y | none => store)).map fun r => (r.1, (loc i, x) :: r.2.1, r.2.2 + 1)

/-- `FixedBitSet::ones`: the set bits, upwards -/
def ones (n : Nat) (ok : List Nat) : List Nat := (List.range n).filter (· ∈ ok)

/-- the copier's state while it runs; `log`: the writes that were issued -/
structure St (β : Type) where
  buf : List β
  ok : List Nat
  store : Loc → β
  stats : Stats
  log : List (Loc × β)

/-- one turn of the copy loop, `src/copier/rescue_copier.rs:117-139` -/
def copyOne (c : Cfg) (rd wr : Nat → Outcome β) (op : CopyOp) (s : St β) : Option (St β) :=
  let r := doRead rd s.store (c.srcPage op) 0 s.buf []
  let stats := if r.2.2 > 0 then { s.stats with readErrors := s.stats.readErrors ++ [op] } else s.stats
  (doWrite wr (c.dstPage op) r.1 (ones c.pages r.2.1) s.store).map fun w =>
    ⟨r.1, r.2.1, w.1,
      if w.2.2 > 0 then { stats with writeErrors := stats.writeErrors ++ [op] }
      else if r.2.2 = 0 ∧ w.2.2 = 0 then { stats with nrCopied := stats.nrCopied + 1 } else stats, s.log ++ w.2.1⟩

/-- the copy loop, `src/copier/rescue_copier.rs:117-140`, from operation `k` on -/
def copyFrom (c : Cfg) (rd wr : Nat → Nat → Outcome β) : Nat → List CopyOp → St β → Option (St β)
  | _, [], s => some s
  | k, op :: ops, s => (copyOne c (rd k) (wr k) op s).bind (copyFrom c rd wr (k + 1) ops)

/-- `copy`, `src/copier/rescue_copier.rs:108-147`; `buf` is what the buffer holds at the start -/
def copy (c : Cfg) (rd wr : Nat → Nat → Outcome β) (ops : List CopyOp) (buf : List β) (store : Loc → β) : Option (St β) :=
  copyFrom c rd wr 0 ops ⟨buf, [], store, ⟨0, [], []⟩, []⟩

end Verif.Resc
