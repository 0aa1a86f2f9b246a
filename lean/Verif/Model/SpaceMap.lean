/-!
# In-core space maps (`src/pdata/space_map/base.rs`)

`u64` additions in range computations are modelled with release-mode wrap-around.
-/

namespace Verif.SM

/-- The `SpaceMap` trait's operations, `src/pdata/space_map/base.rs:10-38`. -/
inductive Op where
  | nrBlocks
  | nrAllocated
  | get (b : Nat)
  | set (b v : Nat)
  | inc (begin len : Nat)
  | dec (b : Nat)
  | alloc
  | findFree (begin fin : Nat)
  deriving Repr, DecidableEq

/-- What a caller sees: `Ok(number)`, `Ok(bool)`, `Ok(Option<block>)`, `Ok(())`, `Err(_)` or a panic. -/
inductive Out where
  | num (n : Nat)
  | bool (b : Bool)
  | block (b : Option Nat)
  | unit
  | err
  | panic
  deriving Repr, DecidableEq

/-- `src/pdata/space_map/base.rs:44-48`; `maxCount` is `V::max_value()` for the counter type `V`. -/
structure Core where
  maxCount : Nat
  nrAlloc : Nat
  allocBegin : Nat
  counts : List Nat
  deriving Repr, DecidableEq

namespace Core

/-- `src/pdata/space_map/base.rs:54-60` -/
def new (maxCount nrEntries : Nat) : Core :=
  { maxCount, nrAlloc := 0, allocBegin := 0, counts := List.replicate nrEntries 0 }

/-- `src/pdata/space_map/base.rs:91-94` -/
def get (s : Core) (b : Nat) : Option Nat := s.counts[b]?

/-- `src/pdata/space_map/base.rs:96-109`: `try_into` fails before the store, so an error changes nothing. -/
def set (s : Core) (b v : Nat) : Core × Out :=
  match s.counts[b]? with
  | none => (s, .err)
  | some old =>
    if v ≤ s.maxCount then
      let s' := { s with counts := s.counts.set b v }
      let s' := if old = 0 ∧ v ≠ 0 then { s' with nrAlloc := s'.nrAlloc + 1 }
        else if old ≠ 0 ∧ v = 0 then { s' with nrAlloc := s'.nrAlloc - 1 } else s'
      (s', .num old)
    else (s, .err)

/-- `src/pdata/space_map/base.rs:116-126`, the loop body over `len` consecutive blocks: stops with an error at
the first counter that is already at its maximum, keeping the increments made before. -/
def incLoop (s : Core) : Nat → Nat → Core × Out
  | _, 0 => (s, .unit)
  | b, len + 1 =>
    match s.counts[b]? with
    | none => (s, .panic)
    | some c =>
      if c < s.maxCount then
        if c = 0 then incLoop { s with nrAlloc := s.nrAlloc + 1, counts := s.counts.set b 1 } (b + 1) len
        else incLoop { s with counts := s.counts.set b (c + 1) } (b + 1) len
      else (s, .err)

/-- `src/pdata/space_map/base.rs:111-128`; `begin + len` wraps at 2^64 (then the loop range is empty). -/
def inc (s : Core) (begin len : Nat) : Core × Out :=
  let fin := (begin + len) % 2 ^ 64
  if fin > s.counts.length then (s, .err) else incLoop s begin (fin - begin)

/-- `src/pdata/space_map/base.rs:21-27` (the trait's default method) -/
def dec (s : Core) (b : Nat) : Core × Out :=
  match s.counts[b]? with
  | none => (s, .err)
  | some old =>
    if old > 0 then
      match s.set b (old - 1) with
      | (s', .num _) => (s', .bool (old == 1))
      | (s', o) => (s', o)
    else (s, .err)

/-- `src/pdata/space_map/base.rs:146-153`: scan `n` blocks from `b`; indexing past the end panics. -/
def scan (s : Core) : Nat → Nat → Out
  | _, 0 => .block none
  | b, n + 1 =>
    match s.counts[b]? with
    | none => .panic
    | some c => if c = 0 then .block (some b) else scan s (b + 1) n

/-- `src/pdata/space_map/base.rs:146-153` -/
def findFree (s : Core) (begin fin : Nat) : Out := scan s begin (fin - begin)

/-- `src/pdata/space_map/base.rs:138-142` -/
def take (s : Core) (b : Nat) : Core × Out :=
  ({ s with counts := s.counts.set b 1, nrAlloc := s.nrAlloc + 1, allocBegin := b + 1 }, .block (some b))

/-- `src/pdata/space_map/base.rs:130-144` -/
def alloc (s : Core) : Core × Out :=
  match s.findFree s.allocBegin s.counts.length with
  | .block (some b) => s.take b
  | .block none =>
    match s.findFree 0 s.allocBegin with
    | .block (some b) => s.take b
    | .block none => (s, .block none)
    | o => (s, o)
  | o => (s, o)

/-- one call through the trait -/
def step (s : Core) : Op → Core × Out
  | .nrBlocks => (s, .num s.counts.length)
  | .nrAllocated => (s, .num s.nrAlloc)
  | .get b => (s, match s.get b with | some c => .num c | none => .err)
  | .set b v => s.set b v
  | .inc b l => s.inc b l
  | .dec b => s.dec b
  | .alloc => s.alloc
  | .findFree b e => (s, s.findFree b e)

/-- a history of calls, collecting what the caller sees -/
def run (s : Core) : List Op → Core × List Out
  | [] => (s, [])
  | op :: ops =>
    let (s, o) := s.step op
    let (s, os) := run s ops
    (s, o :: os)

end Core

/-- `src/pdata/space_map/base.rs:188-192`: bits of a `FixedBitSet`. -/
structure Bits where
  nrAlloc : Nat
  allocBegin : Nat
  counts : List Bool
  deriving Repr, DecidableEq

namespace Bits

/-- `src/pdata/space_map/base.rs:195-201` (`RestrictedSpaceMap`) -/
def new (nrEntries : Nat) : Bits := { nrAlloc := 0, allocBegin := 0, counts := List.replicate nrEntries false }

/-- `src/pdata/space_map/base.rs:221-229` -/
def get (s : Bits) (b : Nat) : Out :=
  match s.counts[b]? with
  | none => .err
  | some c => .num (if c then 1 else 0)

/-- `src/pdata/space_map/base.rs:231-249` -/
def set (s : Bits) (b v : Nat) : Bits × Out :=
  match s.counts[b]? with
  | none => (s, .err)
  | some old =>
    if v > 0 then
      ({ s with nrAlloc := if old then s.nrAlloc else s.nrAlloc + 1, counts := s.counts.set b true },
        .num (if old then 1 else 0))
    else
      ({ s with nrAlloc := if old then s.nrAlloc - 1 else s.nrAlloc, counts := s.counts.set b false },
        .num (if old then 1 else 0))

/-- `src/pdata/space_map/base.rs:254-259`: loop; `contains` is false outside, `insert` outside panics. -/
def incLoop (s : Bits) : Nat → Nat → Bits × Out
  | _, 0 => (s, .unit)
  | b, len + 1 =>
    match s.counts[b]? with
    | none => (s, .panic)
    | some true => incLoop s (b + 1) len
    | some false => incLoop { s with nrAlloc := s.nrAlloc + 1, counts := s.counts.set b true } (b + 1) len

/-- `src/pdata/space_map/base.rs:251-261`; `begin + len - 1` wraps (release build). -/
def inc (s : Bits) (begin len : Nat) : Bits × Out :=
  if (begin + len + (2 ^ 64 - 1)) % 2 ^ 64 ≥ s.counts.length then (s, .err)
  else incLoop s begin ((begin + len) % 2 ^ 64 - begin)

/-- `src/pdata/space_map/base.rs:21-27` -/
def dec (s : Bits) (b : Nat) : Bits × Out :=
  match s.counts[b]? with
  | none => (s, .err)
  | some true => ((s.set b 0).1, .bool true)
  | some false => (s, .err)

/-- `src/pdata/space_map/base.rs:282-287` -/
def scan (s : Bits) : Nat → Nat → Out
  | _, 0 => .block none
  | b, n + 1 => if s.counts[b]? = some true then scan s (b + 1) n else .block (some b)

/-- `src/pdata/space_map/base.rs:279-288`: `end - 1` wraps for `end = 0` and is then out of bounds. -/
def findFree (s : Bits) (begin fin : Nat) : Out :=
  if (fin + (2 ^ 64 - 1)) % 2 ^ 64 ≥ s.counts.length then .err else scan s begin (fin - begin)

/-- `src/pdata/space_map/base.rs:272-276` -/
def take (s : Bits) (b : Nat) : Bits × Out :=
  ({ s with counts := s.counts.set b true, nrAlloc := s.nrAlloc + 1, allocBegin := b + 1 }, .block (some b))

/-- `src/pdata/space_map/base.rs:263-277` -/
def alloc (s : Bits) : Bits × Out :=
  match s.findFree s.allocBegin s.counts.length with
  | .block (some b) => s.take b
  | .block none =>
    match s.findFree 0 s.allocBegin with
    | .block (some b) => s.take b
    | .block none => (s, .block none)
    | o => (s, o)
  | o => (s, o)

/-- one call through the trait -/
def step (s : Bits) : Op → Bits × Out
  | .nrBlocks => (s, .num s.counts.length)
  | .nrAllocated => (s, .num s.nrAlloc)
  | .get b => (s, s.get b)
  | .set b v => s.set b v
  | .inc b l => s.inc b l
  | .dec b => s.dec b
  | .alloc => s.alloc
  | .findFree b e => (s, s.findFree b e)

/-- a history of calls -/
def run (s : Bits) : List Op → Bits × List Out
  | [] => (s, [])
  | op :: ops =>
    let (s, o) := s.step op
    let (s, os) := run s ops
    (s, o :: os)

end Bits

/-- `src/pdata/space_map/base.rs:300-304`: two bits per block in a `FixedBitSet` of `2 * nr_entries` bits. -/
structure Two where
  nrAlloc : Nat
  allocBegin : Nat
  counts : List Bool
  deriving Repr, DecidableEq

namespace Two

/-- `src/pdata/space_map/base.rs:307-313` -/
def new (nrEntries : Nat) : Two := { nrAlloc := 0, allocBegin := 0, counts := List.replicate (2 * nrEntries) false }

/-- `FixedBitSet::contains` -/
def has (s : Two) (i : Nat) : Bool := s.counts[i]? == some true

/-- `src/pdata/space_map/base.rs:325-334` -/
def get (s : Two) (b : Nat) : Nat := if s.has (2 * b) then 1 else if s.has (2 * b + 1) then 2 else 0

/-- `src/pdata/space_map/base.rs:336-363`; `insert`/`set` outside the bit set panics.  A value above 2 changes
the allocation count but no bits. -/
def set (s : Two) (b v : Nat) : Two × Out :=
  let old := s.get b
  if v > 0 then
    let s := if old = 0 then { s with nrAlloc := s.nrAlloc + 1 } else s
    if v = 1 ∨ v = 2 then
      if 2 * b + 1 < s.counts.length then
        ({ s with counts := (s.counts.set (2 * b) (v == 1)).set (2 * b + 1) (v == 2) }, .num old)
      else (s, .panic)
    else (s, .num old)
  else
    let s := if old = 1 then { s with nrAlloc := s.nrAlloc - 1 } else s
    if 2 * b + 1 < s.counts.length then
      ({ s with counts := (s.counts.set (2 * b) false).set (2 * b + 1) false }, .num old)
    else (s, .panic)

/-- `src/pdata/space_map/base.rs:365-384`, one block -/
def incOne (s : Two) (b : Nat) : Option Two :=
  if s.has (2 * b + 1) then some s
  else if s.has (2 * b) then
    some { s with counts := (s.counts.set (2 * b) false).set (2 * b + 1) true }
  else if 2 * b < s.counts.length then
    some { s with nrAlloc := s.nrAlloc + 1, counts := s.counts.set (2 * b) true }
  else none

/-- `src/pdata/space_map/base.rs:365-384` -/
def incLoop (s : Two) : Nat → Nat → Two × Out
  | _, 0 => (s, .unit)
  | b, len + 1 => match s.incOne b with
    | none => (s, .panic)
    | some s => incLoop s (b + 1) len

/-- `src/pdata/space_map/base.rs:402-410` -/
def scan (s : Two) : Nat → Nat → Option Nat
  | _, 0 => none
  | b, n + 1 => if !s.has (2 * b) && !s.has (2 * b + 1) then some b else scan s (b + 1) n

/-- `src/pdata/space_map/base.rs:395-399`: `insert` panics outside the bit set -/
def take (s : Two) (b : Nat) : Two × Out :=
  if 2 * b < s.counts.length then
    ({ s with counts := s.counts.set (2 * b) true, nrAlloc := s.nrAlloc + 1, allocBegin := b + 1 }, .block (some b))
  else (s, .panic)

/-- `src/pdata/space_map/base.rs:386-400`: note the search bound `self.counts.len()`, twice the block count -/
def alloc (s : Two) : Two × Out :=
  match s.scan s.allocBegin (s.counts.length - s.allocBegin) with
  | some b => s.take b
  | none =>
    match s.scan 0 s.allocBegin with
    | some b => s.take b
    | none => (s, .block none)

end Two

end Verif.SM
