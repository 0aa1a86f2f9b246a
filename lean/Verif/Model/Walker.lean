import Verif.Model.BTree

/-!
# `BTreeWalker` (`src/pdata/btree_walker.rs`)

The walker's space map is a table of counters with maximum `mx` that saturates (`RestrictedSpaceMap`, `mx = 1`) or
fails (`CoreSpaceMap`) there; `fails` records only *that* a block has an error, not its text; errors themselves are
reduced to "there was one".  The visitor is a predicate on the history of calls it got so far and the current call.
-/

namespace Verif.BT

variable {V : Type}

/-- Calls made on a visitor, `src/pdata/btree_walker.rs:14-32`; the header argument is left out. -/
inductive Event (V : Type) where
  | visit (path : List Nat) (kr : KeyRange) (es : List (Nat × V))
  | again (path : List Nat) (b : Nat)
  | endWalk
  deriving Repr, DecidableEq

/-- `src/pdata/btree_walker.rs:34-40` plus the visitor's history -/
structure WSt (V : Type) where
  nr : Nat
  mx : Nat
  sat : Bool
  seen : Nat → Nat
  fails : Nat → Bool
  log : List (Event V)

/-- outcome of a walk: `Ok`, some `Err`, or the model's recursion limit -/
inductive Res where
  | ok
  | err
  | fuel
  deriving Repr, DecidableEq

/-- combining the outcomes of siblings -/
def Res.and : Res → Res → Res
  | .fuel, _ => .fuel
  | _, .fuel => .fuel
  | .err, _ => .err
  | _, .err => .err
  | .ok, .ok => .ok

/-- `src/pdata/btree_walker.rs:79-83` -/
def WSt.setFail (st : WSt V) (b : Nat) : WSt V := { st with fails := fun x => if x = b then true else st.fails x }

/-- `src/pdata/btree_walker.rs:85-91`; returns the old count, or fails without a change -/
def WSt.smInc (st : WSt V) (b : Nat) : Option (Nat × WSt V) :=
  if b < st.nr then
    if st.seen b < st.mx then
      some (st.seen b, { st with seen := fun x => if x = b then st.seen b + 1 else st.seen x })
    else if st.sat then some (st.seen b, st) else none
  else none

/-- call the visitor -/
def WSt.call (st : WSt V) (vis : List (Event V) → Event V → Bool) (e : Event V) : WSt V × Bool :=
  ({ st with log := st.log ++ [e] }, vis st.log e)

/-- First half of `walk_nodes`, `src/pdata/btree_walker.rs:123-153`: count every child, revisit the known ones and
collect the new ones.  The flag says an error was pushed. -/
def phase1 (vis : List (Event V) → Event V → Bool) (path : List Nat) :
    List (KeyRange × Nat) → WSt V → WSt V × Bool × List (KeyRange × Nat)
  | [], st => (st, false, [])
  | (kr, b) :: rest, st =>
    match st.smInc b with
    | none => phase1 vis path rest st
    | some (rc, st) =>
      if rc = 0 then
        let r := phase1 vis path rest st
        (r.1, r.2.1, (kr, b) :: r.2.2)
      else if st.fails b then
        let r := phase1 vis path rest st
        (r.1, true, r.2.2)
      else
        let c := st.call vis (.again path b)
        let r := phase1 vis path rest c.1
        (r.1, !c.2 || r.2.1, r.2.2)

/-- Second half of `walk_nodes`, `src/pdata/btree_walker.rs:155-184`: read and walk the new children in order.  A
failed read is treated by `walk` like a failed parse: both record the error for the block. -/
def phase2 (walk : KeyRange → Nat → WSt V → WSt V × Res) : List (KeyRange × Nat) → WSt V → WSt V × Res
  | [], st => (st, .ok)
  | (kr, b) :: rest, st =>
    let r := walk kr b st
    let s := phase2 walk rest r.1
    (s.1, r.2.and s.2)

/-- `src/pdata/btree_walker.rs:189-252` (`walk_node`, `walk_node_`) with `build_aggregate` (93-107) -/
def walkNode (rd : Bool → Nat → Option (Blk V)) (vis : List (Event V) → Event V → Bool) :
    Nat → List Nat → Bool → KeyRange → Nat → WSt V → WSt V × Res
  | 0, _, _, _, _, st => (st, .fuel)
  | fuel + 1, path, isRoot, kr, b, st =>
    match rd isRoot b with
    | none => (st.setFail b, .err)
    | some (.internal ch) =>
      match splitKeyRanges kr (ch.map (·.1)) with
      | none => (st, .err)
      | some krs =>
        let p1 := phase1 vis (path ++ [b]) (krs.zip (ch.map (·.2))) st
        let p2 := phase2 (walkNode rd vis fuel (path ++ [b]) false) p1.2.2 p1.1
        let r := (if p1.2.1 then Res.err else Res.ok).and p2.2
        (if r = .err then p2.1.setFail b else p2.1, r)
    | some (.leaf es) =>
      let c := st.call vis (.visit (path ++ [b]) kr es)
      if c.2 then (c.1, .ok) else (c.1.setFail b, .err)

/-- `src/pdata/btree_walker.rs:254-281`.  `io` tells which blocks the engine can read at all (a root that cannot be
read returns at once, 266); an error of `end_walk` is dropped when the walk itself was fine. -/
def walk (io : Nat → Bool) (rd : Bool → Nat → Option (Blk V)) (vis : List (Event V) → Event V → Bool)
    (fuel : Nat) (path : List Nat) (root : Nat) (st : WSt V) : WSt V × Res :=
  match st.smInc root with
  | none => (st, .err)
  | some (rc, st) =>
    if rc > 0 then
      if st.fails root then ((st.call vis .endWalk).1, .err)
      else
        let c := st.call vis (.again path root)
        ((c.1.call vis .endWalk).1, if c.2 then .ok else .err)
    else if !io root then (st, .err)
    else
      let r := walkNode rd vis fuel path true ⟨none, none⟩ root st
      ((r.1.call vis .endWalk).1, r.2)

/-- a walker as made by `new` (`src/pdata/btree_walker.rs:43-53`), or by `new_with_sm` on an all-zero map -/
def WSt.fresh (nr mx : Nat) (sat : Bool) : WSt V :=
  { nr, mx, sat, seen := fun _ => 0, fails := fun _ => false, log := [] }

end Verif.BT
