import Verif.Model.BTree
import Verif.Model.SpaceMap

/-!
# B-tree builder (`src/pdata/btree_builder.rs`)

The write batcher is reduced to what C09 proves of it: a memory of blocks in which a read returns the latest write.
A block's contents are the node stored there (C05 proves that packing and unpacking a node gives it back); reading
a node whose keys are not strictly increasing fails, as `unpack_node` does (C04).  The metadata space map is the
`CoreSpaceMap` of `Model/SpaceMap.lean`.  References to values (data blocks) are logged in a list: the reference count
of `v` is the number of its occurrences.  Effects of a call that returns `Err` are not modelled (callers abort).
-/

namespace Verif.Bld

open Verif.BT (Blk)

variable {V E : Type}

/-- ways to fail: no free metadata block, key order, value ref counter, metadata ref count, unreadable node, panic -/
inductive Err where
  | space
  | order
  | valueRc
  | metaRc
  | node
  | panic
  deriving Repr, DecidableEq

/-- metadata memory, metadata space map, references taken on data blocks, and the batcher's record of allocations
(`src/write_batcher.rs:24-27`; a set of ranges in the code, here a list of blocks) -/
structure St (V : Type) where
  mem : Nat → Option (Blk V)
  sm : SM.Core
  log : List Nat
  allocs : List Nat := []

/-- `NodeIO` and `RefCounter` of a builder, `src/pdata/btree_builder.rs:22-40,113-182`: how entries become a node and
back (`none`: the `panic!` for the other kind of node), which data blocks a value refers to, and whether taking the
references succeeds in a given state of the counters. -/
structure NIO (V E : Type) where
  pack : List (Nat × E) → Blk V
  unpack : Blk V → Option (List (Nat × E))
  refs : E → List Nat
  ok : List Nat → E → Bool

/-- `LeafIO` (`src/pdata/btree_builder.rs:118-149`) with a ref counter -/
def leafIO (refs : V → List Nat) (ok : List Nat → V → Bool) : NIO V V where
  pack := .leaf
  unpack := fun b => match b with | .leaf es => some es | .internal _ => none
  refs := refs
  ok := ok

/-- `InternalIO` (`src/pdata/btree_builder.rs:151-182`) with `NoopRC` (28-40) -/
def internalIO : NIO V Nat where
  pack := .internal
  unpack := fun b => match b with | .internal ch => some ch | .leaf _ => none
  refs := fun _ => []
  ok := fun _ _ => true

/-- `src/pdata/btree_builder.rs:203-212` -/
structure Summary where
  block : Nat
  key : Nat
  nr : Nat
  shared : Bool
  deriving Repr, DecidableEq

/-- `src/pdata/btree_builder.rs:189-197` -/
structure NB (E : Type) where
  cap : Nat
  values : List (Nat × E)
  nodes : List Summary
  shared : Bool
  lastKey : Option Nat

/-- `src/pdata/btree_builder.rs:216-226` -/
def NB.new (cap : Nat) (shared : Bool) : NB E := { cap, values := [], nodes := [], shared, lastKey := none }

/-- first key of a node, `0` for an empty one (`src/pdata/btree_builder.rs:96-97`) -/
def firstKey (es : List (Nat × E)) : Nat := (es.head?.map (·.1)).getD 0

/-- the parser's order check, see `Model/Node.lean` -/
def ordered : List (Nat × E) → Bool
  | [] => true
  | [_] => true
  | a :: b :: l => decide (a.1 < b.1) && ordered (b :: l)

/-- `src/write_batcher.rs:45-60` (`alloc`) -/
def alloc (s : St V) : Except Err (Nat × St V) :=
  match s.sm.alloc with
  | (sm, .block (some b)) => .ok (b, { s with sm := sm, allocs := s.allocs ++ [b] })
  | _ => .error .space

/-- `src/pdata/btree_builder.rs:95-108,121-137,154-170` -/
def writeNode (io : NIO V E) (es : List (Nat × E)) (s : St V) : Except Err (Nat × St V) := do
  let r ← alloc s
  .ok (r.1, { r.2 with mem := fun x => if x = r.1 then some (io.pack es) else r.2.mem x })

/-- `src/pdata/btree_builder.rs:139-148,172-181,380-382` -/
def readNode (io : NIO V E) (b : Nat) (s : St V) : Except Err (List (Nat × E)) :=
  match s.mem b with
  | none => .error .node
  | some n =>
    match io.unpack n with
    | none => .error .panic
    | some es => if ordered es then .ok es else .error .node

/-- `RefCounter::inc` for one value -/
def incValue (io : NIO V E) (v : E) (s : St V) : Except Err (St V) :=
  if io.ok s.log v then .ok { s with log := s.log ++ io.refs v } else .error .valueRc

/-- `RefCounter::inc` in a loop, as in `src/pdata/btree_builder.rs:266-269,454-460` -/
def incAll (io : NIO V E) : List (Nat × E) → St V → Except Err (St V)
  | [], s => .ok s
  | e :: es, s => do
    let s ← incValue io e.2 s
    incAll io es s

/-- `w.sm.lock().unwrap().inc(block, 1)` -/
def incBlock (b : Nat) (s : St V) : Except Err (St V) :=
  match s.sm.inc b 1 with
  | (sm, .unit) => .ok { s with sm := sm }
  | _ => .error .metaRc

/-- `w.sm.lock().unwrap().dec(block)`, the flag says the count dropped to zero -/
def decBlock (b : Nat) (s : St V) : Except Err (Bool × St V) :=
  match s.sm.dec b with
  | (sm, .bool d) => .ok (d, { s with sm := sm })
  | _ => .error .metaRc

/-- `src/pdata/btree_builder.rs:385-408` -/
def emitValues (io : NIO V E) (n : Nat) (nb : NB E) (s : St V) : Except Err (NB E × St V) :=
  if n ≤ nb.values.length then do
    let es := nb.values.take n
    let r ← writeNode io es s
    .ok ({ nb with values := nb.values.drop n, nodes := nb.nodes ++ [⟨r.1, firstKey es, n, nb.shared⟩] }, r.2)
  else .error .panic

/-- `src/pdata/btree_builder.rs:417-438` -/
def emitAll (io : NIO V E) (nb : NB E) (s : St V) : Except Err (NB E × St V) :=
  let n := nb.values.length
  if n = 0 then .ok (nb, s)
  else if n ≤ nb.cap then emitValues io n nb s
  else if n ≤ nb.cap * 2 then do
    let r ← emitValues io (n / 2) nb s
    emitValues io (n - n / 2) r.1 r.2
  else .error .panic

/-- `src/pdata/btree_builder.rs:447-466` -/
def unshiftNode (io : NIO V E) (nb : NB E) (s : St V) : Except Err (NB E × St V) :=
  match nb.nodes.getLast? with
  | none => .error .panic
  | some ls => do
    let es ← readNode io ls.block s
    let r ← decBlock ls.block s
    let s ← if ls.shared then incAll io es r.2 else .ok r.2
    .ok ({ nb with nodes := nb.nodes.dropLast, values := es ++ nb.values }, s)

/-- `src/pdata/btree_builder.rs:228-237` -/
def checkKey (key : Nat) (nb : NB E) : Except Err (NB E) :=
  match nb.lastKey with
  | some l => if key ≤ l then .error .order else .ok { nb with lastKey := some key }
  | none => .ok { nb with lastKey := some key }

/-- `self.nodes.len() == 1 && nodes.last().nr_entries < half_full`, `src/pdata/btree_builder.rs:244,315` -/
def loneUnderfull (nb : NB E) : Bool :=
  match nb.nodes with
  | [n] => decide (n.nr < nb.cap / 2)
  | _ => false

/-- `src/pdata/btree_builder.rs:241-259` -/
def pushValue (io : NIO V E) (key : Nat) (v : E) (nb : NB E) (s : St V) : Except Err (NB E × St V) := do
  let r ← (if loneUnderfull nb then unshiftNode io nb s
    else if nb.values.length = nb.cap * 2 then emitValues io nb.cap nb s
    else .ok (nb, s))
  let nb ← checkKey key r.1
  let s ← incValue io v r.2
  .ok ({ nb with values := nb.values ++ [(key, v)] }, s)

/-- `src/pdata/btree_builder.rs:263-272` -/
def appendValues (io : NIO V E) (n : Summary) (nb : NB E) (s : St V) : Except Err (NB E × St V) := do
  let es ← readNode io n.block s
  let s ← incAll io es s
  .ok ({ nb with values := nb.values ++ es }, s)

/-- `src/pdata/btree_builder.rs:328-331,343-346` -/
def addNodes : List Summary → NB E → St V → Except Err (NB E × St V)
  | [], nb, s => .ok (nb, s)
  | n :: ns, nb, s => do
    let s ← incBlock n.block s
    addNodes ns { nb with nodes := nb.nodes ++ [n] } s

/-- `src/pdata/btree_builder.rs:308-312` -/
def checkFirst (n : Summary) (nb : NB E) : Except Err Unit :=
  match nb.lastKey with
  | some l => if n.key ≤ l then .error .order else .ok ()
  | none => .ok ()

/-- `src/pdata/btree_builder.rs:280-354`, the argument is `n :: ns` (an empty slice panics, 281) -/
def pushNodes (io : NIO V E) (n : Summary) (ns : List Summary) (nb : NB E) (s : St V) :
    Except Err (NB E × St V) :=
  if ns = [] ∧ nb.nodes = [] ∧ nb.values = [] then do
    let s ← incBlock n.block s
    .ok ({ nb with nodes := [n] }, s)
  else if ns ≠ [] ∧ (n :: ns).any (fun m => decide (m.nr < nb.cap / 2)) then .error .panic
  else do
    checkFirst n nb
    let r ← (if loneUnderfull nb then unshiftNode io nb s else .ok (nb, s))
    let r ← (if r.1.values ≠ [] ∧ r.1.values.length < nb.cap / 2 then do
        let r ← appendValues io n r.1 r.2
        if ns = [] then .ok r
        else do
          let r ← emitAll io r.1 r.2
          addNodes ns r.1 r.2
      else do
        let r ← emitAll io r.1 r.2
        if n.nr < nb.cap / 2 then appendValues io n r.1 r.2
        else addNodes (n :: ns) r.1 r.2)
    .ok ({ r.1 with lastKey := some ((n :: ns).getLast (by simp)).key }, r.2)

/-- `src/pdata/btree_builder.rs:358-374` -/
def complete (io : NIO V E) (nb : NB E) (s : St V) : Except Err (List Summary × St V) := do
  let r ← (if nb.values ≠ [] ∧ nb.values.length < nb.cap / 2 ∧ nb.nodes ≠ [] then unshiftNode io nb s
    else .ok (nb, s))
  let r ← emitAll io r.1 r.2
  let r ← (if r.1.nodes = [] then emitValues io 0 r.1 r.2 else .ok r)
  .ok (r.1.nodes, r.2)

/-- the `for` loop of `src/pdata/btree_builder.rs:506-508` -/
def pushAll (io : NIO V E) : List (Nat × E) → NB E → St V → Except Err (NB E × St V)
  | [], nb, s => .ok (nb, s)
  | e :: es, nb, s => do
    let r ← pushValue io e.1 e.2 nb s
    pushAll io es r.1 r.2

/-- one round of the loop in `build_btree`, `src/pdata/btree_builder.rs:504-510` -/
def buildLayer (capI : Nat) (nodes : List Summary) (s : St V) : Except Err (List Summary × St V) := do
  let r ← pushAll internalIO (nodes.map fun n => (n.key, n.block)) (NB.new capI false) s
  complete internalIO r.1 r.2

/-- `src/pdata/btree_builder.rs:499-517`; the first argument bounds the number of rounds (`buildTree` supplies
enough, which is proved), an empty list fails the `assert!` (513). -/
def buildLoop (capI : Nat) : Nat → List Summary → St V → Except Err (Nat × St V)
  | _, [], _ => .error .panic
  | _, [n], s => .ok (n.block, s)
  | 0, _ :: _ :: _, _ => .error .panic
  | fuel + 1, nodes, s => do
    let r ← buildLayer capI nodes s
    buildLoop capI fuel r.1 r.2

/-- `src/pdata/btree_builder.rs:499-517` -/
def buildTree (capI : Nat) (nodes : List Summary) (s : St V) : Except Err (Nat × St V) :=
  buildLoop capI nodes.length nodes s

/-- What is pushed into a builder: a value, or a non-empty slice of pre-built leaves. -/
inductive Item (V : Type) where
  | val (k : Nat) (v : V)
  | leaves (n : Summary) (ns : List Summary)

/-- `push_value` / `push_nodes` -/
def pushItem (io : NIO V V) : Item V → NB V → St V → Except Err (NB V × St V)
  | .val k v, nb, s => pushValue io k v nb s
  | .leaves n ns, nb, s => pushNodes io n ns nb s

/-- a sequence of pushes -/
def pushItems (io : NIO V V) : List (Item V) → NB V → St V → Except Err (NB V × St V)
  | [], nb, s => .ok (nb, s)
  | i :: is, nb, s => do
    let r ← pushItem io i nb s
    pushItems io is r.1 r.2

/-- The leaves of a new subtree: `NodeBuilder::new`, the pushes, `complete` (`src/pdata/btree_builder.rs:214-374`);
`shared` is set for the `<def>` sections of a restore. -/
def buildLeaves (io : NIO V V) (capL : Nat) (shared : Bool) (items : List (Item V)) (s : St V) :
    Except Err (List Summary × St V) := do
  let r ← pushItems io items (NB.new capL shared) s
  complete io r.1 r.2

/-- `BTreeBuilder`: `new`, the pushes, `complete`, `src/pdata/btree_builder.rs:475-494` -/
def build (io : NIO V V) (capL capI : Nat) (items : List (Item V)) (s : St V) : Except Err (Nat × St V) := do
  let r ← buildLeaves io capL false items s
  buildTree capI r.1 r.2

/-- `RefCounter::dec` for one value: every reference must be there -/
def decRefs : List Nat → List Nat → Except Err (List Nat)
  | [], log => .ok log
  | r :: rs, log => if r ∈ log then decRefs rs (log.erase r) else .error .valueRc

/-- `src/pdata/btree_builder.rs:527-545` -/
def releaseLeaves (io : NIO V V) : List Summary → St V → Except Err (St V)
  | [], s => .ok s
  | n :: ns, s => do
    let r ← decBlock n.block s
    if r.1 then do
      let es ← readNode io n.block r.2
      let log ← decRefs (es.flatMap fun e => io.refs e.2) r.2.log
      releaseLeaves io ns { r.2 with log := log }
    else releaseLeaves io ns r.2

end Verif.Bld
