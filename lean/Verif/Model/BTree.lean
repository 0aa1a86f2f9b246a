/-!
# B-tree readers: lookup, iterator, key ranges, walkers

(`src/pdata/btree_lookup.rs`, `src/pdata/btree_iterator.rs`, `src/pdata/btree_error.rs`,
`src/pdata/btree_walker.rs`, `src/pdata/btree_leaf_walker.rs`)

Reading, checksumming and parsing a block is a parameter `rd isRoot loc`: `none` stands for any failure
(`engine.read` error, wrong checksum, node rejected by `unpack_node`); the parser itself is modelled in
`Model/Node.lean` (C04, C05).  Parsed nodes have as many values as keys, so entries are pairs.
Loops that need not end on damaged (cyclic) metadata take a fuel argument and report `.fuel` when it runs out.
-/

namespace Verif.BT

/-- A parsed node, `src/pdata/btree.rs:106-117` (`Node`): the header is left out. -/
inductive Blk (V : Type) where
  | leaf (es : List (Nat × V))
  | internal (ch : List (Nat × Nat))
  deriving Repr, DecidableEq

/-- failures of a reader -/
inductive RErr where
  | io
  | panic
  | fuel
  | context
  deriving Repr, DecidableEq

/-- `slice::binary_search` on strictly increasing keys (what the parser guarantees): `(true, i)` is `Ok(i)`,
`(false, i)` is `Err(i)` with `i` the insertion point.  Modelled by its specification as a linear scan. -/
def bsearch : List Nat → Nat → Bool × Nat
  | [], _ => (false, 0)
  | k :: ks, key =>
    if key = k then (true, 0)
    else if key < k then (false, 0)
    else ((bsearch ks key).1, (bsearch ks key).2 + 1)

variable {V : Type}

/-- `src/pdata/btree_lookup.rs:11-50` -/
def lookup (rd : Bool → Nat → Option (Blk V)) (key : Nat) : Nat → Bool → Nat → Except RErr (Option V)
  | 0, _, _ => .error .fuel
  | fuel + 1, isRoot, loc =>
    match rd isRoot loc with
    | none => .error .io
    | some (.internal ch) =>
      let r := bsearch (ch.map (·.1)) key
      if !r.1 && r.2 == 0 then .ok none
      else
        match ch[if r.1 then r.2 else r.2 - 1]? with
        | none => .error .panic
        | some c => lookup rd key fuel false c.2
    | some (.leaf es) =>
      let r := bsearch (es.map (·.1)) key
      if r.1 then
        match es[r.2]? with
        | none => .error .panic
        | some e => .ok (some e.2)
      else .ok none

/-- `src/pdata/btree_iterator.rs:39-42` -/
structure Frame (V : Type) where
  index : Nat
  node : Blk V

/-- `src/pdata/btree_iterator.rs:16-21` -/
def Blk.nrEntries : Blk V → Nat
  | .leaf es => es.length
  | .internal ch => ch.length

/-- `src/pdata/btree_iterator.rs:23-29`; `none` is a panic (leaf, or index out of bounds) -/
def Blk.child : Blk V → Nat → Option Nat
  | .leaf _, _ => none
  | .internal ch, i => (ch[i]?).map (·.2)

/-- `src/pdata/btree_iterator.rs:52-56`: the frame stack, top first (the `path` only decorates errors) -/
abbrev Stack (V : Type) := List (Frame V)

/-- `src/pdata/btree_iterator.rs:58-80` (`push_frame`, `push_loc`); the flag says a leaf was pushed -/
def pushLoc (rd : Bool → Nat → Option (Blk V)) (stk : Stack V) (loc : Nat) : Except RErr (Stack V × Bool) :=
  match rd stk.isEmpty loc with
  | none => .error .io
  | some n => .ok ({ index := 0, node := n } :: stk, match n with | .leaf _ => true | _ => false)

/-- `src/pdata/btree_iterator.rs:82-93` -/
def leftMost (rd : Bool → Nat → Option (Blk V)) : Nat → Stack V → Nat → Except RErr (Stack V)
  | 0, _, _ => .error .fuel
  | fuel + 1, stk, loc =>
    match pushLoc rd stk loc with
    | .error e => .error e
    | .ok (stk', true) => .ok stk'
    | .ok (stk', false) =>
      match stk' with
      | [] => .error .panic
      | f :: _ =>
        match f.node.child 0 with
        | none => .error .panic
        | some c => leftMost rd fuel stk' c

/-- `src/pdata/btree_iterator.rs:95-105` -/
def iterNew (rd : Bool → Nat → Option (Blk V)) (fuel : Nat) (root : Nat) : Except RErr (Stack V) :=
  leftMost rd fuel [] root

/-- `src/pdata/btree_iterator.rs:108-126` -/
def iterGet (stk : Stack V) : Except RErr (Option (Nat × V)) :=
  match stk with
  | [] => .ok none
  | f :: _ =>
    match f.node with
    | .internal _ => .error .panic
    | .leaf [] => .ok none
    | .leaf (e :: es) =>
      match (e :: es)[f.index]? with
      | none => .error .panic
      | some x => .ok (some x)

/-- the last part of `next_node`, `src/pdata/btree_iterator.rs:146-149` -/
def pushNext (rd : Bool → Nat → Option (Blk V)) (stk : Stack V) : Except RErr (Stack V) :=
  match stk with
  | [] => .ok []
  | f :: fs =>
    match f.node.child f.index with
    | none => .error .panic
    | some loc =>
      match pushLoc rd (f :: fs) loc with
      | .error e => .error e
      | .ok p => .ok p.1

/-- `src/pdata/btree_iterator.rs:128-152` (`inc_frame` inlined) after `pop_frame`: the argument is the stack without
the popped frame.  The recursive call of `next_node` pops the frame that has run out of entries. -/
def nextPopped (rd : Bool → Nat → Option (Blk V)) : Stack V → Except RErr (Stack V)
  | [] => .ok []
  | f :: fs =>
    if f.index + 1 ≥ f.node.nrEntries then
      match nextPopped rd fs with
      | .error e => .error e
      | .ok stk => pushNext rd stk
    else pushNext rd ({ f with index := f.index + 1 } :: fs)

/-- `src/pdata/btree_iterator.rs:139-152` -/
def nextNode (rd : Bool → Nat → Option (Blk V)) (stk : Stack V) : Except RErr (Stack V) := nextPopped rd stk.tail

/-- `src/pdata/btree_iterator.rs:128-137, 154-160` -/
def iterStep (rd : Bool → Nat → Option (Blk V)) (stk : Stack V) : Except RErr (Stack V) :=
  match stk with
  | [] => .ok []
  | f :: fs =>
    if f.index + 1 ≥ f.node.nrEntries then nextNode rd ({ f with index := f.index + 1 } :: fs)
    else .ok ({ f with index := f.index + 1 } :: fs)

/-- `n` calls of `step` -/
def iterSteps (rd : Bool → Nat → Option (Blk V)) : Nat → Stack V → Except RErr (Stack V)
  | 0, stk => .ok stk
  | n + 1, stk =>
    match iterStep rd stk with
    | .error e => .error e
    | .ok stk => iterSteps rd n stk

/-- `src/pdata/btree_error.rs:11-15` -/
structure KeyRange where
  start : Option Nat
  fin : Option Nat
  deriving Repr, DecidableEq

/-- `src/pdata/btree_error.rs:44-104` -/
def KeyRange.split (kr : KeyRange) (n : Nat) : Option (KeyRange × KeyRange) :=
  match kr.start, kr.fin with
  | none, none => some (⟨none, some n⟩, ⟨some n, none⟩)
  | none, some e => if n < e then some (⟨none, some n⟩, ⟨some n, some e⟩) else none
  | some s, none => if s < n then some (⟨some s, some n⟩, ⟨some n, none⟩) else none
  | some s, some e => if s < n ∧ n < e then some (⟨some s, some n⟩, ⟨some n, some e⟩) else none

/-- the loop of `split_key_ranges`, `src/pdata/btree_error.rs:204-210` -/
def splitLoop (kr : KeyRange) : List Nat → Option (List KeyRange)
  | [] => some [kr]
  | k :: ks =>
    match kr.split k with
    | none => none
    | some (first, rest) =>
      match splitLoop rest ks with
      | none => none
      | some l => some (first :: l)

/-- `src/pdata/btree_error.rs:191-213` -/
def splitKeyRanges (kr : KeyRange) (keys : List Nat) : Option (List KeyRange) :=
  match keys with
  | [] => none
  | k :: ks => splitLoop ⟨some k, kr.fin⟩ ks

end Verif.BT
