import Verif.Model.Builder

/-!
# Array builder (`src/pdata/array_builder.rs`)

`epb` is `entries_per_block`.  `Vec::with_capacity(n)` is taken to have capacity `n` exactly (the code relies on this: it
pads a block to `values.capacity()` and counts blocks with `array_blocks.capacity()`).  The contents of an array block are
the list of its values (their byte layout is in `Model/ArrayBlock.lean`).
-/

namespace Verif.Arr

open Verif.Bld (St Err Item build leafIO)

variable {V : Type}

/-- `src/math.rs:5-10` -/
def divUp (v d : Nat) : Nat := (v + (d - 1)) / d

/-- The metadata device: `bt` holds the B-tree nodes and the space map, `arr` the array blocks.  A block holds an array
only if the last write to it was an array block: `bt.mem` is cleared by such a write. -/
structure ASt (V : Type) where
  bt : St Nat
  arr : Nat → Option (List V)

/-- reading array block `b` -/
def ASt.readArr (s : ASt V) (b : Nat) : Option (List V) :=
  match s.bt.mem b with
  | none => s.arr b
  | some _ => none

/-- `ArrayBlockBuilder`, `src/pdata/array_builder.rs:20-26`; `cap` is `values.capacity()`, `nrBlocks`
`array_blocks.capacity()` -/
structure AB (V : Type) where
  nr : Nat
  epb : Nat
  nrBlocks : Nat
  blocks : List Nat
  cap : Nat
  values : List V

/-- `src/pdata/array_builder.rs:43-55` -/
def AB.new (epb nr : Nat) : AB V :=
  { nr, epb, nrBlocks := divUp nr epb, blocks := [], cap := min nr epb, values := [] }

/-- failures of a push: index out of bounds, index not increasing, or a failed write -/
inductive AErr where
  | bounds
  | order
  | io (e : Err)
  deriving Repr, DecidableEq

/-- `src/pdata/array_builder.rs:149-176` (`ArrayIO::write`, `write_array_block`): allocate, then write -/
def writeArr (vs : List V) (s : ASt V) : Except AErr (Nat × ASt V) :=
  match Bld.alloc s.bt with
  | .error e => .error (.io e)
  | .ok (b, t) =>
    .ok (b, { bt := { t with mem := fun x => if x = b then none else t.mem x }
              arr := fun x => if x = b then some vs else s.arr x })

/-- `src/pdata/array_builder.rs:92-113` -/
def emitBlock [Inhabited V] (ab : AB V) (s : ASt V) : Except AErr (AB V × ASt V) :=
  let cur := ab.blocks.length
  let capNext := if cur < ab.nrBlocks - 1 then min (ab.nr - (cur + 1) * ab.epb) ab.epb else 0
  match writeArr (ab.values ++ List.replicate (ab.cap - ab.values.length) default) s with
  | .error e => .error e
  | .ok (b, s) => .ok ({ ab with blocks := ab.blocks ++ [b], cap := capNext, values := [] }, s)

/-- the loops of `src/pdata/array_builder.rs:65-67` and `84-86`: `n` rounds -/
def emitN [Inhabited V] : Nat → AB V → ASt V → Except AErr (AB V × ASt V)
  | 0, ab, s => .ok (ab, s)
  | n + 1, ab, s =>
    match emitBlock ab s with
    | .error e => .error e
    | .ok (ab, s) => emitN n ab s

/-- `src/pdata/array_builder.rs:57-79,125-127` -/
def push [Inhabited V] (index : Nat) (v : V) (ab : AB V) (s : ASt V) : Except AErr (AB V × ASt V) :=
  let bi := index / ab.epb
  let i := index % ab.epb
  if index ≥ ab.nr then .error .bounds
  else
    match emitN (bi - ab.blocks.length) ab s with
    | .error e => .error e
    | .ok (ab, s) =>
      if bi < ab.blocks.length ∨ i < ab.values.length then .error .order
      else .ok ({ ab with values := ab.values ++ List.replicate (i - ab.values.length) default ++ [v] }, s)

/-- a sequence of pushes -/
def pushList [Inhabited V] : List (Nat × V) → AB V → ASt V → Except AErr (AB V × ASt V)
  | [], ab, s => .ok (ab, s)
  | (i, v) :: ps, ab, s =>
    match push i v ab s with
    | .error e => .error e
    | .ok (ab, s) => pushList ps ab s

/-- `ArrayBlockBuilder::complete`, `src/pdata/array_builder.rs:81-89` -/
def completeBlocks [Inhabited V] (ab : AB V) (s : ASt V) : Except AErr (List Nat × ASt V) :=
  match emitN (ab.nrBlocks - ab.blocks.length) ab s with
  | .error e => .error e
  | .ok (ab, s) => .ok (ab.blocks, s)

/-- `ArrayBlockBuilder`: `new`, the pushes, `complete` -/
def buildBlocks [Inhabited V] (epb nr : Nat) (ps : List (Nat × V)) (s : ASt V) : Except AErr (List Nat × ASt V) :=
  match pushList ps (AB.new epb nr) s with
  | .error e => .error e
  | .ok (ab, s) => completeBlocks ab s

/-- the index tree, `src/pdata/array_builder.rs:131-136`: position of each array block ↦ the block, with `NoopRC` -/
def indexItems (blocks : List Nat) : List (Item Nat) :=
  ((List.range blocks.length).zip blocks).map fun e => .val e.1 e.2

/-- `ArrayBuilder::complete`, `src/pdata/array_builder.rs:129-137` -/
def completeArray [Inhabited V] (capL capI : Nat) (ab : AB V) (s : ASt V) : Except AErr (Nat × ASt V) :=
  match completeBlocks ab s with
  | .error e => .error e
  | .ok (blocks, s) =>
    match build (leafIO (fun _ => []) (fun _ _ => true)) capL capI (indexItems blocks) s.bt with
    | .error e => .error (.io e)
    | .ok (root, t) => .ok (root, { s with bt := t })

/-- `ArrayBuilder`: `new`, the pushes, `complete`, `src/pdata/array_builder.rs:118-138`; `capL`, `capI` are the capacities
of the index tree's nodes -/
def buildArray [Inhabited V] (epb capL capI nr : Nat) (ps : List (Nat × V)) (s : ASt V) : Except AErr (Nat × ASt V) :=
  match buildBlocks epb nr ps s with
  | .error e => .error e
  | .ok (blocks, s) =>
    match build (leafIO (fun _ => []) (fun _ _ => true)) capL capI (indexItems blocks) s.bt with
    | .error e => .error (.io e)
    | .ok (root, t) => .ok (root, { s with bt := t })

end Verif.Arr
