import Verif.Model.Checksum
import Verif.Model.Records
import Verif.Model.Superblock

/-!
# B-tree nodes on disk (`src/pdata/btree.rs`)
-/

namespace Verif

/-- `src/pdata/btree.rs:22-29` -/
structure NodeHeader where
  block : Nat
  is_leaf : Bool
  nr_entries : Nat
  max_entries : Nat
  value_size : Nat
  deriving DecidableEq, Repr

/-- `src/pdata/btree.rs:20,36-38` -/
def NODE_HEADER_SIZE : Nat := 32

/-- `src/pdata/btree.rs:40-59`; `LEAF_NODE = 2`. -/
def NodeHeader.unpack : Parser NodeHeader := fun i => do
  let (_csum, i) ← leU32 i
  let (flags, i) ← leU32 i
  let (block, i) ← leU64 i
  let (nr_entries, i) ← leU32 i
  let (max_entries, i) ← leU32 i
  let (value_size, i) ← leU32 i
  let (_padding, i) ← leU32 i
  some ({ block, is_leaf := flags == 2, nr_entries, max_entries, value_size }, i)

/-- `src/pdata/btree.rs:62-79` -/
def NodeHeader.pack (h : NodeHeader) : Bytes :=
  w32 0 ++ (w32 (if h.is_leaf then 2 else 1) ++ (w64 h.block ++ (w32 h.nr_entries ++ (w32 h.max_entries ++
  (w32 h.value_size ++ w32 0)))))

/-- `src/pdata/btree.rs:81-93` -/
inductive Node (V : Type) where
  | internal (header : NodeHeader) (keys : List Nat) (values : List Nat)
  | leaf (header : NodeHeader) (keys : List Nat) (values : List V)

/-- `src/pdata/btree.rs:96-102` -/
def Node.header {V : Type} : Node V → NodeHeader
  | .internal h _ _ => h
  | .leaf h _ _ => h

/-- `src/pdata/btree.rs:112-118` -/
def Node.keys {V : Type} : Node V → List Nat
  | .internal _ k _ => k
  | .leaf _ k _ => k

/-- `src/pdata/btree_error.rs` `NodeError` -/
inductive NodeError where
  | notANode | checksumError | blockNrMismatch | valueSizeMismatch | maxEntriesTooLarge
  | maxEntriesNotDivisible | numEntriesTooLarge | numEntriesTooSmall | keysOutOfOrder | incompleteData
  deriving DecidableEq, Repr

/-- `nom::multi::count(p, n)` -/
def countP {α : Type} (p : Parser α) : Nat → Parser (List α)
  | 0, i => some ([], i)
  | n + 1, i =>
    match p i with
    | none => none
    | some (a, i) =>
      match countP p n i with
      | none => none
      | some (as, i) => some (a :: as, i)

/-- `src/pdata/btree.rs:177-186`: the loop comparing every key with its predecessor (`k <= l` is an error). -/
def keysOrdered : Option Nat → List Nat → Bool
  | _, [] => true
  | none, k :: ks => keysOrdered (some k) ks
  | some l, k :: ks => if k ≤ l then false else keysOrdered (some k) ks

/-- `src/pdata/btree.rs:142-209`.  `value_size + 8` is a `u32` addition, modelled with release-mode
wrap-around (a debug build panics instead). -/
def unpackNodeRaw {V : Type} (c : Codec V) (data : Bytes) (ignoreNonFatal isRoot : Bool) :
    Except NodeError (Node V) :=
  match NodeHeader.unpack data with
  | none => .error .incompleteData
  | some (header, i) =>
    if header.is_leaf && header.value_size != c.diskSize then .error .valueSizeMismatch
    else if ((header.value_size + 8) % 2 ^ 32) * header.max_entries + NODE_HEADER_SIZE > BLOCK_SIZE then
      .error .maxEntriesTooLarge
    else if header.nr_entries > header.max_entries then .error .numEntriesTooLarge
    else if !ignoreNonFatal && header.max_entries % 3 != 0 then .error .maxEntriesNotDivisible
    else if !ignoreNonFatal && !isRoot && header.nr_entries < header.max_entries / 3 then
      .error .numEntriesTooSmall
    else match countP leU64 header.nr_entries i with
      | none => .error .incompleteData
      | some (keys, i) =>
        if !keysOrdered none keys then .error .keysOutOfOrder
        else match countP leU64 (header.max_entries - header.nr_entries) i with
          | none => .error .incompleteData
          | some (_padding, i) =>
            if header.is_leaf then
              match countP c.unpack header.nr_entries i with
              | none => .error .incompleteData
              | some (values, _) => .ok (.leaf header keys values)
            else
              match countP leU64 header.nr_entries i with
              | none => .error .incompleteData
              | some (values, _) => .ok (.internal header keys values)

/-- `src/pdata/btree.rs:212-255` -/
def packNode {V : Type} (c : Codec V) : Node V → Bytes
  | .internal header keys values =>
    header.pack ++ ((keys.map w64).flatten ++ ((List.replicate (header.max_entries - keys.length) (w64 0)).flatten ++
      (values.map w64).flatten))
  | .leaf header keys values =>
    header.pack ++ ((keys.map w64).flatten ++ ((List.replicate (header.max_entries - keys.length) (w64 0)).flatten ++
      (values.map c.pack).flatten))

/-- `src/pdata/btree.rs:259-263` -/
def calcMaxEntries (valueSize : Nat) : Nat := (BLOCK_SIZE - 32) / (8 + valueSize) / 3 * 3

/-- `src/pdata/btree.rs:266-273` -/
def verifyChecksum (crc : Bytes → UInt32) (data : Bytes) : Except NodeError Unit :=
  match metadataBlockType crc data with
  | .node => .ok ()
  | .unknown => .error .checksumError
  | _ => .error .notANode

/-- `src/pdata/btree.rs:277-288`; a `Block` is its location and its data. -/
def checkAndUnpackNode {V : Type} (crc : Bytes → UInt32) (c : Codec V) (loc : Nat) (data : Bytes)
    (ignoreNonFatal isRoot : Bool) : Except NodeError (Node V) := do
  verifyChecksum crc data
  let node ← unpackNodeRaw c data ignoreNonFatal isRoot
  if node.header.block ≠ loc then .error .blockNrMismatch else .ok node

/-- A buffer of which the first bytes are overwritten through a `Cursor`; too much data is an error. -/
def fillBlock (old b : Bytes) : Option Bytes :=
  if b.length ≤ old.length then some (b ++ old.drop b.length) else none

/-- `src/pdata/btree_builder.rs:95-108` `write_node_`: pack into a freshly allocated block (`Block::new`, whose
memory is *not* cleared: `old` is its arbitrary content), then `WriteBatcher::write(b, BT::NODE)`, which adds
the checksum (`src/write_batcher.rs:82-83`).  The caller has set `header.block` to the block's location. -/
def nodeBlock {V : Type} (crc : Bytes → UInt32) (c : Codec V) (old : Bytes) (n : Node V) : Option Bytes := do
  let b ← fillBlock old (packNode c n)
  writeChecksum crc b .node

end Verif
