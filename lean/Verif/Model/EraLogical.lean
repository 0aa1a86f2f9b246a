import Verif.Model.Bitset

/-!
# era_dump --logical (`src/era/dump.rs`)

`W` stands for the descriptor of a writeset and `rd` for `read_bitset` on it (`Verif.Bits.readBitset`, C18): the 32-bit
words of the bitset.  The map of archived writesets (a `BTreeMap<u64, Writeset>`) is a list in key order.  `none` is an
error return or a panic (index out of bounds, failed conversion).
-/

namespace Verif.EraL

open Verif.Bits (ABlock)

variable {W : Type}

/-- `BTreeMap::insert` of a key that is not there -/
def insertKey (k : Nat) (w : W) : List (Nat × W) → List (Nat × W)
  | [] => [(k, w)]
  | p :: l => if k < p.1 then (k, w) :: p :: l else p :: insertKey k w l

/-- `BTreeMap::get` -/
def lookup (l : List (Nat × W)) (k : Nat) : Option W := (l.find? (fun p => p.1 == k)).map (·.2)

/-- the loop of `src/era/dump.rs:367-373`: `n` eras from `era` on -/
def collect (m : List (Nat × W)) : Nat → Nat → Option (List (Nat × W))
  | 0, _ => some []
  | n + 1, era =>
    match lookup m era with
    | none => none
    | some w =>
      match collect m n (era + 1) with
      | none => none
      | some v => some ((era, w) :: v)

/-- the second half of `get_writesets_ordered`, `src/era/dump.rs:361-375`; the subtraction wraps around, and the inclusive
range is empty if it starts after the current era -/
def orderedOf (m : List (Nat × W)) (cur : Nat) : Option (List (Nat × W)) :=
  if m = [] then some []
  else
    let begin' := (cur + 2 ^ 32 - (m.length - 1) % 2 ^ 32) % 2 ^ 32
    collect m (cur + 1 - begin') begin'

/-- `get_writesets_ordered`, `src/era/dump.rs:343-376`; `current` is absent if its root is zero -/
def ordered (tree : List (Nat × W)) (cur : Nat) (current : Option W) : Option (List (Nat × W)) :=
  match current with
  | none => orderedOf tree cur
  | some w => if (lookup tree cur).isSome then none else orderedOf (insertKey cur w tree) cur

/-- `EraArchive`, `src/era/dump.rs:59-62`; `wmax` is the largest value of the element type -/
structure Archive where
  wmax : Nat
  digested : Nat
  deltas : List Nat

/-- `new_era_archive`, `src/era/dump.rs:64-79` -/
def newArchive (nrBlocks begin' nrWritesets : Nat) : Archive :=
  let n := (nrWritesets % 2 ^ 32 + 1) % 2 ^ 32
  { wmax := if n ≤ 255 then 2 ^ 8 - 1 else if n ≤ 65535 then 2 ^ 16 - 1 else 2 ^ 32 - 1
    digested := (begin' + 2 ^ 32 - 1) % 2 ^ 32
    deltas := List.replicate nrBlocks 0 }

/-- `EraArchive::set`, `src/era/dump.rs:86-89`; `none` is a panic -/
def Archive.set (a : Archive) (block delta : Nat) : Option Archive :=
  if block < a.deltas.length ∧ delta ≤ a.wmax then some { a with deltas := a.deltas.set block delta } else none

/-- `EraArchive::get`, `src/era/dump.rs:91-102` -/
def Archive.get (a : Archive) (block : Nat) : Option Nat :=
  match a.deltas[block]? with
  | none => none
  | some d => if d = 0 then none else some ((a.digested + d) % 2 ^ 32)

/-- the loop over the bits of a word, `src/era/dump.rs:384-390`; a 32-bit word is zero after 32 rounds -/
def setWord (delta : Nat) : Nat → Nat → Nat → Archive → Option Archive
  | 0, _, _, a => some a
  | fuel + 1, bi, n, a =>
    if n = 0 then some a
    else if n &&& 1 > 0 then
      match a.set bi delta with
      | none => none
      | some a => setWord delta fuel (bi + 1) (n >>> 1) a
    else setWord delta fuel (bi + 1) (n >>> 1) a

/-- the loop over the words, `src/era/dump.rs:381-391`, from word `i` on -/
def setWords (delta : Nat) : List Nat → Nat → Archive → Option Archive
  | [], _, a => some a
  | n :: ns, i, a =>
    match setWord delta 32 (i <<< 5) n a with
    | none => none
    | some a => setWords delta ns (i + 1) a

/-- the loop of `collate_writesets`, `src/era/dump.rs:406-409`, from position `index` on -/
def collateFrom (rd : W → Option (List Nat)) : List (Nat × W) → Nat → Archive → Option Archive
  | [], _, a => some a
  | w :: ws, index, a =>
    match rd w.2 with
    | none => none
    | some bits =>
      match setWords (index + 1) bits 0 a with
      | none => none
      | some a => collateFrom rd ws (index + 1) a

/-- `collate_writesets`, `src/era/dump.rs:396-412` -/
def collate (rd : W → Option (List Nat)) (nrBlocks : Nat) (sets : List (Nat × W)) : Option Archive :=
  collateFrom rd sets 0 (newArchive nrBlocks ((sets.head?.map (·.1)).getD 0) sets.length)

/-- what `EraEmitter::visit` emits for the blocks of the era array, in order: block and era, `src/era/dump.rs:36-48` -/
def rawEras (blocks : List (Nat × ABlock)) : List (Nat × Nat) :=
  blocks.flatMap fun kb => kb.2.values.zipIdx (kb.1 * kb.2.maxEntries) |>.map fun p => (p.2, p.1)

/-- what `LogicalEraEmitter::visit` emits, `src/era/dump.rs:130-151` -/
def logicalEras (a : Archive) (blocks : List (Nat × ABlock)) : List (Nat × Nat) :=
  blocks.flatMap fun kb => kb.2.values.zipIdx (kb.1 * kb.2.maxEntries) |>.map fun p =>
    match a.get p.2 with
    | some e => (p.2, e)
    | none => (p.2, p.1)

/-- the eras `era_dump --logical` emits, `src/era/dump.rs:414-450,455-475`; `blocks` are the blocks of the era array -/
def dumpLogical (rd : W → Option (List Nat)) (nrBlocks : Nat) (tree : List (Nat × W)) (cur : Nat) (current : Option W)
    (blocks : List (Nat × ABlock)) : Option (List (Nat × Nat)) :=
  match ordered tree cur current with
  | none => none
  | some sets =>
    if sets = [] then some (rawEras blocks)
    else
      match collate rd nrBlocks sets with
      | none => none
      | some a => some (logicalEras a blocks)

end Verif.EraL
