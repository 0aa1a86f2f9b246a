import Verif.Model.Walker
import Verif.Model.ThinRestore

/-!
# Collecting leaf blocks and whole maps (`src/pdata/btree_leaf_walker.rs`, `btree_to_map`)

A panic or an error of the code is `none`; so is a missing end of a damaged (cyclic) tree, where the code would not return.
The space map of the leaf walker is a saturating one whose counts nobody reads (`src/thin/metadata.rs:102`); only its
bounds matter: counting a block outside of the device panics.
-/

namespace Verif.LW

open Verif.BT (Blk KeyRange splitKeyRanges Event WSt)

variable {V : Type}

/-- `get_depth`, `src/pdata/btree_leaf_walker.rs:180-199`: follows the first child down to a leaf -/
def getDepth (rd : Bool → Nat → Option (Blk V)) : Nat → Bool → Nat → Option Nat
  | 0, _, _ => none
  | fuel + 1, isRoot, b =>
    match rd isRoot b with
    | none => none
    | some (.leaf _) => some 0
    | some (.internal []) => none
    | some (.internal (c :: _)) => (getDepth rd fuel false c.2).map (· + 1)

/-- `walk_nodes` after the counting, `src/pdata/btree_leaf_walker.rs:91-104`: the children in order, the first error ends the walk -/
def walkAll (f : KeyRange → Nat → Option (List (KeyRange × Nat))) : List (KeyRange × Nat) → Option (List (KeyRange × Nat))
  | [] => some []
  | c :: cs =>
    match f c.1 c.2, walkAll f cs with
    | some a, some b => some (a ++ b)
    | _, _ => none

/-- `walk_node`, `walk_node_` and the counting of `walk_nodes`, `src/pdata/btree_leaf_walker.rs:56-90,109-178`; the result is
the list of `visit` calls -/
def walkNode (rd : Bool → Nat → Option (Blk V)) (nr : Nat) : Nat → Bool → KeyRange → Nat → Option (List (KeyRange × Nat))
  | depth, isRoot, kr, b =>
    match rd isRoot b with
    | none => none
    | some (.leaf _) => none
    | some (.internal ch) =>
      match splitKeyRanges kr (ch.map (·.1)) with
      | none => none
      | some krs =>
        if ch.all fun c => decide (c.2 < nr) then
          match depth with
          | 0 => some (krs.zip (ch.map (·.2)))
          | depth + 1 => walkAll (walkNode rd nr depth false) (krs.zip (ch.map (·.2)))
        else none

/-- `walk`, `src/pdata/btree_leaf_walker.rs:201-224`; the bound on the depth of the tree is the number of blocks of the device -/
def walk (rd : Bool → Nat → Option (Blk V)) (nr : Nat) (root : Nat) : Option (List (KeyRange × Nat)) :=
  match getDepth rd (nr + 1) true root with
  | none => none
  | some depth =>
    if root < nr then
      match depth with
      | 0 => some [(⟨none, none⟩, root)]
      | depth + 1 => walkNode rd nr depth true ⟨none, none⟩ root
    else none

/-- what `ValueCollector` got, `src/pdata/btree_walker.rs:295-309` -/
def collected : List (Event V) → List (Nat × V) → List (Nat × V)
  | [], m => m
  | .visit _ _ es :: l, m => collected l (es.foldl (fun m e => Rst.insertId e.1 e.2 m) m)
  | _ :: l, m => collected l m

/-- `btree_to_map`, `src/pdata/btree_walker.rs:319-329` -/
def btreeToMap (rd : Bool → Nat → Option (Blk V)) (nr : Nat) (root : Nat) : Option (List (Nat × V)) :=
  let r := BT.walk (fun b => decide (b < nr)) rd (fun _ _ => true) (nr + 1) [0] root (WSt.fresh nr 1 true)
  if r.2 = .ok then some (collected r.1.log []) else none

end Verif.LW
