import Verif.Model.Delta

/-!
# `thin_rmap` (`src/thin/rmap.rs`)

Block numbers are natural numbers: sums like `end + 1` are at most `2^64`.  The output is the list of lines; errors of the output
stream are not modelled.
-/

namespace Verif.Rmap

open Verif.BT (Blk WSt)
open Verif.Rst (Val)

/-- `RmapRegion`, `src/thin/rmap.rs:22-28` -/
structure Region where
  first : Nat
  fin : Nat
  dev : Nat
  thin : Nat
  deriving DecidableEq, Repr

/-- `adjacent`, `src/thin/rmap.rs:31-51`: the answer and the new value of the region -/
def adjacent (r : Region) (dev thin data : Nat) : Bool × Region :=
  if r.fin - r.first = 0 then (true, { first := data, fin := data + 1, dev, thin })
  else if dev ≠ r.dev ∨ data ≠ r.fin ∨ thin ≠ r.thin + (r.fin - r.first) then (false, r)
  else (true, { r with fin := r.fin + 1 })

/-- `compare`, `src/thin/rmap.rs:60-81`: less or equal -/
def le (l r : Region) : Bool :=
  if l.first < r.first then true
  else if l.first > r.first then false
  else if l.fin < r.fin then true
  else if l.fin > r.fin then false
  else if l.dev < r.dev then true
  else if l.dev > r.dev then false
  else if l.thin < r.thin then true
  else if l.thin > r.thin then false
  else true

/-- `RmapInner`, `src/thin/rmap.rs:99-103` -/
structure RSt where
  rmap : List Region
  current : Region
  dev : Nat

/-- `RmapVisitor::new`, `src/thin/rmap.rs:111-120` -/
def RSt.init : RSt := { rmap := [], current := ⟨0, 0, 0, 0⟩, dev := 0 }

/-- `in_regions`, `src/thin/rmap.rs:127-134` -/
def inRegions (regions : List (Nat × Nat)) (b : Nat) : Bool := regions.any fun r => decide (r.1 ≤ b) && decide (b < r.2)

/-- one round of the loop in `visit`, `src/thin/rmap.rs:162-171` -/
def visit (regions : List (Nat × Nat)) (st : RSt) (e : Nat × Nat) : RSt :=
  if !inRegions regions e.2 then st
  else
    let a := adjacent st.current st.dev e.1 e.2
    if a.1 then { st with current := a.2 }
    else { st with rmap := st.rmap ++ [st.current], current := ⟨e.2, e.2 + 1, st.dev, e.1⟩ }

/-- put a region in its place -/
def insertSorted (r : Region) : List Region → List Region
  | [] => [r]
  | x :: l => if le r x then r :: x :: l else x :: insertSorted r l

/-- `sort_by`, `src/thin/rmap.rs:145`: the standard library's stable sort, here as an insertion sort (the result of a stable sort does not
depend on the algorithm) -/
def sort : List Region → List Region
  | [] => []
  | r :: l => insertSorted r (sort l)

/-- `complete`, `src/thin/rmap.rs:136-148` -/
def complete (st : RSt) : List Region :=
  sort (if st.current.fin > st.current.first then st.rmap ++ [st.current] else st.rmap)

/-- the loop over the devices, `src/thin/rmap.rs:225-230`.  The visitor never fails; the log of the walker is what it was shown, so the calls
during one walk are what that walk adds to it. -/
def walkDevs (mem : Nat → Option (Blk Val)) (nr : Nat) (regions : List (Nat × Nat)) : List (Nat × Nat) → WSt Val → RSt → Option RSt
  | [], _, st => some st
  | (dev, root) :: ds, w, st =>
    let r := BT.walk (fun b => decide (b < nr)) (fun _ b => mem b) (fun _ _ => true) (nr + 1) [] root w
    if r.2 = .ok then
      (Delta.shown (r.1.log.drop w.log.length)).bind fun es =>
        walkDevs mem nr regions ds r.1 (es.foldl (visit regions) { st with dev := dev % 2 ^ 32 })
    else none

/-- `rmap`, `src/thin/rmap.rs:205-240` -/
def rmap (mem : Nat → Option (Blk Val)) (nr mappingRoot : Nat) (regions : List (Nat × Nat)) : Option (List Region) := do
  let roots ← LW.btreeToMap (fun _ b => mem b) nr mappingRoot
  let devs ← Gather.collect (fun e : Nat × Val => (TDump.asRoot e.2).map fun r => (e.1, r)) roots
  let st ← walkDevs mem nr regions devs (WSt.fresh nr 1 true) RSt.init
  some (complete st)

end Verif.Rmap
