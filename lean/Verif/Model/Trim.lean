/-!
# `thin_trim` (`src/thin/trim.rs`)

A bitmap is the list of its entries, `true` for an entry other than `Small(0)` (a block in use).  `E` stands for
`ENTRIES_PER_BITMAP`.  Unpacking a bitmap block of 4096 bytes does not fail, so the error paths of the iterator
(lines 87-91, 111-115) are left out.
-/

namespace Verif.Trim

/-- `find_first_set` (`src/thin/trim.rs:45-54`, `want = true`) and `find_first_unset` (`src/thin/trim.rs:56-65`,
`want = false`) -/
def findFirst (want : Bool) : List Bool → Nat
  | [] => 0
  | e :: es => if e = want then 0 else findFirst want es + 1

/-- `src/thin/trim.rs:20-26` without the constant fields -/
structure It where
  ie : Nat
  bitmap : List Bool
  cur : Nat
  deriving Repr, DecidableEq

/-- the loops of lines 76-99 (`want = true`) and 103-124 (`want = false`) of `src/thin/trim.rs`; the first argument bounds
the number of rounds; `none`: out of range or no end -/
def skip (E nr : Nat) (bitmaps : List (List Bool)) (want : Bool) : Nat → It → Option It
  | 0, _ => none
  | fuel + 1, it =>
    let n := findFirst want (it.bitmap.drop (it.cur % E))
    let cur := min (it.cur + n) nr
    if cur = nr then some { it with cur := cur }
    else
      let ie := cur / E
      if ie ≠ it.ie then
        match bitmaps[ie]? with
        | none => none
        | some bm => skip E nr bitmaps want fuel ⟨ie, bm, cur⟩
      else some { it with cur := cur }

/-- `src/thin/trim.rs:70-127` (`next`): the outer option is a panic, the inner the end of the iteration -/
def next (E nr : Nat) (bitmaps : List (List Bool)) (it : It) : Option (It × Option (Nat × Nat)) :=
  if nr ≤ it.cur then some (it, none)
  else
    match skip E nr bitmaps true (bitmaps.length + 1) it with
    | none => none
    | some it =>
      if it.cur = nr then some (it, none)
      else
        match skip E nr bitmaps false (bitmaps.length + 1) it with
        | none => none
        | some it' => some (it', some (it.cur, it'.cur))

/-- the loop of `src/thin/trim.rs:183-200` and lines 202-205: the discards, as offset and length in bytes.  The first
argument bounds the number of rounds. -/
def loop (E nr bs : Nat) (bitmaps : List (List Bool)) : Nat → Nat → It → Option (List (Nat × Nat))
  | 0, _, _ => none
  | fuel + 1, last, it =>
    match next E nr bitmaps it with
    | none => none
    | some (_, none) => some (if nr > last then [(last * bs, (nr - last) * bs)] else [])
    | some (it, some (s, e)) =>
      (loop E nr bs bitmaps fuel e it).map fun l => (if s > last then [(last * bs, (s - last) * bs)] else []) ++ l

/-- `src/thin/trim.rs:168-208` after the bitmaps have been read, with `RangeIterator::new` (lines 29-42).  `some none` is an
error; otherwise the discards of a run in which every discard works. -/
def trim (E nr bs : Nat) (bitmaps : List (List Bool)) : Option (Option (List (Nat × Nat))) :=
  match bitmaps with
  | [] => some none
  | bm :: _ =>
    if nr > bitmaps.length * E then some none
    else (loop E nr bs bitmaps (nr + 1) 0 ⟨0, bm, 0⟩).map some

end Verif.Trim
