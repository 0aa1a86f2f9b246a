import Verif.Model.ArrayBuilder

/-!
# `era_restore`: writesets and the era array (`src/era/restore.rs`)

The restorer is the sequence of values it pushes into an `ArrayBuilder` (`Model/ArrayBuilder.lean`).  Block numbers are
natural numbers (`u32` in the code); a range has at least one block (`len - 1` is computed in line 203).
-/

namespace Verif.EraR

/-- `entry_index`, `writeset_entry` of `src/era/restore.rs:65-66`, and what has been pushed into the writeset's builder -/
structure RSt where
  ei : Nat
  buf : Nat
  pushes : List (Nat × Nat)
  deriving Repr, DecidableEq

/-- `u64::MAX` -/
def ALL : Nat := 2 ^ 64 - 1

/-- `u64::MAX << n` -/
def maskFrom (n : Nat) : Nat := (ALL <<< n) % 2 ^ 64

/-- `mask ^ mask.wrapping_sub(1)` for `mask = 1u64 << n`, `src/era/restore.rs:219-220,238-240` -/
def maskTo (n : Nat) : Nat := ((1 <<< n) % 2 ^ 64) ^^^ (((1 <<< n) % 2 ^ 64 + 2 ^ 64 - 1) % 2 ^ 64)

/-- push the buffered word -/
def RSt.push (s : RSt) : RSt := { s with pushes := s.pushes ++ [(s.ei, s.buf)] }

/-- the loop of `src/era/restore.rs:228-233`: `n = last_idx - idx` rounds -/
def loop : Nat → RSt → RSt
  | 0, s => s
  | n + 1, s => loop n { s.push with ei := s.ei + 1, buf := ALL }

/-- `writeset_blocks`, `src/era/restore.rs:204-243`, after the computation of `last` -/
def blocksTo (s : RSt) (first last : Nat) : RSt :=
  let idx := first >>> 6
  let lastIdx := last >>> 6
  let s := if idx > s.ei then { s.push with ei := idx, buf := 0 } else s
  let biFirst := first &&& 63
  if idx = lastIdx then
    { s with buf := s.buf ||| (maskTo (last &&& 63) &&& maskFrom biFirst) }
  else
    let s := { s with buf := s.buf ||| maskFrom biFirst }
    let s := loop (lastIdx - idx) s
    { s.push with ei := s.ei + 1, buf := s.buf ||| maskTo (last &&& 63) }

/-- `writeset_blocks`, `src/era/restore.rs:201-243`, for a range with a block, within 32 bits -/
def blocks (s : RSt) (r : Nat × Nat) : RSt := blocksTo s r.1 (r.1 + r.2 - 1)

/-- `writeset_blocks`, `src/era/restore.rs:201-243`, for any range: `last` is computed modulo 2^32 -/
def blocksW (s : RSt) (r : Nat × Nat) : RSt := blocksTo s r.1 ((r.1 + r.2 + (2 ^ 32 - 1)) % 2 ^ 32)

/-- `writeset_b`, `src/era/restore.rs:160-170`, the ranges, and the push of `writeset_e`, `src/era/restore.rs:180` -/
def pushesOf (rs : List (Nat × Nat)) : List (Nat × Nat) := (rs.foldl blocks ⟨0, 0, []⟩).push.pushes

/-- the whole writeset: an array of `div_up(nr_bits, 64)` words, `src/era/restore.rs:164,177-182` -/
def restoreWriteset (epb capL capI nrBits : Nat) (rs : List (Nat × Nat)) (s : Arr.ASt Nat) :
    Except Arr.AErr (Nat × Arr.ASt Nat) :=
  Arr.buildArray epb capL capI (Arr.divUp nrBits 64) (pushesOf rs) s

end Verif.EraR
