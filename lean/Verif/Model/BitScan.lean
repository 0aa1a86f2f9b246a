/-!
# Marked ranges of a bitset (`src/era/dump.rs`, `src/era/invalidate.rs`)

`dump_writeset` works on 32-bit words and `emit_blocks` on 64-bit words; apart from that they are the same code, modelled
once with the word size `W` as a parameter.  Positions are natural numbers: the `u32` sums of the code overflow only for
bitsets with more than `2^32 - 64` bits.
-/

namespace Verif.Scan

/-- `trailing_zeros` of a word of at most `W` bits -/
def tz : Nat → Nat → Nat
  | 0, _ => 0
  | w + 1, n => if n % 2 = 1 then 0 else tz w (n / 2) + 1

/-- `trailing_ones` of a word of at most `W` bits -/
def t1 : Nat → Nat → Nat
  | 0, _ => 0
  | w + 1, n => if n % 2 = 1 then t1 w (n / 2) + 1 else 0

/-- `begin`, `end` and the ranges emitted so far -/
structure St where
  b : Nat
  e : Nat
  out : List (Nat × Nat)
  deriving Repr, DecidableEq

/-- `src/era/dump.rs:254-260` and the other places that emit `[begin, end)` if it is not empty -/
def St.emit (s : St) : St := if s.e > s.b then { s with out := s.out ++ [(s.b, s.e - s.b)] } else s

/-- the zeros part of the inner loop, `src/era/dump.rs:252-264` -/
def St.zeros (s : St) (z : Nat) : St :=
  if z > 0 then { s.emit with e := s.emit.e + z, b := s.emit.e + z } else s

/-- `src/era/dump.rs:266-268` -/
def St.ones (s : St) (o nr : Nat) : St := { s with e := min (s.e + o) nr }

/-- the inner loop, `src/era/dump.rs:251-269`, `src/era/invalidate.rs:193-207`; the second argument bounds the number of
rounds -/
def inner (W nr : Nat) : Nat → Nat → St → Option St
  | fuel, n, s =>
    if n = 0 then some s
    else
      match fuel with
      | 0 => none
      | fuel + 1 =>
        let z := tz W n
        let n1 := n >>> z
        let o := t1 W n1
        inner W nr fuel (n1 >>> o) ((s.zeros z).ones o nr)

/-- one word, `src/era/dump.rs:243-284`, `src/era/invalidate.rs:185-217` -/
def word (W nr index n : Nat) (s : St) : Option St :=
  if n = 2 ^ W - 1 then some (s.ones W nr)
  else
    match inner W nr W n s with
    | none => none
    | some s =>
      let endpos := index * W + W
      if s.e < endpos then some { s.emit with b := endpos, e := endpos } else some s

/-- all words, then the last range, `src/era/dump.rs:240-292`, `src/era/invalidate.rs:180-221` -/
def scan (W nr : Nat) : Nat → List Nat → St → Option (List (Nat × Nat))
  | _, [], s => some s.emit.out
  | index, n :: ns, s =>
    match word W nr index n s with
    | none => none
    | some s => scan W nr (index + 1) ns s

/-- `dump_writeset` with `W = 32` (`src/era/dump.rs:225-297`), `emit_blocks` with `W = 64` (`src/era/invalidate.rs:179-226`);
`none` would be a loop that does not end -/
def markedRanges (W nr : Nat) (words : List Nat) : Option (List (Nat × Nat)) := scan W nr 0 words ⟨0, 0, []⟩

end Verif.Scan
