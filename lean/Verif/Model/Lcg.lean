import Verif.Model.Bytes

/-!
# The generator of test patterns (`src/random.rs`)
-/

namespace Verif.Lcg

/-- `step`, `src/random.rs:24-26`, with the constants of `src/random.rs:16-22` -/
def step (x : Nat) : Nat := (6364136223846793005 * x % 2 ^ 64 + 1442695040888963407) % 2 ^ 64

/-- `fill_buffer`, `src/random.rs:28-41`: the bytes written, for a buffer of `n` words -/
def fillWords : Nat → Nat → Bytes
  | 0, _ => []
  | n + 1, x => w64 x ++ fillWords n (step x)

/-- `fill_buffer` for a buffer of `len` bytes; `none` is the panic of `src/random.rs:31` -/
def fill (seed len : Nat) : Option Bytes := if len % 8 = 0 then some (fillWords (len / 8) seed) else none

/-- the loop of `verify_buffer`, `src/random.rs:50-57`; `none` is an error of the reader, which does not happen -/
def verifyWords : Nat → Nat → Bytes → Option Bool
  | 0, _, _ => some true
  | n + 1, x, i =>
    match leU64 i with
    | none => none
    | some (w, i) => if w ≠ x then some false else verifyWords n (step x) i

/-- `verify_buffer`, `src/random.rs:43-60` -/
def verify (seed : Nat) (bytes : Bytes) : Option Bool :=
  if bytes.length % 8 = 0 then verifyWords (bytes.length / 8) seed bytes else none

end Verif.Lcg
