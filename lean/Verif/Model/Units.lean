/-!
# Storage sizes and ranges on the command line (`src/units.rs`, `src/commands/utils.rs`)

Strings are lists of characters; `u64` values are natural numbers below `2^64`.
-/

namespace Verif.Units

/-- `u64::MAX` -/
def u64Max : Nat := 2 ^ 64 - 1

/-- `src/units.rs:7-22` -/
inductive Unit' where
  | byte | sector | kilobyte | megabyte | gigabyte | terabyte | petabyte | exabyte
  | kibibyte | mebibyte | gibibyte | tebibyte | pebibyte | exbibyte
  deriving Repr, DecidableEq

/-- `src/units.rs:25-46` -/
def Unit'.sizeBytes : Unit' → Nat
  | .byte => 1
  | .sector => 512
  | .kibibyte => 1024
  | .mebibyte => 1048576
  | .gibibyte => 1073741824
  | .tebibyte => 1099511627776
  | .pebibyte => 1125899906842624
  | .exbibyte => 1152921504606846976
  | .kilobyte => 1000
  | .megabyte => 1000000
  | .gigabyte => 1000000000
  | .terabyte => 1000000000000
  | .petabyte => 1000000000000000
  | .exabyte => 1000000000000000000

/-- `src/units.rs:48-69` -/
def Unit'.short : Unit' → List Char
  | .byte => "b".toList
  | .sector => "s".toList
  | .kibibyte => "KiB".toList
  | .mebibyte => "MiB".toList
  | .gibibyte => "GiB".toList
  | .tebibyte => "Tib".toList
  | .pebibyte => "PiB".toList
  | .exbibyte => "EiB".toList
  | .kilobyte => "kB".toList
  | .megabyte => "MB".toList
  | .gigabyte => "GB".toList
  | .terabyte => "TB".toList
  | .petabyte => "PB".toList
  | .exabyte => "EB".toList

/-- `src/units.rs:71-95` -/
def Unit'.letter : Unit' → List Char
  | .byte => "b".toList
  | .sector => "s".toList
  | .kibibyte => "k".toList
  | .mebibyte => "m".toList
  | .gibibyte => "g".toList
  | .tebibyte => "t".toList
  | .pebibyte => "p".toList
  | .exbibyte => "e".toList
  | .kilobyte => "K".toList
  | .megabyte => "M".toList
  | .gigabyte => "G".toList
  | .terabyte => "T".toList
  | .petabyte => "P".toList
  | .exabyte => "E".toList

/-- `src/units.rs:123-148` (`Display`) -/
def Unit'.long : Unit' → List Char
  | .byte => "byte".toList
  | .sector => "sector".toList
  | .kibibyte => "kibibyte".toList
  | .mebibyte => "mebibyte".toList
  | .gibibyte => "gibibyte".toList
  | .tebibyte => "terabyte".toList
  | .pebibyte => "pebibyte".toList
  | .exbibyte => "exbibyte".toList
  | .kilobyte => "kilobyte".toList
  | .megabyte => "megabyte".toList
  | .gigabyte => "gigabyte".toList
  | .terabyte => "terabyte".toList
  | .petabyte => "petabyte".toList
  | .exabyte => "exabyte".toList

/-- `src/units.rs:97-121` (`FromStr for Units`) -/
def parseUnit (s : List Char) : Option Unit' :=
  if s = "byte".toList ∨ s = "b".toList then some .byte
  else if s = "sector".toList ∨ s = "s".toList then some .sector
  else if s = "kibibyte".toList ∨ s = "KiB".toList ∨ s = "k".toList then some .kibibyte
  else if s = "mebibyte".toList ∨ s = "MiB".toList ∨ s = "m".toList then some .mebibyte
  else if s = "gibibyte".toList ∨ s = "GiB".toList ∨ s = "g".toList then some .gibibyte
  else if s = "tebibyte".toList ∨ s = "TiB".toList ∨ s = "t".toList then some .tebibyte
  else if s = "pebibyte".toList ∨ s = "PiB".toList ∨ s = "p".toList then some .pebibyte
  else if s = "exbibyte".toList ∨ s = "EiB".toList ∨ s = "e".toList then some .exbibyte
  else if s = "kilobyte".toList ∨ s = "kB".toList ∨ s = "K".toList then some .kilobyte
  else if s = "megabyte".toList ∨ s = "MB".toList ∨ s = "M".toList then some .megabyte
  else if s = "gigabyte".toList ∨ s = "GB".toList ∨ s = "G".toList then some .gigabyte
  else if s = "terabyte".toList ∨ s = "TB".toList ∨ s = "T".toList then some .terabyte
  else if s = "petabyte".toList ∨ s = "PB".toList ∨ s = "P".toList then some .petabyte
  else if s = "exabyte".toList ∨ s = "EB".toList ∨ s = "E".toList then some .exabyte
  else none

/-- `char::is_ascii_digit` -/
def isDigit (c : Char) : Bool := 48 ≤ c.toNat && c.toNat ≤ 57

/-- The digit loop of Rust's `u64::from_str`: checked multiplication by ten and addition of the digit. -/
def parseDigits : Nat → List Char → Option Nat
  | acc, [] => some acc
  | acc, c :: cs =>
    if isDigit c then
      if acc * 10 > u64Max then none
      else if acc * 10 + (c.toNat - 48) > u64Max then none
      else parseDigits (acc * 10 + (c.toNat - 48)) cs
    else none

/-- `str::parse::<u64>`: not empty; one leading `+` is allowed if something follows it. -/
def parseU64 : List Char → Option Nat
  | [] => none
  | c :: cs => if c = '+' ∧ cs ≠ [] then parseDigits 0 cs else parseDigits 0 (c :: cs)

/-- decimal `Display` of a `u64` -/
def showNat (n : Nat) : List Char :=
  if n < 10 then [Char.ofNat (48 + n)] else showNat (n / 10) ++ [Char.ofNat (48 + n % 10)]
termination_by n
decreasing_by omega

/-- `src/units.rs:157-160` -/
structure StorageSize where
  multiple : Nat
  unit : Unit'
  deriving Repr, DecidableEq

/-- `src/units.rs:163-171` -/
def StorageSize.new (multiple : Nat) (unit : Unit') : Option StorageSize :=
  if multiple > u64Max / unit.sizeBytes then none else some ⟨multiple, unit⟩

/-- `src/units.rs:205-207`: `none` is an overflow of the multiplication -/
def StorageSize.sizeBytes (s : StorageSize) : Option Nat :=
  if s.multiple * s.unit.sizeBytes > u64Max then none else some (s.multiple * s.unit.sizeBytes)

/-- `src/units.rs:210-223` (`FromStr for StorageSize`); `span` is `find` of the first non digit -/
def parseSize (s : List Char) : Option StorageSize :=
  match s.dropWhile isDigit with
  | [] => (parseU64 s).bind fun m => StorageSize.new m .sector
  | c :: cs => (parseU64 (s.takeWhile isDigit)).bind fun m => (parseUnit (c :: cs)).bind fun u => StorageSize.new m u

/-- `src/units.rs:225-229` (`Display`) -/
def StorageSize.show (s : StorageSize) : List Char := showNat s.multiple ++ s.unit.short

/-- `UNITS` of `src/units.rs:239-241` -/
def prettyUnits : List Unit' := [.byte, .kibibyte, .mebibyte, .gibibyte, .tebibyte, .pebibyte, .exbibyte]

/-- `src/units.rs:237-259`.  `none` is the index out of range panic.  `63 - leading_zeros` is the base 2 logarithm.
Simplification: the floating point rounding of line 254 is integer rounding (half away from zero); the theorem
`pretty_exact_float` shows that its argument is below `2^20`, where the `f64` division by 1024 is exact. -/
def prettySize (bytes : Nat) : Option (Nat × Unit') :=
  let i := if bytes > 0 then Nat.log2 bytes / 10 - 1 else 0
  let m := bytes >>> (10 * i)
  let r := if m > 8192 then ((m + 512) / 1024, i + 1) else (m, i)
  (prettyUnits[r.2]?).map fun u => (r.1, u)

/-! ## Ranges (`src/commands/utils.rs`) -/

/-- `str::split("..")`: the parts between non overlapping occurrences, from the left -/
def splitDots : List Char → List Char → List (List Char)
  | cur, [] => [cur]
  | cur, [c] => [cur ++ [c]]
  | cur, c :: d :: cs => if c = '.' ∧ d = '.' then cur :: splitDots [] cs else splitDots (cur ++ [c]) (d :: cs)

/-- `src/commands/utils.rs:23-42` (`FromStr for RangeU64`) -/
def parseRange (s : List Char) : Option (Nat × Nat) :=
  match splitDots [] s with
  | [a, b] => (parseU64 a).bind fun x => (parseU64 b).bind fun y => if y ≤ x then none else some (x, y)
  | _ => none

end Verif.Units
