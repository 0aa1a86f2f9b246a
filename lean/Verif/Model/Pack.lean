import Verif.Model.Node

/-!
# Packing of metadata (`src/pack/delta_list.rs`, `src/pack/vm.rs`, `src/pack/node_encode.rs`)

Byte streams are lists; a writer appends.  `none` is a panic (a failed `assert!`) or an error return (end of input).
Numbers are `u64` values as naturals below `2^64`, with the wrap around of the code written out.
-/

namespace Verif.Pack

/-- `src/pack/delta_list.rs:3-9` -/
inductive Delta where
  | base (n : Nat)
  | const (count : Nat)
  | pos (delta count : Nat)
  | neg (delta count : Nat)
  deriving Repr, DecidableEq

/-- the inner `while` loops of `src/pack/delta_list.rs:27-33,38-42,47-54`: how many numbers continue the run (`count` as it
ends up after the decrement), and what follows; `p` is the loop condition, given `count` and the number -/
def takeRun (p : Nat → Nat → Bool) : Nat → List Nat → Nat × List Nat
  | _, [] => (0, [])
  | count, n :: ns =>
    if p count n then
      let r := takeRun p (count + 1) ns
      (r.1 + 1, r.2)
    else (0, n :: ns)

/-- `wrapping_add` -/
def wadd (a b : Nat) : Nat := (a + b) % 2 ^ 64

/-- `wrapping_mul` -/
def wmul (a b : Nat) : Nat := (a * b) % 2 ^ 64

/-- `wrapping_sub` of `u64` values -/
def wsub (a b : Nat) : Nat := (a + (2 ^ 64 - b)) % 2 ^ 64

/-- the outer loop, `src/pack/delta_list.rs:22-60`; the first argument bounds the number of rounds -/
def toDeltaFrom : Nat → Nat → List Nat → Option (List Delta)
  | _, _, [] => some []
  | 0, _, _ :: _ => none
  | fuel + 1, base, n :: ns =>
    if n < base then
      let delta := base - n
      let r := takeRun (fun count m => wadd m (wmul count delta) == base) 1 (n :: ns)
      (toDeltaFrom fuel (wsub base (wmul delta r.1)) r.2).map (Delta.neg delta r.1 :: ·)
    else if n = base then
      let r := takeRun (fun _ m => m == base) 1 (n :: ns)
      (toDeltaFrom fuel base r.2).map (Delta.const r.1 :: ·)
    else
      let delta := n - base
      let r := takeRun (fun count m => m == wadd base (wmul count delta)) 1 (n :: ns)
      (toDeltaFrom fuel (wadd base (wmul delta r.1)) r.2).map (Delta.pos delta r.1 :: ·)

/-- `to_delta`, `src/pack/delta_list.rs:13-64`; `none` would be a loop that does not end -/
def toDelta : List Nat → Option (List Delta)
  | [] => some []
  | n :: ns => (toDeltaFrom ns.length n ns).map (Delta.base n :: ·)

/-- `pack_tag`, `src/pack/vm.rs:38-44`; the tags are numbered in the order of the enum, `src/pack/vm.rs:15-35` -/
def packTag (tag nibble : Nat) : Option Bytes := if nibble < 16 then some [UInt8.ofNat (tag * 16 + nibble)] else none

/-- a tag whose nibble is the width of the operand, then the operand with the smallest of the widths 1, 2, 4 and 8:
`src/pack/vm.rs:68-82` (`Set`), `83-100` (`PosW`), `101-119` (`NegW`), `178-189` (`LitW`) -/
def packW (tag n : Nat) : Option Bytes :=
  if n ≤ 255 then (packTag tag 1).map (· ++ leBytes 1 n)
  else if n ≤ 65535 then (packTag tag 2).map (· ++ leBytes 2 n)
  else if n ≤ 4294967295 then (packTag tag 4).map (· ++ leBytes 4 n)
  else (packTag tag 8).map (· ++ leBytes 8 n)

/-- a count below 4096: in the nibble of tag `t` if below 16, otherwise its upper bits in the nibble of tag `t8` and the
lower ones in a byte: `src/pack/vm.rs:50-61,120-130` -/
def packCnt (t t8 count : Nat) : Option Bytes :=
  if count < 16 then packTag t count
  else if count < 4096 then (packTag t8 (count / 256)).map (· ++ leBytes 1 (count % 256))
  else none

/-- `pack_count`, `src/pack/vm.rs:46-62` -/
def packCount (count : Nat) : Option Bytes := if count = 1 then some [] else packCnt 7 8 count

/-- `pack_delta`, `src/pack/vm.rs:64-132` -/
def packDelta : Delta → Option Bytes
  | .base n => packW 0 n
  | .pos delta count => do
    let c ← packCount count
    let d ← (if delta < 16 then packTag 1 delta else packW 2 delta)
    some (c ++ d)
  | .neg delta count => do
    let c ← packCount count
    let d ← (if delta < 16 then packTag 3 delta else packW 4 delta)
    some (c ++ d)
  | .const count => packCnt 5 6 count

/-- `pack_deltas`, `src/pack/vm.rs:134-139` -/
def packDeltas : List Delta → Option Bytes
  | [] => some []
  | d :: ds => do
    let a ← packDelta d
    let b ← packDeltas ds
    some (a ++ b)

/-- `pack_u64s`, `src/pack/vm.rs:143-146` -/
def packU64s (ns : List Nat) : Option Bytes := do
  let ds ← toDelta ns
  packDeltas ds

/-- `pack_shifted_u64s` with `unshift_nrs`, `src/pack/vm.rs:148-170` -/
def packShifted (ns : List Nat) : Option Bytes := do
  let t ← packTag 11 (ns.length / 256)
  let h ← packU64s (ns.map (· >>> 24))
  let l ← packU64s (ns.map (· &&& (2 ^ 24 - 1)))
  some (t ++ leBytes 1 (ns.length % 256) ++ h ++ l)

/-- `pack_literal`, `src/pack/vm.rs:172-192` -/
def packLiteral (bs : Bytes) : Option Bytes := do
  let t ← (if bs.length < 16 then packTag 9 bs.length else packW 10 bs.length)
  some (t ++ bs)

/-! ### The virtual machine -/

/-- `VM`, `src/pack/vm.rs:218-221`, with what is left of the input and what has been output -/
structure St where
  base : Nat
  written : Nat
  inp : Bytes
  out : Bytes
  deriving Repr, DecidableEq

/-- `emit_u64`, `src/pack/vm.rs:231-235` -/
def St.emit (s : St) (n : Nat) : St := { s with written := s.written + 8, out := s.out ++ w64 n }

/-- the loops `for _ in 0..count` that change the base by `f` and emit it, `src/pack/vm.rs:266-310` -/
def St.repeat (f : Nat → Nat) : Nat → St → St
  | 0, s => s
  | n + 1, s => St.repeat f n (({ s with base := f s.base } : St).emit (f s.base))

/-- `unpack_with_width`, `src/pack/vm.rs:196-207` -/
def readW (nibble : Nat) (s : St) : Option (Nat × St) :=
  if nibble = 1 ∨ nibble = 2 ∨ nibble = 4 ∨ nibble = 8 then
    match leU nibble s.inp with
    | none => none
    | some (v, r) => some (v, { s with inp := r })
  else none

/-- `r.read_exact` of `len` bytes and `emit_bytes`, `src/pack/vm.rs:241-246,318-331` -/
def St.lit (s : St) (len : Nat) : Option St :=
  match takeB len s.inp with
  | none => none
  | some (b, r) => some { s with inp := r, written := s.written + len, out := s.out ++ b }

/-- the loop of `src/pack/vm.rs:350-352` -/
def St.emitShifted : List Nat → List Nat → St → St
  | h :: hs, l :: ls, s => emitShifted hs ls (s.emit ((h <<< 24) % 2 ^ 64 ||| (l &&& (2 ^ 24 - 1))))
  | _, _, s => s

mutual
/-- `VM::unpack_instr`, `src/pack/vm.rs:248-356` -/
def instr (s : St) (count : Nat) : Option St :=
  match s.inp with
  | [] => none
  | b :: rest =>
    let nibble := b.toNat % 16
    let s := { s with inp := rest }
    match b.toNat / 16 with
    | 0 => -- Set
      match readW nibble s with
      | none => none
      | some (v, s) => some (St.repeat id count { s with base := v })
    | 1 => some (St.repeat (wadd · nibble) count s)
    | 2 =>
      match readW nibble s with
      | none => none
      | some (d, s) => some (St.repeat (wadd · d) count s)
    | 3 => some (St.repeat (wsub · nibble) count s)
    | 4 =>
      match readW nibble s with
      | none => none
      | some (d, s) => some (St.repeat (wsub · d) count s)
    | 5 => if count = 1 then some (St.repeat id nibble s) else none
    | 6 =>
      if count = 1 then
        match leU 1 s.inp with
        | none => none
        | some (v, r) => some (St.repeat id (nibble * 256 + v) { s with inp := r })
      else none
    | 7 => instr s nibble
    | 8 =>
      match leU 1 s.inp with
      | none => none
      | some (v, r) => instr { s with inp := r } (nibble * 256 + v)
    | 9 => if count = 1 then s.lit nibble else none
    | 10 =>
      if count = 1 then
        match readW nibble s with
        | none => none
        | some (len, s) => s.lit len
      else none
    | 11 =>
      match leU 1 s.inp with
      | none => none
      | some (v, r) =>
        let len := nibble * 256 + v
        exec { s with inp := r, out := [] } s.written (len * 8) >>= fun s1 =>
          match countP leU64 len s1.out with
          | none => none
          | some (high, _) =>
            exec { s1 with written := s.written, out := [] } s.written (len * 8) >>= fun s2 =>
              match countP leU64 len s2.out with
              | none => none
              | some (low, _) =>
                some (St.emitShifted high low { s2 with written := s.written, out := s.out })
    | _ => none
partial_fixpoint

/-- `VM::exec`, `src/pack/vm.rs:359-370`, started when `bytes_written` was `begin'` -/
def exec (s : St) (begin' emitBytes : Nat) : Option St :=
  if s.written - begin' < emitBytes then
    instr s 1 >>= fun s => exec s begin' emitBytes
  else some s
partial_fixpoint
end

/-- `unpack`, `src/pack/vm.rs:379-389`: the bytes and the rest of the input -/
def unpack (inp : Bytes) (count : Nat) : Option (Bytes × Bytes) :=
  match exec ⟨0, 0, inp, []⟩ 0 count with
  | none => none
  | some s => if s.out.length = count ∧ s.written = count then some (s.out, s.inp) else none

/-! ### Nodes -/

/-- `summarise_node`, `src/pack/node_encode.rs:39-58`: whether it is a leaf, `max_entries` and `value_size` -/
def summarise (data : Bytes) : Option (Bool × Nat × Nat) := do
  let (_csum, i) ← leU32 data
  let (flags, i) ← leU32 i
  let (_blocknr, i) ← leU64 i
  let (_nr_entries, i) ← leU32 i
  let (max_entries, i) ← leU32 i
  let (value_size, i) ← leU32 i
  let (_padding, _i) ← leU32 i
  some (flags == 2, max_entries, value_size)

/-- `pack_btree_node`, `src/pack/node_encode.rs:60-99` -/
def packNode (data : Bytes) : Option Bytes := do
  let (isLeaf, maxEntries, valueSize) ← summarise data
  let (hdr, i) ← takeB 32 data
  let (keys, i) ← countP leU64 maxEntries i
  if isLeaf then
    if valueSize = 8 then
      let (values, tail) ← countP leU64 maxEntries i
      let a ← packLiteral hdr
      let b ← packU64s keys
      let c ← packShifted values
      let d ← (if tail = [] then some [] else packLiteral tail)
      some (a ++ b ++ c ++ d)
    else
      let a ← packLiteral hdr
      let b ← packU64s keys
      let c ← packLiteral i
      some (a ++ b ++ c)
  else
    let (values, tail) ← countP leU64 maxEntries i
    let a ← packLiteral hdr
    let b ← packU64s keys
    let c ← packU64s values
    let d ← (if tail = [] then some [] else packLiteral tail)
    some (a ++ b ++ c ++ d)

end Verif.Pack
