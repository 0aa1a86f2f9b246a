import Verif.Model.Pack

/-!
# Node paths (`src/pdata/btree_error.rs:220-290`)

The tools print the path to a damaged node as text, to be handed to another tool.  `BASE64` of the crate `data_encoding` is modelled as documented (RFC 4648, padded, no stray
bits, one group of four symbols after the other).
-/

namespace Verif.NPath

open Verif.Pack

/-- the alphabet -/
def alphabet : List Char := ['A', 'B', 'C', 'D', 'E', 'F', 'G', 'H', 'I', 'J', 'K', 'L', 'M', 'N', 'O', 'P', 'Q', 'R', 'S', 'T', 'U', 'V', 'W', 'X', 'Y', 'Z', 'a', 'b', 'c', 'd', 'e', 'f', 'g', 'h', 'i', 'j', 'k', 'l', 'm', 'n', 'o', 'p', 'q', 'r', 's', 't', 'u', 'v', 'w', 'x', 'y', 'z', '0', '1', '2', '3', '4', '5', '6', '7', '8', '9', '+', '/']

/-- the symbol of a number below 64 -/
def sym (n : Nat) : Char := alphabet.getD n '='

/-- the number of a symbol -/
def val (c : Char) : Option Nat := let n := alphabet.idxOf c; if n < 64 then some n else none

/-- `BASE64.encode` -/
def encode64 : Bytes → List Char
  | [] => []
  | [a] => [sym (a.toNat / 4), sym (a.toNat % 4 * 16), '=', '=']
  | [a, b] => [sym (a.toNat / 4), sym (a.toNat % 4 * 16 + b.toNat / 16), sym (b.toNat % 16 * 4), '=']
  | a :: b :: c :: r => sym (a.toNat / 4) :: sym (a.toNat % 4 * 16 + b.toNat / 16) :: sym (b.toNat % 16 * 4 + c.toNat / 64) :: sym (c.toNat % 64) :: encode64 r

/-- one group of four symbols -/
def group (x y z w : Char) : Option Bytes :=
  match val x, val y with
  | some x, some y =>
    if z = '=' ∧ w = '=' then (if y % 16 = 0 then some [UInt8.ofNat (x * 4 + y / 16)] else none)
    else
      match val z with
      | none => none
      | some z =>
        if w = '=' then (if z % 4 = 0 then some [UInt8.ofNat (x * 4 + y / 16), UInt8.ofNat (y % 16 * 16 + z / 4)] else none)
        else
          match val w with
          | none => none
          | some w => some [UInt8.ofNat (x * 4 + y / 16), UInt8.ofNat (y % 16 * 16 + z / 4), UInt8.ofNat (z % 4 * 64 + w)]
  | _, _ => none

/-- `BASE64.decode_mut`: the decoded bytes -/
def decode64 : List Char → Option Bytes
  | [] => some []
  | x :: y :: z :: w :: r =>
    match group x y z w, decode64 r with
    | some a, some b => some (a ++ b)
    | _, _ => none
  | _ => none

/-- the bytes that `encode_node_path` encodes, `src/pdata/btree_error.rs:222-242`; `none` is a failed assertion.  The count is a byte and wraps. -/
def pathBytes (path : List Nat) : Option Bytes :=
  if path.length < 256 then
    match path with
    | 0 :: r => (packU64s r).map fun b => UInt8.ofNat ((path.length - 1) * 2 % 256) :: b
    | _ => (packU64s path).map fun b => UInt8.ofNat (path.length * 2 % 256 + 1) :: b
  else none

/-- `encode_node_path`, `src/pdata/btree_error.rs:222-242` -/
def encodePath (path : List Nat) : Option (List Char) := (pathBytes path).map encode64

/-- how `decode_node_path` ends -/
inductive Dec where
  | ok (path : List Nat)
  | err
  | panic
  deriving DecidableEq, Repr

/-- the numbers of a path with `count` of them, `src/pdata/btree_error.rs:261-275`; an assertion on the VM's output counts as an error here -/
def pathNumbers (count : Nat) (inp : Bytes) : Option (List Nat) :=
  if count = 0 then some []
  else
    match unpack inp (8 * count) with
    | none => none
    | some (out, _) => (countP leU64 count out).map (·.1)

/-- `decode_node_path`, `src/pdata/btree_error.rs:244-284`: the buffer has 128 bytes; `junk` is what it holds behind the decoded bytes -/
def decodePath (junk : Bytes) (text : List Char) : Dec :=
  if text.length % 4 ≠ 0 then .panic
  else if text.length / 4 * 3 > 128 then .panic
  else
    match decode64 text with
    | none => .err
    | some bytes =>
      match (bytes ++ junk).take (text.length / 4 * 3) with
      | [] => .err
      | c :: inp =>
        match pathNumbers (c.toNat / 2) inp with
        | none => .err
        | some path => .ok (if c.toNat % 2 = 0 then 0 :: path else path)

end Verif.NPath
