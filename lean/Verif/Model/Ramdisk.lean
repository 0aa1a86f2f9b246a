/-!
# The disk in memory with injected errors (`src/io_engine/ramdisk.rs`)

The engines and copiers are tested on it.  Offsets are natural numbers here; the code cuts them to 32 bits, which changes nothing for the sizes it can be created with (`u32`)
less a page.  Locks, and handles shared by `try_clone`, are not modelled.
-/

namespace Verif.Ram

/-- the bytes, and the pages that fail, `src/io_engine/ramdisk.rs:17-20` -/
structure Disk (β : Type) where
  data : List β
  bad : List Nat

/-- how an operation ends; `crash` is a slice out of bounds -/
inductive Res (α : Type) where
  | ok (a : α)
  | err
  | crash
  deriving DecidableEq, Repr

variable {β : Type}

/-- the pages of the bytes `s..e`, `src/io_engine/ramdisk.rs:40-41,50-51`; `PAGE_SHIFT` is 12 -/
def pages (s e : Nat) : List Nat := List.range' (s >>> 12) ((e + 4095) / 4096 - s >>> 12)

/-- `invalidate`, `src/io_engine/ramdisk.rs:39-47` -/
def Disk.invalidate (d : Disk β) (s e : Nat) : Disk β := { d with bad := d.bad ++ pages s e }

/-- `is_valid_range`, `src/io_engine/ramdisk.rs:49-59` -/
def Disk.valid (d : Disk β) (s e : Nat) : Bool := (pages s e).all fun p => !d.bad.contains p

/-- `read_at`, `src/io_engine/ramdisk.rs:118-129` -/
def Disk.readAt (d : Disk β) (off len : Nat) : Res (List β) :=
  if d.valid off (off + len) then (if off + len ≤ d.data.length then .ok ((d.data.drop off).take len) else .crash) else .err

/-- the bytes from `off` on are replaced -/
def splice (data buf : List β) (off : Nat) : List β := data.take off ++ buf ++ data.drop (off + buf.length)

/-- `write_at`, `src/io_engine/ramdisk.rs:131-142` -/
def Disk.writeAt (d : Disk β) (off : Nat) (buf : List β) : Disk β × Res Nat :=
  if d.valid off (off + buf.length) then
    (if off + buf.length ≤ d.data.length then ({ d with data := splice d.data buf off }, .ok buf.length) else (d, .crash))
  else (d, .err)

/-- the loop of `write_vectored_at`, `src/io_engine/ramdisk.rs:90-113`; `n` bytes are written so far.  (The pages of a buffer are looked at when its turn comes.) -/
def Disk.writeV (d : Disk β) : List (List β) → Nat → Nat → Disk β × Res Nat
  | [], _, n => (d, .ok n)
  | b :: bs, pos, n =>
    if b.length % 4096 ≠ 0 then (d, .err)
    else
      match d.writeAt pos b with
      | (d', .ok _) => d'.writeV bs (pos + b.length) (n + b.length)
      | (d', .err) => (d', .err)
      | (d', .crash) => (d', .crash)

/-- the loop of `read_vectored_at`, `src/io_engine/ramdisk.rs:64-88`, for buffers of the lengths given -/
def Disk.readV (d : Disk β) : List Nat → Nat → Res (List (List β))
  | [], _ => .ok []
  | l :: ls, pos =>
    if l % 4096 ≠ 0 then .err
    else
      match d.readAt pos l with
      | .ok b =>
        match d.readV ls (pos + l) with
        | .ok bs => .ok (b :: bs)
        | .err => .err
        | .crash => .crash
      | .err => .err
      | .crash => .crash

end Verif.Ram
