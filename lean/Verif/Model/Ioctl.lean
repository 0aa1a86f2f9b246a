/-!
# Request codes of ioctls (`src/ioctl.rs`)
-/

namespace Verif.Ioctl

/-- the constants that depend on the architecture, `src/ioctl.rs:14-42` -/
structure Arch where
  none : Nat
  read : Nat
  write : Nat
  dirBits : Nat
  sizeBits : Nat

/-- mips, powerpc and sparc, `src/ioctl.rs:14-29` -/
def special : Arch := ⟨1, 2, 4, 3, 13⟩

/-- all others, `src/ioctl.rs:31-46` -/
def generic : Arch := ⟨0, 2, 1, 2, 14⟩

/-- `ioc!`, `src/ioctl.rs:63-71`, with the masks and shifts of `src/ioctl.rs:48-61`: the bits of the code.  (With musl the type is a signed one of 32 bits; the bits are the same.) -/
def ioc (A : Arch) (dir typ nr size : Nat) : Nat :=
  ((dir &&& (1 <<< A.dirBits - 1)) <<< (0 + 8 + 8 + A.sizeBits)) ||| ((typ &&& (1 <<< 8 - 1)) <<< (0 + 8)) ||| ((nr &&& (1 <<< 8 - 1)) <<< 0) |||
    ((size &&& (1 <<< A.sizeBits - 1)) <<< (0 + 8 + 8))

/-- `request_code_none!`, `request_code_read!`, `request_code_write!`, `request_code_readwrite!`, `src/ioctl.rs:75-106`; `size` is that of the type -/
def codeNone (A : Arch) (typ nr : Nat) : Nat := ioc A A.none typ nr 0
def codeRead (A : Arch) (typ nr size : Nat) : Nat := ioc A A.read typ nr size
def codeWrite (A : Arch) (typ nr size : Nat) : Nat := ioc A A.write typ nr size
def codeReadWrite (A : Arch) (typ nr size : Nat) : Nat := ioc A (A.read ||| A.write) typ nr size

/-- `BLKDISCARD`, `src/thin/trim.rs:136` -/
def blkDiscard (A : Arch) : Nat := codeNone A 0x12 119

/-- `BLKGETSIZE64`, `src/file_utils.rs:46`; `word` is the size of a `usize` -/
def blkGetSize64 (A : Arch) (word : Nat) : Nat := codeRead A 0x12 114 word

end Verif.Ioctl
