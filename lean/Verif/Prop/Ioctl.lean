import Verif.Model.Ioctl

/-!
# C90: request codes of ioctls

The kernel cuts a request code of 32 bits into the number (8 bits), the type (8), the size (14 or 13) and the direction (2 or 3); it gets what the code was made of.
-/

namespace Verif.Ioctl

/-- what the kernel reads in a request code (`_IOC_NR`, `_IOC_TYPE`, `_IOC_SIZE`, `_IOC_DIR` of `include/uapi/asm-generic/ioctl.h`), for `s` bits of size -/
def fields (s code : Nat) : Nat × Nat × Nat × Nat := (code % 2 ^ 8, code / 2 ^ 8 % 2 ^ 8, code / 2 ^ 16 % 2 ^ s, code / 2 ^ (16 + s))

/-- the two kinds of architectures -/
def Known (A : Arch) : Prop := A = special ∨ A = generic

theorem ioc_eq (A : Arch) (dir typ nr size : Nat) :
    ioc A dir typ nr size = nr % 2 ^ 8 + 2 ^ 8 * (typ % 2 ^ 8 + 2 ^ 8 * (size % 2 ^ A.sizeBits + 2 ^ A.sizeBits * (dir % 2 ^ A.dirBits))) := by
  unfold ioc
  have m : ∀ x k, x &&& (1 <<< k - 1) = x % 2 ^ k := fun x k => by rw [Nat.one_shiftLeft, Nat.and_two_pow_sub_one_eq_mod]
  rw [m, m, m, m]
  have ht : typ % 2 ^ 8 < 2 ^ 8 := Nat.mod_lt _ (by decide)
  have hn : nr % 2 ^ 8 < 2 ^ 8 := Nat.mod_lt _ (by decide)
  have hs : size % 2 ^ A.sizeBits < 2 ^ A.sizeBits := Nat.mod_lt _ (Nat.two_pow_pos _)
  generalize dir % 2 ^ A.dirBits = D
  generalize typ % 2 ^ 8 = T at ht
  generalize nr % 2 ^ 8 = N at hn
  generalize size % 2 ^ A.sizeBits = S at hs
  generalize A.sizeBits = s at hs
  have e1 : T * 2 ^ 8 ||| N = 2 ^ 8 * T + N := by rw [Nat.mul_comm, Nat.two_pow_add_eq_or_of_lt hn]
  have e2 : S * 2 ^ 16 ||| (2 ^ 8 * T + N) = 2 ^ 16 * S + (2 ^ 8 * T + N) := by
    rw [Nat.mul_comm, Nat.two_pow_add_eq_or_of_lt (i := 16) (show 2 ^ 8 * T + N < 2 ^ 16 by omega)]
  have e3 : D * 2 ^ (16 + s) ||| (2 ^ 16 * S + (2 ^ 8 * T + N)) = 2 ^ (16 + s) * D + (2 ^ 16 * S + (2 ^ 8 * T + N)) := by
    have hlt : 2 ^ 16 * S + (2 ^ 8 * T + N) < 2 ^ (16 + s) := by
      rw [Nat.pow_add]
      have : 2 ^ 16 * (S + 1) ≤ 2 ^ 16 * 2 ^ s := Nat.mul_le_mul_left _ hs
      omega
    rw [Nat.mul_comm D, Nat.two_pow_add_eq_or_of_lt (i := 16 + s) hlt]
  simp only [Nat.shiftLeft_eq, Nat.zero_add, Nat.pow_zero, Nat.mul_one]
  rw [Nat.or_assoc, Nat.or_assoc, Nat.or_comm N, ← Nat.or_assoc (T * 2 ^ 8), Nat.or_comm (T * 2 ^ 8), Nat.or_assoc (S * _), e1, e2, e3, Nat.pow_add, Nat.mul_assoc]
  generalize 2 ^ s * D = X
  omega

/-- **C90**: the kernel reads in a code what it was made of, on both kinds of architectures, and the code has 32 bits. -/
theorem ioc_fields {A : Arch} (hA : Known A) {dir typ nr size : Nat} (hd : dir < 2 ^ A.dirBits) (ht : typ < 2 ^ 8) (hn : nr < 2 ^ 8) (hs : size < 2 ^ A.sizeBits) :
    fields A.sizeBits (ioc A dir typ nr size) = (nr, typ, size, dir) ∧ ioc A dir typ nr size < 2 ^ 32 := by
  rw [ioc_eq, Nat.mod_eq_of_lt hd, Nat.mod_eq_of_lt ht, Nat.mod_eq_of_lt hn, Nat.mod_eq_of_lt hs]
  unfold fields
  rcases hA with rfl | rfl
  · simp only [special] at *
    simp only [Prod.mk.injEq]
    omega
  · simp only [generic] at *
    simp only [Prod.mk.injEq]
    omega

/-- **C90**: two requests with the same code are the same request. -/
theorem ioc_inj {A : Arch} (hA : Known A) {dir typ nr size dir' typ' nr' size' : Nat} (hd : dir < 2 ^ A.dirBits) (ht : typ < 2 ^ 8) (hn : nr < 2 ^ 8)
    (hs : size < 2 ^ A.sizeBits) (hd' : dir' < 2 ^ A.dirBits) (ht' : typ' < 2 ^ 8) (hn' : nr' < 2 ^ 8) (hs' : size' < 2 ^ A.sizeBits)
    (h : ioc A dir typ nr size = ioc A dir' typ' nr' size') : dir = dir' ∧ typ = typ' ∧ nr = nr' ∧ size = size' := by
  have h1 := (ioc_fields hA hd ht hn hs).1
  rw [h, (ioc_fields hA hd' ht' hn' hs').1] at h1
  simp only [Prod.mk.injEq] at h1
  exact ⟨h1.2.2.2.symm, h1.2.1.symm, h1.1.symm, h1.2.2.1.symm⟩

/-- **C90**: the codes of the four macros have the directions of the kernel: none, the two single ones, and both -/
theorem macro_fields {A : Arch} (hA : Known A) {typ nr size : Nat} (ht : typ < 2 ^ 8) (hn : nr < 2 ^ 8) (hs : size < 2 ^ A.sizeBits) :
    fields A.sizeBits (codeNone A typ nr) = (nr, typ, 0, A.none) ∧ fields A.sizeBits (codeRead A typ nr size) = (nr, typ, size, A.read) ∧
    fields A.sizeBits (codeWrite A typ nr size) = (nr, typ, size, A.write) ∧
    fields A.sizeBits (codeReadWrite A typ nr size) = (nr, typ, size, A.read + A.write) := by
  have hp := Nat.two_pow_pos A.sizeBits
  refine ⟨(ioc_fields hA ?_ ht hn hp).1, (ioc_fields hA ?_ ht hn hs).1, (ioc_fields hA ?_ ht hn hs).1, ?_⟩
  · rcases hA with rfl | rfl <;> decide
  · rcases hA with rfl | rfl <;> decide
  · rcases hA with rfl | rfl <;> decide
  · have e : A.read ||| A.write = A.read + A.write := by rcases hA with rfl | rfl <;> rfl
    unfold codeReadWrite
    rw [e]
    exact (ioc_fields hA (by rcases hA with rfl | rfl <;> decide) ht hn hs).1

/-- **C90**: the codes the tools use are those of the kernel (`BLKDISCARD`, `BLKGETSIZE64`), on every architecture. -/
theorem codes_kernel : blkDiscard generic = 0x1277 ∧ blkDiscard special = 0x20001277 ∧ blkGetSize64 generic 8 = 0x80081272 ∧ blkGetSize64 generic 4 = 0x80041272 ∧
    blkGetSize64 special 8 = 0x40081272 ∧ blkGetSize64 special 4 = 0x40041272 := by decide

/-- A size that does not fit is cut off silently: a type of 16 KiB gets the code of an empty one. -/
theorem size_overflow_refuted : codeRead generic 0x12 114 (2 ^ 14) = codeRead generic 0x12 114 0 := by decide

/-- a request with all fields in use -/
example : fields generic.sizeBits (codeReadWrite generic 0xfd 17 312) = (17, 0xfd, 312, 3) := by decide

end Verif.Ioctl
