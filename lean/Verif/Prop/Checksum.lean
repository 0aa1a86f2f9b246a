import Verif.Model.Checksum
import Verif.Lemmas.Bytes

/-!
# C03: checksums identify the block type that was written
-/

namespace Verif

theorem typeOfSalt_salt (t : BT) (s : UInt32) (h : t.salt = some s) : typeOfSalt s = t := by
  cases t <;> simp [BT.salt] at h <;> subst h <;> decide

theorem salt_of_type {t : BT} {s : UInt32} (ht : t ≠ .unknown) (h : typeOfSalt s = t) : t.salt = some s := by
  unfold typeOfSalt at h
  grind [BT.salt]

theorem u32_store (x : UInt32) : UInt32.ofNat (leVal (leBytes 4 x.toNat)) = x := by
  rw [leVal_leBytes, Nat.mod_eq_of_lt (by simpa using x.toNat_lt)]
  simp

theorem metadataBlockType_block (crc : Bytes → UInt32) (w : UInt32) (payload : Bytes)
    (hp : payload.length = BLOCK_SIZE - 4) :
    metadataBlockType crc (leBytes 4 w.toNat ++ payload) = typeOfSalt (crc payload ^^^ 0xffffffff ^^^ w) := by
  have h1 : (leBytes 4 w.toNat).length = 4 := by simp
  have hl : (leBytes 4 w.toNat ++ payload).length = BLOCK_SIZE := by
    simp [hp, BLOCK_SIZE]
  unfold metadataBlockType checksum
  rw [if_neg (by simp [hl]), List.take_append_of_le_length (by simp), List.take_of_length_le (by simp),
    List.drop_append_of_le_length (by simp), List.drop_of_length_le (by simp), List.nil_append, u32_store]

/-- C03, first half: for every payload, every checksum function and every real block type, the block
written with type `t` is recognised as `t` (hence as no other type), keeps its size, and only the first four
bytes changed. -/
theorem write_then_type (crc : Bytes → UInt32) (buf out : Bytes) (t : BT)
    (h : writeChecksum crc buf t = some out) :
    metadataBlockType crc out = t ∧ t ≠ .unknown ∧ out.length = BLOCK_SIZE ∧ out.drop 4 = buf.drop 4 := by
  unfold writeChecksum at h
  split at h
  · simp at h
  · next hl =>
    split at h
    · simp at h
    · next salt hs =>
      simp only [Option.some.injEq] at h
      subst h
      have hl : buf.length = 4096 := by simpa [BLOCK_SIZE] using hl
      refine ⟨?_, ?_, ?_, ?_⟩
      · rw [metadataBlockType_block _ _ _ (by simp [BLOCK_SIZE, hl]), checksum, ← UInt32.xor_assoc,
          UInt32.xor_self, UInt32.zero_xor]
        exact typeOfSalt_salt t salt hs
      · rintro rfl; simp [BT.salt] at hs
      · simp [BLOCK_SIZE, hl]
      · simp

/-- `write_checksum` succeeds on every 4096-byte buffer and every real type (so the theorem above is about
every such block). -/
theorem writeChecksum_isSome_iff (crc : Bytes → UInt32) (buf : Bytes) (t : BT) :
    (writeChecksum crc buf t).isSome ↔ buf.length = BLOCK_SIZE ∧ t ≠ .unknown := by
  unfold writeChecksum
  cases t <;> by_cases h : buf.length = BLOCK_SIZE <;> simp [h, BT.salt]

/-- C03, second half: keeping the payload and replacing the stored word by any other word makes the block
unrecognisable as its type: for each payload there is exactly one accepted checksum word per type. -/
theorem checksum_word_unique (crc : Bytes → UInt32) (payload : Bytes) (w w' : UInt32) (t : BT)
    (hp : payload.length = BLOCK_SIZE - 4) (ht : t ≠ .unknown)
    (h : metadataBlockType crc (leBytes 4 w.toNat ++ payload) = t) (hw : w' ≠ w) :
    metadataBlockType crc (leBytes 4 w'.toNat ++ payload) ≠ t := by
  rw [metadataBlockType_block _ _ _ hp] at h ⊢
  intro h'
  have h1 := salt_of_type ht h
  have h2 := salt_of_type ht h'
  rw [h1] at h2
  simp only [Option.some.injEq] at h2
  apply hw
  have := congrArg (fun x => crc payload ^^^ 0xffffffff ^^^ x) h2
  simp only [← UInt32.xor_assoc, UInt32.xor_self, UInt32.zero_xor] at this
  exact this.symm

/-- C03: a block recognised as some type passes the checksum equation for this type. -/
theorem type_sound (crc : Bytes → UInt32) (buf : Bytes) (t : BT) (ht : t ≠ .unknown)
    (h : metadataBlockType crc buf = t) : buf.length = BLOCK_SIZE ∧ writeChecksum crc buf t = some buf := by
  unfold metadataBlockType at h
  split at h
  · exact absurd h.symm ht
  · next hl =>
    have hl : buf.length = 4096 := by simpa [BLOCK_SIZE] using hl
    refine ⟨hl, ?_⟩
    have hs := salt_of_type ht h
    unfold writeChecksum
    rw [if_neg (by simp [hl, BLOCK_SIZE]), hs]
    simp only [← UInt32.xor_assoc, UInt32.xor_self, UInt32.zero_xor]
    have hlt : leVal (buf.take 4) < 2 ^ 32 := by
      have := leVal_lt (buf.take 4)
      simpa [hl] using this
    rw [UInt32.toNat_ofNat_of_lt' (by simpa [UInt32.size] using hlt)]
    have : (buf.take 4).length = 4 := by simp [hl]
    have e := leBytes_leVal (buf.take 4)
    rw [this] at e
    rw [e, List.take_append_drop]

/-- The hypotheses are met by a concrete block. -/
example : (writeChecksum (fun _ => 12345) (List.replicate 4096 0) .node).isSome :=
  (writeChecksum_isSome_iff _ _ _).2 ⟨by rw [List.length_replicate]; rfl, by decide⟩

end Verif
