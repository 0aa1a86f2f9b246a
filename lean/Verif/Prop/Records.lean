import Verif.Model.Records
import Verif.Lemmas.Bytes

/-!
# C01: on-disk records round-trip
-/

namespace Verif

/-- Specification of a correct codec on a domain `D`: encoding has the declared size, and decoding the
encoding followed by arbitrary bytes returns the value and exactly those bytes. -/
def Codec.RoundTripsOn {α : Type} (c : Codec α) (D : α → Prop) : Prop :=
  ∀ v, D v → (c.pack v).length = c.diskSize ∧ ∀ rest, c.unpack (c.pack v ++ rest) = some (v, rest)

/-- Decoding consumes exactly `diskSize` bytes of any input that is long enough, and fails on shorter input. -/
def Codec.ExactSize {α : Type} (c : Codec α) : Prop :=
  ∀ i, (i.length < c.diskSize → c.unpack i = none) ∧
    (c.diskSize ≤ i.length → ∃ v, c.unpack i = some (v, i.drop c.diskSize))

/-! Domains: what the on-disk layout has room for. -/

/-- 40 bits of block, 24 bits of time. -/
def BlockTime.Fits (b : BlockTime) : Prop := b.block < 2 ^ 40 ∧ b.time < 2 ^ 24
/-- plain u64/u32 fields -/
def DeviceDetail.Fits (d : DeviceDetail) : Prop :=
  d.mapped_blocks < 2 ^ 64 ∧ d.transaction_id < 2 ^ 64 ∧ d.creation_time < 2 ^ 32 ∧ d.snapshotted_time < 2 ^ 32
/-- plain u64 fields -/
def SMRoot.Fits (r : SMRoot) : Prop :=
  r.nr_blocks < 2 ^ 64 ∧ r.nr_allocated < 2 ^ 64 ∧ r.bitmap_root < 2 ^ 64 ∧ r.ref_count_root < 2 ^ 64
/-- plain u64/u32 fields -/
def IndexEntry.Fits (e : IndexEntry) : Prop :=
  e.blocknr < 2 ^ 64 ∧ e.nr_free < 2 ^ 32 ∧ e.none_free_before < 2 ^ 32
/-- 48 bits of origin block, 16 bits of flags -/
def Mapping.Fits (m : Mapping) : Prop := m.oblock < 2 ^ 48 ∧ m.flags < 2 ^ 16
/-- four bytes -/
def Hint.Fits (h : Hint) : Prop := h.hint.length = 4
/-- plain u32/u64 fields -/
def Writeset.Fits (w : Writeset) : Prop := w.nr_bits < 2 ^ 32 ∧ w.root < 2 ^ 64

/-- C01, thin mapping values. -/
theorem blockTime_roundtrip : blockTimeCodec.RoundTripsOn BlockTime.Fits := by
  rintro ⟨b, t⟩ ⟨hb, ht⟩
  obtain ⟨h1, h2, h3⟩ := pack40_24 24 40 b t rfl hb ht
  refine ⟨by simp [blockTimeCodec, BlockTime.pack], fun rest => ?_⟩
  simp only [blockTimeCodec, BlockTime.pack, BlockTime.unpack, leU64_w64 _ h1]
  simp [h2, h3]

example : BlockTime.Fits ⟨2 ^ 40 - 1, 2 ^ 24 - 1⟩ := by unfold BlockTime.Fits; decide

/-- The domain of `blockTime_roundtrip` cannot be widened: a value outside of it, although the Rust struct
can hold it, is never read back (its time spills into the block, or its block is cut). -/
theorem blockTime_roundtrip_iff (b : BlockTime) (hb : b.block < 2 ^ 64) (ht : b.time < 2 ^ 32) (rest : Bytes) :
    blockTimeCodec.unpack (blockTimeCodec.pack b ++ rest) = some (b, rest) ↔ b.Fits := by
  constructor
  · intro h
    obtain ⟨n, r⟩ := b
    simp only [blockTimeCodec, BlockTime.pack, BlockTime.unpack] at h
    have hlt : ((n <<< 24) % 2 ^ 64 ||| r) < 2 ^ 64 :=
      Nat.or_lt_two_pow (Nat.mod_lt _ (by decide)) (Nat.lt_of_lt_of_le ht (by decide))
    simp only [leU64_w64 _ hlt, Option.bind_eq_bind, Option.bind_some, Option.some.injEq, Prod.mk.injEq, and_true] at h
    have h1 := (BlockTime.mk.inj h).1
    have h2 := (BlockTime.mk.inj h).2
    constructor
    · show n < 2 ^ 40
      rw [← h1, Nat.shiftRight_eq_div_pow]
      exact Nat.div_lt_of_lt_mul (by simpa using hlt)
    · show r < 2 ^ 24
      rw [← h2, Nat.and_two_pow_sub_one_eq_mod]
      exact Nat.mod_lt _ (by decide)
  · intro h; exact (blockTime_roundtrip b h).2 rest

/-- C01, device details. -/
theorem deviceDetail_roundtrip : deviceDetailCodec.RoundTripsOn DeviceDetail.Fits := by
  rintro ⟨a, b, c, d⟩ ⟨h1, h2, h3, h4⟩
  simp only at h1 h2 h3 h4
  refine ⟨by simp [deviceDetailCodec, DeviceDetail.pack], fun rest => ?_⟩
  simp only [deviceDetailCodec, DeviceDetail.pack, DeviceDetail.unpack, List.append_assoc]
  simp [leU64_w64 _ h1, leU64_w64 _ h2, leU32_w32 _ h3, leU32_w32 _ h4]

example : DeviceDetail.Fits ⟨2 ^ 64 - 1, 7, 2 ^ 32 - 1, 0⟩ := by unfold DeviceDetail.Fits; decide

/-- C01, space map roots. -/
theorem smRoot_roundtrip : smRootCodec.RoundTripsOn SMRoot.Fits := by
  rintro ⟨a, b, c, d⟩ ⟨h1, h2, h3, h4⟩
  simp only at h1 h2 h3 h4
  refine ⟨by simp [smRootCodec, SMRoot.pack], fun rest => ?_⟩
  simp only [smRootCodec, SMRoot.pack, SMRoot.unpack, List.append_assoc]
  simp [leU64_w64 _ h1, leU64_w64 _ h2, leU64_w64 _ h3, leU64_w64 _ h4]

example : SMRoot.Fits ⟨2 ^ 64 - 1, 5, 0, 2 ^ 63⟩ := by unfold SMRoot.Fits; decide

/-- C01, `pack_root`: a root stored in the superblock's space map area reads back. -/
theorem packRoot_roundtrip (r : SMRoot) (h : r.Fits) (size : Nat) (b : Bytes) (hb : packRoot r size = some b) :
    b.length = size ∧ ∃ rest, smRootCodec.unpack b = some (r, rest) := by
  unfold packRoot at hb
  split at hb
  · simp only [Option.some.injEq] at hb
    subst hb
    refine ⟨by simp; omega, _, (smRoot_roundtrip r h).2 _⟩
  · simp at hb

/-- the 128-byte area of a superblock always has room for a root -/
theorem packRoot_128 (r : SMRoot) : (packRoot r 128).isSome := by
  simp [packRoot, SMRoot.pack]

/-- C01, index entries. -/
theorem indexEntry_roundtrip : indexEntryCodec.RoundTripsOn IndexEntry.Fits := by
  rintro ⟨a, b, c⟩ ⟨h1, h2, h3⟩
  simp only at h1 h2 h3
  refine ⟨by simp [indexEntryCodec, IndexEntry.pack], fun rest => ?_⟩
  simp only [indexEntryCodec, IndexEntry.pack, IndexEntry.unpack, List.append_assoc]
  simp [leU64_w64 _ h1, leU32_w32 _ h2, leU32_w32 _ h3]

example : IndexEntry.Fits ⟨2 ^ 64 - 1, 16320, 2 ^ 32 - 1⟩ := by unfold IndexEntry.Fits; decide

/-- C01, cache mappings. -/
theorem mapping_roundtrip : mappingCodec.RoundTripsOn Mapping.Fits := by
  rintro ⟨b, t⟩ ⟨hb, ht⟩
  obtain ⟨h1, h2, h3⟩ := pack40_24 16 48 b t rfl hb ht
  refine ⟨by simp [mappingCodec, Mapping.pack], fun rest => ?_⟩
  simp only [mappingCodec, Mapping.pack, Mapping.unpack, leU64_w64 _ h1]
  simp [h2, h3]

example : Mapping.Fits ⟨2 ^ 48 - 1, 3⟩ := by unfold Mapping.Fits; decide

theorem and_two_pow_ne (n i : Nat) : ((n &&& 2 ^ i) != 0) = n.testBit i := by
  have key : ∀ j, (n &&& 2 ^ i).testBit j = (n.testBit i && decide (j = i)) := by
    intro j
    rw [Nat.testBit_and, Nat.testBit_two_pow]
    by_cases h : j = i
    · simp [h]
    · simp [h, Ne.symm h]
  cases h : n.testBit i with
  | false =>
    have : n &&& 2 ^ i = 0 := Nat.eq_of_testBit_eq fun j => by simp [key, h]
    simp [this]
  | true =>
    have hne : n &&& 2 ^ i ≠ 0 := fun h0 => by
      have := key i
      rw [h0, h] at this
      simp at this
    simpa using hne

theorem testBit_clear2 (i : Nat) (hi : i < 32) : (2 ^ 32 - 3).testBit i = decide (i ≠ 1) := by
  have : ∀ i : Fin 32, (2 ^ 32 - 3).testBit i.val = decide (i.val ≠ 1) := by decide
  exact this ⟨i, hi⟩

/-- C35: setting or clearing the dirty flag of a mapping changes that flag and nothing else. -/
theorem mapping_setDirty (m : Mapping) (hf : m.flags < 2 ^ 32) (d : Bool) :
    (m.setDirty d).isDirty = d ∧ (m.setDirty d).isValid = m.isValid ∧ (m.setDirty d).oblock = m.oblock ∧
    (m.setDirty d).flags < 2 ^ 32 ∧ ∀ i, i ≠ 1 → (m.setDirty d).flags.testBit i = m.flags.testBit i := by
  have key : ∀ i, (m.setDirty d).flags.testBit i = if i = 1 then d else m.flags.testBit i := by
    intro i
    cases d
    · simp only [Mapping.setDirty, Bool.false_eq_true, if_false, Nat.testBit_and]
      by_cases hi : i < 32
      · rw [testBit_clear2 i hi]
        by_cases h1 : i = 1 <;> simp [h1]
      · have : m.flags.testBit i = false := Nat.testBit_lt_two_pow (Nat.lt_of_lt_of_le hf (Nat.pow_le_pow_right (by decide) (by omega)))
        rw [this, if_neg (by omega)]; simp
    · simp only [Mapping.setDirty, if_true, Nat.testBit_or]
      have : Nat.testBit 2 i = decide (i = 1) := by
        rw [show (2 : Nat) = 2 ^ 1 from rfl, Nat.testBit_two_pow]; simp [eq_comm]
      rw [this]
      by_cases h1 : i = 1 <;> simp [h1]
  refine ⟨?_, ?_, rfl, ?_, fun i hi => by rw [key, if_neg hi]⟩
  · rw [Mapping.isDirty, show (2 : Nat) = 2 ^ 1 from rfl, and_two_pow_ne, key]; simp
  · rw [Mapping.isValid, Mapping.isValid, show (1 : Nat) = 2 ^ 0 from rfl, and_two_pow_ne, and_two_pow_ne, key]; simp
  · apply Nat.lt_pow_two_of_testBit
    intro i hi
    rw [key, if_neg (by omega)]
    exact Nat.testBit_lt_two_pow (Nat.lt_of_lt_of_le hf (Nat.pow_le_pow_right (by decide) hi))

example : (Mapping.setDirty ⟨5, 3⟩ false) = ⟨5, 1⟩ := by decide

/-- C01, policy hints. -/
theorem hint_roundtrip : hintCodec.RoundTripsOn Hint.Fits := by
  rintro ⟨h⟩ hl
  have hl : h.length = 4 := hl
  refine ⟨hl, fun rest => ?_⟩
  simp [hintCodec, Hint.pack, Hint.unpack, takeB_append' hl]

example : Hint.Fits ⟨[1, 2, 3, 255]⟩ := by unfold Hint.Fits; decide

/-- C01, era writesets. -/
theorem writeset_roundtrip : writesetCodec.RoundTripsOn Writeset.Fits := by
  rintro ⟨a, b⟩ ⟨h1, h2⟩
  simp only at h1 h2
  refine ⟨by simp [writesetCodec, Writeset.pack], fun rest => ?_⟩
  simp only [writesetCodec, Writeset.pack, Writeset.unpack, List.append_assoc]
  simp [leU32_w32 _ h1, leU64_w64 _ h2]

example : Writeset.Fits ⟨2 ^ 32 - 1, 2 ^ 64 - 1⟩ := by unfold Writeset.Fits; decide

/-- C01, plain integers. -/
theorem u64_roundtrip : u64Codec.RoundTripsOn (· < 2 ^ 64) := by
  intro v h
  exact ⟨by simp [u64Codec], fun rest => leU64_w64 v h rest⟩

/-- C01, plain integers. -/
theorem u32_roundtrip : u32Codec.RoundTripsOn (· < 2 ^ 32) := by
  intro v h
  exact ⟨by simp [u32Codec], fun rest => leU32_w32 v h rest⟩

/-- C01: decoding never depends on the length beyond the declared disk size: every record decoder fails
exactly on inputs shorter than `disk_size()` and otherwise consumes exactly that many bytes. -/
theorem records_exactSize :
    blockTimeCodec.ExactSize ∧ deviceDetailCodec.ExactSize ∧ smRootCodec.ExactSize ∧
    indexEntryCodec.ExactSize ∧ mappingCodec.ExactSize ∧ hintCodec.ExactSize ∧ writesetCodec.ExactSize ∧
    u64Codec.ExactSize ∧ u32Codec.ExactSize := by
  refine ⟨?_, ?_, ?_, ?_, ?_, ?_, ?_, ?_, ?_⟩ <;> intro i <;> constructor <;> intro h
  all_goals
    simp only [blockTimeCodec, deviceDetailCodec, smRootCodec, indexEntryCodec, mappingCodec, hintCodec,
      writesetCodec, u64Codec, u32Codec] at h ⊢
  all_goals
    try simp only [BlockTime.unpack, DeviceDetail.unpack, SMRoot.unpack, IndexEntry.unpack, Mapping.unpack,
      Hint.unpack, Writeset.unpack]
  all_goals simp only [leU_eq, takeB, Option.bind_eq_bind]
  all_goals
    first
    | simp (disch := (try simp only [List.length_drop]); omega) only [if_pos, Option.bind_some, List.drop_drop]
      exact ⟨_, rfl⟩
    | (rw [Option.eq_none_iff_forall_ne_some]
       intro a ha
       simp only [Option.bind_eq_some_iff, Option.ite_none_right_eq_some, Prod.exists,
         Option.some.injEq, Prod.mk.injEq] at ha
       grind)

end Verif
