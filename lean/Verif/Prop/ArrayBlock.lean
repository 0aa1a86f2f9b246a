import Verif.Model.ArrayBlock
import Verif.Prop.Node

/-!
# C17, C18: array blocks as bytes
-/

namespace Verif

theorem arrayHeader_roundtrip (h : ArrayHeader) (hb : h.blocknr < 2 ^ 64) (hn : h.nr_entries < 2 ^ 32)
    (hm : h.max_entries < 2 ^ 32) (hv : h.value_size < 2 ^ 32) (w : Nat) (hw : w < 2 ^ 32) (r : Bytes) :
    ArrayHeader.unpack (w32 w ++ (h.pack.drop 4 ++ r)) = some (h, r) := by
  have hp : h.pack.drop 4 = w32 h.max_entries ++ (w32 h.nr_entries ++ (w32 h.value_size ++ w64 h.blocknr)) := by
    unfold ArrayHeader.pack
    rw [List.drop_append_of_le_length (by simp), List.drop_of_length_le (by simp), List.nil_append]
  rw [hp]
  simp only [List.append_assoc]
  unfold ArrayHeader.unpack
  refine bind_step (leU32_w32 _ hw _) ?_
  refine bind_step (leU32_w32 _ hm _) ?_
  refine bind_step (leU32_w32 _ hn _) ?_
  refine bind_step (leU32_w32 _ hv _) ?_
  refine bind_step (leU64_w64 _ hb _) ?_
  rfl

/-- room for `calc_max_entries` values -/
theorem arrayMaxEntries_room (vs : Nat) : vs * arrayMaxEntries vs + 24 ≤ BLOCK_SIZE := by
  unfold arrayMaxEntries
  have := Nat.mul_div_le (BLOCK_SIZE - ARRAY_HEADER_SIZE) vs
  rw [show BLOCK_SIZE = 4096 from rfl, show ARRAY_HEADER_SIZE = 24 from rfl] at *
  omega

/-- C17: an array block of at most `calc_max_entries` values is read back exactly, for every codec that round-trips and
whatever the memory held before; the declared capacity is the one the builder used to split the array. -/
theorem arrayBlock_roundtrip {V : Type} (crc : Bytes → UInt32) (c : Codec V) (D : V → Prop) (hrt : c.RoundTripsOn D)
    (hd : 0 < c.diskSize) (hd2 : c.diskSize < 2 ^ 32) (values : List V) (hv : ∀ v ∈ values, D v)
    (hlen : values.length ≤ arrayMaxEntries c.diskSize) (loc : Nat) (hl : loc < 2 ^ 64) (old : Bytes)
    (hold : old.length = BLOCK_SIZE) :
    ∃ b h, arrayBlockBytes crc c old loc values = some b ∧ checkAndUnpackArray crc c b = some ⟨h, values⟩ ∧
      h.max_entries = arrayMaxEntries c.diskSize ∧ h.nr_entries = values.length ∧ h.blocknr = loc := by
  have hroom := arrayMaxEntries_room c.diskSize
  have hM : arrayMaxEntries c.diskSize ≤ 4096 := by
    unfold arrayMaxEntries
    exact Nat.le_trans (Nat.div_le_self _ _) (by decide)
  generalize hM' : arrayMaxEntries c.diskSize = M at *
  have hB : BLOCK_SIZE = 4096 := rfl
  have hmul : c.diskSize * values.length ≤ c.diskSize * M := Nat.mul_le_mul_left _ hlen
  unfold arrayBlockBytes
  rw [hM']
  generalize hH : ({ max_entries := M, nr_entries := values.length, value_size := c.diskSize, blocknr := loc } : ArrayHeader)
    = H
  have hpl : (packArrayBlock c ⟨H, values⟩).length = 24 + c.diskSize * values.length := by
    unfold packArrayBlock
    rw [List.length_append, flatten_length_const _ c.diskSize _ (fun v h => (hrt v (hv v h)).1)]
    simp [ArrayHeader.pack]
  have hfill : fillBlock old (packArrayBlock c ⟨H, values⟩) =
      some (packArrayBlock c ⟨H, values⟩ ++ old.drop (packArrayBlock c ⟨H, values⟩).length) := by
    rw [fillBlock, if_pos (by omega)]
  have hbl : (packArrayBlock c ⟨H, values⟩ ++ old.drop (packArrayBlock c ⟨H, values⟩).length).length = BLOCK_SIZE := by
    simp only [List.length_append, List.length_drop]; omega
  obtain ⟨b, hb⟩ := Option.isSome_iff_exists.1
    ((writeChecksum_isSome_iff crc _ .array).2 ⟨hbl, by decide⟩)
  refine ⟨b, H, by simp [hfill, hb], ?_, by rw [← hH], by rw [← hH], by rw [← hH]⟩
  have hty := (write_then_type crc _ b .array hb).1
  unfold checkAndUnpackArray
  rw [if_pos hty]
  unfold writeChecksum at hb
  rw [if_neg (by simp [hbl])] at hb
  simp only [BT.salt, Option.some.injEq] at hb
  rw [List.drop_append_of_le_length (by omega)] at hb
  generalize (_ ^^^ (595846735 : UInt32)) = cw at hb
  have hsplit : (packArrayBlock c ⟨H, values⟩).drop 4 = H.pack.drop 4 ++ (values.map c.pack).flatten := by
    unfold packArrayBlock
    rw [List.drop_append_of_le_length (by simp [ArrayHeader.pack])]
  rw [hsplit, List.append_assoc] at hb
  rw [← hb]
  unfold unpackArrayBlock
  have h32 : M < 2 ^ 32 := by omega
  rw [arrayHeader_roundtrip H (by rw [← hH]; exact hl) (by rw [← hH]; simp only; omega) (by rw [← hH]; exact h32)
    (by rw [← hH]; exact hd2) cw.toNat (UInt32.toNat_lt _)]
  simp only
  have hv1 : H.value_size = c.diskSize := by rw [← hH]
  have hv2 : H.max_entries = M := by rw [← hH]
  have hv3 : H.nr_entries = values.length := by rw [← hH]
  rw [hv1, hv2, hv3, if_neg (by simp), if_neg, if_neg (by omega),
    countP_roundtrip c.unpack c.pack values (fun x hx r => (hrt x (hv x hx)).2 r)]
  have hsz : ARRAY_HEADER_SIZE = 24 := rfl
  rw [hsz, Nat.mod_eq_of_lt (by omega), Nat.mod_eq_of_lt (by omega)]
  omega

theorem arrayHeader_unpack (data : Bytes) (h : 24 ≤ data.length) :
    ArrayHeader.unpack data =
      some (⟨u32At data 4, u32At data 8, u32At data 12, u64At data 16⟩, data.drop 24) := by
  unfold ArrayHeader.unpack
  simp only [leU_eq]
  rw [if_pos (by omega)]
  simp only [Option.bind_eq_bind, Option.bind_some, List.length_drop]
  rw [if_pos (by omega)]
  simp only [Option.bind_some, List.length_drop]
  rw [if_pos (by omega)]
  simp only [Option.bind_some, List.length_drop]
  rw [if_pos (by omega)]
  simp only [Option.bind_some, List.length_drop]
  rw [if_pos (by omega)]
  simp only [Option.bind_some, List.drop_drop, u32At, u64At]

/-- C18: exactly which blocks are accepted as array blocks, in terms of the bytes.  The capacity is only bounded modulo
`2^32`. -/
theorem arrayBlock_accept_iff {V : Type} (crc : Bytes → UInt32) (c : Codec V) (hc : c.ExactSize) (data : Bytes) :
    (∃ b, checkAndUnpackArray crc c data = some b) ↔
      metadataBlockType crc data = .array ∧ u32At data 12 = c.diskSize ∧
      (u32At data 12 * u32At data 4 % 2 ^ 32 + 24) % 2 ^ 32 ≤ BLOCK_SIZE ∧
      u32At data 8 ≤ u32At data 4 ∧ 24 + c.diskSize * u32At data 8 ≤ BLOCK_SIZE := by
  unfold checkAndUnpackArray
  by_cases hty : metadataBlockType crc data = .array
  · rw [if_pos hty]
    have hl : data.length = BLOCK_SIZE := by
      apply Classical.byContradiction
      intro hne
      unfold metadataBlockType at hty
      rw [if_pos hne] at hty
      cases hty
    have hB : BLOCK_SIZE = 4096 := rfl
    have hsz : ARRAY_HEADER_SIZE = 24 := rfl
    unfold unpackArrayBlock
    rw [arrayHeader_unpack data (by omega)]
    simp only [hty, true_and, hsz]
    by_cases h1 : u32At data 12 = c.diskSize
    · rw [if_neg (by simpa using h1)]
      by_cases h2 : (u32At data 12 * u32At data 4 % 2 ^ 32 + 24) % 2 ^ 32 > BLOCK_SIZE
      · rw [if_pos h2]
        constructor
        · rintro ⟨b, h⟩; cases h
        · rintro ⟨-, h, -⟩; omega
      · rw [if_neg h2]
        by_cases h3 : u32At data 8 > u32At data 4
        · rw [if_pos h3]
          constructor
          · rintro ⟨b, h⟩; cases h
          · rintro ⟨-, -, h, -⟩; omega
        · rw [if_neg h3]
          constructor
          · rintro ⟨b, h⟩
            split at h
            · cases h
            · next vs r hcnt =>
              have := (countP_eq_some (exact_of_codec hc) _ _ _ _ hcnt).1
              rw [List.length_drop, hl] at this
              exact ⟨h1, by omega, by omega, by omega⟩
          · rintro ⟨-, -, -, h4⟩
            obtain ⟨xs, hxs⟩ := countP_some (exact_of_codec hc) (u32At data 8) (data.drop 24)
              (by rw [List.length_drop, hl]; omega)
            rw [hxs]
            exact ⟨_, rfl⟩
    · rw [if_pos h1]
      constructor
      · rintro ⟨b, h⟩; cases h
      · rintro ⟨h, -⟩; exact absurd h h1
  · rw [if_neg hty]
    constructor
    · rintro ⟨b, h⟩; cases h
    · rintro ⟨h, -⟩; exact absurd h hty

/-- C18: the values returned are the bytes at their places. -/
theorem arrayBlock_values {V : Type} (crc : Bytes → UInt32) (c : Codec V) (hc : c.ExactSize) (data : Bytes)
    (b : ArrayBlock V) (h : checkAndUnpackArray crc c data = some b) :
    b.header.max_entries = u32At data 4 ∧ b.values.length = u32At data 8 ∧
    ∀ j v, b.values[j]? = some v → ValueAt c data (24 + c.diskSize * j) v := by
  have ha := (arrayBlock_accept_iff crc c hc data).mp ⟨b, h⟩
  have hl : data.length = BLOCK_SIZE := by
    apply Classical.byContradiction
    intro hne
    have hty := ha.1
    unfold metadataBlockType at hty
    rw [if_pos hne] at hty
    cases hty
  have hB : BLOCK_SIZE = 4096 := rfl
  unfold checkAndUnpackArray unpackArrayBlock at h
  rw [if_pos ha.1, arrayHeader_unpack data (by omega)] at h
  simp only at h
  split at h
  · cases h
  · split at h
    · cases h
    · split at h
      · cases h
      · split at h
        · cases h
        · next vs r hcnt =>
          cases h
          obtain ⟨h1, h2, h3, h4⟩ := countP_eq_some (exact_of_codec hc) _ _ _ _ hcnt
          refine ⟨rfl, h3, fun j v hv => ?_⟩
          obtain ⟨r', hr⟩ := h4 j v hv
          rw [List.drop_drop] at hr
          exact ⟨r', hr⟩

/-- The capacity check can be passed by a capacity that no block can have: `8 * 2^29` wraps around to zero. -/
theorem arrayBlock_capacity_refuted :
    ∃ data : Bytes, ∃ b, unpackArrayBlock u64Codec data = some b ∧
      BLOCK_SIZE < 24 + u64Codec.diskSize * b.header.max_entries := by
  refine ⟨w32 0 ++ (w32 (2 ^ 29) ++ (w32 0 ++ (w32 8 ++ w64 0))), ⟨⟨2 ^ 29, 0, 8, 0⟩, []⟩, ?_, by decide⟩
  rfl

end Verif
