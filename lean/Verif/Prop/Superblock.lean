import Verif.Model.Superblock
import Verif.Prop.Checksum

/-!
# C02: superblocks written to a device are read back unchanged, by the matching tool only
-/

namespace Verif

/-- Whatever is packed after the 4 zero checksum bytes, `writeSb` puts it on block 0, zero padded, after some
checksum word, with type `t`, and changes no other block. -/
theorem writeSb_shape (crc : Bytes → UInt32) (t : BT) (ht : t ≠ .unknown) (d : Disk) (body : Bytes)
    (hl : body.length ≤ BLOCK_SIZE - 4) :
    ∃ w d', w < 2 ^ 32 ∧ writeSb crc t d (some (w32 0 ++ body)) = some d' ∧
      d' 0 = w32 w ++ (body ++ List.replicate (BLOCK_SIZE - 4 - body.length) 0) ∧
      metadataBlockType crc (d' 0) = t ∧ (∀ i, i ≠ 0 → d' i = d i) := by
  have h4 : BLOCK_SIZE = 4096 := rfl
  have hb : padBlock (w32 0 ++ body) =
      some ((w32 0 ++ body) ++ List.replicate (BLOCK_SIZE - (w32 0 ++ body).length) 0) := by
    rw [padBlock, if_pos]; simp only [List.length_append, leBytes_length]; omega
  have hsome := (writeChecksum_isSome_iff crc
    ((w32 0 ++ body) ++ List.replicate (BLOCK_SIZE - (w32 0 ++ body).length) 0) t).2
      ⟨by simp only [List.length_append, leBytes_length, List.length_replicate]; omega, ht⟩
  obtain ⟨out, hout⟩ := Option.isSome_iff_exists.1 hsome
  have htype := (write_then_type crc _ out t hout).1
  have hout' := hout
  unfold writeChecksum at hout'
  rw [if_neg (by simp only [List.length_append, leBytes_length, List.length_replicate]; omega)] at hout'
  split at hout'
  · simp at hout'
  · next salt hs =>
    simp only [Option.some.injEq] at hout'
    rw [List.append_assoc, List.drop_append_of_le_length (by simp), List.drop_of_length_le (by simp),
      List.nil_append, List.length_append, leBytes_length] at hout'
    generalize hcw : (_ ^^^ salt : UInt32) = cw at hout'
    refine ⟨cw.toNat, d.write 0 out, UInt32.toNat_lt _, ?_, ?_, ?_, ?_⟩
    rotate_left
    · simp only [Disk.write, if_true]
      rw [← hout', Nat.sub_add_eq]
    · simpa [Disk.write] using htype
    · intro i hi; simp [Disk.write, hi]
    · simp only [writeSb, hb, hout, Option.bind_eq_bind, Option.bind_some]

/-- Everything `write_superblock` writes sits on block 0 and is recognised as type `t` only, so the other two
tools' `read_superblock` reject it. -/
theorem readSb_other {α : Type} (crc : Bytes → UInt32) (t t' : BT) (unpack : Parser α) (d : Disk) (loc : Nat)
    (h : metadataBlockType crc (d loc) = t) (hne : t ≠ t') : readSb crc t' unpack d loc = none := by
  unfold readSb; rw [if_pos (by rw [h]; exact hne)]

theorem flag1 (b : Bool) : (((if b then 1 else 0) &&& 1 : Nat) != 0) = b := by cases b <;> rfl
theorem flag2 (a b : Bool) :
    (((((if a then 1 else 0) ||| (if b then 2 else 0)) : Nat) &&& 1) != 0) = a ∧
    (((((if a then 1 else 0) ||| (if b then 2 else 0)) : Nat) &&& 2) != 0) = b ∧
    ((if a then 1 else 0) ||| (if b then 2 else 0) : Nat) < 2 ^ 32 := by
  cases a <;> cases b <;> decide

/-- The values a thin `Superblock` can hold: integer widths of the Rust fields, and 128-byte space map roots. -/
def Thin.Superblock.Fits (s : Thin.Superblock) : Prop :=
  s.block < 2 ^ 64 ∧ s.version < 2 ^ 32 ∧ s.time < 2 ^ 32 ∧ s.transaction_id < 2 ^ 64 ∧
  s.metadata_snap < 2 ^ 64 ∧ s.data_sm_root.length = 128 ∧ s.metadata_sm_root.length = 128 ∧
  s.mapping_root < 2 ^ 64 ∧ s.details_root < 2 ^ 64 ∧ s.data_block_size < 2 ^ 32 ∧
  s.nr_metadata_blocks < 2 ^ 64

/-- Widths of the Rust fields, 128-byte root, a policy name of at most 16 non-zero bytes, three version
numbers, and a dirty root exactly for format 2 (and later). -/
def Cache.Superblock.Fits (s : Cache.Superblock) : Prop :=
  s.block < 2 ^ 64 ∧ s.version < 2 ^ 32 ∧ (s.policy_name.length ≤ 16 ∧ ∀ c ∈ s.policy_name, c ≠ 0) ∧
  (s.policy_version.length = 3 ∧ ∀ v ∈ s.policy_version, v < 2 ^ 32) ∧ s.policy_hint_size < 2 ^ 32 ∧
  s.metadata_sm_root.length = 128 ∧ s.mapping_root < 2 ^ 64 ∧
  ((s.dirty_root.isSome ↔ 2 ≤ s.version) ∧ ∀ r ∈ s.dirty_root, r < 2 ^ 64) ∧ s.hint_root < 2 ^ 64 ∧
  s.discard_root < 2 ^ 64 ∧ s.discard_block_size < 2 ^ 64 ∧ s.discard_nr_blocks < 2 ^ 64 ∧
  s.data_block_size < 2 ^ 32 ∧ s.cache_blocks < 2 ^ 32 ∧ s.compat_flags < 2 ^ 32 ∧ s.compat_ro_flags < 2 ^ 32 ∧
  s.incompat_flags < 2 ^ 32 ∧ s.read_hits < 2 ^ 32 ∧ s.read_misses < 2 ^ 32 ∧ s.write_hits < 2 ^ 32 ∧
  s.write_misses < 2 ^ 32

/-- Widths of the Rust fields and a 128-byte root. -/
def Era.Superblock.Fits (s : Era.Superblock) : Prop :=
  s.block < 2 ^ 64 ∧ s.version < 2 ^ 32 ∧ s.metadata_sm_root.length = 128 ∧ s.data_block_size < 2 ^ 32 ∧
  s.nr_blocks < 2 ^ 32 ∧ s.current_era < 2 ^ 32 ∧ s.current_writeset.nr_bits < 2 ^ 32 ∧
  s.current_writeset.root < 2 ^ 64 ∧ s.writeset_tree_root < 2 ^ 64 ∧ s.era_array_root < 2 ^ 64 ∧
  s.metadata_snap < 2 ^ 64

/-- C02 (thin). -/
theorem thin_superblock_roundtrip (crc : Bytes → UInt32) (d : Disk) (sb : Thin.Superblock) (h : sb.Fits) :
    ∃ d', Thin.writeSuperblock crc d sb = some d' ∧ Thin.readSuperblock crc d' 0 = some sb ∧
      (∀ i, i ≠ 0 → d' i = d i) ∧ Cache.readSuperblock crc d' 0 = none ∧ Era.readSuperblock crc d' 0 = none := by
  obtain ⟨nc, blk, ver, time, tid, snap, ds, ms, mr, dr, dbs, nmb⟩ := sb
  obtain ⟨h1, h2, h3, h4, h5, h6, h7, h8, h9, h10, h11⟩ := h
  simp only at h1 h2 h3 h4 h5 h6 h7 h8 h9 h10 h11
  obtain ⟨w, d', hw, hwr, hd0, hty, hoth⟩ := writeSb_shape crc .thinSuperblock (by decide) d
    (Thin.packSb ⟨nc, blk, ver, time, tid, snap, ds, ms, mr, dr, dbs, nmb⟩ |>.drop 4)
    (by simp [Thin.packSb, h6, h7, BLOCK_SIZE])
  refine ⟨d', ?_, ?_, hoth, readSb_other _ _ _ _ _ _ hty (by decide), readSb_other _ _ _ _ _ _ hty (by decide)⟩
  · rw [← hwr]; rfl
  · unfold Thin.readSuperblock readSb
    rw [if_neg (by simp [hty]), hd0]
    simp only [Thin.packSb]
    rw [List.drop_append_of_le_length (by simp), List.drop_of_length_le (by simp), List.nil_append]
    have hf : (if nc = true then 1 else 0) < 2 ^ 32 := by cases nc <;> decide
    simp only [Thin.unpackSb, List.append_assoc, leU32_w32 _ hw, leU32_w32 _ hf, leU64_w64 _ h1,
      takeB_append' (List.length_replicate (n := 16) (a := (0 : UInt8))),
      leU64_w64 27022010 (by decide), leU32_w32 _ h2, leU32_w32 _ h3, leU64_w64 _ h4, leU64_w64 _ h5,
      takeB_append' h6, takeB_append' h7, leU64_w64 _ h8, leU64_w64 _ h9, leU32_w32 _ h10,
      leU32_w32 8 (by decide), leU64_w64 _ h11, Option.bind_eq_bind, Option.bind_some, flag1]

example : Thin.Superblock.Fits
    ⟨true, 0, 2, 7, 2 ^ 64 - 1, 9, List.replicate 128 1, List.replicate 128 2, 3, 4, 128, 16384⟩ := by
  simp [Thin.Superblock.Fits]

/-- C02 (era). -/
theorem era_superblock_roundtrip (crc : Bytes → UInt32) (d : Disk) (sb : Era.Superblock) (h : sb.Fits) :
    ∃ d', Era.writeSuperblock crc d sb = some d' ∧ Era.readSuperblock crc d' 0 = some sb ∧
      (∀ i, i ≠ 0 → d' i = d i) ∧ Cache.readSuperblock crc d' 0 = none ∧ Thin.readSuperblock crc d' 0 = none := by
  obtain ⟨cs, blk, ver, ms, dbs, nb, ce, ⟨wn, wr⟩, wt, ea, snap⟩ := sb
  obtain ⟨h1, h2, h3, h4, h5, h6, h7, h8, h9, h10, h11⟩ := h
  simp only at h1 h2 h3 h4 h5 h6 h7 h8 h9 h10 h11
  obtain ⟨w, d', hw, hwr, hd0, hty, hoth⟩ := writeSb_shape crc .eraSuperblock (by decide) d
    (Era.packSb ⟨cs, blk, ver, ms, dbs, nb, ce, ⟨wn, wr⟩, wt, ea, snap⟩ |>.drop 4)
    (by simp [Era.packSb, h3, BLOCK_SIZE])
  refine ⟨d', ?_, ?_, hoth, readSb_other _ _ _ _ _ _ hty (by decide), readSb_other _ _ _ _ _ _ hty (by decide)⟩
  · rw [← hwr]; rfl
  · unfold Era.readSuperblock readSb
    rw [if_neg (by simp [hty]), hd0]
    simp only [Era.packSb]
    rw [List.drop_append_of_le_length (by simp), List.drop_of_length_le (by simp), List.nil_append]
    have hf : (if cs = true then 1 else 0) < 2 ^ 32 := by cases cs <;> decide
    simp only [Era.unpackSb, List.append_assoc, leU32_w32 _ hw, leU32_w32 _ hf, leU64_w64 _ h1,
      takeB_append' (List.length_replicate (n := 16) (a := (0 : UInt8))),
      leU64_w64 0o17660203573 (by decide), leU32_w32 _ h2, takeB_append' h3, leU32_w32 _ h4,
      leU32_w32 8 (by decide), leU32_w32 _ h5, leU32_w32 _ h6, leU32_w32 _ h7, leU64_w64 _ h8, leU64_w64 _ h9,
      leU64_w64 _ h10, leU64_w64 _ h11, Option.bind_eq_bind, Option.bind_some, flag1]

example : Era.Superblock.Fits ⟨true, 0, 1, List.replicate 128 1, 128, 1000, 7, ⟨1000, 12⟩, 3, 4, 0⟩ := by
  simp [Era.Superblock.Fits]

theorem takeWhile_name (n : Bytes) (h : ∀ c ∈ n, c ≠ 0) (k : Nat) :
    (n ++ List.replicate k 0).takeWhile (· != 0) = n := by
  induction n with
  | nil => cases k <;> simp [List.replicate_succ]
  | cons a n ih =>
    have ha : a ≠ 0 := h a (by simp)
    rw [List.cons_append, List.takeWhile_cons_of_pos (by simpa using ha), ih (fun c hc => h c (by simp [hc]))]

/-- The cache fields without the condition on `dirty_root`. -/
def Cache.Superblock.FitsWeak (s : Cache.Superblock) : Prop :=
  s.block < 2 ^ 64 ∧ s.version < 2 ^ 32 ∧ (s.policy_name.length ≤ 16 ∧ ∀ c ∈ s.policy_name, c ≠ 0) ∧
  (s.policy_version.length = 3 ∧ ∀ v ∈ s.policy_version, v < 2 ^ 32) ∧ s.policy_hint_size < 2 ^ 32 ∧
  s.metadata_sm_root.length = 128 ∧ s.mapping_root < 2 ^ 64 ∧
  (∀ r ∈ s.dirty_root, r < 2 ^ 64) ∧ s.hint_root < 2 ^ 64 ∧
  s.discard_root < 2 ^ 64 ∧ s.discard_block_size < 2 ^ 64 ∧ s.discard_nr_blocks < 2 ^ 64 ∧
  s.data_block_size < 2 ^ 32 ∧ s.cache_blocks < 2 ^ 32 ∧ s.compat_flags < 2 ^ 32 ∧ s.compat_ro_flags < 2 ^ 32 ∧
  s.incompat_flags < 2 ^ 32 ∧ s.read_hits < 2 ^ 32 ∧ s.read_misses < 2 ^ 32 ∧ s.write_hits < 2 ^ 32 ∧
  s.write_misses < 2 ^ 32

theorem cache_packFields_length (sb : Cache.Superblock) (v0 v1 v2 : Nat) (h3 : sb.policy_name.length ≤ 16)
    (h6 : sb.metadata_sm_root.length = 128) : (Cache.packFields sb v0 v1 v2).length ≤ 360 := by
  have hdl : (Cache.packDirty sb.dirty_root).length ≤ 8 := by cases sb.dirty_root <;> simp [Cache.packDirty]
  have hpl : (sb.policy_name ++ List.replicate (16 - sb.policy_name.length) (0 : UInt8)).length = 16 := by
    rw [List.length_append, List.length_replicate]; omega
  unfold Cache.packFields
  generalize sb.policy_name ++ List.replicate (16 - sb.policy_name.length) (0 : UInt8) = pad at *
  generalize Cache.packDirty sb.dirty_root = x at *
  simp only [List.length_append, leBytes_length, List.length_replicate, h6, hpl, ← Nat.add_assoc, Nat.reduceAdd]
  exact Nat.le_trans (Nat.add_le_add_left hdl _) (by decide)

theorem cache_readDirty (ver : Nat) (dirty : Option Nat) (h : ∀ r ∈ dirty, r < 2 ^ 64) (k : Nat) :
    ∃ rest, Cache.readDirty ver (Cache.packDirty dirty ++ List.replicate (8 + k) 0) =
      some (if ver < 2 then none else some (dirty.getD 0), rest) := by
  unfold Cache.readDirty
  by_cases hv : ver < 2
  · rw [if_neg (by omega), if_pos hv]; exact ⟨_, rfl⟩
  · rw [if_pos (by omega), if_neg hv]
    cases dirty with
    | none =>
      rw [← List.replicate_append_replicate, Cache.packDirty, List.nil_append,
        show List.replicate 8 (0 : UInt8) = leBytes 8 0 from rfl]
      simp only [leU64_w64 0 (by decide)]
      exact ⟨_, rfl⟩
    | some r =>
      simp only [Cache.packDirty, leU64_w64 _ (h r rfl)]
      exact ⟨_, rfl⟩

theorem cache_unpack (sb : Cache.Superblock) (h : sb.FitsWeak) (w v0 v1 v2 k : Nat) (hw : w < 2 ^ 32)
    (hpv : sb.policy_version = [v0, v1, v2]) :
    ∃ rest, Cache.unpackSb (w32 w ++ (Cache.packFields sb v0 v1 v2 ++ List.replicate (8 + k) 0)) =
      some ({ sb with dirty_root := if sb.version < 2 then none else some (sb.dirty_root.getD 0) }, rest) := by
  obtain ⟨cs, nc, blk, ver, pn, pv, phs, ms, mr, dirty, hr, dr, dbs, dnb, bs, cb, cf, crf, icf, rh, rm, wh, wm⟩ := sb
  obtain ⟨h1, h2, ⟨h3, h3'⟩, ⟨-, h4'⟩, h5, h6, h7, h8', h9, h10, h11, h12, h13, h14, h15, h16, h17, h18, h19, h20, h21⟩ := h
  simp only at h1 h2 h3 h3' h4' h5 h6 h7 h8' h9 h10 h11 h12 h13 h14 h15 h16 h17 h18 h19 h20 h21 hpv
  subst hpv
  have hv0 : v0 < 2 ^ 32 := h4' _ (by simp)
  have hv1 : v1 < 2 ^ 32 := h4' _ (by simp)
  have hv2 : v2 < 2 ^ 32 := h4' _ (by simp)
  have hpl : (pn ++ List.replicate (16 - pn.length) (0 : UInt8)).length = 16 := by simp; omega
  obtain ⟨f1, f2, f3⟩ := flag2 cs nc
  obtain ⟨rest, hdirty⟩ := cache_readDirty ver dirty h8' k
  generalize hpad : pn ++ List.replicate (16 - pn.length) (0 : UInt8) = pad at hpl
  have hname : pad.takeWhile (· != 0) = pn := hpad ▸ takeWhile_name pn h3' _
  generalize (if ver < 2 then none else some (dirty.getD 0)) = dd at *
  refine ⟨rest, ?_⟩
  simp only [Cache.packFields, hpad, List.append_assoc]
  unfold Cache.unpackSb
  refine bind_step (leU32_w32 _ hw _) ?_
  refine bind_step (leU32_w32 _ f3 _) ?_
  refine bind_step (leU64_w64 _ h1 _) ?_
  refine bind_step (takeB_append' (List.length_replicate (n := 16) (a := (0 : UInt8))) _) ?_
  refine bind_step (leU64_w64 0o6142003 (by decide) _) ?_
  refine bind_step (leU32_w32 _ h2 _) ?_
  refine bind_step (takeB_append' hpl _) ?_
  refine bind_step (leU32_w32 _ h5 _) ?_
  refine bind_step (takeB_append' h6 _) ?_
  refine bind_step (leU64_w64 _ h7 _) ?_
  refine bind_step (leU64_w64 _ h9 _) ?_
  refine bind_step (leU64_w64 _ h10 _) ?_
  refine bind_step (leU64_w64 _ h11 _) ?_
  refine bind_step (leU64_w64 _ h12 _) ?_
  refine bind_step (leU32_w32 _ h13 _) ?_
  refine bind_step (leU32_w32 8 (by decide) _) ?_
  refine bind_step (leU32_w32 _ h14 _) ?_
  refine bind_step (leU32_w32 _ h15 _) ?_
  refine bind_step (leU32_w32 _ h16 _) ?_
  refine bind_step (leU32_w32 _ h17 _) ?_
  refine bind_step (leU32_w32 _ h18 _) ?_
  refine bind_step (leU32_w32 _ h19 _) ?_
  refine bind_step (leU32_w32 _ h20 _) ?_
  refine bind_step (leU32_w32 _ h21 _) ?_
  refine bind_step (leU32_w32 _ hv0 _) ?_
  refine bind_step (leU32_w32 _ hv1 _) ?_
  refine bind_step (leU32_w32 _ hv2 _) ?_
  refine bind_step hdirty ?_
  simp only [f1, f2, hname]

/-- C02 (cache), full characterisation: everything but the dirty root reads back; the dirty root is dropped
below version 2 and, from version 2 on, a missing one reads back as root 0. -/
theorem cache_superblock_readback (crc : Bytes → UInt32) (d : Disk) (sb : Cache.Superblock) (h : sb.FitsWeak) :
    ∃ d', Cache.writeSuperblock crc d sb = some d' ∧
      Cache.readSuperblock crc d' 0 =
        some { sb with dirty_root := if sb.version < 2 then none else some (sb.dirty_root.getD 0) } ∧
      (∀ i, i ≠ 0 → d' i = d i) ∧ Thin.readSuperblock crc d' 0 = none ∧ Era.readSuperblock crc d' 0 = none := by
  have h3 := h.2.2.1.1
  have h4 := h.2.2.2.1.1
  have h6 := h.2.2.2.2.2.1
  obtain ⟨v0, v1, v2, hpv⟩ : ∃ a b c, sb.policy_version = [a, b, c] := by
    generalize sb.policy_version = pv at h4
    match pv, h4 with
    | [a, b, c], _ => exact ⟨a, b, c, rfl⟩
  have hlen := cache_packFields_length sb v0 v1 v2 h3 h6
  obtain ⟨w, d', hw, hwr, hd0, hty, hoth⟩ := writeSb_shape crc .cacheSuperblock (by decide) d
    (Cache.packFields sb v0 v1 v2) (Nat.le_trans hlen (by decide))
  refine ⟨d', ?_, ?_, hoth, readSb_other _ _ _ _ _ _ hty (by decide), readSb_other _ _ _ _ _ _ hty (by decide)⟩
  · rw [← hwr, Cache.writeSuperblock, Cache.packSb, if_pos h3, hpv]
  · unfold Cache.readSuperblock readSb
    rw [if_neg (by simp [hty]), hd0]
    generalize hk : BLOCK_SIZE - 4 - (Cache.packFields sb v0 v1 v2).length = k
    have h4096 : BLOCK_SIZE = 4096 := rfl
    obtain ⟨k', hk'⟩ : ∃ k', k = 8 + k' := ⟨k - 8, by omega⟩
    obtain ⟨rest, hr⟩ := cache_unpack sb h w v0 v1 v2 k' hw hpv
    rw [hk', hr]

/-- C02 (cache). -/
theorem cache_superblock_roundtrip (crc : Bytes → UInt32) (d : Disk) (sb : Cache.Superblock) (h : sb.Fits) :
    ∃ d', Cache.writeSuperblock crc d sb = some d' ∧ Cache.readSuperblock crc d' 0 = some sb ∧
      (∀ i, i ≠ 0 → d' i = d i) ∧ Thin.readSuperblock crc d' 0 = none ∧ Era.readSuperblock crc d' 0 = none := by
  obtain ⟨h1, h2, h3, h4, h5, h6, h7, ⟨h8, h8'⟩, hrest⟩ := h
  obtain ⟨d', a, b, c⟩ := cache_superblock_readback crc d sb ⟨h1, h2, h3, h4, h5, h6, h7, h8', hrest⟩
  refine ⟨d', a, ?_, c⟩
  rw [b]
  congr 1
  cases sb with | mk cs nc blk ver pn pv phs ms mr dirty =>
  simp only at h8
  cases dirty with
  | none => have : ver < 2 := by simpa using h8
            simp [this]
  | some r => have : ¬ ver < 2 := by simpa using h8
              simp [this]

example : Cache.Superblock.Fits ⟨true, false, 0, 2, [115, 109, 113], [2, 0, 0], 4, List.replicate 128 1, 3, some 5,
    6, 0, 0, 0, 128, 1024, 0, 0, 0, 1, 2, 3, 4⟩ := by
  simp [Cache.Superblock.Fits]

/-- A policy name longer than 16 bytes makes the cache writer panic. -/
theorem cache_long_policy_name_panics (crc : Bytes → UInt32) (d : Disk) (sb : Cache.Superblock)
    (h : 16 < sb.policy_name.length) : Cache.writeSuperblock crc d sb = none := by
  unfold Cache.writeSuperblock Cache.packSb
  rw [if_neg (by omega)]; rfl

end Verif
