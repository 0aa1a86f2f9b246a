import Verif.Prop.Superblock
import Verif.Prop.Records

/-!
# C52: fields are stored where the kernel expects them

The metadata written by the tools is read by the kernel drivers (`dm-thin-metadata.c`, `dm-cache-metadata.c`,
`dm-era-target.c`, `dm-btree-internal.h`, `dm-array.c`), which find each field at a fixed offset.  A writer and a reader of
this code base that agree with each other, but not on the offsets, would pass every round trip.  The offsets below are those
of the kernel structures.  (For B-tree nodes and array blocks the offsets are part of C04, C17: see `Acceptable`, `ValueAt`.)
-/

namespace Verif.Layout

/-- the `k` bytes at offset `off` -/
def bytesAt (b : Bytes) (off k : Nat) : Bytes := (b.drop off).take k

/-- the little endian number in the `k` bytes at offset `off` -/
def field (b : Bytes) (off k : Nat) : Nat := leVal (bytesAt b off k)

theorem bytesAt_skip {a b : Bytes} {off k n : Nat} (ha : a.length = n) (h : n ≤ off) :
    bytesAt (a ++ b) off k = bytesAt b (off - n) k := by
  subst ha
  simp only [bytesAt]
  rw [List.drop_append, List.drop_of_length_le h, List.nil_append]

theorem bytesAt_here {a b : Bytes} {k : Nat} (ha : a.length = k) : bytesAt (a ++ b) 0 k = a := by
  subst ha; simp [bytesAt]

theorem field_skip {a b : Bytes} {off k n : Nat} (ha : a.length = n) (h : n ≤ off) :
    field (a ++ b) off k = field b (off - n) k := by simp only [field, bytesAt_skip ha h]

theorem field_w32 {v : Nat} (h : v < 2 ^ 32) (b : Bytes) : field (w32 v ++ b) 0 4 = v := by
  rw [field, bytesAt_here (by simp), leVal_leBytes]; exact Nat.mod_eq_of_lt h

theorem field_w64 {v : Nat} (h : v < 2 ^ 64) (b : Bytes) : field (w64 v ++ b) 0 8 = v := by
  rw [field, bytesAt_here (by simp), leVal_leBytes]; exact Nat.mod_eq_of_lt h

/-- skip a 32-bit field -/
theorem skip32 (v : Nat) (b : Bytes) (off k : Nat) (h : 4 ≤ off) : field (w32 v ++ b) off k = field b (off - 4) k :=
  field_skip (by simp) h
/-- skip a 64-bit field -/
theorem skip64 (v : Nat) (b : Bytes) (off k : Nat) (h : 8 ≤ off) : field (w64 v ++ b) off k = field b (off - 8) k :=
  field_skip (by simp) h
/-- skip zero bytes -/
theorem skip0 (n : Nat) (b : Bytes) (off k : Nat) (h : n ≤ off) :
    field (List.replicate n 0 ++ b) off k = field b (off - n) k := field_skip (by simp) h
theorem bskip32 (v : Nat) (b : Bytes) (off k : Nat) (h : 4 ≤ off) : bytesAt (w32 v ++ b) off k = bytesAt b (off - 4) k :=
  bytesAt_skip (by simp) h
theorem bskip64 (v : Nat) (b : Bytes) (off k : Nat) (h : 8 ≤ off) : bytesAt (w64 v ++ b) off k = bytesAt b (off - 8) k :=
  bytesAt_skip (by simp) h
theorem bskip0 (n : Nat) (b : Bytes) (off k : Nat) (h : n ≤ off) :
    bytesAt (List.replicate n 0 ++ b) off k = bytesAt b (off - n) k := bytesAt_skip (by simp) h

/-- `struct thin_disk_superblock` of the kernel -/
structure ThinLayout (b : Bytes) (sb : Thin.Superblock) : Prop where
  flags : field b 4 4 = if sb.needs_check then 1 else 0
  blocknr : field b 8 8 = sb.block
  magic : field b 32 8 = 27022010
  version : field b 40 4 = sb.version
  time : field b 44 4 = sb.time
  trans_id : field b 48 8 = sb.transaction_id
  held_root : field b 56 8 = sb.metadata_snap
  data_sm : bytesAt b 64 128 = sb.data_sm_root
  metadata_sm : bytesAt b 192 128 = sb.metadata_sm_root
  mapping : field b 320 8 = sb.mapping_root
  details : field b 328 8 = sb.details_root
  data_block_size : field b 336 4 = sb.data_block_size
  metadata_block_size : field b 340 4 = 8
  nr_metadata : field b 344 8 = sb.nr_metadata_blocks

/-- C52 (thin). -/
theorem thin_superblock_layout (crc : Bytes → UInt32) (d d' : Disk) (sb : Thin.Superblock) (h : sb.Fits)
    (hw : Thin.writeSuperblock crc d sb = some d') : (d' 0).length = 4096 ∧ ThinLayout (d' 0) sb := by
  obtain ⟨nc, blk, ver, t, ti, sn, ds, ms, mr, dr, dbs, nm⟩ := sb
  obtain ⟨h1, h2, h3, h4, h5, h6, h7, h8, h9, h10, h11⟩ := h
  simp only at h1 h2 h3 h4 h5 h6 h7 h8 h9 h10 h11
  obtain ⟨w, d2, hwl, hwr, hd0, -, -⟩ := writeSb_shape crc .thinSuperblock (by decide) d
    (Thin.packSb ⟨nc, blk, ver, t, ti, sn, ds, ms, mr, dr, dbs, nm⟩ |>.drop 4)
    (by simp [Thin.packSb, h6, h7, BLOCK_SIZE])
  have he : d2 = d' := by
    have : some d2 = some d' := by rw [← hwr, ← hw]; rfl
    exact Option.some.inj this
  subst he
  have hf : (if nc = true then 1 else 0) < 2 ^ 32 := by cases nc <;> decide
  have hlen : (d2 0).length = 4096 := by
    rw [hd0]; simp only [Thin.packSb]
    rw [List.drop_append_of_le_length (by simp), List.drop_of_length_le (by simp), List.nil_append]
    simp only [List.length_append, leBytes_length, List.length_replicate, h6, h7, BLOCK_SIZE]
  refine ⟨hlen, ?_⟩
  simp only [Thin.packSb] at hd0
  rw [List.drop_append_of_le_length (by simp), List.drop_of_length_le (by simp), List.nil_append] at hd0
  simp only [List.append_assoc] at hd0
  generalize List.replicate (BLOCK_SIZE - 4 - _) (0 : UInt8) = pad at hd0
  have sds : ∀ b off k, 128 ≤ off → field (ds ++ b) off k = field b (off - 128) k := fun b off k h => field_skip h6 h
  have sms : ∀ b off k, 128 ≤ off → field (ms ++ b) off k = field b (off - 128) k := fun b off k h => field_skip h7 h
  have bds : ∀ b off k, 128 ≤ off → bytesAt (ds ++ b) off k = bytesAt b (off - 128) k := fun b off k h => bytesAt_skip h6 h
  constructor <;> rw [hd0]
  all_goals
    simp (discharger := decide) only [skip32, skip64, skip0, sds, sms, bds, bskip32, bskip64, bskip0, Nat.reduceSub]
  · exact field_w32 hf _
  · exact field_w64 h1 _
  · exact field_w64 (by decide) _
  · exact field_w32 h2 _
  · exact field_w32 h3 _
  · exact field_w64 h4 _
  · exact field_w64 h5 _
  · exact bytesAt_here h6
  · exact bytesAt_here h7
  · exact field_w64 h8 _
  · exact field_w64 h9 _
  · exact field_w32 h10 _
  · exact field_w32 (by decide) _
  · exact field_w64 h11 _

example : ∃ (d' : Disk), Thin.writeSuperblock (fun _ => 0) (fun _ => [])
    ⟨true, 0, 2, 7, 2 ^ 64 - 1, 9, List.replicate 128 1, List.replicate 128 2, 3, 4, 128, 16384⟩ = some d' :=
  (thin_superblock_roundtrip _ _ _ (by simp [Thin.Superblock.Fits])).imp fun _ h => h.1

/-- `struct era_superblock`'s on-disk form in the kernel -/
structure EraLayout (b : Bytes) (sb : Era.Superblock) : Prop where
  flags : field b 4 4 = if sb.clean_shutdown then 1 else 0
  blocknr : field b 8 8 = sb.block
  magic : field b 32 8 = 2126579579
  version : field b 40 4 = sb.version
  metadata_sm : bytesAt b 44 128 = sb.metadata_sm_root
  data_block_size : field b 172 4 = sb.data_block_size
  metadata_block_size : field b 176 4 = 8
  nr_blocks : field b 180 4 = sb.nr_blocks
  current_era : field b 184 4 = sb.current_era
  current_nr_bits : field b 188 4 = sb.current_writeset.nr_bits
  current_root : field b 192 8 = sb.current_writeset.root
  writeset_tree : field b 200 8 = sb.writeset_tree_root
  era_array : field b 208 8 = sb.era_array_root
  metadata_snap : field b 216 8 = sb.metadata_snap

/-- C52 (era). -/
theorem era_superblock_layout (crc : Bytes → UInt32) (d d' : Disk) (sb : Era.Superblock) (h : sb.Fits)
    (hw : Era.writeSuperblock crc d sb = some d') : (d' 0).length = 4096 ∧ EraLayout (d' 0) sb := by
  obtain ⟨cs, blk, ver, ms, dbs, nb, ce, ⟨wn, wr⟩, wt, ea, snap⟩ := sb
  obtain ⟨h1, h2, h3, h4, h5, h6, h7, h8, h9, h10, h11⟩ := h
  simp only at h1 h2 h3 h4 h5 h6 h7 h8 h9 h10 h11
  obtain ⟨w, d2, hwl, hwr, hd0, -, -⟩ := writeSb_shape crc .eraSuperblock (by decide) d
    (Era.packSb ⟨cs, blk, ver, ms, dbs, nb, ce, ⟨wn, wr⟩, wt, ea, snap⟩ |>.drop 4)
    (by simp [Era.packSb, h3, BLOCK_SIZE])
  have he : d2 = d' := by
    have : some d2 = some d' := by rw [← hwr, ← hw]; rfl
    exact Option.some.inj this
  subst he
  have hf : (if cs = true then 1 else 0) < 2 ^ 32 := by cases cs <;> decide
  have hlen : (d2 0).length = 4096 := by
    rw [hd0]; simp only [Era.packSb]
    rw [List.drop_append_of_le_length (by simp), List.drop_of_length_le (by simp), List.nil_append]
    simp only [List.length_append, leBytes_length, List.length_replicate, h3, BLOCK_SIZE]
  refine ⟨hlen, ?_⟩
  simp only [Era.packSb] at hd0
  rw [List.drop_append_of_le_length (by simp), List.drop_of_length_le (by simp), List.nil_append] at hd0
  simp only [List.append_assoc] at hd0
  generalize List.replicate (BLOCK_SIZE - 4 - _) (0 : UInt8) = pad at hd0
  have sms : ∀ b off k, 128 ≤ off → field (ms ++ b) off k = field b (off - 128) k := fun b off k h => field_skip h3 h
  constructor <;> rw [hd0]
  all_goals
    simp (discharger := decide) only [skip32, skip64, skip0, sms, bskip32, bskip64, bskip0, Nat.reduceSub]
  · exact field_w32 hf _
  · exact field_w64 h1 _
  · exact field_w64 (by decide) _
  · exact field_w32 h2 _
  · exact bytesAt_here h3
  · exact field_w32 h4 _
  · exact field_w32 (by decide) _
  · exact field_w32 h5 _
  · exact field_w32 h6 _
  · exact field_w32 h7 _
  · exact field_w64 h8 _
  · exact field_w64 h9 _
  · exact field_w64 h10 _
  · exact field_w64 h11 _

example : ∃ (d' : Disk), Era.writeSuperblock (fun _ => 0) (fun _ => [])
    ⟨true, 0, 1, List.replicate 128 1, 128, 1000, 7, ⟨1000, 12⟩, 3, 4, 0⟩ = some d' :=
  (era_superblock_roundtrip _ _ _ (by simp [Era.Superblock.Fits])).imp fun _ h => h.1

/-- `struct cache_disk_superblock` of the kernel; bit 0 of the flags is `CLEAN_SHUTDOWN`, bit 1 `NEEDS_CHECK` -/
structure CacheLayout (b : Bytes) (sb : Cache.Superblock) : Prop where
  clean : (field b 4 4).testBit 0 = sb.clean_shutdown
  needs_check : (field b 4 4).testBit 1 = sb.needs_check
  blocknr : field b 8 8 = sb.block
  magic : field b 32 8 = 1623043
  version : field b 40 4 = sb.version
  policy_name : bytesAt b 44 16 = sb.policy_name ++ List.replicate (16 - sb.policy_name.length) 0
  policy_hint_size : field b 60 4 = sb.policy_hint_size
  metadata_sm : bytesAt b 64 128 = sb.metadata_sm_root
  mapping : field b 192 8 = sb.mapping_root
  hint : field b 200 8 = sb.hint_root
  discard : field b 208 8 = sb.discard_root
  discard_block_size : field b 216 8 = sb.discard_block_size
  discard_nr_blocks : field b 224 8 = sb.discard_nr_blocks
  data_block_size : field b 232 4 = sb.data_block_size
  metadata_block_size : field b 236 4 = 8
  cache_blocks : field b 240 4 = sb.cache_blocks
  compat : field b 244 4 = sb.compat_flags
  compat_ro : field b 248 4 = sb.compat_ro_flags
  incompat : field b 252 4 = sb.incompat_flags
  read_hits : field b 256 4 = sb.read_hits
  read_misses : field b 260 4 = sb.read_misses
  write_hits : field b 264 4 = sb.write_hits
  write_misses : field b 268 4 = sb.write_misses
  policy_version : sb.policy_version = [field b 272 4, field b 276 4, field b 280 4]
  dirty : ∀ r, sb.dirty_root = some r → field b 284 8 = r

/-- C52 (cache). -/
theorem cache_superblock_layout (crc : Bytes → UInt32) (d d' : Disk) (sb : Cache.Superblock) (h : sb.FitsWeak)
    (hw : Cache.writeSuperblock crc d sb = some d') : (d' 0).length = 4096 ∧ CacheLayout (d' 0) sb := by
  obtain ⟨cs, nc, blk, ver, pn, pv, phs, ms, mr, dirty, hr, dr, dbs, dnb, bs, cb, f1, f2, f3, rh, rm, wh, wm⟩ := sb
  obtain ⟨h1, h2, ⟨h3, -⟩, ⟨h4, h4'⟩, h5, h6, h7, h8, h9, h10, h11, h12, h13, h14, h15, h16, h17, h18, h19, h20, h21⟩ := h
  simp only at *
  obtain ⟨v0, v1, v2, rfl⟩ : ∃ a b c, pv = [a, b, c] := by
    match pv, h4 with
    | [a, b, c], _ => exact ⟨a, b, c, rfl⟩
  have hn : (pn ++ List.replicate (16 - pn.length) (0 : UInt8)).length = 16 := by
    rw [List.length_append, List.length_replicate]; omega
  have hlen := cache_packFields_length
    ⟨cs, nc, blk, ver, pn, [v0, v1, v2], phs, ms, mr, dirty, hr, dr, dbs, dnb, bs, cb, f1, f2, f3, rh, rm, wh, wm⟩ v0 v1 v2 h3 h6
  obtain ⟨w, d2, hwl, hwr, hd0, -, -⟩ := writeSb_shape crc .cacheSuperblock (by decide) d
    (Cache.packFields _ v0 v1 v2) (Nat.le_trans hlen (by decide))
  have he : d2 = d' := by
    have : some d2 = some d' := by
      rw [← hwr, ← hw, Cache.writeSuperblock, Cache.packSb, if_pos h3]
    exact Option.some.inj this
  subst he
  have hlen2 : (d2 0).length = 4096 := by
    rw [hd0, List.length_append, List.length_append, List.length_replicate, leBytes_length]
    have : BLOCK_SIZE = 4096 := rfl
    omega
  refine ⟨hlen2, ?_⟩
  simp only [Cache.packFields] at hd0
  generalize List.replicate (BLOCK_SIZE - 4 - _) (0 : UInt8) = pad at hd0
  generalize hnm : pn ++ List.replicate (16 - pn.length) (0 : UInt8) = name at hd0 hn
  simp only [List.append_assoc] at hd0
  have hf := flag2 cs nc
  have sms : ∀ b off k, 128 ≤ off → field (ms ++ b) off k = field b (off - 128) k := fun b off k h => field_skip h6 h
  have sn : ∀ b off k, 16 ≤ off → field (name ++ b) off k = field b (off - 16) k := fun b off k h => field_skip hn h
  have bn : ∀ b off k, 16 ≤ off → bytesAt (name ++ b) off k = bytesAt b (off - 16) k := fun b off k h => bytesAt_skip hn h
  have hfl : field (d2 0) 4 4 = (if cs = true then 1 else 0) ||| (if nc = true then 2 else 0) := by
    rw [hd0]; simp (discharger := decide) only [skip32, Nat.reduceSub]; exact field_w32 hf.2.2 _
  have hv : ∀ v ∈ [v0, v1, v2], v < 2 ^ 32 := h4'
  constructor
  · rw [hfl]; cases cs <;> cases nc <;> rfl
  · rw [hfl]; cases cs <;> cases nc <;> rfl
  all_goals rw [hd0]
  all_goals
    simp (discharger := decide) only [skip32, skip64, skip0, sms, sn, bn, bskip32, bskip64, bskip0, Nat.reduceSub]
  · exact field_w64 h1 _
  · exact field_w64 (by decide) _
  · exact field_w32 h2 _
  · exact (bytesAt_here hn).trans hnm.symm
  · exact field_w32 h5 _
  · exact bytesAt_here h6
  · exact field_w64 h7 _
  · exact field_w64 h9 _
  · exact field_w64 h10 _
  · exact field_w64 h11 _
  · exact field_w64 h12 _
  · exact field_w32 h13 _
  · exact field_w32 (by decide) _
  · exact field_w32 h14 _
  · exact field_w32 h15 _
  · exact field_w32 h16 _
  · exact field_w32 h17 _
  · exact field_w32 h18 _
  · exact field_w32 h19 _
  · exact field_w32 h20 _
  · exact field_w32 h21 _
  · rw [field_w32 (hv v0 (by simp)), field_w32 (hv v1 (by simp)), field_w32 (hv v2 (by simp))]
  · intro r hr
    subst hr
    exact field_w64 (h8 r rfl) _

example : ∃ (d' : Disk), Cache.writeSuperblock (fun _ => 0) (fun _ => [])
    ⟨true, false, 0, 2, [115, 109, 113], [2, 0, 0], 4, List.replicate 128 1, 3, some 5,
    6, 0, 0, 0, 128, 1024, 0, 0, 0, 1, 2, 3, 4⟩ = some d' :=
  (cache_superblock_roundtrip _ _ _ (by simp [Cache.Superblock.Fits])).imp fun _ h => h.1

/-! ### Metadata snapshots -/

/-- C02: the superblock of a metadata snapshot is the one at the location stored in the actual superblock, and there is none
if that location is zero, or if either of the two blocks is damaged (thin). -/
theorem thin_read_snap (crc : Bytes → UInt32) (d : Disk) (s : Thin.Superblock) :
    Thin.readSuperblockSnap crc d = some s ↔
      ∃ a, Thin.readSuperblock crc d 0 = some a ∧ a.metadata_snap ≠ 0 ∧ Thin.readSuperblock crc d a.metadata_snap = some s := by
  unfold Thin.readSuperblockSnap
  cases h : Thin.readSuperblock crc d 0 with
  | none => simp
  | some a =>
    by_cases h0 : a.metadata_snap = 0
    · simp [h0]
    · simp [h0]

/-- the same (era) -/
theorem era_read_snap (crc : Bytes → UInt32) (d : Disk) (s : Era.Superblock) :
    Era.readSuperblockSnap crc d = some s ↔
      ∃ a, Era.readSuperblock crc d 0 = some a ∧ a.metadata_snap ≠ 0 ∧ Era.readSuperblock crc d a.metadata_snap = some s := by
  unfold Era.readSuperblockSnap
  cases h : Era.readSuperblock crc d 0 with
  | none => simp
  | some a =>
    by_cases h0 : a.metadata_snap = 0
    · simp [h0]
    · simp [h0]

end Verif.Layout
