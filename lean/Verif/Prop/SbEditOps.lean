import Verif.Prop.SbEdit

/-!
# C75: editing a superblock in place: the operations
-/

namespace Verif.SbEdit

/-! ## Specification -/

/-- the bytes of a thin superblock that hold: the block number, version, time, transaction id, metadata snapshot, both space map roots, both tree roots and the
data block size; and the number of metadata blocks -/
def ThinKept (i : Nat) : Prop := (8 ≤ i ∧ i < 16) ∨ (40 ≤ i ∧ i < 340) ∨ (344 ≤ i ∧ i < 352)

/-- the bytes of a cache superblock that hold: the block number, version; hint size, space map root, all roots, discards and the data block size; the number of
cache blocks, feature flags, statistics and policy version -/
def CacheKept (i : Nat) : Prop := (8 ≤ i ∧ i < 16) ∨ (40 ≤ i ∧ i < 44) ∨ (60 ≤ i ∧ i < 236) ∨ (240 ≤ i ∧ i < 284)

/-! ## Thin pools -/

theorem thin_fits {crc : Bytes → UInt32} {d : Disk} {loc : Nat} {sb : Thin.Superblock} (h : Thin.readSuperblock crc d loc = some sb) : sb.Fits := by
  obtain ⟨rest, hup⟩ := readSb_inv h
  obtain ⟨_, _, _, _, _, _, _, hf, _⟩ := thin_unpack_inv hup
  exact hf

/-- Setting `needs_check`: the flag is as asked for, every other field of the superblock is the same, byte by byte, and no other block is touched. -/
theorem thinSetNeedsCheck_spec {crc : Bytes → UInt32} {d : Disk} {sb : Thin.Superblock} (h : Thin.readSuperblock crc d 0 = some sb) (flag : Bool) :
    ∃ d', thinSetNeedsCheck crc d flag = some d' ∧ Thin.readSuperblock crc d' 0 = some { sb with needs_check := flag } ∧ (∀ b, b ≠ 0 → d' b = d b) ∧
      (∀ i, ThinKept i → (d' 0)[i]? = (d 0)[i]?) := by
  have hf0 := thin_fits h
  have hf : ({ sb with needs_check := flag } : Thin.Superblock).Fits := hf0
  obtain ⟨d', h1, h2, h3, _⟩ := thin_superblock_roundtrip crc d _ hf
  refine ⟨d', ?_, h2, h3, fun i hi => ?_⟩
  · unfold thinSetNeedsCheck; rw [h]; exact h1
  · unfold ThinKept at hi
    exact thin_rewrite_bytes h hf h1 (by omega) (by omega) (by omega) (fun _ => rfl) (fun _ => rfl) (fun _ => rfl) (fun _ => rfl) (fun _ => rfl) (fun _ => rfl)
      (fun _ => rfl) (fun _ => rfl) (fun _ => rfl) (fun _ => rfl) (fun _ => rfl)

/-- Without a superblock it fails, and so does every other operation. -/
theorem no_superblock {crc : Bytes → UInt32} {d : Disk} (h : Thin.readSuperblock crc d 0 = none) (flag : Bool) (o : Overrides) :
    thinSetNeedsCheck crc d flag = none ∧ damageOverride crc d o = none := by
  unfold thinSetNeedsCheck damageOverride
  rw [h]
  exact ⟨rfl, rfl⟩

theorem smroot_some {b : Bytes} (h : 32 ≤ b.length) : ∃ p, SMRoot.unpack b = some p := by
  unfold SMRoot.unpack
  have e : ∀ (i : Bytes), 8 ≤ i.length → leU64 i = some (leVal (i.take 8), i.drop 8) := fun i hi => by rw [leU64, leU_eq, if_pos hi]
  refine ⟨_, bind_step (e b (by omega)) (bind_step (e _ ?_) (bind_step (e _ ?_) (bind_step (e _ ?_) rfl)))⟩
  all_goals simp only [List.length_drop]; omega

/-- Overriding roots: the given ones are as asked for, the others and all other fields are the same, byte by byte, and no other block is touched. -/
theorem damageOverride_spec {crc : Bytes → UInt32} {d : Disk} {sb : Thin.Superblock} (h : Thin.readSuperblock crc d 0 = some sb) (o : Overrides)
    (o1 : ∀ v, o.mapping_root = some v → v < 2 ^ 64) (o2 : ∀ v, o.details_root = some v → v < 2 ^ 64) (o3 : ∀ v, o.metadata_snapshot = some v → v < 2 ^ 64) :
    ∃ d', damageOverride crc d o = some d' ∧
      Thin.readSuperblock crc d' 0 = some { sb with mapping_root := o.mapping_root.getD sb.mapping_root, details_root := o.details_root.getD sb.details_root,
                                                    metadata_snap := o.metadata_snapshot.getD sb.metadata_snap } ∧
      (∀ b, b ≠ 0 → d' b = d b) ∧
      (∀ i, ThinKept i → (320 ≤ i ∧ i < 328 → o.mapping_root = none) → (328 ≤ i ∧ i < 336 → o.details_root = none) →
        (56 ≤ i ∧ i < 64 → o.metadata_snapshot = none) → (d' 0)[i]? = (d 0)[i]?) := by
  obtain ⟨f1, f2, f3, f4, f5, f6, f7, f8, f9, f10, f11⟩ := thin_fits h
  have e : overridden o sb = { sb with mapping_root := o.mapping_root.getD sb.mapping_root, details_root := o.details_root.getD sb.details_root,
                                       metadata_snap := o.metadata_snapshot.getD sb.metadata_snap } := by
    unfold overridden
    cases o.mapping_root <;> cases o.details_root <;> cases o.metadata_snapshot <;> rfl
  have hf : (overridden o sb).Fits := by
    rw [e]
    refine ⟨f1, f2, f3, f4, ?_, f6, f7, ?_, ?_, f10, f11⟩
    · cases hh : o.metadata_snapshot with
      | none => exact f5
      | some v => exact o3 v hh
    · cases hh : o.mapping_root with
      | none => exact f8
      | some v => exact o1 v hh
    · cases hh : o.details_root with
      | none => exact f9
      | some v => exact o2 v hh
  obtain ⟨d', h1, h2, h3, _⟩ := thin_superblock_roundtrip crc d _ hf
  refine ⟨d', ?_, by rw [← e]; exact h2, h3, fun i hi g1 g2 g3 => ?_⟩
  · unfold damageOverride
    rw [h]
    obtain ⟨p, hp⟩ := smroot_some (b := sb.metadata_sm_root) (by omega)
    refine bind_step rfl (bind_step hp ?_)
    unfold overrideSuperblock
    rw [h]
    exact h1
  · have k1 : 8 ≤ i ∧ i < 352 := by unfold ThinKept at hi; clear g1 g2 g3 o1 o2 o3; omega
    have k2 : ¬ (16 ≤ i ∧ i < 40) := by unfold ThinKept at hi; clear g1 g2 g3 o1 o2 o3; omega
    have k3 : ¬ (340 ≤ i ∧ i < 344) := by unfold ThinKept at hi; clear g1 g2 g3 o1 o2 o3; omega
    refine thin_rewrite_bytes h hf h1 k1 k2 k3 (fun _ => rfl) (fun _ => rfl) (fun _ => rfl) (fun _ => rfl) ?_ (fun _ => rfl) (fun _ => rfl) ?_ ?_ (fun _ => rfl)
      (fun _ => rfl)
    · intro hh; unfold overridden; rw [g3 hh]
    · intro hh; unfold overridden; rw [g1 hh]
    · intro hh; unfold overridden; rw [g2 hh]

/-! ## Caches -/

theorem cache_fits {crc : Bytes → UInt32} {d : Disk} {loc : Nat} {sb : Cache.Superblock} (h : Cache.readSuperblock crc d loc = some sb) : sb.Fits := by
  obtain ⟨rest, hup⟩ := readSb_inv h
  obtain ⟨_, _, _, _, _, _, _, _, _, _, _, _, _, hf, _⟩ := cache_unpack_inv hup
  exact hf

theorem cache_weak {sb : Cache.Superblock} (h : sb.Fits) : sb.FitsWeak := by
  obtain ⟨h1, h2, h3, h4, h5, h6, h7, ⟨_, h8⟩, hr⟩ := h
  exact ⟨h1, h2, h3, h4, h5, h6, h7, h8, hr⟩

theorem cache_flags_bytes {crc : Bytes → UInt32} {d d' : Disk} {sb : Cache.Superblock} (h : Cache.readSuperblock crc d 0 = some sb) (nc cs : Bool)
    (hw : Cache.writeSuperblock crc d { sb with needs_check := nc, clean_shutdown := cs } = some d') (i : Nat) (hi : CacheKept i ∨ (284 ≤ i ∧ i < 292 ∧ 2 ≤ sb.version)
      ∨ (44 ≤ i ∧ i < 60 ∧ ∀ j, 44 ≤ j → j < i → (d 0)[j]? ≠ some 0)) : (d' 0)[i]? = (d 0)[i]? := by
  have hf := cache_fits h
  have hw' : ({ sb with needs_check := nc, clean_shutdown := cs } : Cache.Superblock).FitsWeak := cache_weak hf
  have hd := hf.2.2.2.2.2.2.2.1.1
  unfold CacheKept at hi
  refine cache_rewrite_bytes h hw' hw (by omega) (by omega) (by omega) ?_ rfl rfl ?_ (fun _ => rfl) (fun _ => rfl) (fun _ => rfl) (fun _ => rfl) (fun _ => rfl)
    (fun _ => rfl) (fun _ => rfl) (fun _ => rfl) (fun _ => rfl) (fun _ => rfl) (fun _ => rfl) (fun _ => rfl) (fun _ => rfl) (fun _ => rfl) (fun _ => rfl)
    (fun _ => rfl) (fun _ => rfl) (fun _ => rfl)
  · intro hh
    rcases hi with hi | hi | hi
    · omega
    · omega
    · exact hi.2.2
  · intro hh
    refine ⟨rfl, hd.mpr ?_⟩
    rcases hi with hi | hi | hi
    · omega
    · exact hi.2.2
    · omega

/-- Setting `needs_check` or `clean_shutdown` of a cache: the flag is as asked for, every other field of the superblock is the same, byte by byte (the name of
the policy up to its end), and no other block is touched. -/
theorem cacheSetFlags_spec {crc : Bytes → UInt32} {d : Disk} {sb : Cache.Superblock} (h : Cache.readSuperblock crc d 0 = some sb) (flag : Bool) :
    (∃ d', cacheSetNeedsCheck crc d flag = some d' ∧ Cache.readSuperblock crc d' 0 = some { sb with needs_check := flag } ∧ (∀ b, b ≠ 0 → d' b = d b) ∧
      (∀ i, (CacheKept i ∨ (284 ≤ i ∧ i < 292 ∧ 2 ≤ sb.version) ∨ (44 ≤ i ∧ i < 60 ∧ ∀ j, 44 ≤ j → j < i → (d 0)[j]? ≠ some 0)) → (d' 0)[i]? = (d 0)[i]?)) ∧
    (∃ d', cacheSetCleanShutdown crc d flag = some d' ∧ Cache.readSuperblock crc d' 0 = some { sb with clean_shutdown := flag } ∧ (∀ b, b ≠ 0 → d' b = d b) ∧
      (∀ i, (CacheKept i ∨ (284 ≤ i ∧ i < 292 ∧ 2 ≤ sb.version) ∨ (44 ≤ i ∧ i < 60 ∧ ∀ j, 44 ≤ j → j < i → (d 0)[j]? ≠ some 0)) → (d' 0)[i]? = (d 0)[i]?)) := by
  have hf := cache_fits h
  constructor
  · have hf' : ({ sb with needs_check := flag } : Cache.Superblock).Fits := hf
    obtain ⟨d', h1, h2, h3, _⟩ := cache_superblock_roundtrip crc d _ hf'
    refine ⟨d', ?_, h2, h3, fun i hi => cache_flags_bytes h flag sb.clean_shutdown h1 i hi⟩
    unfold cacheSetNeedsCheck; rw [h]; exact h1
  · have hf' : ({ sb with clean_shutdown := flag } : Cache.Superblock).Fits := hf
    obtain ⟨d', h1, h2, h3, _⟩ := cache_superblock_roundtrip crc d _ hf'
    refine ⟨d', ?_, h2, h3, fun i hi => cache_flags_bytes h sb.needs_check flag h1 i hi⟩
    unfold cacheSetCleanShutdown; rw [h]; exact h1

/-- Setting the version: nothing is converted.  Below version 2 there is no root of the dirty bits any more; from version 2 on there is the old one, or zero if there
was none. -/
theorem cacheSetVersion_spec {crc : Bytes → UInt32} {d : Disk} {sb : Cache.Superblock} (h : Cache.readSuperblock crc d 0 = some sb) (v : Nat) (hv : v < 2 ^ 32) :
    ∃ d', cacheSetVersion crc d v = some d' ∧ (∀ b, b ≠ 0 → d' b = d b) ∧
      Cache.readSuperblock crc d' 0 = some { sb with version := v, dirty_root := if v < 2 then none else some (sb.dirty_root.getD 0) } := by
  obtain ⟨h1, _, hrest⟩ := cache_weak (cache_fits h)
  have hf' : ({ sb with version := v } : Cache.Superblock).FitsWeak := ⟨h1, hv, hrest⟩
  obtain ⟨d', a1, a2, a3, _⟩ := cache_superblock_readback crc d _ hf'
  refine ⟨d', ?_, a3, a2⟩
  unfold cacheSetVersion; rw [h]; exact a1

/-- From 2 to 1 and back: the root of the dirty bits is lost. -/
theorem cacheSetVersion_lost {crc : Bytes → UInt32} {d : Disk} {sb : Cache.Superblock} (h : Cache.readSuperblock crc d 0 = some sb) :
    ∃ d1 d2, cacheSetVersion crc d 1 = some d1 ∧ cacheSetVersion crc d1 2 = some d2 ∧
      Cache.readSuperblock crc d2 0 = some { sb with version := 2, dirty_root := some 0 } := by
  obtain ⟨d1, a1, _, a3⟩ := cacheSetVersion_spec h 1 (by decide)
  obtain ⟨d2, b1, _, b3⟩ := cacheSetVersion_spec a3 2 (by decide)
  exact ⟨d1, d2, a1, b1, b3⟩

/-! ## What is lost -/

/-- The identifier of the pool and everything after the known fields (the feature flags among it) are zero afterwards, whatever they were. -/
theorem thin_lost {crc : Bytes → UInt32} {d d' : Disk} {flag : Bool} (h : thinSetNeedsCheck crc d flag = some d') :
    (∀ i, 16 ≤ i → i < 32 → (d' 0)[i]? = some 0) ∧ (∀ i, 352 ≤ i → i < 4096 → (d' 0)[i]? = some 0) := by
  unfold thinSetNeedsCheck at h
  obtain ⟨sb, hr, hw⟩ := bind_inv h
  have hf0 := thin_fits hr
  have hf : ({ sb with needs_check := flag } : Thin.Superblock).Fits := hf0
  obtain ⟨w, hd⟩ := thin_written crc d d' _ hf hw
  have hl : ((Thin.packSb { sb with needs_check := flag }).drop 4).length = 348 := by
    rw [thin_packSb_drop]
    obtain ⟨_, _, _, _, _, s6, s7, _⟩ := thin_fits hr
    simp only [List.length_append, leBytes_length, List.length_replicate, s6, s7]
  constructor
  · intro i h1 h2
    rw [hd, thin_packSb_drop, List.getElem?_append_right (by simp; omega), List.append_assoc, List.getElem?_append_right (by simp; omega), List.append_assoc,
      List.getElem?_append_right (by simp; omega), List.append_assoc, List.getElem?_append_left (by simp; omega)]
    simp only [leBytes_length]
    rw [List.getElem?_replicate, if_pos (by omega)]
  · intro i h1 h2
    rw [hd, List.getElem?_append_right (by simp; omega), List.getElem?_append_right (by simp only [leBytes_length, hl]; omega), List.getElem?_replicate, if_pos]
    simp only [leBytes_length, hl]
    omega

theorem leU_rep (k n : Nat) (c : UInt8) (h : k ≤ n) : leU k (List.replicate n c) = some (leVal (List.replicate k c), List.replicate (n - k) c) := by
  rw [leU_eq, if_pos (by rw [List.length_replicate]; exact h), List.take_replicate, List.drop_replicate, Nat.min_eq_left h]

theorem takeB_rep (k n : Nat) (c : UInt8) (h : k ≤ n) : takeB k (List.replicate n c) = some (List.replicate k c, List.replicate (n - k) c) := by
  rw [takeB, if_pos (by rw [List.length_replicate]; exact h), List.take_replicate, List.drop_replicate, Nat.min_eq_left h]

theorem bind_ex {α β : Type} {x : Option α} {f : α → Option β} {a : α} (h : x = some a) (h' : ∃ y, f a = some y) : ∃ y, (x >>= f) = some y := by
  subst h; exact h'

/-- There is a pool with an identifier and feature flags, and they are lost. -/
theorem thin_uuid_refuted (crc : Bytes → UInt32) : ∃ d sb d', Thin.readSuperblock crc d 0 = some sb ∧ thinSetNeedsCheck crc d true = some d' ∧
    ((d 0)[16]? = some 1 ∧ (d' 0)[16]? = some 0) ∧ ((d 0)[360]? = some 1 ∧ (d' 0)[360]? = some 0) := by
  obtain ⟨w, d, hw, _, hd0, hty, _⟩ := writeSb_shape crc .thinSuperblock (by decide) (fun _ => []) (List.replicate 4092 1) (by rw [List.length_replicate]; decide)
  rw [List.length_replicate, show BLOCK_SIZE - 4 - 4092 = 0 from rfl, List.replicate_zero, List.append_nil] at hd0
  have hu : ∃ sb, Thin.unpackSb (w32 w ++ List.replicate 4092 1) = some sb := by
    unfold Thin.unpackSb
    refine bind_ex (leU32_w32 _ hw _) ?_
    refine bind_ex (leU_rep 4 4092 1 (by decide)) ?_
    refine bind_ex (leU_rep 8 4088 1 (by decide)) ?_
    refine bind_ex (takeB_rep 16 4080 1 (by decide)) ?_
    refine bind_ex (leU_rep 8 4064 1 (by decide)) ?_
    refine bind_ex (leU_rep 4 4056 1 (by decide)) ?_
    refine bind_ex (leU_rep 4 4052 1 (by decide)) ?_
    refine bind_ex (leU_rep 8 4048 1 (by decide)) ?_
    refine bind_ex (leU_rep 8 4040 1 (by decide)) ?_
    refine bind_ex (takeB_rep 128 4032 1 (by decide)) ?_
    refine bind_ex (takeB_rep 128 3904 1 (by decide)) ?_
    refine bind_ex (leU_rep 8 3776 1 (by decide)) ?_
    refine bind_ex (leU_rep 8 3768 1 (by decide)) ?_
    refine bind_ex (leU_rep 4 3760 1 (by decide)) ?_
    refine bind_ex (leU_rep 4 3756 1 (by decide)) ?_
    refine bind_ex (leU_rep 8 3752 1 (by decide)) ?_
    exact ⟨_, rfl⟩
  obtain ⟨⟨sb, rest⟩, hu⟩ := hu
  have hr : Thin.readSuperblock crc d 0 = some sb := by
    unfold Thin.readSuperblock readSb
    rw [if_neg (by simp [hty]), hd0, hu]
  obtain ⟨d', h1, _⟩ := thinSetNeedsCheck_spec hr true
  obtain ⟨l1, l2⟩ := thin_lost h1
  have g : ∀ i, 4 ≤ i → i < 4096 → (d 0)[i]? = some 1 := by
    intro i a b
    rw [hd0, List.getElem?_append_right (by simpa using a), List.getElem?_replicate, if_pos]
    simp only [leBytes_length]; omega
  exact ⟨d, sb, d', hr, h1, ⟨g 16 (by decide) (by decide), l1 16 (by decide) (by decide)⟩, ⟨g 360 (by decide) (by decide), l2 360 (by decide) (by decide)⟩⟩

/-! ## Non-vacuity -/

/-- there is a pool -/
example (crc : Bytes → UInt32) : ∃ d sb, Thin.readSuperblock crc d 0 = some sb ∧ sb.mapping_root = 3 ∧ sb.needs_check = false := by
  obtain ⟨d', _, h, _⟩ := thin_superblock_roundtrip crc (fun _ => []) ⟨false, 0, 2, 7, 2 ^ 64 - 1, 9, List.replicate 128 1, List.replicate 128 2, 3, 4, 128, 16384⟩
    (by simp [Thin.Superblock.Fits])
  exact ⟨d', _, h, rfl, rfl⟩

/-- there is a cache of version 2 -/
example (crc : Bytes → UInt32) : ∃ d sb, Cache.readSuperblock crc d 0 = some sb ∧ sb.version = 2 ∧ sb.dirty_root = some 5 := by
  obtain ⟨d', _, h, _⟩ := cache_superblock_roundtrip crc (fun _ => []) ⟨true, false, 0, 2, [115, 109, 113], [2, 0, 0], 4, List.replicate 128 1, 3, some 5,
    6, 0, 0, 0, 128, 1024, 0, 0, 0, 1, 2, 3, 4⟩ (by simp [Cache.Superblock.Fits])
  exact ⟨d', _, h, rfl, rfl⟩

end Verif.SbEdit
