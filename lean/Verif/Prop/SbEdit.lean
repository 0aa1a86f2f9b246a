import Verif.Model.SbEdit
import Verif.Prop.Superblock

/-!
# C75: editing a superblock in place
-/

namespace Verif.SbEdit

/-! ## Parsers backwards -/

theorem leU_inv {k : Nat} {i r : Bytes} {v : Nat} (h : leU k i = some (v, r)) : i = leBytes k v ++ r ∧ v < 256 ^ k := by
  obtain ⟨b, h1, h2, h3, h4⟩ := leU_eq_some h
  refine ⟨?_, h4⟩
  rw [h2, h3, ← h1, leBytes_leVal]

theorem bind_inv {α β : Type} {x : Option α} {f : α → Option β} {y : β} (h : (x >>= f) = some y) : ∃ a, x = some a ∧ f a = some y := by
  cases x with
  | none => cases h
  | some a => exact ⟨a, rfl, h⟩

theorem readSb_inv {α : Type} {crc : Bytes → UInt32} {t : BT} {unpack : Parser α} {d : Disk} {loc : Nat} {sb : α} (h : readSb crc t unpack d loc = some sb) :
    ∃ rest, unpack (d loc) = some (sb, rest) := by
  unfold readSb at h
  by_cases hm : metadataBlockType crc (d loc) ≠ t
  · rw [if_pos hm] at h; cases h
  · rw [if_neg hm] at h
    cases hu : unpack (d loc) with
    | none => rw [hu] at h; cases h
    | some p => rw [hu] at h; cases h; exact ⟨_, rfl⟩

/-- what the bytes of a thin superblock are, field by field -/
theorem thin_unpack_inv {b rest : Bytes} {sb : Thin.Superblock} (h : Thin.unpackSb b = some (sb, rest)) :
    ∃ csum flags uuid magic mbs, b = w32 csum ++ (w32 flags ++ (w64 sb.block ++ (uuid ++ (w64 magic ++
      (w32 sb.version ++ (w32 sb.time ++ (w64 sb.transaction_id ++ (w64 sb.metadata_snap ++ (sb.data_sm_root ++
      (sb.metadata_sm_root ++ (w64 sb.mapping_root ++ (w64 sb.details_root ++ (w32 sb.data_block_size ++ (w32 mbs ++
      (w64 sb.nr_metadata_blocks ++ rest))))))))))))))) ∧ uuid.length = 16 ∧ sb.Fits ∧ sb.needs_check = ((flags &&& 1) != 0) := by
  unfold Thin.unpackSb at h
  obtain ⟨⟨csum, i0⟩, a0, h⟩ := bind_inv h
  obtain ⟨⟨flags, i1⟩, a1, h⟩ := bind_inv h
  obtain ⟨⟨block, i2⟩, a2, h⟩ := bind_inv h
  obtain ⟨⟨uuid, i3⟩, a3, h⟩ := bind_inv h
  obtain ⟨⟨magic, i4⟩, a4, h⟩ := bind_inv h
  obtain ⟨⟨version, i5⟩, a5, h⟩ := bind_inv h
  obtain ⟨⟨time, i6⟩, a6, h⟩ := bind_inv h
  obtain ⟨⟨tid, i7⟩, a7, h⟩ := bind_inv h
  obtain ⟨⟨snap, i8⟩, a8, h⟩ := bind_inv h
  obtain ⟨⟨dsm, i9⟩, a9, h⟩ := bind_inv h
  obtain ⟨⟨msm, i10⟩, a10, h⟩ := bind_inv h
  obtain ⟨⟨mr, i11⟩, a11, h⟩ := bind_inv h
  obtain ⟨⟨dr, i12⟩, a12, h⟩ := bind_inv h
  obtain ⟨⟨dbs, i13⟩, a13, h⟩ := bind_inv h
  obtain ⟨⟨mbs, i14⟩, a14, h⟩ := bind_inv h
  obtain ⟨⟨nmb, i15⟩, a15, h⟩ := bind_inv h
  cases h
  obtain ⟨e0, _⟩ := leU_inv a0
  obtain ⟨e1, _⟩ := leU_inv a1
  obtain ⟨e2, l2⟩ := leU_inv a2
  obtain ⟨e3, l3⟩ := takeB_eq_some a3
  obtain ⟨e4, _⟩ := leU_inv a4
  obtain ⟨e5, l5⟩ := leU_inv a5
  obtain ⟨e6, l6⟩ := leU_inv a6
  obtain ⟨e7, l7⟩ := leU_inv a7
  obtain ⟨e8, l8⟩ := leU_inv a8
  obtain ⟨e9, l9⟩ := takeB_eq_some a9
  obtain ⟨e10, l10⟩ := takeB_eq_some a10
  obtain ⟨e11, l11⟩ := leU_inv a11
  obtain ⟨e12, l12⟩ := leU_inv a12
  obtain ⟨e13, l13⟩ := leU_inv a13
  obtain ⟨e14, _⟩ := leU_inv a14
  obtain ⟨e15, l15⟩ := leU_inv a15
  refine ⟨csum, flags, uuid, magic, mbs, ?_, l3, ⟨l2, l5, l6, l7, l8, l9, l10, l11, l12, l13, l15⟩, rfl⟩
  rw [e0, e1, e2, e3, e4, e5, e6, e7, e8, e9, e10, e11, e12, e13, e14, e15]

/-- the same for a cache superblock -/
theorem cache_unpack_inv {b rest : Bytes} {sb : Cache.Superblock} (h : Cache.unpackSb b = some (sb, rest)) :
    ∃ csum flags uuid magic name mbs v0 v1 v2 tail, b = w32 csum ++ (w32 flags ++ (w64 sb.block ++ (uuid ++ (w64 magic ++
      (w32 sb.version ++ (name ++ (w32 sb.policy_hint_size ++ (sb.metadata_sm_root ++ (w64 sb.mapping_root ++ (w64 sb.hint_root ++
      (w64 sb.discard_root ++ (w64 sb.discard_block_size ++ (w64 sb.discard_nr_blocks ++ (w32 sb.data_block_size ++ (w32 mbs ++
      (w32 sb.cache_blocks ++ (w32 sb.compat_flags ++ (w32 sb.compat_ro_flags ++ (w32 sb.incompat_flags ++ (w32 sb.read_hits ++
      (w32 sb.read_misses ++ (w32 sb.write_hits ++ (w32 sb.write_misses ++ (w32 v0 ++ (w32 v1 ++ (w32 v2 ++ tail)))))))))))))))))))))))))) ∧
      uuid.length = 16 ∧ name.length = 16 ∧ sb.Fits ∧ sb.clean_shutdown = ((flags &&& 1) != 0) ∧ sb.needs_check = ((flags &&& 2) != 0) ∧
      sb.policy_name = name.takeWhile (· != 0) ∧ sb.policy_version = [v0, v1, v2] ∧
      (∀ r, sb.dirty_root = some r → ∃ t, tail = w64 r ++ t) := by
  unfold Cache.unpackSb at h
  obtain ⟨⟨csum, i0⟩, a0, h⟩ := bind_inv h
  obtain ⟨⟨flags, i1⟩, a1, h⟩ := bind_inv h
  obtain ⟨⟨block, i2⟩, a2, h⟩ := bind_inv h
  obtain ⟨⟨uuid, i3⟩, a3, h⟩ := bind_inv h
  obtain ⟨⟨magic, i4⟩, a4, h⟩ := bind_inv h
  obtain ⟨⟨version, i5⟩, a5, h⟩ := bind_inv h
  obtain ⟨⟨name, i6⟩, a6, h⟩ := bind_inv h
  obtain ⟨⟨hs, i7⟩, a7, h⟩ := bind_inv h
  obtain ⟨⟨msm, i8⟩, a8, h⟩ := bind_inv h
  obtain ⟨⟨mr, i9⟩, a9, h⟩ := bind_inv h
  obtain ⟨⟨hr, i10⟩, a10, h⟩ := bind_inv h
  obtain ⟨⟨dr, i11⟩, a11, h⟩ := bind_inv h
  obtain ⟨⟨dbs, i12⟩, a12, h⟩ := bind_inv h
  obtain ⟨⟨dnb, i13⟩, a13, h⟩ := bind_inv h
  obtain ⟨⟨bs, i14⟩, a14, h⟩ := bind_inv h
  obtain ⟨⟨mbs, i15⟩, a15, h⟩ := bind_inv h
  obtain ⟨⟨cb, i16⟩, a16, h⟩ := bind_inv h
  obtain ⟨⟨cf, i17⟩, a17, h⟩ := bind_inv h
  obtain ⟨⟨crf, i18⟩, a18, h⟩ := bind_inv h
  obtain ⟨⟨icf, i19⟩, a19, h⟩ := bind_inv h
  obtain ⟨⟨rh, i20⟩, a20, h⟩ := bind_inv h
  obtain ⟨⟨rm, i21⟩, a21, h⟩ := bind_inv h
  obtain ⟨⟨wh, i22⟩, a22, h⟩ := bind_inv h
  obtain ⟨⟨wm, i23⟩, a23, h⟩ := bind_inv h
  obtain ⟨⟨v0, i24⟩, a24, h⟩ := bind_inv h
  obtain ⟨⟨v1, i25⟩, a25, h⟩ := bind_inv h
  obtain ⟨⟨v2, i26⟩, a26, h⟩ := bind_inv h
  obtain ⟨⟨dirty, i27⟩, a27, h⟩ := bind_inv h
  cases h
  obtain ⟨e0, _⟩ := leU_inv a0
  obtain ⟨e1, _⟩ := leU_inv a1
  obtain ⟨e2, l2⟩ := leU_inv a2
  obtain ⟨e3, l3⟩ := takeB_eq_some a3
  obtain ⟨e4, _⟩ := leU_inv a4
  obtain ⟨e5, l5⟩ := leU_inv a5
  obtain ⟨e6, l6⟩ := takeB_eq_some a6
  obtain ⟨e7, l7⟩ := leU_inv a7
  obtain ⟨e8, l8⟩ := takeB_eq_some a8
  obtain ⟨e9, l9⟩ := leU_inv a9
  obtain ⟨e10, l10⟩ := leU_inv a10
  obtain ⟨e11, l11⟩ := leU_inv a11
  obtain ⟨e12, l12⟩ := leU_inv a12
  obtain ⟨e13, l13⟩ := leU_inv a13
  obtain ⟨e14, l14⟩ := leU_inv a14
  obtain ⟨e15, l15⟩ := leU_inv a15
  obtain ⟨e16, l16⟩ := leU_inv a16
  obtain ⟨e17, l17⟩ := leU_inv a17
  obtain ⟨e18, l18⟩ := leU_inv a18
  obtain ⟨e19, l19⟩ := leU_inv a19
  obtain ⟨e20, l20⟩ := leU_inv a20
  obtain ⟨e21, l21⟩ := leU_inv a21
  obtain ⟨e22, l22⟩ := leU_inv a22
  obtain ⟨e23, l23⟩ := leU_inv a23
  obtain ⟨e24, l24⟩ := leU_inv a24
  obtain ⟨e25, l25⟩ := leU_inv a25
  obtain ⟨e26, l26⟩ := leU_inv a26
  have hd : (dirty.isSome ↔ 2 ≤ version) ∧ (∀ r, dirty = some r → r < 2 ^ 64 ∧ ∃ t, i26 = w64 r ++ t) := by
    unfold Cache.readDirty at a27
    by_cases hv : version ≥ 2
    · rw [if_pos hv] at a27
      cases hl : leU64 i26 with
      | none => rw [hl] at a27; cases a27
      | some p =>
        obtain ⟨r, m⟩ := p
        rw [hl] at a27
        cases a27
        obtain ⟨e27, l27⟩ := leU_inv hl
        refine ⟨⟨fun _ => hv, fun _ => rfl⟩, fun r' hr' => ?_⟩
        cases hr'
        exact ⟨l27, _, e27⟩
    · rw [if_neg hv] at a27
      cases a27
      exact ⟨⟨fun h => (Bool.noConfusion h), fun h => absurd h hv⟩, fun r' hr' => (by cases hr')⟩
  have hn : (name.takeWhile (· != 0)).length ≤ 16 := by
    have := (List.takeWhile_prefix (l := name) (fun c : UInt8 => c != 0)).length_le
    omega
  have hz : ∀ c ∈ name.takeWhile (· != 0), c ≠ 0 := by
    intro c hc e
    have := List.all_takeWhile (l := name) (p := fun c : UInt8 => c != 0)
    have h2 := List.all_eq_true.mp this c hc
    rw [e] at h2
    exact absurd h2 (by decide)
  refine ⟨csum, flags, uuid, magic, name, mbs, v0, v1, v2, i26, ?_, l3, l6, ⟨l2, l5, ⟨hn, hz⟩, ⟨rfl, ?_⟩, l7, l8, l9,
    ⟨hd.1, fun r hr => (hd.2 r hr).1⟩, l10, l11, l12, l13, l14, l16, l17, l18, l19, l20, l21, l22, l23⟩, rfl, rfl, rfl, rfl, fun r hr => (hd.2 r hr).2⟩
  · rw [e0, e1, e2, e3, e4, e5, e6, e7, e8, e9, e10, e11, e12, e13, e14, e15, e16, e17, e18, e19, e20, e21, e22, e23, e24, e25, e26]
  · intro v hv
    simp only [List.mem_cons, List.not_mem_nil, or_false] at hv
    rcases hv with rfl | rfl | rfl
    · exact l24
    · exact l25
    · exact l26

/-! ## What is on block 0 afterwards -/

/-- Two blocks made of fields of the same sizes: the bytes of one field, which begins at `o` and ends at `o'`, and of the rest. -/
theorem field_at {x y A B : Bytes} {o i : Nat} (o' : Nat) (h0 : o ≤ i) (hx : o + x.length = o') (hy : o + y.length = o')
    (hs : i < o' → x = y) (hr : o' ≤ i → A[i - o']? = B[i - o']?) : (x ++ A)[i - o]? = (y ++ B)[i - o]? := by
  by_cases h : i < o'
  · rw [List.getElem?_append_left (by omega), List.getElem?_append_left (by omega), hs h]
  · rw [List.getElem?_append_right (by omega), List.getElem?_append_right (by omega)]
    have e1 : i - o - x.length = i - o' := by omega
    have e2 : i - o - y.length = i - o' := by omega
    rw [e1, e2]
    exact hr (by omega)

/-- the block the thin superblock writer writes -/
theorem thin_written (crc : Bytes → UInt32) (d d' : Disk) (sb : Thin.Superblock) (h : sb.Fits) (hw : Thin.writeSuperblock crc d sb = some d') :
    ∃ w, d' 0 = w32 w ++ ((Thin.packSb sb).drop 4 ++ List.replicate 3744 0) := by
  obtain ⟨nc, blk, ver, time, tid, snap, ds, ms, mr, dr, dbs, nmb⟩ := sb
  obtain ⟨h1, h2, h3, h4, h5, h6, h7, h8, h9, h10, h11⟩ := h
  simp only at h6 h7
  obtain ⟨w, d'', _, hwr, hd0, _⟩ := writeSb_shape crc .thinSuperblock (by decide) d
    (Thin.packSb ⟨nc, blk, ver, time, tid, snap, ds, ms, mr, dr, dbs, nmb⟩ |>.drop 4) (by simp [Thin.packSb, h6, h7, BLOCK_SIZE])
  have e : Thin.writeSuperblock crc d ⟨nc, blk, ver, time, tid, snap, ds, ms, mr, dr, dbs, nmb⟩ = some d'' := by rw [← hwr]; rfl
  rw [hw] at e
  cases e
  refine ⟨w, ?_⟩
  rw [hd0]
  congr 3
  simp [Thin.packSb, h6, h7, BLOCK_SIZE]

theorem thin_packSb_drop (sb : Thin.Superblock) : (Thin.packSb sb).drop 4 = w32 (if sb.needs_check then 1 else 0) ++ (w64 sb.block ++ (List.replicate 16 0 ++ (w64 27022010 ++
  (w32 sb.version ++ (w32 sb.time ++ (w64 sb.transaction_id ++ (w64 sb.metadata_snap ++ (sb.data_sm_root ++
  (sb.metadata_sm_root ++ (w64 sb.mapping_root ++ (w64 sb.details_root ++ (w32 sb.data_block_size ++ (w32 8 ++
  w64 sb.nr_metadata_blocks))))))))))))) := by
  unfold Thin.packSb
  rw [List.drop_append_of_le_length (by simp), List.drop_of_length_le (by simp), List.nil_append]

/-- Reading a thin superblock and writing it back with other values for some fields keeps every byte of the other fields. -/
theorem thin_rewrite_bytes {crc : Bytes → UInt32} {d d' : Disk} {sb sb' : Thin.Superblock} (hr : Thin.readSuperblock crc d 0 = some sb) (hf : sb'.Fits)
    (hw : Thin.writeSuperblock crc d sb' = some d') {i : Nat} (hi : 8 ≤ i ∧ i < 352) (hu : ¬ (16 ≤ i ∧ i < 40)) (hm : ¬ (340 ≤ i ∧ i < 344))
    (f1 : i < 16 → sb'.block = sb.block) (f2 : 40 ≤ i ∧ i < 44 → sb'.version = sb.version) (f3 : 44 ≤ i ∧ i < 48 → sb'.time = sb.time)
    (f4 : 48 ≤ i ∧ i < 56 → sb'.transaction_id = sb.transaction_id) (f5 : 56 ≤ i ∧ i < 64 → sb'.metadata_snap = sb.metadata_snap)
    (f6 : 64 ≤ i ∧ i < 192 → sb'.data_sm_root = sb.data_sm_root) (f7 : 192 ≤ i ∧ i < 320 → sb'.metadata_sm_root = sb.metadata_sm_root)
    (f8 : 320 ≤ i ∧ i < 328 → sb'.mapping_root = sb.mapping_root) (f9 : 328 ≤ i ∧ i < 336 → sb'.details_root = sb.details_root)
    (f10 : 336 ≤ i ∧ i < 340 → sb'.data_block_size = sb.data_block_size) (f11 : 344 ≤ i → sb'.nr_metadata_blocks = sb.nr_metadata_blocks) :
    (d' 0)[i]? = (d 0)[i]? := by
  have n4 : ¬ i < 4 := by clear f1 f2 f3 f4 f5 f6 f7 f8 f9 f10 f11; omega
  have n8 : ¬ i < 8 := by clear f1 f2 f3 f4 f5 f6 f7 f8 f9 f10 f11; omega
  have n32 : 16 ≤ i → ¬ i < 32 := by clear f1 f2 f3 f4 f5 f6 f7 f8 f9 f10 f11; omega
  have n40 : 32 ≤ i → ¬ i < 40 := by clear f1 f2 f3 f4 f5 f6 f7 f8 f9 f10 f11; omega
  have n344 : 340 ≤ i → ¬ i < 344 := by clear f1 f2 f3 f4 f5 f6 f7 f8 f9 f10 f11; omega
  have n352 : ¬ 352 ≤ i := by clear f1 f2 f3 f4 f5 f6 f7 f8 f9 f10 f11; omega
  obtain ⟨rest, hup⟩ := readSb_inv hr
  obtain ⟨csum, flags, uuid, magic, mbs, hb, hul, hfit, _⟩ := thin_unpack_inv hup
  obtain ⟨w, hd⟩ := thin_written crc d d' sb' hf hw
  obtain ⟨_, _, _, _, _, s6, s7, _⟩ := hf
  obtain ⟨_, _, _, _, _, t6, t7, _⟩ := hfit
  rw [hd, hb, thin_packSb_drop]
  clear hd hb hup hr hw
  generalize List.replicate 3744 (0 : UInt8) = zs
  simp only [List.append_assoc]
  show _[i - 0]? = _[i - 0]?
  have h0 : 0 ≤ i := Nat.zero_le i
  refine field_at 4 h0 (by simp) (by simp) (fun h => absurd h n4) (fun h4 => ?_)
  refine field_at 8 h4 (by simp) (by simp) (fun h => absurd h n8) (fun h8 => ?_)
  refine field_at 16 h8 (by simp) (by simp) (fun h => by rw [f1 h]) (fun h16 => ?_)
  refine field_at 32 h16 (by simp) (by rw [hul]) (fun h => absurd h (n32 h16)) (fun h32 => ?_)
  refine field_at 40 h32 (by simp) (by simp) (fun h => absurd h (n40 h32)) (fun h40 => ?_)
  refine field_at 44 h40 (by simp) (by simp) (fun h => by rw [f2 ⟨h40, h⟩]) (fun h44 => ?_)
  refine field_at 48 h44 (by simp) (by simp) (fun h => by rw [f3 ⟨h44, h⟩]) (fun h48 => ?_)
  refine field_at 56 h48 (by simp) (by simp) (fun h => by rw [f4 ⟨h48, h⟩]) (fun h56 => ?_)
  refine field_at 64 h56 (by simp) (by simp) (fun h => by rw [f5 ⟨h56, h⟩]) (fun h64 => ?_)
  refine field_at 192 h64 (by rw [s6]) (by rw [t6]) (fun h => by rw [f6 ⟨h64, h⟩]) (fun h192 => ?_)
  refine field_at 320 h192 (by rw [s7]) (by rw [t7]) (fun h => by rw [f7 ⟨h192, h⟩]) (fun h320 => ?_)
  refine field_at 328 h320 (by simp) (by simp) (fun h => by rw [f8 ⟨h320, h⟩]) (fun h328 => ?_)
  refine field_at 336 h328 (by simp) (by simp) (fun h => by rw [f9 ⟨h328, h⟩]) (fun h336 => ?_)
  refine field_at 340 h336 (by simp) (by simp) (fun h => by rw [f10 ⟨h336, h⟩]) (fun h340 => ?_)
  refine field_at 344 h340 (by simp) (by simp) (fun h => absurd h (n344 h340)) (fun h344 => ?_)
  refine field_at 352 h344 (by simp) (by simp) (fun h => by rw [f11 h344]) (fun h352 => absurd h352 n352)

theorem field_at' {x y A B : Bytes} {o i : Nat} (o' : Nat) (h0 : o ≤ i) (hx : o + x.length = o') (hy : o + y.length = o')
    (hs : i < o' → x[i - o]? = y[i - o]?) (hr : o' ≤ i → A[i - o']? = B[i - o']?) : (x ++ A)[i - o]? = (y ++ B)[i - o]? := by
  by_cases h : i < o'
  · rw [List.getElem?_append_left (by omega), List.getElem?_append_left (by omega), hs h]
  · rw [List.getElem?_append_right (by omega), List.getElem?_append_right (by omega)]
    have e1 : i - o - x.length = i - o' := by omega
    have e2 : i - o - y.length = i - o' := by omega
    rw [e1, e2]
    exact hr (by omega)

/-- a name up to its first zero byte, padded with zeroes: the same up to and including that byte -/
theorem name_same : ∀ (name : Bytes) (n k : Nat), k < name.length → name.length ≤ (name.takeWhile (· != 0)).length + n →
    (∀ j, j < k → name[j]? ≠ some 0) → (name.takeWhile (· != 0) ++ List.replicate n 0)[k]? = name[k]? := by
  intro name
  induction name with
  | nil => intro n k hk; exact absurd hk (Nat.not_lt_zero _)
  | cons c name ih =>
    intro n k hk hn hz
    by_cases hc : c = 0
    · subst hc
      have e : ((0 : UInt8) :: name).takeWhile (· != 0) = [] := List.takeWhile_cons_of_neg (by decide)
      rw [e] at hn ⊢
      cases k with
      | zero =>
        simp only [List.length_cons, List.length_nil] at hn
        obtain ⟨m, rfl⟩ : ∃ m, n = m + 1 := ⟨n - 1, by omega⟩
        rfl
      | succ k => exact absurd rfl (hz 0 (by omega))
    · have e : (c :: name).takeWhile (· != 0) = c :: name.takeWhile (· != 0) := List.takeWhile_cons_of_pos (by simpa using hc)
      rw [e] at hn ⊢
      cases k with
      | zero => rfl
      | succ k =>
        rw [List.cons_append, List.getElem?_cons_succ, List.getElem?_cons_succ]
        simp only [List.length_cons] at hn hk
        exact ih n k (by omega) (by omega) (fun j hj => hz (j + 1) (by omega))

/-- the block the cache superblock writer writes -/
theorem cache_written (crc : Bytes → UInt32) (d d' : Disk) (sb : Cache.Superblock) (h : sb.FitsWeak) {v0 v1 v2 : Nat} (hv : sb.policy_version = [v0, v1, v2])
    (hw : Cache.writeSuperblock crc d sb = some d') : ∃ w n, d' 0 = w32 w ++ (Cache.packFields sb v0 v1 v2 ++ List.replicate (8 + n) 0) := by
  have h3 := h.2.2.1.1
  have h6 := h.2.2.2.2.2.1
  have hlen := cache_packFields_length sb v0 v1 v2 h3 h6
  obtain ⟨w, d'', _, hwr, hd0, _⟩ := writeSb_shape crc .cacheSuperblock (by decide) d (Cache.packFields sb v0 v1 v2) (Nat.le_trans hlen (by decide))
  have e : Cache.writeSuperblock crc d sb = some d'' := by rw [← hwr, Cache.writeSuperblock, Cache.packSb, if_pos h3, hv]
  rw [hw] at e
  cases e
  have h4096 : BLOCK_SIZE = 4096 := rfl
  refine ⟨w, BLOCK_SIZE - 4 - (Cache.packFields sb v0 v1 v2).length - 8, ?_⟩
  rw [hd0]
  congr 3
  omega

/-- Reading a cache superblock and writing it back with other values for some fields keeps every byte of the other fields; of the name of the policy, those up to
the first zero byte. -/
theorem cache_rewrite_bytes {crc : Bytes → UInt32} {d d' : Disk} {sb sb' : Cache.Superblock} (hr : Cache.readSuperblock crc d 0 = some sb) (hf : sb'.FitsWeak)
    (hw : Cache.writeSuperblock crc d sb' = some d') {i : Nat} (hi : 8 ≤ i ∧ i < 292) (hu : ¬ (16 ≤ i ∧ i < 40)) (hm : ¬ (236 ≤ i ∧ i < 240))
    (fn : 44 ≤ i ∧ i < 60 → ∀ j, 44 ≤ j → j < i → (d 0)[j]? ≠ some 0) (fp : sb'.policy_name = sb.policy_name) (fv : sb'.policy_version = sb.policy_version)
    (fd : 284 ≤ i → sb'.dirty_root = sb.dirty_root ∧ sb.dirty_root.isSome)
    (f1 : i < 16 → sb'.block = sb.block)
    (f2 : 40 ≤ i ∧ i < 44 → sb'.version = sb.version)
    (f4 : 60 ≤ i ∧ i < 64 → sb'.policy_hint_size = sb.policy_hint_size)
    (f5 : 64 ≤ i ∧ i < 192 → sb'.metadata_sm_root = sb.metadata_sm_root)
    (f6 : 192 ≤ i ∧ i < 200 → sb'.mapping_root = sb.mapping_root)
    (f7 : 200 ≤ i ∧ i < 208 → sb'.hint_root = sb.hint_root)
    (f8 : 208 ≤ i ∧ i < 216 → sb'.discard_root = sb.discard_root)
    (f9 : 216 ≤ i ∧ i < 224 → sb'.discard_block_size = sb.discard_block_size)
    (f10 : 224 ≤ i ∧ i < 232 → sb'.discard_nr_blocks = sb.discard_nr_blocks)
    (f11 : 232 ≤ i ∧ i < 236 → sb'.data_block_size = sb.data_block_size)
    (f12 : 240 ≤ i ∧ i < 244 → sb'.cache_blocks = sb.cache_blocks)
    (f13 : 244 ≤ i ∧ i < 248 → sb'.compat_flags = sb.compat_flags)
    (f14 : 248 ≤ i ∧ i < 252 → sb'.compat_ro_flags = sb.compat_ro_flags)
    (f15 : 252 ≤ i ∧ i < 256 → sb'.incompat_flags = sb.incompat_flags)
    (f16 : 256 ≤ i ∧ i < 260 → sb'.read_hits = sb.read_hits)
    (f17 : 260 ≤ i ∧ i < 264 → sb'.read_misses = sb.read_misses)
    (f18 : 264 ≤ i ∧ i < 268 → sb'.write_hits = sb.write_hits)
    (f19 : 268 ≤ i ∧ i < 272 → sb'.write_misses = sb.write_misses) :
    (d' 0)[i]? = (d 0)[i]? := by
  have n4 : ¬ i < 4 := by clear f1 f2 f4 f5 f6 f7 f8 f9 f10 f11 f12 f13 f14 f15 f16 f17 f18 f19; omega
  have n8 : ¬ i < 8 := by clear f1 f2 f4 f5 f6 f7 f8 f9 f10 f11 f12 f13 f14 f15 f16 f17 f18 f19; omega
  have n32 : 16 ≤ i → ¬ i < 32 := by clear f1 f2 f4 f5 f6 f7 f8 f9 f10 f11 f12 f13 f14 f15 f16 f17 f18 f19; omega
  have n40 : 32 ≤ i → ¬ i < 40 := by clear f1 f2 f4 f5 f6 f7 f8 f9 f10 f11 f12 f13 f14 f15 f16 f17 f18 f19; omega
  have n240 : 236 ≤ i → ¬ i < 240 := by clear f1 f2 f4 f5 f6 f7 f8 f9 f10 f11 f12 f13 f14 f15 f16 f17 f18 f19; omega
  have n292 : ¬ 292 ≤ i := by clear f1 f2 f4 f5 f6 f7 f8 f9 f10 f11 f12 f13 f14 f15 f16 f17 f18 f19; omega
  obtain ⟨rest, hup⟩ := readSb_inv hr
  obtain ⟨csum, flags, uuid, magic, name, mbs, v0, v1, v2, tail, hb, hul, hnl, hfit, _, _, hpn, hpv, hdr⟩ := cache_unpack_inv hup
  obtain ⟨w, n, hd⟩ := cache_written crc d d' sb' hf (fv.trans hpv) hw
  have hname : 44 ≤ i ∧ i < 60 → (sb'.policy_name ++ List.replicate (16 - sb'.policy_name.length) 0)[i - 44]? = name[i - 44]? := by
    intro h
    have hz := fn h
    clear f1 f2 f4 f5 f6 f7 f8 f9 f10 f11 f12 f13 f14 f15 f16 f17 f18 f19
    rw [fp, hpn]
    refine name_same name _ _ (by omega) (by omega) (fun j hj => ?_)
    intro e
    refine hz (44 + j) (by omega) (by omega) ?_
    have e2 := hb
    rw [← List.append_assoc, ← List.append_assoc, ← List.append_assoc, ← List.append_assoc, ← List.append_assoc] at e2
    rw [e2, List.getElem?_append_right (by simp [hul])]
    simp only [List.length_append, leBytes_length, hul]
    rw [List.getElem?_append_left (by omega)]
    rw [show 44 + j - (4 + 4 + 8 + 16 + 8 + 4) = j from by omega]
    exact e
  have hpl : (sb'.policy_name ++ List.replicate (16 - sb'.policy_name.length) (0 : UInt8)).length = 16 := by
    have := hf.2.2.1.1
    rw [List.length_append, List.length_replicate]
    clear f1 f2 f4 f5 f6 f7 f8 f9 f10 f11 f12 f13 f14 f15 f16 f17 f18 f19
    omega
  obtain ⟨_, _, _, _, _, s6, _⟩ := hf
  obtain ⟨_, _, _, _, _, t6, _⟩ := hfit
  rw [hd, hb]
  unfold Cache.packFields
  clear hd hb hup hr hw hpn
  generalize sb'.policy_name ++ List.replicate (16 - sb'.policy_name.length) (0 : UInt8) = pname at *
  simp only [List.append_assoc]
  show _[i - 0]? = _[i - 0]?
  have h0 : 0 ≤ i := Nat.zero_le i
  refine field_at 4 h0 (by simp) (by simp) (fun h => absurd h n4) (fun h4 => ?_)
  refine field_at 8 h4 (by simp) (by simp) (fun h => absurd h n8) (fun h8 => ?_)
  refine field_at 16 h8 (by simp) (by simp) (fun h => by rw [f1 h]) (fun h16 => ?_)
  refine field_at 32 h16 (by simp) (by rw [hul]) (fun h => absurd h (n32 h16)) (fun h32 => ?_)
  refine field_at 40 h32 (by simp) (by simp) (fun h => absurd h (n40 h32)) (fun h40 => ?_)
  refine field_at 44 h40 (by simp) (by simp) (fun h => by rw [f2 ⟨h40, h⟩]) (fun h44 => ?_)
  refine field_at' 60 h44 (by rw [hpl]) (by rw [hnl]) (fun h => hname ⟨h44, h⟩) (fun h60 => ?_)
  refine field_at 64 h60 (by simp) (by simp) (fun h => by rw [f4 ⟨h60, h⟩]) (fun h64 => ?_)
  refine field_at 192 h64 (by rw [s6]) (by rw [t6]) (fun h => by rw [f5 ⟨h64, h⟩]) (fun h192 => ?_)
  refine field_at 200 h192 (by simp) (by simp) (fun h => by rw [f6 ⟨h192, h⟩]) (fun h200 => ?_)
  refine field_at 208 h200 (by simp) (by simp) (fun h => by rw [f7 ⟨h200, h⟩]) (fun h208 => ?_)
  refine field_at 216 h208 (by simp) (by simp) (fun h => by rw [f8 ⟨h208, h⟩]) (fun h216 => ?_)
  refine field_at 224 h216 (by simp) (by simp) (fun h => by rw [f9 ⟨h216, h⟩]) (fun h224 => ?_)
  refine field_at 232 h224 (by simp) (by simp) (fun h => by rw [f10 ⟨h224, h⟩]) (fun h232 => ?_)
  refine field_at 236 h232 (by simp) (by simp) (fun h => by rw [f11 ⟨h232, h⟩]) (fun h236 => ?_)
  refine field_at 240 h236 (by simp) (by simp) (fun h => absurd h (n240 h236)) (fun h240 => ?_)
  refine field_at 244 h240 (by simp) (by simp) (fun h => by rw [f12 ⟨h240, h⟩]) (fun h244 => ?_)
  refine field_at 248 h244 (by simp) (by simp) (fun h => by rw [f13 ⟨h244, h⟩]) (fun h248 => ?_)
  refine field_at 252 h248 (by simp) (by simp) (fun h => by rw [f14 ⟨h248, h⟩]) (fun h252 => ?_)
  refine field_at 256 h252 (by simp) (by simp) (fun h => by rw [f15 ⟨h252, h⟩]) (fun h256 => ?_)
  refine field_at 260 h256 (by simp) (by simp) (fun h => by rw [f16 ⟨h256, h⟩]) (fun h260 => ?_)
  refine field_at 264 h260 (by simp) (by simp) (fun h => by rw [f17 ⟨h260, h⟩]) (fun h264 => ?_)
  refine field_at 268 h264 (by simp) (by simp) (fun h => by rw [f18 ⟨h264, h⟩]) (fun h268 => ?_)
  refine field_at 272 h268 (by simp) (by simp) (fun h => by rw [f19 ⟨h268, h⟩]) (fun h272 => ?_)
  refine field_at 276 h272 (by simp) (by simp) (fun _ => rfl) (fun h276 => ?_)
  refine field_at 280 h276 (by simp) (by simp) (fun _ => rfl) (fun h280 => ?_)
  refine field_at 284 h280 (by simp) (by simp) (fun _ => rfl) (fun h284 => ?_)
  obtain ⟨d1, d2⟩ := fd h284
  obtain ⟨r, hr⟩ := Option.isSome_iff_exists.mp d2
  obtain ⟨t, ht⟩ := hdr r hr
  rw [d1, hr, ht]
  exact field_at 292 h284 (by simp [Cache.packDirty]) (by simp) (fun _ => rfl) (fun h => absurd h n292)

end Verif.SbEdit
