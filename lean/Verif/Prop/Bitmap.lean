import Verif.Model.Bitmap
import Verif.Lemmas.Parse
import Verif.Prop.Checksum
import Verif.Prop.Records

/-!
# C19 (bytes): bitmaps and the metadata index survive being written and read
-/

namespace Verif

/-! ## Words -/

/-- the entries a bitmap can hold: counts 0, 1, 2 and "overflow" -/
def BE.Valid : BE → Prop
  | .small n => n ≤ 2
  | .overflow => True

theorem BE.code_valid {e : BE} (h : e.Valid) : ∃ c, e.code = some c ∧ c < 4 ∧ BE.ofCode c = e := by
  cases e with
  | overflow => exact ⟨3, rfl, by omega, rfl⟩
  | small n =>
    have h : n ≤ 2 := h
    match n, h with
    | 0, _ => exact ⟨0, rfl, by omega, rfl⟩
    | 1, _ => exact ⟨2, rfl, by omega, rfl⟩
    | 2, _ => exact ⟨1, rfl, by omega, rfl⟩

theorem BE.ofCode_valid (c : Nat) : (BE.ofCode c).Valid := by
  match c with
  | 0 => exact Nat.zero_le 2
  | 1 => exact Nat.le_refl 2
  | 2 => exact (by omega : 1 ≤ 2)
  | _ + 3 => trivial

/-- the number whose base-4 digits are the codes of the entries -/
def wordVal : List BE → Nat
  | [] => 0
  | e :: es => e.code.getD 0 + 4 * wordVal es

theorem wordVal_lt {es : List BE} (h : ∀ e ∈ es, e.Valid) : wordVal es < 4 ^ es.length := by
  induction es with
  | nil => simp [wordVal]
  | cons e es ih =>
    obtain ⟨c, hc, hlt, -⟩ := BE.code_valid (h e (by simp))
    have := ih (fun x hx => h x (by simp [hx]))
    simp only [wordVal, hc, Option.getD_some, List.length_cons, Nat.pow_succ]
    omega

/-- the packing loop, from a word that holds `k` entries at its top -/
theorem packEntries_val (es : List BE) (h : ∀ e ∈ es, e.Valid) : ∀ (v k : Nat), v < 4 ^ k → k + es.length ≤ 32 →
    packEntries es (v * 4 ^ (32 - k)) = some ((v + 4 ^ k * wordVal es) * 4 ^ (32 - (k + es.length))) := by
  induction es with
  | nil => intro v k _ _; simp [packEntries, wordVal]
  | cons e es ih =>
    intro v k hv hk
    simp only [List.length_cons] at hk
    obtain ⟨c, hc, hlt, -⟩ := BE.code_valid (h e (by simp))
    have e1 : 32 - k = (31 - k) + 1 := by omega
    have hs : (v * 4 ^ (32 - k)) >>> 2 = v * 4 ^ (31 - k) := by
      rw [Nat.shiftRight_eq_div_pow, e1, Nat.pow_succ, ← Nat.mul_assoc]
      exact Nat.mul_div_cancel _ (by omega)
    have hb : v * 4 ^ (31 - k) < 2 ^ 62 := by
      have : v * 4 ^ (31 - k) < 4 ^ k * 4 ^ (31 - k) := Nat.mul_lt_mul_of_pos_right hv (Nat.pow_pos (by omega))
      rw [← Nat.pow_add, show k + (31 - k) = 31 by omega] at this
      exact this
    have hor : ((v * 4 ^ (32 - k)) >>> 2 ||| (c <<< 62)) = (v + 4 ^ k * c) * 4 ^ (32 - (k + 1)) := by
      rw [hs, Nat.or_comm, Nat.shiftLeft_eq, Nat.mul_comm c, ← Nat.two_pow_add_eq_or_of_lt hb, Nat.add_mul, Nat.add_comm,
        show 32 - (k + 1) = 31 - k by omega]
      congr 1
      rw [Nat.mul_assoc, Nat.mul_comm c, ← Nat.mul_assoc, ← Nat.pow_add, show k + (31 - k) = 31 by omega]
    have hv' : v + 4 ^ k * c < 4 ^ (k + 1) := by
      rw [Nat.pow_succ]
      have : 4 ^ k * c ≤ 4 ^ k * 3 := Nat.mul_le_mul_left _ (by omega)
      omega
    rw [show packEntries (e :: es) (v * 4 ^ (32 - k)) = (e.code >>= fun c => packEntries es (((v * 4 ^ (32 - k)) >>> 2) ||| (c <<< 62))) from rfl,
      hc]
    show packEntries es (((v * 4 ^ (32 - k)) >>> 2) ||| (c <<< 62)) = _
    rw [hor, ih (fun x hx => h x (by simp [hx])) _ (k + 1) hv' (by omega)]
    simp only [wordVal, hc, Option.getD_some, List.length_cons]
    rw [show k + 1 + es.length = k + (es.length + 1) by omega]
    congr 2
    rw [Nat.pow_succ, Nat.mul_add, Nat.mul_assoc]
    omega

theorem packEntries_word (es : List BE) (h : ∀ e ∈ es, e.Valid) (hl : es.length ≤ 32) :
    ∃ w, packEntries es 0 = some w ∧ w >>> (64 - es.length * 2) = wordVal es := by
  have := packEntries_val es h 0 0 (by simp) (by omega)
  simp only [Nat.zero_mul, Nat.zero_add, Nat.pow_zero, Nat.one_mul] at this
  refine ⟨_, this, ?_⟩
  rw [Nat.shiftRight_eq_div_pow, show 64 - es.length * 2 = 2 * (32 - es.length) by omega, Nat.pow_mul,
    show 2 ^ 2 = 4 from rfl]
  exact Nat.mul_div_cancel _ (Nat.pow_pos (by omega))

theorem unpackWord_zero (n : Nat) : unpackWord n 0 = List.replicate n (.small 0) := by
  induction n with
  | zero => rfl
  | succ n ih =>
    rw [List.replicate_succ, ← ih]
    rfl

theorem unpackWord_val (es : List BE) (h : ∀ e ∈ es, e.Valid) : ∀ n, es.length ≤ n →
    unpackWord n (wordVal es) = es ++ List.replicate (n - es.length) (.small 0) := by
  induction es with
  | nil => intro n _; simpa [wordVal] using unpackWord_zero n
  | cons e es ih =>
    intro n hn
    simp only [List.length_cons] at hn
    obtain ⟨c, hc, hlt, hco⟩ := BE.code_valid (h e (by simp))
    cases n with
    | zero => omega
    | succ n =>
      have h1 : wordVal (e :: es) &&& 3 = c := by
        rw [show (3 : Nat) = 2 ^ 2 - 1 from rfl, Nat.and_two_pow_sub_one_eq_mod]
        simp only [wordVal, hc, Option.getD_some]
        omega
      have h2 : wordVal (e :: es) >>> 2 = wordVal es := by
        rw [Nat.shiftRight_eq_div_pow]
        simp only [wordVal, hc, Option.getD_some]
        omega
      simp only [unpackWord, h1, h2, hco, List.cons_append, List.length_cons, Nat.add_sub_add_right]
      rw [ih (fun x hx => h x (by simp [hx])) n (by omega)]

theorem leU64_zero (r : Bytes) : leU 8 (List.replicate 8 0 ++ r) = some (0, r) := by
  have := leU64_w64 0 (by omega) r
  exact this

theorem unpackWords_zero (n : Nat) (r : Bytes) :
    unpackWords n (List.replicate (8 * n) 0 ++ r) = some (List.replicate (32 * n) (.small 0), r) := by
  induction n with
  | zero => rfl
  | succ n ih =>
    rw [show 8 * (n + 1) = 8 + 8 * n by omega, ← List.replicate_append_replicate, List.append_assoc]
    refine bind_step (leU64_zero _) ?_
    refine bind_step ih ?_
    show some _ = some _
    rw [unpackWord_zero, List.replicate_append_replicate, show 32 + 32 * n = 32 * (n + 1) by omega]

theorem packWords_spec : ∀ (n : Nat) (es : List BE), (∀ e ∈ es, e.Valid) → es.length ≤ 32 * n →
    ∃ p, packWords es = some p ∧ p.length ≤ 8 * n ∧ ∀ r, unpackWords n (p ++ List.replicate (8 * n - p.length) 0 ++ r) =
      some (es ++ List.replicate (32 * n - es.length) (.small 0), r) := by
  intro n
  induction n with
  | zero =>
    intro es _ hl
    have : es = [] := by simpa using hl
    subst this
    exact ⟨[], by rw [packWords, dif_pos rfl], by simp, fun r => rfl⟩
  | succ n ih =>
    intro es hv hl
    by_cases he : es = []
    · subst he
      refine ⟨[], by rw [packWords, dif_pos rfl], by simp, fun r => ?_⟩
      simpa using unpackWords_zero (n + 1) r
    · obtain ⟨p, h1, h2, h3⟩ := ih (es.drop 32) (fun e h => hv e (List.mem_of_mem_drop h)) (by simp only [List.length_drop]; omega)
      have hvt : ∀ e ∈ es.take 32, e.Valid := fun e h => hv e (List.mem_of_mem_take h)
      obtain ⟨w, g1, g2⟩ := packEntries_word (es.take 32) hvt (by simp; omega)
      have hpk : packWords es = some (w64 (w >>> (64 - (es.take 32).length * 2)) ++ p) := by
        rw [packWords, dif_neg he]
        refine bind_step g1 ?_
        exact bind_step h1 rfl
      refine ⟨_, hpk, by simp only [List.length_append, leBytes_length]; omega, fun r => ?_⟩
      rw [g2]
      have hlt : wordVal (es.take 32) < 2 ^ 64 := by
        have := wordVal_lt hvt
        have h4 : 4 ^ (es.take 32).length ≤ 4 ^ 32 := Nat.pow_le_pow_right (by omega) (by simp; omega)
        exact Nat.lt_of_lt_of_le this h4
      simp only [List.length_append, leBytes_length, List.append_assoc]
      rw [show 8 * (n + 1) - (8 + p.length) = 8 * n - p.length by omega]
      refine bind_step (leU64_w64 _ hlt _) ?_
      refine bind_step (by simpa only [List.append_assoc] using h3 r) ?_
      show some _ = some _
      rw [unpackWord_val _ hvt 32 (by simp; omega)]
      congr 2
      simp only [List.length_take, List.length_drop]
      by_cases h32 : es.length ≤ 32
      · rw [Nat.min_eq_right h32, List.take_of_length_le h32, List.drop_eq_nil_of_le h32, List.nil_append, List.append_assoc,
          List.replicate_append_replicate]
        congr 2
        omega
      · rw [Nat.min_eq_left (by omega)]
        simp only [Nat.sub_self, List.replicate_zero, List.append_nil]
        rw [← List.append_assoc, List.take_append_drop]
        congr 2
        omega

/-- anything read from a bitmap can be packed again -/
theorem unpackWords_valid : ∀ (n : Nat) (i r : Bytes) (es : List BE), unpackWords n i = some (es, r) →
    es.length = 32 * n ∧ ∀ e ∈ es, e.Valid := by
  have hw : ∀ (n w : Nat), (unpackWord n w).length = n ∧ ∀ e ∈ unpackWord n w, e.Valid := by
    intro n
    induction n with
    | zero => intro w; exact ⟨rfl, by simp [unpackWord]⟩
    | succ n ih =>
      intro w
      refine ⟨by simp [unpackWord, (ih _).1], ?_⟩
      intro e he
      rcases List.mem_cons.mp he with rfl | he
      · exact BE.ofCode_valid _
      · exact (ih _).2 e he
  intro n
  induction n with
  | zero => intro i r es h; cases h; exact ⟨rfl, by simp⟩
  | succ n ih =>
    intro i r es h
    unfold unpackWords at h
    cases h1 : leU64 i with
    | none => rw [h1] at h; cases h
    | some x =>
      rw [h1] at h
      obtain ⟨w, i1⟩ := x
      replace h : (unpackWords n i1 >>= fun (x : List BE × Bytes) => some (unpackWord 32 w ++ x.1, x.2)) = some (es, r) := h
      cases h2 : unpackWords n i1 with
      | none => rw [h2] at h; cases h
      | some y =>
        rw [h2] at h
        obtain ⟨es', i2⟩ := y
        obtain ⟨g1, g2⟩ := ih i1 i2 es' h2
        cases h
        refine ⟨by simp [(hw 32 w).1, g1]; omega, ?_⟩
        intro e he
        rcases List.mem_append.mp he with he | he
        · exact (hw 32 w).2 e he
        · exact g2 e he

/-! ## Blocks -/

/-- C19: a bitmap written by `write_bitmap` passes its checksum, carries its location, and gives back exactly the entries,
followed by zero counts up to the capacity of a bitmap. -/
theorem bitmap_roundtrip (crc : Bytes → UInt32) (loc : Nat) (hloc : loc < 2 ^ 64) (es : List BE) (hv : ∀ e ∈ es, e.Valid)
    (hl : es.length ≤ ENTRIES_PER_BITMAP) :
    ∃ b, bitmapBlock crc loc es = some b ∧ metadataBlockType crc b = .bitmap ∧
      Bitmap.unpack b = some (⟨loc, es ++ List.replicate (ENTRIES_PER_BITMAP - es.length) (.small 0)⟩, []) := by
  have hE : ENTRIES_PER_BITMAP = 32 * WORDS_PER_BITMAP := rfl
  have hW : 16 + 8 * WORDS_PER_BITMAP = BLOCK_SIZE := rfl
  rw [hE] at hl ⊢
  obtain ⟨p, h1, h2, h3⟩ := packWords_spec WORDS_PER_BITMAP es hv hl
  generalize hWW : WORDS_PER_BITMAP = W at *
  have hp : Bitmap.pack ⟨loc, es⟩ = some (w32 0 ++ (w32 0 ++ (w64 loc ++ p))) := bind_step h1 rfl
  have hpl : (w32 0 ++ (w32 0 ++ (w64 loc ++ p))).length = 16 + p.length := by
    simp only [List.length_append, leBytes_length]; omega
  have hfill : fillBlock (List.replicate BLOCK_SIZE 0) (w32 0 ++ (w32 0 ++ (w64 loc ++ p))) =
      some (w32 0 ++ (w32 0 ++ (w64 loc ++ (p ++ List.replicate (8 * W - p.length) 0)))) := by
    rw [fillBlock, if_pos (by rw [hpl, List.length_replicate]; omega), hpl, List.drop_replicate,
      show BLOCK_SIZE - (16 + p.length) = 8 * W - p.length by omega]
    simp only [List.append_assoc]
  have hbl : (w32 0 ++ (w32 0 ++ (w64 loc ++ (p ++ List.replicate (8 * W - p.length) 0)))).length = BLOCK_SIZE := by
    simp only [List.length_append, leBytes_length, List.length_replicate]; omega
  obtain ⟨b, hb⟩ := Option.isSome_iff_exists.1 ((writeChecksum_isSome_iff crc _ .bitmap).2 ⟨hbl, by decide⟩)
  refine ⟨b, bind_step hp (bind_step hfill hb), (write_then_type crc _ b .bitmap hb).1, ?_⟩
  unfold writeChecksum at hb
  rw [if_neg (by simp [hbl])] at hb
  simp only [BT.salt, Option.some.injEq] at hb
  generalize (_ ^^^ (240779 : UInt32)) = cw at hb
  rw [List.drop_append_of_le_length (by simp), List.drop_of_length_le (by simp), List.nil_append] at hb
  rw [← hb]
  refine bind_step (leU32_w32 _ (UInt32.toNat_lt _) _) ?_
  refine bind_step (leU32_w32 0 (by omega) _) ?_
  refine bind_step (leU64_w64 loc hloc _) ?_
  refine bind_step (by rw [hWW]; simpa using h3 []) rfl

/-- every block of the right length unpacks to a full bitmap of entries that can be packed again -/
theorem bitmap_unpack_valid {i r : Bytes} {bm : Bitmap} (h : Bitmap.unpack i = some (bm, r)) :
    bm.entries.length = ENTRIES_PER_BITMAP ∧ ∀ e ∈ bm.entries, e.Valid := by
  unfold Bitmap.unpack at h
  simp only [Option.bind_eq_bind, Option.bind_eq_some_iff] at h
  obtain ⟨⟨_, i1⟩, -, ⟨_, i2⟩, -, ⟨b, i3⟩, -, ⟨es, i4⟩, h4, h5⟩ := h
  simp only [Option.some.injEq, Prod.mk.injEq] at h5
  obtain ⟨rfl, rfl⟩ := h5
  obtain ⟨g1, g2⟩ := unpackWords_valid _ _ _ _ h4
  exact ⟨by rw [g1]; rfl, g2⟩

/-! ## The metadata index -/

theorem countP_index (ies : List IndexEntry) (hr : ∀ e ∈ ies, e.blocknr < 2 ^ 64 ∧ e.nr_free < 2 ^ 32 ∧ e.none_free_before < 2 ^ 32) :
    ∀ (k : Nat) (r : Bytes), countP IndexEntry.unpack (ies.length + k) ((ies.map IndexEntry.pack).flatten ++ (List.replicate (16 * k) 0 ++ r)) =
      some (ies ++ List.replicate k ⟨0, 0, 0⟩, r) := by
  have hz : ∀ (k : Nat) (r : Bytes), countP IndexEntry.unpack k (List.replicate (16 * k) 0 ++ r) =
      some (List.replicate k ⟨0, 0, 0⟩, r) := by
    intro k
    induction k with
    | zero => intro r; rfl
    | succ k ih =>
      intro r
      have e : List.replicate (16 * (k + 1)) (0 : UInt8) ++ r = (IndexEntry.pack ⟨0, 0, 0⟩) ++ (List.replicate (16 * k) 0 ++ r) := by
        rw [show 16 * (k + 1) = 16 + 16 * k by omega, ← List.replicate_append_replicate, List.append_assoc]
        rfl
      rw [e]
      have h1 : IndexEntry.unpack (IndexEntry.pack ⟨0, 0, 0⟩ ++ (List.replicate (16 * k) 0 ++ r)) =
          some (⟨0, 0, 0⟩, List.replicate (16 * k) 0 ++ r) := by
        unfold IndexEntry.pack IndexEntry.unpack
        simp only [List.append_assoc]
        refine bind_step (leU64_w64 0 (by omega) _) ?_
        refine bind_step (leU32_w32 0 (by omega) _) ?_
        exact bind_step (leU32_w32 0 (by omega) _) rfl
      simp only [countP, h1, ih r]
      rfl
  induction ies with
  | nil => intro k r; simpa using hz k r
  | cons e ies ih =>
    intro k r
    obtain ⟨h1, h2, h3⟩ := hr e (by simp)
    have hu : ∀ r, IndexEntry.unpack (e.pack ++ r) = some (e, r) := by
      intro r
      unfold IndexEntry.pack IndexEntry.unpack
      simp only [List.append_assoc]
      refine bind_step (leU64_w64 _ h1 _) ?_
      refine bind_step (leU32_w32 _ h2 _) ?_
      exact bind_step (leU32_w32 _ h3 _) rfl
    rw [List.length_cons, show ies.length + 1 + k = (ies.length + k) + 1 by omega, List.map_cons, List.flatten_cons, List.append_assoc]
    simp only [countP, hu, ih (fun x hx => hr x (by simp [hx])) k r]
    rfl

theorem takeWhile_stop (ies : List IndexEntry) (h : ∀ e ∈ ies, e.blocknr ≠ 0) (k : Nat) :
    (ies ++ List.replicate k (⟨0, 0, 0⟩ : IndexEntry)).takeWhile (fun e => e.blocknr != 0) = ies := by
  induction ies with
  | nil => cases k <;> simp [List.replicate_succ]
  | cons e ies ih =>
    have := h e (by simp)
    simp only [List.cons_append, List.takeWhile_cons, bne_iff_ne, ne_eq, this, not_false_eq_true, if_true]
    rw [ih (fun x hx => h x (by simp [hx]))]

/-- C19: the index of the metadata space map as written is accepted by `load_metadata_index` and gives back the entries (no
more than the device needs). -/
theorem index_roundtrip (crc : Bytes → UInt32) (loc : Nat) (hloc : loc < 2 ^ 64) (ies : List IndexEntry)
    (hr : ∀ e ∈ ies, e.blocknr < 2 ^ 64 ∧ e.nr_free < 2 ^ 32 ∧ e.none_free_before < 2 ^ 32)
    (h0 : ∀ e ∈ ies, e.blocknr ≠ 0) (hl : ies.length ≤ 255) (need : Nat) :
    ∃ b, indexBlock crc loc ies = some b ∧ loadMetadataIndex crc loc b need = some (ies.take need) := by
  have hplen : ((ies.map IndexEntry.pack).flatten).length = 16 * ies.length := by
    clear h0 hl hr
    induction ies with
    | nil => rfl
    | cons e ies ih =>
      rw [List.map_cons, List.flatten_cons, List.length_append, ih]
      simp only [IndexEntry.pack, List.length_append, leBytes_length, List.length_cons]; omega
  have hp : MetadataIndex.pack ⟨loc, ies⟩ = some (w32 0 ++ (w32 0 ++ (w64 loc ++ (ies.map IndexEntry.pack).flatten))) := by
    unfold MetadataIndex.pack
    rw [if_pos (show ies.length ≤ MAX_METADATA_BITMAPS from hl)]
  generalize hP : (ies.map IndexEntry.pack).flatten = p at *
  have hB : BLOCK_SIZE = 4096 := rfl
  have hpl : (w32 0 ++ (w32 0 ++ (w64 loc ++ p))).length = 16 + p.length := by
    simp only [List.length_append, leBytes_length]; omega
  have hfill : fillBlock (List.replicate BLOCK_SIZE 0) (w32 0 ++ (w32 0 ++ (w64 loc ++ p))) =
      some (w32 0 ++ (w32 0 ++ (w64 loc ++ (p ++ List.replicate (16 * (255 - ies.length)) 0)))) := by
    rw [fillBlock, if_pos (by rw [hpl, List.length_replicate]; omega), hpl, List.drop_replicate,
      show BLOCK_SIZE - (16 + p.length) = 16 * (255 - ies.length) by omega]
    simp only [List.append_assoc]
  have hbl : (w32 0 ++ (w32 0 ++ (w64 loc ++ (p ++ List.replicate (16 * (255 - ies.length)) 0)))).length = BLOCK_SIZE := by
    simp only [List.length_append, leBytes_length, List.length_replicate]; omega
  obtain ⟨b, hb⟩ := Option.isSome_iff_exists.1 ((writeChecksum_isSome_iff crc _ .index).2 ⟨hbl, by decide⟩)
  refine ⟨b, bind_step hp (bind_step hfill hb), ?_⟩
  have hty := (write_then_type crc _ b .index hb).1
  unfold loadMetadataIndex
  rw [if_pos hty]
  unfold writeChecksum at hb
  rw [if_neg (by simp [hbl])] at hb
  simp only [BT.salt, Option.some.injEq] at hb
  generalize (_ ^^^ (160478 : UInt32)) = cw at hb
  rw [List.drop_append_of_le_length (by simp), List.drop_of_length_le (by simp), List.nil_append] at hb
  have hu : MetadataIndex.unpack b = some (⟨loc, ies⟩, []) := by
    rw [← hb]
    refine bind_step (leU32_w32 _ (UInt32.toNat_lt _) _) ?_
    refine bind_step (leU32_w32 0 (by omega) _) ?_
    refine bind_step (leU64_w64 loc hloc _) ?_
    have := countP_index ies hr (255 - ies.length) []
    rw [show ies.length + (255 - ies.length) = MAX_METADATA_BITMAPS by simp only [MAX_METADATA_BITMAPS]; omega, List.append_nil, hP] at this
    refine bind_step this ?_
    show some _ = some _
    rw [takeWhile_stop ies h0]
  rw [hu]
  simp

/-- Entries after one that points to block 0 are lost: the hypothesis is needed. -/
theorem index_zero_refuted : ∃ ies : List IndexEntry, ies.length = 2 ∧
    ∀ k, (ies ++ List.replicate k (⟨0, 0, 0⟩ : IndexEntry)).takeWhile (fun e => e.blocknr != 0) ≠ ies :=
  ⟨[⟨0, 1, 1⟩, ⟨5, 1, 1⟩], rfl, fun k => by simp⟩

/-- a bitmap of a device of 5 blocks -/
example : packWords [.small 0, .small 1, .small 2, .overflow, .small 1] = some [0xd8, 2, 0, 0, 0, 0, 0, 0] ∧
    (∀ e ∈ [BE.small 0, .small 1, .small 2, .overflow, .small 1], e.Valid) := by
  constructor
  · rw [packWords]; simp [packEntries, BE.code, packWords, leBytes]
  · simp [BE.Valid]

end Verif
