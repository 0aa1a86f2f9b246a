import Verif.Prop.ArrayRead
import Verif.Prop.Records

/-!
# C33: what `cache_dump` prints

The specification is the cache seen as three functions of the cache block: the mapping word, the dirty bit, the hint.
-/

namespace Verif.CacheM

open Verif.BT (Tree KeyRange)
open Verif.Bits (ABlock)
open Verif.Arr (Stored ASt chunk divUp)

/-- what reading the device `s` of `n` blocks gives -/
def devOf (epb8 epb4 n : Nat) (s : ASt Nat) : Dev :=
  { nr := n
    rd := fun _ b => s.bt.mem b
    maps := fun b => (s.readArr b).map (ABlock.mk epb8)
    words := fun b => (s.readArr b).map (ABlock.mk epb8)
    hints := fun b => (s.readArr b).map (ABlock.mk epb4) }

/-- an array of `nr` entries `a` is stored under `root`, in the blocks `B` (index tree and array blocks) -/
def InBlocks (epb nr n : Nat) (a : Nat → Nat) (root : Nat) (s : ASt Nat) (B : List Nat) : Prop :=
  ∃ (h : Nat) (t : Tree Nat h) (bs : List Nat), Stored epb nr n a root s h t bs ∧ B = t.blocks h ++ bs

/-- the `mapping` elements of a cache of `nr` blocks -/
def mapEvs (nr : Nat) (map : Nat → Nat) (dirty : Nat → Bool) : List Ev :=
  (List.range nr).flatMap fun c =>
    if (ofWord (map c)).isValid then [.mapping c (ofWord (map c)).oblock (dirty c)] else []

/-- the `hint` elements: one for every mapped block -/
def hintEvs (nr : Nat) (map : Nat → Nat) (hint : Nat → Nat) : List Ev :=
  (List.range nr).flatMap fun c => if (ofWord (map c)).isValid then [.hint c (hintBytes (hint c))] else []

theorem range_chunks {epb : Nat} (he : 0 < epb) (nr : Nat) :
    ((List.range (divUp nr epb)).flatMap fun i => List.range' (i * epb) (min (nr - i * epb) epb)) = List.range nr := by
  have : ∀ k, ((List.range k).flatMap fun i => List.range' (i * epb) (min (nr - i * epb) epb)) = List.range (min (k * epb) nr) := by
    intro k
    induction k with
    | zero => simp
    | succ k ih =>
      rw [List.range_succ, List.flatMap_append, ih]
      simp only [List.flatMap_cons, List.flatMap_nil, List.append_nil]
      rw [List.range_eq_range', List.range_eq_range']
      rw [Nat.add_mul, Nat.one_mul]
      by_cases hk : k * epb ≤ nr
      · rw [show min (k * epb) nr = k * epb by omega]
        rw [show List.range' (k * epb) (min (nr - k * epb) epb) = List.range' (0 + k * epb) (min (nr - k * epb) epb) by rw [Nat.zero_add]]
        rw [List.range'_append_1]
        congr 1
        omega
      · rw [show min (nr - k * epb) epb = 0 by omega, show min (k * epb) nr = nr by omega, show min (k * epb + epb) nr = nr by omega]
        simp
  rw [this, Nat.min_eq_right (Arr.divUp_le he)]

theorem cblocks_eq {epb nr k : Nat} (h : k * epb < nr) (hn : nr < 2 ^ 32) (he : 0 < epb) :
    cblocks k epb (min (nr - k * epb) epb) = List.range' (k * epb) (min (nr - k * epb) epb) := by
  have hk : k ≤ k * epb := Nat.le_mul_of_pos_right k he
  unfold cblocks
  simp only
  rw [Nat.mod_eq_of_lt (a := k) (by omega), Nat.mod_eq_of_lt (a := k * epb) (by omega), Nat.mod_eq_of_lt (by omega)]
  congr 1
  omega

theorem chunk_zip {V : Type} (epb nr k : Nat) (a : Nat → V) (he : 0 < epb) (h : k * epb < nr) (hn : nr < 2 ^ 32) :
    (chunk epb nr a k).zip (cblocks k epb (chunk epb nr a k).length) =
      (List.range' (k * epb) (min (nr - k * epb) epb)).map fun c => (a c, c) := by
  rw [Arr.chunk_length, cblocks_eq h hn he]
  unfold chunk
  rw [show (List.range (min (nr - k * epb) epb)).map (fun j => a (k * epb + j)) = (List.range' (k * epb) (min (nr - k * epb) epb)).map a by
    rw [List.range'_eq_map_range, List.map_map]; rfl]
  generalize List.range' (k * epb) (min (nr - k * epb) epb) = l
  induction l with
  | nil => rfl
  | cons x l ih => simp [ih]

theorem emitMaps_map (dirty : Nat → Mapping → Bool) (nr : Nat) (a : Nat → Nat) (l : List Nat) (h : ∀ c ∈ l, c < nr) :
    emitMaps dirty nr (l.map fun c => (a c, c)) = .ok (l.flatMap fun c =>
      if (ofWord (a c)).isValid then [.mapping c (ofWord (a c)).oblock (dirty c (ofWord (a c)))] else []) := by
  induction l with
  | nil => rfl
  | cons c l ih =>
    have hc := h c (by simp)
    rw [List.map_cons]
    unfold emitMaps
    simp only [ih (fun c hc => h c (by simp [hc]))]
    rw [List.flatMap_cons]
    by_cases hv : (ofWord (a c)).isValid = true
    · rw [hv, if_neg (by simp), if_neg (by omega), if_pos rfl]; rfl
    · have hv : (ofWord (a c)).isValid = false := by simpa using hv
      rw [hv, if_pos (by simp), if_neg (by simp)]; rfl

theorem emitHints_map (valid : Nat → Bool) (a : Nat → Nat) (l : List Nat) :
    emitHints valid (l.map fun c => (a c, c)) = l.flatMap fun c => if valid c then [.hint c (hintBytes (a c))] else [] := by
  induction l with
  | nil => rfl
  | cons c l ih =>
    rw [List.map_cons]
    unfold emitHints
    rw [ih, List.flatMap_cons]
    split <;> rfl

theorem walkBlocks_ok {α : Type} {read : Nat → Option ABlock} {visit : Nat → ABlock → Except DErr (List α)} {F : Nat → List α} (l : List (Nat × Nat))
    (h : ∀ e ∈ l, ∃ b, read e.2 = some b ∧ visit e.1 b = .ok (F e.1)) :
    walkBlocks read visit l = .ok (l.flatMap fun e => F e.1) := by
  induction l with
  | nil => rfl
  | cons e l ih =>
    obtain ⟨i, b⟩ := e
    obtain ⟨ab, h1, h2⟩ := h (i, b) (by simp)
    simp only at h1 h2
    unfold walkBlocks
    simp only [h1, h2, ih (fun e he => h e (by simp [he]))]
    rfl

theorem flatMap_zip {α : Type} (blocks : List Nat) (F : Nat → List α) :
    (((List.range blocks.length).zip blocks).flatMap fun e => F e.1) = (List.range blocks.length).flatMap F := by
  rw [← List.flatMap_map (f := fun e : Nat × Nat => e.1) (g := F), List.map_fst_zip (by simp)]

/-- walking the blocks of a stored array, entry by entry -/
theorem walk_array {α : Type} {epb nr n : Nat} (he : 0 < epb) (h32 : nr < 2 ^ 32) {a : Nat → Nat} {root : Nat} {s : ASt Nat} {h : Nat}
    {t : Tree Nat h} {blocks : List Nat} (hs : Stored epb nr n a root s h t blocks) {visit : Nat → ABlock → Except DErr (List α)}
    {G : Nat → List α}
    (hv : ∀ k b, b.maxEntries = epb →
      b.values.zip (cblocks k b.maxEntries b.values.length) = (List.range' (k * epb) (min (nr - k * epb) epb)).map (fun c => (a c, c)) →
      k * epb < nr →
      visit k b = .ok ((List.range' (k * epb) (min (nr - k * epb) epb)).flatMap G)) :
    walkBlocks (fun b => (s.readArr b).map (ABlock.mk epb)) visit ((List.range blocks.length).zip blocks) = .ok ((List.range nr).flatMap G) := by
  rw [walkBlocks_ok (F := fun k => (List.range' (k * epb) (min (nr - k * epb) epb)).flatMap G)]
  · rw [flatMap_zip blocks (fun k => (List.range' (k * epb) (min (nr - k * epb) epb)).flatMap G), hs.count]
    rw [← List.flatMap_assoc, range_chunks he]
  · intro e he'
    obtain ⟨k, hk, rfl⟩ := List.mem_iff_getElem.mp he'
    simp only [List.length_zip, List.length_range, Nat.min_self] at hk
    simp only [List.getElem_zip, List.getElem_range]
    have hlt : k * epb < nr := by rw [hs.count] at hk; exact (Arr.lt_divUp he).mp hk
    refine ⟨_, by rw [hs.values k hk]; rfl, ?_⟩
    exact hv k _ rfl (chunk_zip epb nr k a he hlt h32) hlt

theorem mem_range'_lt {k epb nr c : Nat} (hc : c ∈ List.range' (k * epb) (min (nr - k * epb) epb)) : c < nr := by
  have := List.mem_range'_1.mp hc
  omega

theorem dumpV1_stored {epb8 epb4 nr n : Nat} (he : 0 < epb8) (h32 : nr < 2 ^ 32) (h0 : 0 < nr) {am : Nat → Nat} {root : Nat} {s : ASt Nat}
    {h : Nat} {t : Tree Nat h} {blocks : List Nat} (hs : Stored epb8 nr n am root s h t blocks) :
    dumpV1 (devOf epb8 epb4 n s) root nr = .ok (mapEvs nr am fun c => (ofWord (am c)).isDirty) := by
  have hb : blocks ≠ [] := by
    intro e
    have := hs.count
    rw [e] at this
    have := (Arr.lt_divUp (i := 0) he).mpr (by omega : 0 * epb8 < nr)
    simp at *
    omega
  unfold dumpV1
  rw [collect_stored hs _ rfl rfl hb]
  refine walk_array he h32 hs ?_
  intro k b hm hz hk
  unfold visitMaps
  rw [hz]
  exact emitMaps_map _ nr am _ (fun c hc => mem_range'_lt hc)

theorem dumpV2_stored {epb8 epb4 nr n : Nat} (he : 0 < epb8) (h32 : nr < 2 ^ 32) (h0 : 0 < nr) {am ad : Nat → Nat} {root droot : Nat}
    {s : ASt Nat} {h : Nat} {t : Tree Nat h} {blocks : List Nat} (hs : Stored epb8 nr n am root s h t blocks)
    {h' : Nat} {t' : Tree Nat h'} {blocks' : List Nat} (hd : Stored epb8 (divUp nr 64) n ad droot s h' t' blocks') (repair : Bool) :
    dumpV2 (devOf epb8 epb4 n s) root nr (some droot) repair = .ok (mapEvs nr am fun c => (ad (c / 64)).testBit (c % 64)) := by
  have hb : blocks ≠ [] := by
    intro e
    have := hs.count
    rw [e] at this
    have := (Arr.lt_divUp (i := 0) he).mpr (by omega : 0 * epb8 < nr)
    simp at *
    omega
  obtain ⟨g1, g2⟩ := readDirty_stored he hd (devOf epb8 epb4 n s) rfl rfl rfl
  unfold dumpV2
  simp only [g1, Bool.false_and, Bool.false_eq_true, if_false]
  rw [collect_stored hs _ rfl rfl hb]
  refine walk_array he h32 hs ?_
  intro k b hm hz hk
  unfold visitMaps
  rw [hz, emitMaps_map _ nr am _ (fun c hc => mem_range'_lt hc)]
  congr 1
  apply Bld.flatMap_congr'
  intro c hc
  rw [g2 c (mem_range'_lt hc)]
  rfl

theorem validIn_mapEvs {nr : Nat} {am : Nat → Nat} {dirty : Nat → Bool} {c : Nat} (hc : c < nr) :
    validIn (mapEvs nr am dirty) c = (ofWord (am c)).isValid := by
  rw [Bool.eq_iff_iff]
  unfold validIn mapEvs
  rw [List.any_eq_true]
  constructor
  · rintro ⟨e, he, h⟩
    obtain ⟨c', -, he⟩ := List.mem_flatMap.mp he
    split at he
    · next hv =>
      rw [List.mem_singleton.mp he] at h
      have : c' = c := by simpa using h
      rw [← this]; exact hv
    · cases he
  · intro hv
    exact ⟨.mapping c (ofWord (am c)).oblock (dirty c), List.mem_flatMap.mpr ⟨c, List.mem_range.mpr hc, by rw [if_pos hv]; simp⟩, by simp⟩

theorem dumpHints_stored {epb8 epb4 nr n : Nat} (he : 0 < epb4) (h32 : nr < 2 ^ 32) (h0 : 0 < nr) {am ah : Nat → Nat} {dirty : Nat → Bool}
    {root : Nat} {s : ASt Nat} {h : Nat} {t : Tree Nat h} {blocks : List Nat} (hs : Stored epb4 nr n ah root s h t blocks) :
    dumpHints (devOf epb8 epb4 n s) root (validIn (mapEvs nr am dirty)) = .ok (hintEvs nr am ah) := by
  have hb : blocks ≠ [] := by
    intro e
    have := hs.count
    rw [e] at this
    have := (Arr.lt_divUp (i := 0) he).mpr (by omega : 0 * epb4 < nr)
    simp at *
    omega
  unfold dumpHints
  rw [collect_stored hs _ rfl rfl hb]
  refine walk_array he h32 hs ?_
  intro k b hm hz hk
  unfold visitHints
  rw [hz, emitHints_map]
  congr 1
  apply Bld.flatMap_congr'
  intro c hc
  rw [validIn_mapEvs (mem_range'_lt hc)]

/-- Cache metadata on a device: the three arrays of `nr` blocks under the roots of the superblock.  `ad` is the dirty
bitset's words (version 2 only). -/
structure OnDisk (epb8 epb4 n : Nat) (sb : Cache.Superblock) (s : ASt Nat) (am ad ah : Nat → Nat) : Prop where
  maps : ∃ (h : Nat) (t : Tree Nat h) (bs : List Nat), Stored epb8 sb.cache_blocks n am sb.mapping_root s h t bs
  hints : ∃ (h : Nat) (t : Tree Nat h) (bs : List Nat), Stored epb4 sb.cache_blocks n ah sb.hint_root s h t bs
  dirty : sb.version = 2 → ∃ dr, sb.dirty_root = some dr ∧
    ∃ (h : Nat) (t : Tree Nat h) (bs : List Nat), Stored epb8 (divUp sb.cache_blocks 64) n ad dr s h t bs

/-- the dirty flag of a cache block -/
def dirtyOf (version : Nat) (am ad : Nat → Nat) (c : Nat) : Bool :=
  if version = 1 then (ofWord (am c)).isDirty else (ad (c / 64)).testBit (c % 64)

/-- C33, the dump half: for every undamaged cache metadata of either version with at least one block, the dump succeeds and
lists exactly the valid cache blocks in increasing order, each with its origin block, its dirty flag (from the mapping in
version 1, from the bitset in version 2) and its hint. -/
theorem dump_exact {epb8 epb4 n : Nat} (he8 : 0 < epb8) (he4 : 0 < epb4) {sb : Cache.Superblock} {s : ASt Nat} {am ad ah : Nat → Nat}
    (hd : OnDisk epb8 epb4 n sb s am ad ah) (hv : sb.version = 1 ∨ sb.version = 2) (h0 : 0 < sb.cache_blocks)
    (h32 : sb.cache_blocks < 2 ^ 32) (repair : Bool) :
    dump (devOf epb8 epb4 n s) sb repair = .ok (
      [.superblockB ⟨[], sb.data_block_size, sb.cache_blocks, sb.policy_name, sb.policy_hint_size⟩, .mappingsB] ++
      mapEvs sb.cache_blocks am (dirtyOf sb.version am ad) ++ [.mappingsE, .hintsB] ++
      hintEvs sb.cache_blocks am ah ++ [.hintsE, .superblockE, .eof]) := by
  obtain ⟨h1, t1, b1, m⟩ := hd.maps
  obtain ⟨h2, t2, b2, hh⟩ := hd.hints
  unfold dump
  rcases hv with hv | hv
  · have hdirty : dirtyOf sb.version am ad = fun c => (ofWord (am c)).isDirty := by
      funext c; unfold dirtyOf; rw [if_pos hv]
    simp only [hv, if_true]
    rw [dumpV1_stored he8 h32 h0 m]
    simp only
    rw [dumpHints_stored he4 h32 h0 hh]
    rw [hv] at hdirty
    rw [hdirty]
  · obtain ⟨dr, hdr, h3, t3, b3, dd⟩ := hd.dirty hv
    have hdirty : dirtyOf sb.version am ad = fun c => (ad (c / 64)).testBit (c % 64) := by
      funext c; unfold dirtyOf; rw [if_neg (by omega)]
    rw [hv] at hdirty
    simp only [hv, hdr, show ¬ ((2 : Nat) = 1) by decide, if_true, if_false]
    rw [dumpV2_stored he8 h32 h0 m dd]
    simp only
    rw [dumpHints_stored he4 h32 h0 hh, hdirty]

/-- C33: of a cache without blocks, the dump panics (the index leaf of the mapping array is empty). -/
theorem dump_empty_panics {epb8 epb4 n : Nat} (he8 : 0 < epb8) {sb : Cache.Superblock} {s : ASt Nat} {am ad ah : Nat → Nat}
    (hd : OnDisk epb8 epb4 n sb s am ad ah) (hv : sb.version = 1 ∨ sb.version = 2) (h0 : sb.cache_blocks = 0) (repair : Bool) :
    dump (devOf epb8 epb4 n s) sb repair = .error .panic := by
  obtain ⟨h1, t1, b1, m⟩ := hd.maps
  have hb : b1 = [] := by
    have := m.count
    rw [h0] at this
    have h : divUp 0 epb8 = 0 := by unfold divUp; exact Nat.div_eq_of_lt (by omega)
    rw [h] at this
    exact List.length_eq_zero_iff.mp this
  subst hb
  have hc := collect_empty_panics m (devOf epb8 epb4 n s) rfl rfl
  unfold dump
  rcases hv with hv | hv
  · simp only [hv, if_true]
    unfold dumpV1
    rw [hc]
  · obtain ⟨dr, hdr, h3, t3, b3, dd⟩ := hd.dirty hv
    simp only [hv, hdr, show ¬ ((2 : Nat) = 1) by decide, if_true, if_false]
    unfold dumpV2
    obtain ⟨g1, g2⟩ := readDirty_stored he8 dd (devOf epb8 epb4 n s) rfl rfl rfl
    simp only [g1, Bool.false_and, Bool.false_eq_true, if_false]
    rw [hc]

/-- C33: other versions are refused. -/
theorem dump_version (d : Dev) (sb : Cache.Superblock) (repair : Bool) (h1 : sb.version ≠ 1) (h2 : sb.version ≠ 2) :
    dump d sb repair = .error .err := by
  unfold dump
  simp only [h1, h2, if_false]

end Verif.CacheM
