import Verif.Model.EraCheck
import Verif.Prop.CacheCheckTool
import Verif.Prop.Damage

/-!
# C60: `era_check` accepts era metadata exactly if no era lies in the future

For metadata whose arrays are intact (`ELayout`) the answer is exact; for any device, damaged or not, `check_sound` says what an accepted
device has.  What the tool does not look at is at the end.
-/

namespace Verif.EraC

open Verif.BT (Blk Tree)
open Verif.Bits (ABlock visitChecked Checked)
open Verif.Arr (ASt divUp chunk)
open Verif.CacheM (Dev DErr walkArray devOf InBlocks counted counted_append counted_zero first_counted Readable seenLeaves shown
  walkArray_spec walkArray_stored shown_stored readable_stored bits_stored)

theorem wsBits_word {b r : Nat} (hb : b < 2 ^ 32) : wsBits (wsWord b r) = b := by
  unfold wsBits wsWord
  rw [Nat.add_mul_mod_self_right, Nat.mod_eq_of_lt hb]

theorem wsRoot_word {b r : Nat} (hb : b < 2 ^ 32) : wsRoot (wsWord b r) = r := by
  unfold wsRoot wsWord
  rw [Nat.add_mul_div_right _ _ (Nat.two_pow_pos 32), Nat.div_eq_of_lt hb, Nat.zero_add]

/-- what `EraChecker` looks at in an array block -/
def contE (k : Nat) (b : ABlock) : List (Nat × Nat) := b.values.zip (dblocks k b.maxEntries)

theorem visitEra_ok (cur k : Nat) (b : ABlock) (s : Unit) : (visitEra cur k b s).1 = true ↔ ∀ e ∈ contE k b, e.1 ≤ cur := by
  unfold visitEra contE
  simp only [List.all_eq_true, Bool.not_eq_true', decide_eq_false_iff_not, Nat.not_lt, gt_iff_lt]

/-- walking the era array, for any device: no error is found exactly if the index can be walked, the array blocks can be read, and the eras in them
are at most the current one -/
theorem eras_exact (d : Dev) (cur root : Nat) (seen : Nat → Nat) :
    walkArray d d.hints (visitEra cur) root () seen ≠ .error .err ↔
      Readable d d.hints root seen ∧ ∀ e ∈ shown d.hints contE ((seenLeaves d root seen).flatMap (·.2)), e.1 ≤ cur := by
  refine (walkArray_spec (J := fun _ _ => True) (good := fun l => ∀ e ∈ l, e.1 ≤ cur) (cont := contE) (fun p q h e he => h e (by simp [he]))
    (fun k b p s _ hp => ⟨?_, fun _ => trivial⟩) root seen () trivial (by simp)).1
  rw [visitEra_ok]
  constructor
  · intro h e he
    rcases List.mem_append.mp he with he | he
    · exact hp e he
    · exact h e he
  · intro h e he
    exact h e (List.mem_append.mpr (Or.inr he))

/-- an array block none of whose positions reaches `2^32` is checked completely -/
theorem contE_all {k : Nat} {b : ABlock} (hk : k < 2 ^ 32) (hl : b.values.length ≤ b.maxEntries) (h : k * b.maxEntries + b.maxEntries < 2 ^ 32) :
    (contE k b).map (·.1) = b.values := by
  unfold contE dblocks
  simp only
  rw [Nat.mod_eq_of_lt hk, Nat.mod_eq_of_lt (show k * b.maxEntries < 2 ^ 32 by omega), Nat.mod_eq_of_lt h, Nat.add_sub_cancel_left]
  exact List.map_fst_zip (by simpa using hl)

/-- the number of the first bit in an array block of a bitset -/
def contB (k : Nat) (b : ABlock) : List (Nat × Nat) := [((k * b.maxEntries) * 64, 0)]

/-- walking a bitset, for any device: no error is found exactly if the index can be walked, the array blocks can be read, and every array block
starts below the number of bits -/
theorem bits_exact (d : Dev) (nrBits root : Nat) (seen : Nat → Nat) :
    walkArray d d.words (visitChecked nrBits) root (fun _ => none) seen ≠ .error .err ↔
      Readable d d.words root seen ∧ ∀ e ∈ shown d.words contB ((seenLeaves d root seen).flatMap (·.2)), e.1 < nrBits := by
  refine (walkArray_spec (J := fun _ _ => True) (good := fun l => ∀ e ∈ l, e.1 < nrBits) (cont := contB) (fun p q h e he => h e (by simp [he]))
    (fun k b p s _ hp => ⟨?_, fun _ => trivial⟩) root seen (fun _ => none) trivial (by simp)).1
  unfold visitChecked contB
  simp only [Nat.shiftLeft_eq]
  by_cases hc : k * b.maxEntries * 2 ^ 6 ≥ nrBits
  · rw [if_pos hc]
    constructor
    · intro h; cases h
    · intro h
      have := h (k * b.maxEntries * 64, 0) (by simp)
      simp only at this
      omega
  · rw [if_neg hc]
    refine ⟨fun _ e he => ?_, fun _ => rfl⟩
    rcases List.mem_append.mp he with he | he
    · exact hp e he
    · rw [List.mem_singleton.mp he]
      simp only
      omega

theorem checkWritesets_ok {d : Dev} : ∀ (m : List (Nat × Nat)) (seen seen' : Nat → Nat), checkWritesets d m seen = .ok seen' →
    ∀ e ∈ m, ∃ s0, Readable d d.words (wsRoot e.2) s0 ∧ ∀ x ∈ shown d.words contB ((seenLeaves d (wsRoot e.2) s0).flatMap (·.2)), x.1 < wsBits e.2 := by
  intro m
  induction m with
  | nil => intro _ _ _ e he; cases he
  | cons x m ih =>
    intro seen seen' h e he
    unfold checkWritesets at h
    cases hw : walkArray d d.words (visitChecked (wsBits x.2)) (wsRoot x.2) (fun _ => none) seen with
    | error x => rw [hw] at h; cases h
    | ok r =>
      rw [hw] at h
      rcases List.mem_cons.mp he with rfl | he
      · exact ⟨seen, (bits_exact d _ _ seen).mp (by rw [hw]; simp)⟩
      · exact ih _ _ h e he

/-- C60, for any device, damaged or not: what `era_check` accepts has a readable superblock of a known version, a readable tree of writesets, and
as far as they were not met before, readable writesets of the right size and a readable era array with eras up to the current one. -/
theorem check_sound {d : EDev} (hrd : ∀ b n, d.wsRd false b = some n → d.wsRd true b = some n) (h : check false d = none) :
    ∃ sb m, d.sb = some sb ∧ sb.version ≤ 1 ∧ LW.ReadFrom d.wsRd d.dev.nr sb.writeset_tree_root m ∧
      (∀ e ∈ m, ∃ s0, Readable d.dev d.dev.words (wsRoot e.2) s0 ∧
        ∀ x ∈ shown d.dev.words contB ((seenLeaves d.dev (wsRoot e.2) s0).flatMap (·.2)), x.1 < wsBits e.2) ∧
      ∃ s0, Readable d.dev d.dev.hints sb.era_array_root s0 ∧
        ∀ x ∈ shown d.dev.hints contE ((seenLeaves d.dev sb.era_array_root s0).flatMap (·.2)), x.1 ≤ sb.current_era := by
  unfold check at h
  cases hsb : d.sb with
  | none => rw [hsb] at h; cases h
  | some sb =>
    rw [hsb] at h
    simp only at h
    by_cases hv : sb.version > 1
    · rw [if_pos hv] at h; cases h
    rw [if_neg hv] at h
    simp only [Bool.false_eq_true, if_false] at h
    cases hm : LW.btreeToMap d.wsRd d.dev.nr sb.writeset_tree_root with
    | none => rw [hm] at h; cases h
    | some m =>
      rw [hm] at h
      simp only at h
      cases hc : checkWritesets d.dev m (fun b => if b = 0 then 1 else 0) with
      | error e => rw [hc] at h; cases h
      | ok seen =>
        rw [hc] at h
        simp only at h
        cases hw : walkArray d.dev d.dev.hints (visitEra sb.current_era) sb.era_array_root () seen with
        | error e => rw [hw] at h; cases h
        | ok r =>
          exact ⟨sb, m, rfl, by omega, LW.btreeToMap_sound hrd hm, checkWritesets_ok m _ _ hc, seen,
            (eras_exact d.dev _ _ seen).mp (by rw [hw]; simp)⟩

/-! ## Intact metadata -/

/-- Era metadata on disk: `sets` are the archived writesets (era, and bits and root as stored) with the blocks each takes, the era array has `nr`
entries `ae` in the blocks `Be`. -/
structure ELayout (epb8 epb4 n nr : Nat) (sb : Era.Superblock) (s : ASt Nat) (sets : List ((Nat × Nat) × List Nat)) (ae : Nat → Nat) (Be : List Nat) :
    Prop where
  version : sb.version ≤ 1
  tree : ∃ (h : Nat) (t : Tree Nat h), LW.Clean s.bt.mem n h t ∧ t.blk h = sb.writeset_tree_root ∧ t.contents h = sets.map (·.1)
  bitsets : ∀ p ∈ sets, ∃ a, InBlocks epb8 (divUp (wsBits p.1.2) 64) n a (wsRoot p.1.2) s p.2
  eras : InBlocks epb4 nr n ae sb.era_array_root s Be
  size : nr + epb4 ≤ 2 ^ 32
  nodup : (0 :: (sets.flatMap (·.2) ++ Be)).Nodup

/-- the device of a layout -/
def eraImage (epb8 epb4 n : Nat) (sb : Option Era.Superblock) (s : ASt Nat) : EDev := ⟨devOf epb8 epb4 n s, fun _ b => s.bt.mem b, sb⟩

theorem checkWritesets_stored {epb8 epb4 n : Nat} (he : 0 < epb8) {s : ASt Nat} : ∀ (sets : List ((Nat × Nat) × List Nat)) (seen : Nat → Nat),
    (∀ p ∈ sets, ∃ a, InBlocks epb8 (divUp (wsBits p.1.2) 64) n a (wsRoot p.1.2) s p.2) → (sets.flatMap (·.2)).Nodup →
    (∀ x ∈ sets.flatMap (·.2), seen x = 0) →
    checkWritesets (devOf epb8 epb4 n s) (sets.map (·.1)) seen = .ok (counted (sets.flatMap (·.2)) seen) := by
  intro sets
  induction sets with
  | nil => intro seen _ _ _; unfold checkWritesets counted; simp
  | cons p sets ih =>
    intro seen hs hnd hz
    obtain ⟨a, ha⟩ := hs p (by simp)
    rw [List.flatMap_cons] at hnd hz
    have hnd' := List.nodup_append.mp hnd
    obtain ⟨bits, hw, -⟩ := bits_stored (epb4 := epb4) he ha (seen := seen) hnd'.1 (fun x hx => hz x (by simp [hx]))
    rw [List.map_cons]
    unfold checkWritesets
    rw [hw]
    simp only
    rw [ih _ (fun q hq => hs q (by simp [hq])) hnd'.2.1, counted_append, List.flatMap_cons]
    intro x hx
    exact counted_zero (fun hp => hnd'.2.2 x hp x hx rfl) (hz x (by simp [hx]))

theorem eras_stored {epb8 epb4 nr n : Nat} (he : 0 < epb4) (h32 : nr + epb4 ≤ 2 ^ 32) {ae : Nat → Nat} {root : Nat} {s : ASt Nat} {B : List Nat}
    (hm : InBlocks epb4 nr n ae root s B) (cur : Nat) {seen : Nat → Nat} (hnd : B.Nodup) (hz : ∀ x ∈ B, seen x = 0) :
    walkArray (devOf epb8 epb4 n s) (devOf epb8 epb4 n s).hints (visitEra cur) root () seen =
      if ∀ b, b < nr → ae b ≤ cur then .ok ((), counted B seen) else .error .err := by
  obtain ⟨h, t, bs, hs, rfl⟩ := hm
  obtain ⟨ls, l1, l2, l3, l4, l5⟩ := walkArray_stored hs (devOf epb8 epb4 n s) rfl rfl hnd hz
  have ex := eras_exact (devOf epb8 epb4 n s) cur root seen
  have hr : Readable (devOf epb8 epb4 n s) (devOf epb8 epb4 n s).hints root seen := by
    refine ⟨l4, by rw [l1]; exact l2, ?_⟩
    rw [l1, l3]
    exact readable_stored hs
  have hsh : shown (devOf epb8 epb4 n s).hints contE ((seenLeaves (devOf epb8 epb4 n s) root seen).flatMap (·.2)) =
      (List.range nr).map fun c => (ae c, c) := by
    rw [l1, l3]
    refine shown_stored he hs (g := fun c => c) ?_
    intro k b hk hm hv
    unfold contE dblocks
    simp only
    have hk' : k ≤ k * epb4 := Nat.le_mul_of_pos_right k he
    rw [hm, hv, Nat.mod_eq_of_lt (show k < 2 ^ 32 by omega), Nat.mod_eq_of_lt (show k * epb4 < 2 ^ 32 by omega),
      Nat.mod_eq_of_lt (show k * epb4 + epb4 < 2 ^ 32 by omega), Nat.add_sub_cancel_left]
    unfold chunk
    apply List.ext_getElem
    · simp
    · intro i h1 h2
      simp
  have l5 := l5 (devOf epb8 epb4 n s).hints _ (visitEra cur) ()
  have hiff : (∀ e ∈ (List.range nr).map fun c => (ae c, c), e.1 ≤ cur) ↔ ∀ b, b < nr → ae b ≤ cur := by simp
  rw [hsh, hiff] at ex
  by_cases hc : ∀ b, b < nr → ae b ≤ cur
  · rw [if_pos hc]
    have hne := ex.mpr ⟨hr, hc⟩
    rw [l5] at hne ⊢
    split at hne
    · next h0 => rw [if_pos h0]
    · exact absurd rfl hne
  · rw [if_neg hc]
    apply Classical.byContradiction
    intro hne
    exact hc (ex.mp hne).2

/-- **C60**: for intact era metadata with any number of archived writesets, `era_check` succeeds exactly if no block was last written in an era after
the current one; otherwise it returns an error. -/
theorem check_exact {epb8 epb4 n nr : Nat} (he8 : 0 < epb8) (he4 : 0 < epb4) {sb : Era.Superblock} {s : ASt Nat} {sets : List ((Nat × Nat) × List Nat)}
    {ae : Nat → Nat} {Be : List Nat} (L : ELayout epb8 epb4 n nr sb s sets ae Be) :
    check false (eraImage epb8 epb4 n (some sb) s) = if ∀ b, b < nr → ae b ≤ sb.current_era then none else some .err := by
  obtain ⟨h, t, hc, hb, hcont⟩ := L.tree
  have hnd := List.nodup_cons.mp L.nodup
  have hnd' := List.nodup_append.mp hnd.2
  have h0 : ∀ x ∈ sets.flatMap (·.2) ++ Be, (fun b : Nat => if b = 0 then 1 else 0) x = 0 := by
    intro x hx
    simp only
    rw [if_neg]
    rintro rfl
    exact hnd.1 hx
  unfold check eraImage
  simp only [Bool.false_eq_true, if_false]
  rw [if_neg (by have := L.version; omega), ← hb, show (devOf epb8 epb4 n s).nr = n from rfl, LW.btreeToMap_contents hc, hcont]
  simp only
  rw [checkWritesets_stored he8 sets _ L.bitsets hnd'.1 (fun x hx => h0 x (by simp [hx]))]
  simp only
  rw [eras_stored he4 L.size L.eras sb.current_era hnd'.2.1 (fun x hx => counted_zero (fun hp => hnd'.2.2 x hp x hx rfl) (h0 x (by simp [hx])))]
  by_cases hall : ∀ b, b < nr → ae b ≤ sb.current_era
  · rw [if_pos hall, if_pos hall]
  · rw [if_neg hall, if_neg hall]

/-- the option for the superblock only -/
theorem check_sbOnly (d : EDev) : check true d = none ↔ ∃ sb, d.sb = some sb ∧ sb.version ≤ 1 := by
  unfold check
  cases d.sb with
  | none => simp
  | some sb =>
    simp only [if_true, Option.some.injEq, exists_eq_left']
    by_cases hv : sb.version > 1
    · rw [if_pos hv]; simp; omega
    · rw [if_neg hv]; simp; omega

/-! ## An example -/

/-- a device of 8 blocks: tree of writesets in block 1 (era 5 with 70 bits), its bitset in 2 and 3, the era array in 4, 5 and 6 -/
def demoS : ASt Nat :=
  { bt := { mem := fun b => if b = 1 then some (.leaf [(5, wsWord 70 2)]) else if b = 2 then some (.leaf [(0, 3)])
              else if b = 4 then some (.leaf [(0, 5), (1, 6)]) else none
            sm := ⟨255, 7, 7, [1, 1, 1, 1, 1, 1, 1, 0]⟩
            log := [] }
    arr := fun b => if b = 3 then some [9, 1] else if b = 5 then some [4, 6] else if b = 6 then some [2] else none }

def demoSb : Era.Superblock :=
  { clean_shutdown := true, block := 0, version := 1, metadata_sm_root := [], data_block_size := 128, nr_blocks := 3, current_era := 6,
    current_writeset := ⟨3, 0⟩, writeset_tree_root := 1, era_array_root := 4, metadata_snap := 0 }

/-- the eras of the three blocks -/
def demoEra (b : Nat) : Nat := if b = 0 then 4 else if b = 1 then 6 else if b = 2 then 2 else 0

theorem demo_inv : demoS.bt.sm.Inv 8 255 := ⟨rfl, rfl, by decide, by decide, by decide, by
  intro b
  by_cases h : b < 8
  · have : ∀ b < 8, SM.Core.abs demoS.bt.sm b ≤ 255 := by decide
    exact this b h
  · have h8 : 8 ≤ b := by omega
    show ([1, 1, 1, 1, 1, 1, 1, 0] : List Nat).getD b 0 ≤ 255
    rw [List.getD_eq_getElem?_getD, List.getElem?_eq_none (by simpa using h8)]
    simp⟩

theorem demo_bits : Arr.Stored 2 2 8 (fun i => if i = 0 then 9 else 1) 2 demoS 0 (2, [(0, 3)]) [3] :=
  { blk := rfl, tree := rfl, ordered := by simp [Tree.Ordered, BT.Chain, BT.Below], keys := trivial, noEmpty := Or.inl rfl, contents := rfl, count := rfl
    values := by intro i hi; match i, hi with | 0, _ => rfl
    live := by decide, liveT := by decide, sm := ⟨_, demo_inv⟩ }

theorem demo_eras : Arr.Stored 2 3 8 demoEra 4 demoS 0 (4, [(0, 5), (1, 6)]) [5, 6] :=
  { blk := rfl, tree := rfl, ordered := by simp [Tree.Ordered, BT.Chain, BT.Below], keys := trivial, noEmpty := Or.inl rfl, contents := rfl, count := rfl
    values := by intro i hi; match i, hi with | 0, _ => rfl | 1, _ => rfl
    live := by decide, liveT := by decide, sm := ⟨_, demo_inv⟩ }

/-- not vacuous: metadata with a writeset of 70 bits and an era array of two blocks -/
theorem demo_layout : ELayout 2 2 8 3 demoSb demoS [((5, wsWord 70 2), [2, 3])] demoEra [4, 5, 6] :=
  { version := by decide
    tree := ⟨0, (1, [(5, wsWord 70 2)]), ⟨rfl, by simp [Tree.Ordered, BT.Chain, BT.Below], Or.inl rfl, by decide⟩, rfl, rfl⟩
    bitsets := by
      intro p hp
      rw [List.mem_singleton.mp hp]
      exact ⟨_, 0, _, _, demo_bits, rfl⟩
    eras := ⟨0, _, _, demo_eras, rfl⟩
    size := by decide
    nodup := by decide }

example : check false (eraImage 2 2 8 (some demoSb) demoS) = none := by
  rw [check_exact (by decide) (by decide) demo_layout, if_pos]
  decide
example : check false (eraImage 2 2 8 (some { demoSb with current_era := 5 }) demoS) = some .err := by decide +kernel

/-! ## What the check does not notice -/

/-- an array block whose last position reaches `2^32` is not looked at: whatever eras it holds are accepted -/
theorem wrap_unchecked (cur k : Nat) (b : ABlock) (h1 : k * b.maxEntries < 2 ^ 32) (hk : k < 2 ^ 32) (hm : b.maxEntries ≤ 2 ^ 32)
    (h : 2 ^ 32 ≤ k * b.maxEntries + b.maxEntries) : (visitEra cur k b ()).1 = true := by
  rw [visitEra_ok]
  intro e he
  unfold contE dblocks at he
  simp only at he
  rw [Nat.mod_eq_of_lt hk, Nat.mod_eq_of_lt h1] at he
  have : (k * b.maxEntries + b.maxEntries) % 2 ^ 32 - k * b.maxEntries = 0 := by
    rw [Nat.mod_eq_sub_mod h, Nat.mod_eq_of_lt (by omega)]
    omega
  rw [this] at he
  simp at he

/-- C60 needs the size: a device of `2^32 - 1` blocks has its last eras in array block 4219024 (1018 eras in a block), which is not looked at -/
theorem check_last_block_refuted : 4219024 * 1018 < 2 ^ 32 - 1 ∧ ∀ cur era, (visitEra cur 4219024 ⟨1018, [era]⟩ ()).1 = true :=
  ⟨by decide, fun cur era => wrap_unchecked cur 4219024 ⟨1018, [era]⟩ (by show 4219024 * 1018 < _; decide) (by decide) (by show 1018 ≤ _; decide)
    (by show _ ≤ 4219024 * 1018 + 1018; decide)⟩

/-- An era array that is shorter than the device is accepted: nothing says when the last blocks were written. -/
theorem check_short_array_refuted : check false (eraImage 2 2 8 (some { demoSb with nr_blocks := 1000 }) demoS) = none := by decide +kernel

/-- The current writeset is not looked at: here its root leads nowhere. -/
theorem check_current_refuted : demoS.bt.mem 7 = none ∧ check false (eraImage 2 2 8 (some { demoSb with current_writeset := ⟨3, 7⟩ }) demoS) = none :=
  ⟨rfl, by decide +kernel⟩

/-- the same with a writeset of era 99 -/
def futureS : ASt Nat := { demoS with bt := { demoS.bt with mem := fun b => if b = 1 then some (.leaf [(99, wsWord 70 2)]) else demoS.bt.mem b } }

/-- A writeset of a future era is accepted. -/
theorem check_future_writeset_refuted : check false (eraImage 2 2 8 (some demoSb) futureS) = none := by decide +kernel

/-- Two writesets may share a bitset, and the second one is then not looked at: here it has no bits, so that reading its bitset fails. -/
theorem check_shared_refuted :
    let s := { demoS with bt := { demoS.bt with mem := fun b => if b = 1 then some (.leaf [(5, wsWord 70 2), (6, wsWord 0 2)]) else demoS.bt.mem b } }
    check false (eraImage 2 2 8 (some demoSb) s) = none ∧
    (match walkArray (devOf 2 2 8 s) (devOf 2 2 8 s).words (visitChecked 0) 2 (fun _ => none) (fun _ => 0) with | .error _ => true | .ok _ => false) = true := by
  decide +kernel

end Verif.EraC
