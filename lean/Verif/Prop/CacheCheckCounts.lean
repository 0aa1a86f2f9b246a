import Verif.Prop.CacheCheckTool

/-!
# `cache_check`: sizes, hints, counts
-/

namespace Verif.CacheM

open Verif.BT (Tree)
open Verif.SMD (SVal)
open Verif.Arr (ASt)

/-- `src/cache/check.rs:296-302`: the number of origin blocks is known after a clean shutdown with a discard bitset; it is the size of the discarded
device in (whole) cache blocks. -/
theorem nrOrigin_spec {sb : Cache.Superblock} {n : Nat} (h : nrOrigin sb = .ok (some n)) (hw : sb.discard_block_size * sb.discard_nr_blocks < 2 ^ 64) :
    sb.clean_shutdown = true ∧ 0 < sb.discard_block_size ∧ 0 < sb.discard_nr_blocks ∧
    n * sb.data_block_size ≤ sb.discard_block_size * sb.discard_nr_blocks ∧
    sb.discard_block_size * sb.discard_nr_blocks < (n + 1) * sb.data_block_size := by
  unfold nrOrigin at h
  split at h
  · rename_i hc
    simp only [Bool.and_eq_true, decide_eq_true_eq] at hc
    split at h
    · cases h
    · rename_i hz
      rw [Nat.mod_eq_of_lt hw] at h
      cases h
      refine ⟨hc.1.1, hc.1.2, hc.2, Nat.div_mul_le_self _ _, ?_⟩
      have := Nat.lt_div_mul_add (a := sb.discard_block_size * sb.discard_nr_blocks) (b := sb.data_block_size) (by omega)
      rw [Nat.add_mul, Nat.one_mul]
      exact this
  · cases h

/-- after a crash nothing is known about it -/
theorem nrOrigin_none {sb : Cache.Superblock} (h : nrOrigin sb = .ok none) :
    sb.clean_shutdown = false ∨ sb.discard_block_size = 0 ∨ sb.discard_nr_blocks = 0 := by
  unfold nrOrigin at h
  split at h
  · split at h <;> cases h
  · rename_i hc
    simp only [Bool.and_eq_true, decide_eq_true_eq] at hc
    cases h1 : sb.clean_shutdown
    · exact Or.inl rfl
    · simp only [h1, true_and] at hc
      omega

example : nrOrigin ckDemoSb = .ok (some 10) ∧ ckDemoSb.discard_block_size * ckDemoSb.discard_nr_blocks < 2 ^ 64 := ⟨rfl, by decide⟩

/-- counting the array blocks: every one as often as it is listed -/
theorem incBlocks_spec {nr : Nat} : ∀ (bs : List Nat) (seen seen' : Nat → Nat), incBlocks nr bs seen = .ok seen' →
    (∀ b ∈ bs, b < nr) ∧ ∀ x, seen' x = seen x + bs.count x := by
  intro bs
  induction bs with
  | nil => intro seen seen' h; cases h; exact ⟨fun b hb => (by cases hb), fun x => by simp⟩
  | cons b bs ih =>
    intro seen seen' h
    unfold incBlocks at h
    split at h
    · rename_i hb
      obtain ⟨i1, i2⟩ := ih _ _ h
      refine ⟨fun c hc => ?_, fun x => ?_⟩
      · rcases List.mem_cons.mp hc with rfl | hc
        · exact hb.1
        · exact i1 c hc
      · rw [i2, List.count_cons]
        by_cases hx : x = b
        · subst hx; simp; omega
        · have hx' : ¬ (b == x) = true := by simpa using fun h => hx h.symm
          simp only [if_neg hx, if_neg hx', Nat.add_zero]
    · cases h

example : ∃ s, incBlocks 8 [3, 4, 3] (fun _ => 0) = .ok s ∧ s 3 = 2 ∧ s 4 = 1 := ⟨_, rfl, rfl, rfl⟩

/-- hints of a size other than four bytes are not accepted -/
theorem checkHints_size {d : Dev} {sb : Cache.Superblock} {seen seen' : Nat → Nat} (h : checkHints d sb seen = .ok seen') :
    sb.hint_root = 0 ∨ sb.policy_hint_size = 0 ∨ sb.policy_hint_size = 4 := by
  unfold checkHints at h
  split at h
  · split at h
    · cases h
    · rename_i h4
      exact Or.inr (Or.inr (Classical.not_not.mp h4))
  · rename_i hc
    by_cases h0 : sb.hint_root = 0
    · exact Or.inl h0
    · exact Or.inr (Or.inl (Classical.not_not.mp fun h1 => hc ⟨h0, h1⟩))

/-- **C34** for the tool: the size of the hints is checked -/
theorem check_hint_size {wr : Nat → Bool} {sbWr : Bool} {o : COpts} {unpackRoot : Bytes → Option SMRoot} {d : CDev} {sb : Cache.Superblock}
    (hsb : d.sb = some sb) (h1 : o.sbOnly = false) (h2 : o.skipHints = false) (hok : (check wr sbWr o unpackRoot d).2 = none) :
    sb.hint_root = 0 ∨ sb.policy_hint_size = 0 ∨ sb.policy_hint_size = 4 := by
  unfold check at hok
  simp only [hsb, h1, Bool.false_eq_true, if_false] at hok
  split at hok
  · cases hok
  · unfold checkArrays at hok
    cases ho : nrOrigin sb with
    | error e => simp only [ho] at hok; cases hok
    | ok origin =>
      simp only [ho] at hok
      cases hm : (if o.skipMappings = true then Except.ok (fun b => if b = 0 then 1 else 0) else checkMappings d.dev sb origin (fun b => if b = 0 then 1 else 0)) with
      | error e => simp only [hm] at hok; cases hok
      | ok seen =>
        simp only [hm, h2, Bool.false_eq_true, if_false] at hok
        cases hh : checkHints d.dev sb seen with
        | error e => simp only [hh] at hok; cases hok
        | ok seen' => exact checkHints_size hh

/-- **C34**, **C20** for the tool: if a full `cache_check` that neither repairs nor ignores leaks succeeds, the metadata space map is exact: its count
of every block is one if the block is in use (by the superblock, an array, or the space map itself) and zero otherwise. -/
theorem check_counts {epb epb8 epb4 n : Nat} (he : 0 < epb) (he8 : 0 < epb8) {sb : Cache.Superblock} {s : ASt Nat} {am ad : Nat → Nat} {Bd Bm Bh Bw : List Nat}
    (L : Layout epb8 epb4 n sb s am ad Bd Bm Bh Bw) {d : CDev} (hd : d.dev = devOf epb8 epb4 n s) (hsb : d.sb = some sb)
    {unpackRoot : Bytes → Option SMRoot} {root : SMRoot} {ies : List IndexEntry} {h : Nat} {t : Tree SVal h} {U : List Nat}
    (hroot : unpackRoot sb.metadata_sm_root = some root) (S : SmLayout d root ies h t U)
    (hdisj : ∀ x ∈ U, x ∉ 0 :: (Bd ++ Bm ++ Bh ++ Bw)) (hent : SMC.Entries epb d.bm)
    {wr : Nat → Bool} {sbWr : Bool} {o : COpts} (hfull : o.full) (hfix : (o.autoRepair || o.clearNeedsCheck) = false) (hign : o.ignoreNonFatal = false)
    (hok : (check wr sbWr o unpackRoot d).2 = none) :
    ∀ b c, b < n → SMD.DiskCount epb (SMC.bitmapOf d.bm) ies (t.contents h) b c →
      c = if b ∈ (0 :: (Bd ++ Bm ++ Bh ++ Bw)) ++ U then 1 else 0 := by
  obtain ⟨f1, f2, f3, f4⟩ := hfull
  obtain ⟨origin, hor, hcons⟩ := check_sound he8 L hd hsb f1 f2 hok
  have harr := (checkArrays_exact he8 L hd f2 hor).1 hcons f3 f4
  have hnr : d.dev.nr = n := by rw [hd]; rfl
  have hsm := checkMetaSm_spec S (seen := counted (0 :: (Bd ++ Bm ++ Bh ++ Bw)) fun _ => 0) (fun x hx => counted_zero (hdisj x hx) rfl)
  obtain ⟨mem, hrdn, hcl⟩ := S.tree
  unfold check at hok
  simp only [hsb, f1, f2, f3, f4, harr, hroot, hsm, Bool.or_false, Bool.false_eq_true, if_false] at hok
  split at hok
  · cases hok
  · cases hcm : SMC.checkMeta (fun b => decide (b < d.dev.nr)) d.rdn d.bm (d.dev.nr + 1) d.dev.nr root
        ((List.range d.dev.nr).map (counted U (counted (0 :: (Bd ++ Bm ++ Bh ++ Bw)) fun _ => 0))) ies with
    | none => simp only [hcm] at hok; cases hok
    | some leaks =>
      simp only [hcm] at hok
      have hl : leaks = [] := by
        cases leaks with
        | nil => rfl
        | cons l ls => simp [finish, hfix, hign] at hok
      subst hl
      have hag := SMC.checkMeta_sound_partial he hent (mem := mem) S.blk hcl.stored hcl.bound (by rw [← hrdn]; exact hcm)
      intro b c hb hdc
      have hex : ((List.range d.dev.nr).map (counted U (counted (0 :: (Bd ++ Bm ++ Bh ++ Bw)) fun _ => 0)))[b]? =
          some (if b ∈ (0 :: (Bd ++ Bm ++ Bh ++ Bw)) ++ U then 1 else 0) := by
        rw [List.getElem?_map, List.getElem?_range (by rw [hnr]; exact hb), counted_append]
        rfl
      rcases hag b _ c hex (by left; split <;> omega) hdc with h | ⟨-, -, l, hl, -⟩
      · exact h
      · cases hl

/-- A leaked block: the demo device, but block 7 has a count. -/
def leakDev : CDev :=
  { ckDemoDev with bm := fun b => if b = 6 then some (true, [.small 1, .small 1, .small 1, .small 1, .small 1, .small 1, .small 1, .small 1]) else none }

theorem leakDemo_sm : SmLayout leakDev ckDemoRoot [⟨6, 1, 7⟩] 0 (4, []) [4, 5, 6] :=
  { tree := ⟨_, rfl, ⟨rfl, by simp [Tree.Ordered, BT.Chain, BT.Below], Or.inl rfl, by decide⟩⟩
    blk := rfl
    index := rfl
    blocks := rfl
    bound := by decide
    nodup := by decide }

/-- it is found -/
example : (check (fun _ => true) true ⟨false, false, false, false, false, false, false⟩ (fun _ => some ckDemoRoot) leakDev).2 ≠ none := by
  intro h
  have hent : SMC.Entries 8 leakDev.bm := by
    intro loc t es h
    simp only [leakDev] at h
    split at h
    · cases h
      exact ⟨rfl, fun n hn => by simp at hn; omega⟩
    · cases h
  have := check_counts (epb := 8) (by decide) (by decide) ckDemo_layout (d := leakDev) rfl rfl (unpackRoot := fun _ => some ckDemoRoot) rfl
    leakDemo_sm (by decide) hent (wr := fun _ => true) (sbWr := true) (o := ⟨false, false, false, false, false, false, false⟩) ⟨rfl, rfl, rfl, rfl⟩ rfl rfl h 7 1 (by decide)
    (.small ⟨6, 1, 7⟩ _ rfl rfl rfl)
  revert this
  decide

/-- and accepted with `--ignore-non-fatal-errors` -/
example : (check (fun _ => true) true ⟨false, false, false, false, true, false, false⟩ (fun _ => some ckDemoRoot) leakDev).2 = none := by rfl

end Verif.CacheM
