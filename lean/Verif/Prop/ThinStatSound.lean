import Verif.Prop.ThinStatRuns
import Verif.Prop.ThinLsSound

/-!
# C68, C69: `thin_stat` prints nothing unless all it needs could be read
-/

namespace Verif.Stat

open Verif.BT (Blk WSt)
open Verif.SMD (SVal)
open Verif.TChk (TDev)
open Verif.Ls (AllRead)

theorem statLow_sound {bm : Nat → Option (Bool × List BE)} : ∀ (locs : List Nat) (h h' : Hist), statLow bm locs h = some h' → ∀ loc ∈ locs, ∃ es, bm loc = some (true, es) := by
  intro locs
  induction locs with
  | nil => intro _ _ _ loc hl; cases hl
  | cons a locs ih =>
    intro h h' hs loc hl
    unfold statLow at hs
    cases hb : bm a with
    | none => rw [hb] at hs; cases hs
    | some p =>
      obtain ⟨t, es⟩ := p
      rw [hb] at hs
      simp only at hs
      cases t with
      | false => rw [if_neg (by decide)] at hs; cases hs
      | true =>
        rw [if_pos rfl] at hs
        rcases List.mem_cons.mp hl with rfl | hl
        · exact ⟨es, hb⟩
        · exact ih _ _ hs loc hl

theorem statOverflow_sound {d : TDev} (hrd : ∀ b n, d.rdn false b = some n → d.rdn true b = some n) {root : Nat} {h h' : Hist} (hs : statOverflow d root h = some h') : AllRead d.rdn d.nr root := by
  unfold statOverflow at hs
  simp only at hs
  by_cases hok : (BT.walk (fun b => decide (b < d.nr)) d.rdn (fun _ _ => true) (d.nr + 1) [0] root (WSt.fresh d.nr 1 true)).2 = .ok
  · intro b hb hn
    have := BT.walk_ok_covers (fun b => decide (b < d.nr)) d.rdn hrd (fun _ _ => true) d.nr 1 (by decide) true (d.nr + 1) [0] root hok b hb
    unfold BT.Covered at this
    rw [hn] at this
    exact this
  · rw [if_neg hok] at hs; cases hs

/-- **C68, any device.**  If the counts of data blocks are printed, then the superblock, the whole index tree, every bitmap in it and the whole tree of larger counts could be read. -/
theorem data_blocks_sound {unpackRoot : Bytes → Option SMRoot} {d : TDev} (hrd : ∀ b n, d.rdn false b = some n → d.rdn true b = some n) {r : Hist × Nat} (h : dataBlocks unpackRoot d = some r) :
    ∃ sb root m, d.sb = some sb ∧ unpackRoot sb.data_sm_root = some root ∧ LW.btreeToMap d.rdn d.nr root.bitmap_root = some m ∧ AllRead d.rdn d.nr root.bitmap_root ∧
      (∀ ie ∈ SMC.indexValues m, ∃ es, d.bm ie.blocknr = some (true, es)) ∧ AllRead d.rdn d.nr root.ref_count_root := by
  unfold dataBlocks at h
  cases h1 : d.sb with
  | none => rw [h1] at h; cases h
  | some sb =>
    rw [h1] at h
    simp only at h
    cases h2 : unpackRoot sb.data_sm_root with
    | none => rw [h2] at h; cases h
    | some root =>
      rw [h2] at h
      simp only at h
      unfold statData at h
      cases h3 : LW.btreeToMap d.rdn d.nr root.bitmap_root with
      | none => rw [h3] at h; cases h
      | some m =>
        rw [h3] at h
        simp only at h
        cases h4 : statLow d.bm ((SMC.indexValues m).map (·.blocknr)) [] with
        | none => rw [h4] at h; cases h
        | some g =>
          rw [h4] at h
          simp only at h
          cases h5 : statOverflow d root.ref_count_root g with
          | none => rw [h5] at h; cases h
          | some g' =>
            exact ⟨sb, root, m, rfl, h2, h3, Ls.btreeToMap_read hrd h3, fun ie hie => statLow_sound _ _ _ h4 _ (List.mem_map.mpr ⟨ie, hie, rfl⟩), statOverflow_sound hrd h5⟩

/-- **C68, any device, metadata blocks.** -/
theorem metadata_blocks_sound {unpackRoot : Bytes → Option SMRoot} {d : TDev} (hrd : ∀ b n, d.rdn false b = some n → d.rdn true b = some n) {r : Hist × Nat} (h : metadataBlocks unpackRoot d = some r) :
    ∃ sb root ies, d.sb = some sb ∧ unpackRoot sb.metadata_sm_root = some root ∧ d.index root.bitmap_root = some ies ∧
      (∀ ie ∈ ies, ∃ es, d.bm ie.blocknr = some (true, es)) ∧ AllRead d.rdn d.nr root.ref_count_root := by
  unfold metadataBlocks at h
  cases h1 : d.sb with
  | none => rw [h1] at h; cases h
  | some sb =>
    rw [h1] at h
    simp only at h
    cases h2 : unpackRoot sb.metadata_sm_root with
    | none => rw [h2] at h; cases h
    | some root =>
      rw [h2] at h
      simp only at h
      unfold statMeta at h
      cases h3 : d.index root.bitmap_root with
      | none => rw [h3] at h; cases h
      | some ies =>
        rw [h3] at h
        simp only at h
        cases h4 : statLow d.bm (ies.map (·.blocknr)) [] with
        | none => rw [h4] at h; cases h
        | some g =>
          rw [h4] at h
          simp only at h
          cases h5 : statOverflow d root.ref_count_root g with
          | none => rw [h5] at h; cases h
          | some g' => exact ⟨sb, root, ies, rfl, h2, h3, fun ie hie => statLow_sound _ _ _ h4 _ (List.mem_map.mpr ⟨ie, hie, rfl⟩), statOverflow_sound hrd h5⟩

theorem walkRoots_sound {d : TDev} : ∀ (roots : List Nat) (s s' : WSt Nat), s.nr = d.nr → 0 < s.mx → BT.AllClosed (fun _ b => d.low.rd b) (fun _ _ => true) s → walkRoots d roots s = some s' →
    BT.Mono s s' ∧ BT.AllClosed (fun _ b => d.low.rd b) (fun _ _ => true) s' ∧ ∀ r ∈ roots, 0 < s'.seen r := by
  intro roots
  induction roots with
  | nil => intro s s' _ _ hc h; cases h; exact ⟨BT.Mono.refl _, hc, fun _ hr => by cases hr⟩
  | cons r roots ih =>
    intro s s' hnr hmx hc h
    have hstep : walkRoots d (r :: roots) s = if (BT.walk (fun b => decide (b < d.nr)) (fun _ b => d.low.rd b) (fun _ _ => true) (d.nr + 1) [] r s).2 = .ok then
        walkRoots d roots (BT.walk (fun b => decide (b < d.nr)) (fun _ b => d.low.rd b) (fun _ _ => true) (d.nr + 1) [] r s).1 else none := rfl
    rw [hstep] at h
    by_cases hok : (BT.walk (fun b => decide (b < d.nr)) (fun _ b => d.low.rd b) (fun _ _ => true) (d.nr + 1) [] r s).2 = .ok
    · rw [if_pos hok] at h
      obtain ⟨c1, c2⟩ := BT.walk_closed (fun b => decide (b < d.nr)) (fun _ b => d.low.rd b) rdAny (fun _ _ => true) s hmx (d.nr + 1) [] r hc hok
      have hm : BT.Mono s (BT.walk (fun b => decide (b < d.nr)) (fun _ b => d.low.rd b) (fun _ _ => true) (d.nr + 1) [] r s).1 := BT.walk_mono _ _ _ _ _ _ _ hmx
      obtain ⟨i1, i2, i3⟩ := ih _ s' (hm.nr.trans hnr) (by rw [hm.mx]; exact hmx) c1 h
      refine ⟨hm.trans i1, i2, fun x hx => ?_⟩
      rcases List.mem_cons.mp hx with rfl | hx
      · exact Nat.lt_of_lt_of_le c2 (i1.seen _)
      · exact i3 x hx
    · rw [if_neg hok] at h; cases h

/-- **C69, any device.**  If the runs are printed, then the superblock, the list of devices and the mapping tree of every device could be read completely. -/
theorem data_runs_sound {d : TDev} (htop : ∀ b n, d.tops false b = some n → d.tops true b = some n) {r : Hist × Nat × Nat} (h : dataRuns d = some r) :
    ∃ sb m, d.sb = some sb ∧ LW.btreeToMap d.tops d.nr sb.mapping_root = some m ∧ AllRead d.tops d.nr sb.mapping_root ∧ ∀ e ∈ m, AllRead (fun _ b => d.low.rd b) d.nr e.2 := by
  unfold dataRuns at h
  cases h1 : d.sb with
  | none => rw [h1] at h; cases h
  | some sb =>
    rw [h1] at h
    simp only at h
    unfold runLengths at h
    cases h2 : LW.btreeToMap d.tops d.nr sb.mapping_root with
    | none => rw [h2] at h; cases h
    | some m =>
      rw [h2] at h
      simp only at h
      cases h3 : walkRoots d (m.map (·.2)) (WSt.fresh d.nr 1 true) with
      | none => rw [h3] at h; cases h
      | some s =>
        obtain ⟨w1, w2, w3⟩ := walkRoots_sound _ _ _ rfl Nat.one_pos (fun x hx => absurd hx (by simp [WSt.fresh])) h3
        refine ⟨sb, m, rfl, h2, Ls.btreeToMap_read htop h2, fun e he b hb hn => ?_⟩
        have hnr : s.nr = d.nr := w1.nr
        have := (BT.covered_of_seen w2 (w3 e.2 (List.mem_map.mpr ⟨e, he, rfl⟩)) (b := b) (by rw [hnr]; exact hb)).2
        unfold BT.Covered at this
        rw [hn] at this
        exact this

end Verif.Stat
