import Verif.Prop.ThinCheckTool
import Verif.Prop.ThinCheckPoolDemo

/-!
# C47: the metadata snapshot, and options that exclude each other
-/

namespace Verif.TChk

open Verif.BT (Blk)

/-- C47: repairs and clearing the flag are refused together with a metadata snapshot or with overridden roots: nothing is written. -/
theorem check_conflict (unpackRoot : Bytes → Option SMRoot) (bot : List Nat → Sm → Sm → Sm × Sm × Option Sums) (w : Wr) (o : TOpts) (d : TDev)
    (h : o.repair = true ∨ o.clear = true) (h' : o.snap = true ∨ o.overMap ≠ none ∨ o.overDet ≠ none) : check unpackRoot bot w o d = (d, .err) := by
  unfold check
  rw [if_pos]
  have e : ∀ x : Option Nat, x ≠ none → x.isSome = true := by intro x hx; cases x with | none => exact absurd rfl hx | some _ => rfl
  rw [Bool.and_eq_true, Bool.or_eq_true, Bool.or_eq_true, Bool.or_eq_true]
  refine ⟨h, ?_⟩
  rcases h' with h' | h' | h'
  · exact Or.inl (Or.inl h')
  · exact Or.inl (Or.inr (e _ h'))
  · exact Or.inr (e _ h')

/-- C47: the counts of the metadata blocks start at zero and can go up to the number of devices (below 2^32) of the pool and of its metadata snapshot together. -/
theorem createMetaSm_room {d : TDev} {sb : Thin.Superblock} {snap : Option (Option Thin.Superblock)} {sm : Sm} (h : createMetaSm d sb snap = some sm) :
    sm.nr = d.nr ∧ sm.sat = false ∧ (∀ b, sm.cnt b = 0) ∧ ∃ roots sm', toMap d d.tops sb.mapping_root (restricted d.nr) = (some roots, sm') ∧
      (roots.length < 2 ^ 32 → roots.length ≤ sm.mx) ∧
      ∀ s, snap = some (some s) → ∃ roots' sm'', toMap d d.tops s.mapping_root sm' = (some roots', sm'') ∧
        (roots.length + roots'.length < 2 ^ 32 → roots.length + roots'.length ≤ sm.mx) := by
  unfold createMetaSm at h
  cases h1 : toMap d d.tops sb.mapping_root (restricted d.nr) with
  | mk o1 sm1 =>
    rw [h1] at h
    cases o1 with
    | none => cases h
    | some roots =>
      simp only at h
      cases snap with
      | none =>
        cases h
        exact ⟨rfl, rfl, fun _ => rfl, roots, sm1, rfl, fun hl => (coreSm_mx hl).1, fun s hs => by cases hs⟩
      | some so =>
        cases so with
        | none =>
          cases h
          exact ⟨rfl, rfl, fun _ => rfl, roots, sm1, rfl, fun hl => (coreSm_mx hl).1, fun s hs => by cases hs⟩
        | some s =>
          simp only at h
          cases h2 : toMap d d.tops s.mapping_root sm1 with
          | mk o2 sm2 =>
            rw [h2] at h
            cases o2 with
            | none => cases h
            | some roots' =>
              cases h
              refine ⟨rfl, rfl, fun _ => rfl, roots, sm1, rfl, fun hl => ?_, fun s' hs => ?_⟩
              · by_cases hr : roots.length + roots'.length < 2 ^ 32
                · have := (coreSm_mx (nr := d.nr) hr).1; omega
                · unfold coreSm
                  simp only
                  rw [if_neg (by omega), if_neg (by omega)]
                  omega
              · cases hs
                exact ⟨roots', sm2, h2, fun hl => (coreSm_mx hl).1⟩

/-- C47: a device of the snapshot needs no check of its own exactly if the pool has a device of the same number with the same root -/
theorem mem_exclusive (thins : Thins) (roots : List (Nat × Nat)) (e : Nat × Nat) : e ∈ exclusive thins roots ↔ e ∈ roots ∧ ¬ ∃ n, (e.1, e.2, n) ∈ thins := by
  unfold exclusive
  rw [List.mem_filter, Bool.not_eq_true', List.any_eq_false]
  refine and_congr_right fun _ => ?_
  constructor
  · rintro h ⟨n, hn⟩
    exact h _ hn (by simp)
  · intro h t ht
    simp only [Bool.and_eq_true, decide_eq_true_eq]
    rintro ⟨h1, h2⟩
    refine h ⟨t.2.2, ?_⟩
    rw [← h1, ← h2]
    exact ht

theorem zip_spec : ∀ (roots : List (Nat × Nat)) (devs : List (Nat × DeviceDetail)), devs.map (·.1) = roots.map (·.1) → ∀ e ∈ roots, ∃ det, (e.1, det) ∈ devs ∧
    (e.1, e.2, det.mapped_blocks) ∈ zipThins roots devs := by
  intro roots
  induction roots with
  | nil => intro devs _ e he; cases he
  | cons r roots ih =>
    intro devs h e he
    cases devs with
    | nil => cases h
    | cons x devs =>
      rw [List.map_cons, List.map_cons] at h
      injection h with h1 h2
      rcases List.mem_cons.mp he with rfl | he
      · exact ⟨x.2, by rw [← h1]; simp, by simp [zipThins]⟩
      · obtain ⟨det, i1, i2⟩ := ih devs h2 e he
        exact ⟨det, by simp [i1], by simp only [zipThins, List.zip_cons_cons, List.map_cons, List.mem_cons]; exact Or.inr i2⟩

/-- C47: a run that succeeds, checks the mappings and finds a metadata snapshot has read the snapshot, whose two trees have the same devices; it has counted the mappings of
every device the walk over the snapshot's tree shows and that is not also the pool's, and the number is the one in the snapshot's details. -/
theorem check_snapshot {unpackRoot : Bytes → Option SMRoot} {bot : List Nat → Sm → Sm → Sm × Sm × Option Sums} {w : Wr} {o : TOpts} {d d' : TDev} {sb : Thin.Superblock}
    (h : check unpackRoot bot w o d = (d', .ok)) (hsb : d.sb = some sb) (h1 : o.sbOnly = false) (h2 : o.skip = false) (hm : 0 < sb.metadata_snap) :
    ∃ s thins sm sm' devs roots m, d.sbAt sb.metadata_snap = some s ∧ consistent d s = true ∧ getDevices d s sm = (some (devs, roots), sm') ∧
      (∃ rs dsm dsm', (bot rs sm' dsm).2.2 = some m ∧ (bot rs sm' dsm).2.1 = dsm' ∧ (∀ e ∈ roots, e.2 ∈ rs) ∧ ∀ t ∈ thins, t.2.1 ∈ rs) ∧
      (∀ t ∈ thins, devOk m t.2.1 t.2.2 = true) ∧ (o.snap = true → thins = []) ∧
      ∀ e ∈ roots, (∃ n, (e.1, e.2, n) ∈ thins) ∨ ∃ det, (e.1, det) ∈ devs ∧ devOk m e.2 det.mapped_blocks = true := by
  unfold check at h
  by_cases hc : ((o.repair || o.clear) && (o.snap || o.overMap.isSome || o.overDet.isSome)) = true
  · rw [if_pos hc] at h; cases h
  rw [if_neg hc, hsb] at h
  simp only at h
  generalize hsb' : ({ sb with mapping_root := o.overMap.getD sb.mapping_root, details_root := o.overDet.getD sb.details_root } : Thin.Superblock) = sb' at h
  have hsn : sb'.metadata_snap = sb.metadata_snap := by rw [← hsb']
  unfold checkSb at h
  by_cases ha : (o.snap && ((snapOf d sb').getD none).isNone) = true
  · rw [if_pos ha] at h; cases h
  rw [if_neg ha] at h
  simp only [h1, Bool.false_eq_true, if_false, h2] at h
  cases hms : (if o.snap then some (restricted d.nr) else createMetaSm d sb' (snapOf d sb')) with
  | none => rw [hms] at h; cases h
  | some msm =>
    rw [hms] at h
    simp only at h
    cases hin : incSb msm sb'.metadata_snap with
    | none => rw [hin] at h; cases h
    | some msm1 =>
      rw [hin] at h
      simp only at h
      cases hth : (if o.snap then (some ([], []), msm1) else thinsOfSb d sb' msm1) with
      | mk ot sm =>
        rw [hth] at h
        cases ot with
        | none => cases h
        | some tr =>
          obtain ⟨thins, rts⟩ := tr
          simp only at h
          have hsome : snapOf d sb' = some (d.sbAt sb.metadata_snap) := by unfold snapOf; rw [hsn, if_pos hm]
          rw [hsome] at h
          unfold checkBottom at h
          cases hu : unpackRoot sb'.data_sm_root with
          | none => rw [hu] at h; cases h
          | some droot =>
            rw [hu] at h
            simp only at h
            by_cases hmr : (unpackRoot sb'.metadata_sm_root).isNone = true
            · rw [if_pos hmr] at h; cases h
            rw [if_neg hmr] at h
            generalize hts : snapThins d (some (d.sbAt sb.metadata_snap)) thins sm = ts at h
            generalize hdsm : createDataSm droot (if o.snap then 1 else (allRoots rts ts.1).length) = dsm at h
            cases hb : (bot (allRoots rts ts.1) ts.2 dsm).2.2 with
            | none => rw [hb] at h; cases h
            | some m =>
              rw [hb] at h
              simp only at h
              cases hcm : checkMapped m thins with
              | false => rw [hcm] at h; cases h
              | true =>
                rw [hcm] at h
                simp only [Bool.not_true, Bool.false_eq_true, if_false] at h
                obtain ⟨o2, sm2⟩ := ts
                cases o2 with
                | none => cases h
                | some t =>
                  simp only at h
                  cases hcm2 : checkMapped m t.1 with
                  | false => rw [hcm2] at h; cases h
                  | true =>
                    unfold snapThins at hts
                    cases hs : d.sbAt sb.metadata_snap with
                    | none => rw [hs] at hts; cases hts
                    | some s =>
                      rw [hs] at hts
                      simp only [thinsOfSnap] at hts
                      cases hcons : consistent d s with
                      | false => rw [hcons] at hts; cases hts
                      | true =>
                        rw [hcons] at hts
                        simp only [if_true] at hts
                        cases hg : getDevices d s sm with
                        | mk og smg =>
                          rw [hg] at hts
                          cases og with
                          | none => cases hts
                          | some dr =>
                            obtain ⟨devs, roots⟩ := dr
                            simp only at hts
                            split at hts
                            · rename_i heq
                              cases hts
                              have hrts : ∀ t ∈ thins, t.2.1 ∈ rts := by
                                cases hos : o.snap with
                                | true =>
                                  rw [hos] at hth
                                  cases hth
                                  intro t ht
                                  cases ht
                                | false =>
                                  rw [hos] at hth
                                  simp only [Bool.false_eq_true, if_false, thinsOfSb] at hth
                                  cases hg2 : getDevices d sb' msm1 with
                                  | mk og2 smg2 =>
                                    rw [hg2] at hth
                                    cases og2 with
                                    | none => cases hth
                                    | some dr2 =>
                                      obtain ⟨devs2, roots2⟩ := dr2
                                      simp only at hth
                                      split at hth
                                      · cases hth
                                        rename_i he2
                                        intro t ht
                                        have := List.mem_map_of_mem (f := fun e : Nat × Nat × Nat => e.2.1) ht
                                        rw [sumsTo_zip _ _ he2] at this
                                        exact this
                                      · cases hth
                              refine ⟨s, thins, sm, sm2, devs, roots, m, rfl, hcons, hg, ⟨_, dsm, _, hb, rfl, ?_, ?_⟩, ?_, ?_, ?_⟩
                              · intro e he
                                exact List.mem_append.mpr (Or.inr (List.mem_map.mpr ⟨e, he, rfl⟩))
                              · intro t ht
                                exact List.mem_append.mpr (Or.inl (hrts t ht))
                              · unfold checkMapped at hcm
                                rw [List.all_eq_true] at hcm
                                exact hcm
                              · intro hos
                                rw [hos] at hth
                                cases hth
                                rfl
                              · intro e he
                                by_cases hex : ∃ n, (e.1, e.2, n) ∈ thins
                                · exact Or.inl hex
                                · obtain ⟨det, z1, z2⟩ := zip_spec _ _ heq e ((mem_exclusive thins roots e).mpr ⟨he, hex⟩)
                                  refine Or.inr ⟨det, (List.mem_filter.mp z1).1, ?_⟩
                                  unfold checkMapped at hcm2
                                  rw [List.all_eq_true] at hcm2
                                  exact hcm2 _ z2
                            · cases hts

/-- the demo pool with a metadata snapshot at 14, whose device 2 has another mapping tree (17) -/
def snDev : TDev := { pdDev with
  sb := some { pdSb with metadata_snap := 14 }
  sbAt := fun b => if b = 14 then some { pdSb with mapping_root := 15, details_root := 16 } else none
  dets := fun _ b => if b = 6 ∨ b = 16 then some (.leaf pdDetails) else none
  tops := fun _ b => if b = 7 then some (.leaf [(1, 1), (2, 2)]) else if b = 15 then some (.leaf [(1, 1), (2, 17)]) else none
  low := { pdLow with
    rd := fun b => if b = 17 then some (.internal [(0, 3), (5, 4)]) else pdLow.rd b
    rdl := fun b => if b = 17 then some (.internal [(0, 3), (5, 4)]) else pdLow.rdl b } }

/-- a run of `thin_check --metadata-snap` that meets the hypotheses of `check_snapshot` -/
example : (check pdUnpack (bottomOf snDev.low true 30) ⟨fun _ => true, fun _ => true, true⟩ ⟨false, false, true, false, false, true, none, none⟩ snDev).2 = .ok := rfl

/-- with a wrong number of mappings in the snapshot's details the run fails -/
example : (check pdUnpack (bottomOf snDev.low true 30) ⟨fun _ => true, fun _ => true, true⟩ ⟨false, false, true, false, false, true, none, none⟩
    { snDev with dets := fun _ b => if b = 6 then some (.leaf pdDetails) else if b = 16 then some (.leaf [(1, ⟨3, 0, 0, 0⟩), (2, ⟨4, 0, 0, 0⟩)]) else none }).2 = .err := rfl

/-- the room for the counts: four devices in all -/
example : ((createMetaSm snDev { pdSb with metadata_snap := 14 } (snapOf snDev { pdSb with metadata_snap := 14 })).map fun sm => sm.mx) = some 255 := rfl

end Verif.TChk
