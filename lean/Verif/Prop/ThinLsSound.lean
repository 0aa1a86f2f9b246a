import Verif.Prop.ThinLsTool
import Verif.Prop.ThinCheckPoolDemo

/-!
# C67: whatever the device, a number of mappings that `thin_ls` prints is right

And what it gets wrong.
-/

namespace Verif.Ls

open Verif.BT (Blk KeyRange splitKeyRanges Tree)
open Verif.TChk (Dev Sm NodeMap Sum Sums u32 setBit chunks leavesOf chunkRead chunkFail kids Sane dataOf TDev Keys Overlap SumOk SumsOk InfoOk)

variable {d : Dev}

/-- the part of the summaries that `thin_check` has, too -/
def proj (m : LSums) : Sums := fun b => (m b).map (·.sum)

theorem proj_set (m : LSums) (b : Nat) (s : LSum) : proj (setBit m b (some s)) = setBit (proj m) b (some s.sum) := by
  funext x
  unfold proj setBit
  by_cases e : x = b
  · simp [e]
  · simp [e]

theorem add_sum (s c : LSum) : (s.add c).sum = s.sum.add c.sum := by
  unfold LSum.add Sum.add
  cases s.sum.append c.sum <;> rfl

theorem adjust_sum (msm : Sm) (b : Nat) (s : LSum) : (adjust msm b s).sum = s.sum := by
  unfold adjust
  split <;> rfl

theorem sumKids_proj {f : KeyRange → Nat → LSums → Option (LSums × LSum)} {g : KeyRange → Nat → Sums → Option (Sums × Sum)}
    (hfg : ∀ kr b m m' s, f kr b m = some (m', s) → g kr b (proj m) = some (proj m', s.sum)) : ∀ (ks : List (KeyRange × Nat)) (m : LSums) (acc : LSum) (m' : LSums) (s : LSum),
    sumKids f ks m acc = some (m', s) → TChk.sumKids g ks (proj m) acc.sum = some (proj m', s.sum) := by
  intro ks
  induction ks with
  | nil => intro m acc m' s h; cases h; rfl
  | cons k ks ih =>
    intro m acc m' s h
    obtain ⟨kr, b⟩ := k
    unfold sumKids at h
    unfold TChk.sumKids
    cases hf : f kr b m with
    | none => rw [hf] at h; cases h
    | some p =>
      rw [hf] at h
      rw [hfg kr b m p.1 p.2 hf]
      simp only at h ⊢
      rw [← add_sum]
      exact ih _ _ _ _ h

theorem summarize_proj (n : NodeMap) (msm : Sm) (ign : Bool) : ∀ (fuel : Nat) (kr : KeyRange) (isRoot : Bool) (b : Nat) (m m' : LSums) (s : LSum),
    summarize n msm ign fuel kr isRoot b m = some (m', s) → TChk.summarize n ign fuel kr isRoot b (proj m) = some (proj m', s.sum) := by
  intro fuel
  induction fuel with
  | zero => intro kr isRoot b m m' s h; cases h
  | succ fuel ih =>
    intro kr isRoot b m m' s h
    unfold summarize at h
    unfold TChk.summarize
    cases hb : m b with
    | some t =>
      rw [hb] at h
      simp only [Option.some.injEq, Prod.mk.injEq] at h
      have : proj m b = some t.sum := by unfold proj; rw [hb]; rfl
      rw [this]
      simp only
      rw [← h.1, ← h.2, recheck_sum]
    | none =>
      rw [hb] at h
      have : proj m b = none := by unfold proj; rw [hb]; rfl
      rw [this]
      simp only at h ⊢
      by_cases ht : n.ty b = .internal
      · rw [if_pos ht] at h ⊢
        cases hi : n.info b with
        | none => rw [hi] at h; cases h; rfl
        | some ch =>
          rw [hi] at h
          simp only at h ⊢
          by_cases hmn : (!ign && !isRoot && decide (ch.length < TChk.MIN_ENTRIES)) = true
          · rw [if_pos hmn] at h ⊢; cases h; rfl
          · rw [if_neg hmn] at h ⊢
            cases hk : splitKeyRanges kr (ch.map (·.1)) with
            | none => rw [hk] at h; cases h; rfl
            | some krs =>
              rw [hk] at h
              simp only at h ⊢
              cases hs : sumKids (fun kr b m => summarize n msm ign fuel kr false b m) (krs.zip (ch.map (·.2))) m ⟨⟨0, 0, 0, 0, 0⟩, 0⟩ with
              | none => rw [hs] at h; cases h
              | some p =>
                rw [hs] at h
                have := sumKids_proj (g := fun kr b m => TChk.summarize n ign fuel kr false b m) (fun kr b m m' s h => ih kr false b m m' s h) _ _ _ _ _ hs
                simp only at this h
                rw [this]
                simp only [Option.some.injEq, Prod.mk.injEq] at h ⊢
                rw [← h.1, ← h.2, proj_set, adjust_sum]
                exact ⟨rfl, rfl⟩
      · rw [if_neg ht] at h ⊢
        cases h
        rfl

theorem count_proj (n : NodeMap) (msm : Sm) (ign : Bool) (fuel : Nat) : ∀ (roots : List Nat) (m m' : LSums), countMapped n msm ign fuel roots m = some m' →
    TChk.countMapped n ign fuel roots (proj m) = some (proj m') := by
  intro roots
  induction roots with
  | nil => intro m m' h; cases h; rfl
  | cons r rs ih =>
    intro m m' h
    unfold countMapped at h
    unfold TChk.countMapped
    cases hs : summarize n msm ign fuel ⟨none, none⟩ true (u32 r) m with
    | none => rw [hs] at h; cases h
    | some p =>
      rw [hs] at h
      rw [summarize_proj n msm ign fuel _ _ _ m p.1 p.2 hs]
      exact ih _ _ h

theorem chunks_info {n : NodeMap} (h : InfoOk d n) (cs : List (List Nat)) : InfoOk d (cs.foldl (chunkFail d) n) := by
  apply TChk.foldl_inv (InfoOk d) _ _ _ _ h
  intro s c hs
  unfold chunkFail
  split
  · exact hs
  · exact TChk.foldl_inv (InfoOk d) _ (fun s a hs => hs.insertError _) _ _ hs

theorem set_leaf_ok (hd : Sane d) {m : LSums} (h : SumsOk d (proj m)) {b : Nat} {es : List (Nat × Nat)} (hb : d.rd b = some (.leaf es)) (x : Nat) :
    SumsOk d (proj (setBit m (u32 b) (some (LSum.ofLeaf (es.map (·.1)) x)))) := by
  have hlt : b < 2 ^ 32 := Nat.lt_of_lt_of_le (hd.bound b _ hb) hd.small
  rw [proj_set, TChk.u32_of_lt hlt]
  intro y s hy ho
  simp only [setBit] at hy
  by_cases e : y = b
  · rw [if_pos e] at hy; cases hy; subst e; exact TChk.ofLeaf_ok hd hb
  · rw [if_neg e] at hy; exact h y s hy ho

/-- the passes over the leaves, whatever they meet -/
theorem read_leaves_sound (hd : Sane d) {n : NodeMap} {msm dsm : Sm} (h : InfoOk d n) {n' : NodeMap} {dsm' : Sm} {m : LSums} (hr : ReadLeaves d n msm dsm (some (n', dsm', m))) :
    InfoOk d n' ∧ SumsOk d (proj m) := by
  obtain ⟨order, -, e⟩ := hr
  have key : ∀ (l : List Nat) (s : NodeMap × Sm × LSums), InfoOk d s.1 → SumsOk d (proj s.2.2) → ∀ r, leafSteps d msm l s = some r → InfoOk d r.1 ∧ SumsOk d (proj r.2.2) := by
    intro l
    induction l with
    | nil => intro s h1 h2 r hr; cases hr; exact ⟨h1, h2⟩
    | cons b l ih =>
      intro s h1 h2 r hr
      unfold leafSteps at hr
      cases hs : leafStep d msm s b with
      | none => rw [hs] at hr; cases hr
      | some s1 =>
        rw [hs] at hr
        unfold leafStep at hs
        cases hb : d.rd b with
        | none => rw [hb] at hs; cases hs; exact ih (s.1.insertError (u32 b), s.2.1, s.2.2) (h1.insertError _) h2 r hr
        | some blk =>
          cases blk with
          | internal ch => rw [hb] at hs; cases hs; exact ih _ h1 h2 r hr
          | leaf es =>
            rw [hb] at hs
            simp only at hs
            cases hi : incData es s.2.1 with
            | none => rw [hi] at hs; cases hs
            | some dsm1 =>
              rw [hi] at hs
              cases hs
              refine ih (s.1, dsm1, if msm.cnt b > 1 then setBit s.2.2 (u32 b) (some (LSum.ofLeaf (es.map (·.1)) es.length)) else s.2.2) h1 ?_ r hr
              show SumsOk d (proj (if msm.cnt b > 1 then setBit s.2.2 (u32 b) (some (LSum.ofLeaf (es.map (·.1)) es.length)) else s.2.2))
              split
              · exact set_leaf_ok hd h2 hb _
              · exact h2
  exact key order _ (chunks_info h _) (fun b s h => by cases h) _ e.symm

theorem read_excl_sound (hd : Sane d) {n : NodeMap} {msm dsm : Sm} {m : LSums} (h : InfoOk d n) (hm : SumsOk d (proj m)) {r : NodeMap × LSums} (hr : ReadExcl d n msm dsm m r) :
    InfoOk d r.1 ∧ SumsOk d (proj r.2) := by
  obtain ⟨order, -, e⟩ := hr
  rw [e]
  apply TChk.foldl_inv (fun s : NodeMap × LSums => InfoOk d s.1 ∧ SumsOk d (proj s.2)) _ _ _ _ ⟨chunks_info h _, hm⟩
  rintro s b ⟨h1, h2⟩
  unfold exclStep
  cases hb : d.rd b with
  | none => exact ⟨h1.insertError _, h2⟩
  | some blk =>
    cases blk with
    | internal ch => exact ⟨h1, h2⟩
    | leaf es =>
      simp only
      split
      · exact ⟨h1, set_leaf_ok hd h2 hb _⟩
      · exact ⟨h1, h2⟩

/-- what `rootSums` delivers -/
theorem rootSums_some {roots : List Nat} {m : LSums} {l : List LSum} (h : rootSums roots m = some l) :
    l.length = roots.length ∧ ∀ (i r : Nat), roots[i]? = some r → ∃ s : LSum, l[i]? = some s ∧ m (u32 r) = some s ∧ s.sum.errors = 0 := by
  unfold rootSums at h
  simp only at h
  split at h
  · cases h
  · rename_i hlen
    cases h
    simp only [ne_eq, Decidable.not_not] at hlen
    refine ⟨hlen, ?_⟩
    have key : ∀ (rs : List Nat), (((rs.map fun r => (m (u32 r)).filter fun s => decide (s.sum.errors = 0)).takeWhile Option.isSome).filterMap id).length ≤ rs.length ∧
        ((((rs.map fun r => (m (u32 r)).filter fun s => decide (s.sum.errors = 0)).takeWhile Option.isSome).filterMap id).length = rs.length →
          ∀ (i r : Nat), rs[i]? = some r → ∃ s : LSum, (((rs.map fun r => (m (u32 r)).filter fun s => decide (s.sum.errors = 0)).takeWhile Option.isSome).filterMap id)[i]? = some s ∧
            m (u32 r) = some s ∧ s.sum.errors = 0) := by
      intro rs
      induction rs with
      | nil => exact ⟨Nat.le_refl _, fun _ i r h => by simp at h⟩
      | cons r rs ih =>
        cases hm : (m (u32 r)).filter fun s => decide (s.sum.errors = 0) with
        | none =>
          simp only [List.map_cons, hm, List.takeWhile_cons, Option.isSome_none, Bool.false_eq_true, if_false, List.filterMap_nil, List.length_nil, List.length_cons]
          exact ⟨Nat.zero_le _, fun h => by omega⟩
        | some s =>
          obtain ⟨i1, i2⟩ := ih
          simp only [List.map_cons, hm, List.takeWhile_cons, Option.isSome_some, if_true, List.filterMap_cons, id_eq, List.length_cons]
          refine ⟨by omega, fun h i r' hi => ?_⟩
          cases i with
          | zero =>
            simp only [List.getElem?_cons_zero, Option.some.injEq] at hi
            subst hi
            obtain ⟨q1, q2⟩ := Option.filter_eq_some_iff.mp hm
            exact ⟨s, by simp, q1, by simpa using q2⟩
          | succ i =>
            simp only [List.getElem?_cons_succ] at hi ⊢
            exact i2 (by omega) i r' hi
    exact (key roots).2 hlen

/-- **C67, the counting.**  Whatever the device, the errors of reading, the order in which the threads work and the other devices: if the counting ends well, then for every device
whose mappings do not overlap, the whole tree can be read, the mapped blocks are increasing, and the summary has their number and the largest of them. -/
theorem count_sound_partial (hd : Sane d) {ign : Bool} {fuel : Nat} {roots : List Nat} {nrData : Nat} {m : LSums} (h : Count d ign fuel roots nrData (.ok m)) {l : List LSum}
    (hl : rootSums roots m = some l) : l.length = roots.length ∧ ∀ (i r : Nat), roots[i]? = some r → r < 2 ^ 32 → ¬ Overlap d r →
    ∃ (s : LSum) (ks : List Nat), l[i]? = some s ∧ Keys d r ks ∧ ks.Pairwise (· < ·) ∧ s.sum.maps = ks.length ∧ (ks ≠ [] → ks.getLast? = some s.sum.high) := by
  obtain ⟨h1, h2⟩ := rootSums_some hl
  refine ⟨h1, fun i r hi hr ho => ?_⟩
  obtain ⟨s, e1, e2, e3⟩ := h2 i r hi
  unfold Count at h
  cases hc : collectNodes d roots NodeMap.empty (two d.nr) with
  | none => rw [hc] at h; cases h
  | some p =>
    rw [hc] at h
    obtain ⟨r1, hr1, h⟩ := h
    cases r1 with
    | none => cases h
    | some q =>
      obtain ⟨r2, hr2, h⟩ := h
      have hi0 := collect_info hd roots NodeMap.empty (two d.nr) p.1 p.2 hc (fun b ch h => by cases h)
      obtain ⟨a1, a2⟩ := read_leaves_sound hd hi0 (n' := q.1) (dsm' := q.2.1) (m := q.2.2) hr1
      obtain ⟨b1, b2⟩ := read_excl_sound hd a1 a2 hr2
      cases hm : countMapped r2.1 p.2 ign fuel roots r2.2 with
      | none => rw [hm] at h; cases h
      | some m2 =>
        rw [hm] at h
        cases h
        have hok := TChk.count_ok hd b1 ign fuel roots (proj r2.2) (proj m) (count_proj _ _ _ _ _ _ _ hm) b2
        rw [TChk.u32_of_lt hr] at e2
        obtain ⟨ks, k1, k2, k3, k4⟩ := (hok r s.sum (by unfold proj; rw [e2]; rfl) ho).2 e3
        exact ⟨s, ks, e1, k1, k2, k3, fun hne => (k4 hne).2⟩

theorem logValues_append {V : Type} (a b : List (BT.Event V)) : logValues (a ++ b) = logValues a ++ logValues b := by
  induction a with
  | nil => rfl
  | cons e a ih => cases e <;> simp [logValues, ih]

/-- all blocks of a tree can be read -/
def AllRead {V : Type} (rd : Bool → Nat → Option (Blk V)) (nr root : Nat) : Prop := ∀ b, BT.Reach rd nr root b → rd true b ≠ none

/-- the list of roots is complete: the whole top level can be read, and every root in one of its leaves is in the list -/
theorem valueVec_sound {d : TDev} {root : Nat} {roots : List Nat} (hrd : ∀ b n, d.tops false b = some n → d.tops true b = some n) (h : valueVec d root = some roots) :
    AllRead d.tops d.nr root ∧ ∀ b es, BT.Reach d.tops d.nr root b → d.tops true b = some (.leaf es) → ∀ e ∈ es, e.2 ∈ roots := by
  unfold valueVec at h
  simp only at h
  by_cases hok : (BT.walk (fun b => decide (b < d.nr)) d.tops (fun _ _ => true) (d.nr + 1) [] root (BT.WSt.fresh d.nr 1 true)).2 = .ok
  · rw [if_pos hok] at h
    cases h
    have hcov := BT.walk_ok_covers (fun b => decide (b < d.nr)) d.tops hrd (fun _ _ => true) d.nr 1 (by decide) true (d.nr + 1) [] root hok
    refine ⟨fun b hb hn => ?_, fun b es hb he e hm => ?_⟩
    · have := hcov b hb
      unfold BT.Covered at this
      rw [hn] at this
      exact this
    · have := hcov b hb
      unfold BT.Covered at this
      rw [he] at this
      obtain ⟨pre, post, path, kr, e1, -⟩ := this
      rw [e1, logValues_append]
      exact List.mem_append.mpr (Or.inr (List.mem_append.mpr (Or.inl (List.mem_map.mpr ⟨e, hm, rfl⟩))))
  · rw [if_neg hok] at h; cases h

theorem btreeToMap_read {V : Type} {rd : Bool → Nat → Option (Blk V)} {nr root : Nat} {l : List (Nat × V)} (hrd : ∀ b n, rd false b = some n → rd true b = some n)
    (h : LW.btreeToMap rd nr root = some l) : AllRead rd nr root := by
  unfold LW.btreeToMap at h
  simp only at h
  by_cases hok : (BT.walk (fun b => decide (b < nr)) rd (fun _ _ => true) (nr + 1) [0] root (BT.WSt.fresh nr 1 true)).2 = .ok
  · intro b hb hn
    have := BT.walk_ok_covers (fun b => decide (b < nr)) rd hrd (fun _ _ => true) nr 1 (by decide) true (nr + 1) [0] root hok b hb
    unfold BT.Covered at this
    rw [hn] at this
    exact this
  · rw [if_neg hok] at h; cases h

/-- **C67.**  Whatever is on the device, whatever cannot be read and however the threads are scheduled: if `thin_ls` prints figures, then it read the superblock, the details and
the list of roots, all of whose blocks could be read, the ids of both agree, and the number of mappings it shows for a device is the number of blocks of a completely readable tree, unless mappings overlap. -/
theorem ls_sound_partial {unpackRoot : Bytes → Option SMRoot} {d : TDev} (hd : Sane d.low) (htop : ∀ b n, d.tops false b = some n → d.tops true b = some n)
    (hdet : ∀ b n, d.dets false b = some n → d.dets true b = some n) {o : LsOpts} {fuel : Nat} {count : List Nat → Nat → Res LSums}
    (hcount : ∀ roots nr, Count d.low false fuel roots nr (count roots nr)) (hsc : someCounting o.fields = true) {s : List Char} (h : ls unpackRoot count o d = .ok s) :
    ∃ (sb : Thin.Superblock) (devs : List (Nat × DeviceDetail)) (roots : List Nat) (l : List LSum), theSb o.snap d = some sb ∧ LW.btreeToMap d.dets d.nr sb.details_root = some devs ∧ AllRead d.dets d.nr sb.details_root ∧
      TChk.consistent d sb = true ∧ AllRead d.tops d.nr sb.mapping_root ∧ (∀ b es, BT.Reach d.tops d.nr sb.mapping_root b → d.tops true b = some (.leaf es) → ∀ e ∈ es, e.2 ∈ roots) ∧ l.length = roots.length ∧
      s = ((devs.zip l).foldl (fun g e => pushRow o.fields sb.data_block_size e.1.1 e.1.2 e.2.sum.maps e.2.shared e.2.sum.high g)
        (if o.noHeaders then Grid.new o.fields.length else pushHeaders o.fields (Grid.new o.fields.length))).render ∧
      ∀ (i r : Nat), roots[i]? = some r → r < 2 ^ 32 → ¬ Overlap d.low r →
        ∃ (sm : LSum) (ks : List Nat), l[i]? = some sm ∧ Keys d.low r ks ∧ ks.Pairwise (· < ·) ∧ sm.sum.maps = ks.length ∧ (ks ≠ [] → ks.getLast? = some sm.sum.high) := by
  unfold ls at h
  cases h1 : theSb o.snap d with
  | none => rw [h1] at h; cases h
  | some sb =>
    rw [h1] at h
    simp only at h
    by_cases h2 : TChk.consistent d sb = true
    · rw [if_pos h2] at h
      cases h3 : LW.btreeToMap d.dets d.nr sb.details_root with
      | none => rw [h3] at h; cases h
      | some devs =>
        rw [h3] at h
        simp only at h
        rw [if_pos hsc] at h
        cases h4 : d.sb with
        | none => rw [h4] at h; cases h
        | some a =>
          rw [h4] at h
          simp only at h
          cases h5 : countMappings unpackRoot count d a sb.mapping_root with
          | err => rw [h5] at h; cases h
          | crash => rw [h5] at h; cases h
          | ok l =>
            rw [h5] at h
            simp only [Res.ok.injEq] at h
            unfold countMappings at h5
            cases h6 : valueVec d sb.mapping_root with
            | none => rw [h6] at h5; cases h5
            | some roots =>
              rw [h6] at h5
              simp only at h5
              cases h7 : unpackRoot a.data_sm_root with
              | none => rw [h7] at h5; cases h5
              | some dr =>
                rw [h7] at h5
                simp only at h5
                cases h8 : unpackRoot a.metadata_sm_root with
                | none => rw [h8] at h5; cases h5
                | some mr =>
                  rw [h8] at h5
                  simp only at h5
                  have hc := hcount roots dr.nr_blocks
                  cases h9 : count roots dr.nr_blocks with
                  | err => rw [h9] at h5; cases h5
                  | crash => rw [h9] at h5; cases h5
                  | ok m =>
                    rw [h9] at h5 hc
                    simp only at h5
                    cases h10 : rootSums roots m with
                    | none => rw [h10] at h5; cases h5
                    | some l' =>
                      rw [h10] at h5
                      cases h5
                      obtain ⟨q1, q2⟩ := count_sound_partial hd hc h10
                      obtain ⟨v1, v2⟩ := valueVec_sound htop h6
                      exact ⟨sb, devs, roots, l, rfl, h3, btreeToMap_read hdet h3, h2, v1, v2, q1, h.symm, q2⟩
    · rw [if_neg h2] at h; cases h

end Verif.Ls
