import Verif.Prop.ThinLsShared

/-!
# C66: on undamaged pools the figures of `thin_ls` are right
-/

namespace Verif.Ls

open Verif.BT (Blk Tree)
open Verif.TChk (Dev Sm NodeMap Sum u32 setBit kids Reach Sane dataOf nEnt mkSum exactOf keysOf keysOf_eq keys_of_tree AllClean)

variable {d : Dev}

/-- the largest mapped block of a device, 0 if there is none -/
def highest (t : TT) : Nat := (t.entries.map (·.1)).foldl max 0

/-- for every device: how many blocks it maps, how many of them some other device maps, too, and the largest -/
def figures (ts : List TT) : List (Nat × Nat × Nat) := ts.mapIdx fun i t => (t.entries.length, sharedWith (ts.eraseIdx i) t, highest t)

theorem foldl_max_sorted : ∀ (l : List Nat) (a : Nat), l.Pairwise (· < ·) → (∀ x ∈ l, a ≤ x) → l.foldl max a = l.getLast?.getD a := by
  intro l
  induction l with
  | nil => intro a _ _; rfl
  | cons x l ih =>
    intro a hp ha
    rw [List.pairwise_cons] at hp
    have hax := ha x (by simp)
    rw [List.foldl_cons, show max a x = x by omega, ih x hp.2 (fun y hy => by have := hp.1 y hy; omega)]
    cases l with
    | nil => rfl
    | cons y l => simp [List.getLast?_eq_some_getLast (l := y :: l) (by simp)]

theorem rootSums_all (m : LSums) (f : Nat → LSum) : ∀ (roots : List Nat), (∀ r ∈ roots, m (u32 r) = some (f r) ∧ (f r).sum.errors = 0) → rootSums roots m = some (roots.map f) := by
  intro roots h
  have h1 : (roots.map fun r => (m (u32 r)).filter fun s => decide (s.sum.errors = 0)) = roots.map fun r => some (f r) := by
    apply List.map_congr_left
    intro r hr
    obtain ⟨h1, h2⟩ := h r hr
    rw [h1, Option.filter_some, if_pos (by simpa using h2)]
  have h2 : ∀ l : List Nat, ((l.map fun r => some (f r)).takeWhile Option.isSome).filterMap id = l.map f := by
    intro l
    induction l with
    | nil => rfl
    | cons r l ih => simp only [List.map_cons, List.takeWhile_cons, Option.isSome_some, if_true, List.filterMap_cons, id_eq, ih]
  unfold rootSums
  rw [h1, h2]
  simp

/-- **C66, the counting.**  Let the mapping trees `ts` of all devices be undamaged search trees, sharing whatever nodes they like, with at least 84 entries in every node that is not
only a root (or with non-fatal errors ignored); let all blocks be readable, let no device map a data block twice, and let all mapped blocks be blocks of the data device.  Then, in
whatever order the threads work, the counting ends well, with, for every device, the number of its mappings, the number of those whose data block another device maps as well,
and the largest mapped block. -/
theorem count_exact (hd : Sane d) (hl : ∀ b n, d.rd b = some n → d.rdl b = some n) (hm : ∀ l i, d.many l i = true) (hck : ∀ l, d.chunkOk l = true)
    {ts : List TT} (hc : ∀ t ∈ ts, t.Clean d) {ign : Bool} (hmin : ign = true ∨ ∀ t ∈ ts, ∀ y ∈ t.nodes, ∀ c ∈ kids d y, TChk.MIN_ENTRIES ≤ nEnt d c) (hmax : ∀ b, nEnt d b ≤ 255)
    (hone : ∀ t ∈ ts, (t.entries.map (·.2 >>> 24)).Nodup) {nrData : Nat} (hin : ∀ t ∈ ts, ∀ e ∈ t.entries, e.2 >>> 24 < nrData)
    {fuel : Nat} (hf : d.nr ≤ fuel) {r : Res LSums} (hr : Count d ign fuel (ts.map TT.root) nrData r) :
    ∃ m l, r = .ok m ∧ rootSums (ts.map TT.root) m = some l ∧ l.map (fun s => (s.sum.maps, s.shared, s.sum.high)) = figures ts := by
  classical
  have hac : AllClean d (ts.map TT.root) := by
    intro r hr
    obtain ⟨t, ht, rfl⟩ := List.mem_map.mp hr
    exact ⟨t.1, t.2, hc t ht, rfl⟩
  let N := (List.range d.nr).filter fun y => decide (Reach d (ts.map TT.root) y)
  have hN : N.Nodup := List.nodup_range.sublist List.filter_sublist
  have hmem : ∀ y, y ∈ N ↔ Reach d (ts.map TT.root) y := by
    intro y
    simp only [N, List.mem_filter, List.mem_range, decide_eq_true_eq]
    refine ⟨fun h => h.2, fun h => ⟨?_, h⟩⟩
    obtain ⟨k, hk⟩ := h.bal hac.balanced
    exact hk.lt hd
  let L := N.filter fun y => decide (∃ es, d.rd y = some (.leaf es))
  have hL : L.Nodup := hN.sublist List.filter_sublist
  have hLm : ∀ y, y ∈ L ↔ y ∈ N ∧ ∃ es, d.rd y = some (.leaf es) := by
    intro y; simp only [L, List.mem_filter, decide_eq_true_eq]
  obtain ⟨n, msm, c0, c1, c2, c3, c4, c5⟩ := collect_two hd hl hm hac N hN hmem
  unfold Count at hr
  rw [c0] at hr
  obtain ⟨r1, hr1, hr⟩ := hr
  have hLb : ∀ b, b ∈ L ↔ n.leafBit b = true := by
    intro b
    rw [hLm, c4, decide_eq_true_eq, c2]
  have hLl : ∀ b ∈ L, ∃ es, d.rd b = some (.leaf es) := fun b hb => ((hLm b).mp hb).2
  have hLd : ∀ b ∈ L, ∀ x ∈ dataOf d b, x < nrData := by
    intro b hb x hx
    obtain ⟨t, ht, hbt⟩ := (reach_trees hc).mp ((hmem b).mp ((hLm b).mp hb).1)
    have h1 := mem_le_sum (fun y => (dataOf d y).count x) t.nodes b hbt
    rw [(hc t ht).data] at h1
    have h2 : 0 < (dataOf d b).count x := List.count_pos_iff.mpr hx
    have h3 := List.count_pos_iff.mp (Nat.lt_of_lt_of_le h2 h1)
    obtain ⟨e, he, rfl⟩ := List.mem_map.mp h3
    exact hin t ht e he
  obtain ⟨dsm, m1, e1, a1, a2⟩ := read_leaves_two hd hm hck hL hLb hLl hLd hr1
  subst e1
  obtain ⟨r2, hr2, hr⟩ := hr
  obtain ⟨b1, b2⟩ := read_excl_two hd hm hck hL hLb hLl hr2
  rw [b1] at hr
  have hone' : ∀ b ∈ N, msm.cnt b ≠ 0 := by
    intro b hb
    rw [c5]
    have : 0 < (ts.map TT.root).count b + (N.map fun y => (kids d y).count b).sum := by
      have hre := (hmem b).mp hb
      cases hre with
      | root _ hr => have := List.count_pos_iff.mpr hr; omega
      | kid y _ hy hk =>
        have h1 := mem_le_sum (fun y => (kids d y).count b) N y ((hmem y).mpr hy)
        have h2 := List.count_pos_iff.mpr hk
        omega
    omega
  have hleafsum : ∀ b es, d.rd b = some (.leaf es) → b ∈ L → r2.2 b = some (LSum.ofLeaf (es.map (·.1)) (shT msm dsm 0 (b, es))) := by
    intro b es he hb
    have hnz := hone' b ((hLm b).mp hb).1
    have hle : msm.cnt b ≤ 2 := by rw [c5]; omega
    rw [b2, a1]
    show _ = some (LSum.ofLeaf _ (if msm.cnt b > 1 then es.length else es.countP fun e => decide (dsm.cnt (e.2 >>> 24) > 1)))
    by_cases h1 : msm.cnt b = 1
    · rw [if_pos ⟨hb, h1⟩, if_neg (by omega)]
      simp only [exclLeafSum, he]
    · rw [if_neg (fun h => h1 h.2), if_pos (show b ∈ L ∧ msm.cnt b > 1 from ⟨hb, by omega⟩), if_pos (show msm.cnt b > 1 by omega)]
      simp only [sharedLeafSum, he]
  obtain ⟨m', e2, v2, r2', k2⟩ := count_clean (n := n) (msm := msm) (dsm := dsm) (roots := ts.map TT.root) hd ign (by
      intro b ch hb he
      obtain ⟨ch', h1, h2⟩ := (c1 b).mpr ⟨(hmem b).mpr hb, ch, he⟩
      have := c3 b ch' h1 h2
      rw [he] at this
      cases this
      exact ⟨h1, h2⟩) (by
      rcases hmin with h | h
      · exact Or.inl h
      · refine Or.inr fun y c hy hk => ?_
        obtain ⟨t, ht, hyt⟩ := (reach_trees hc).mp hy
        exact h t ht y hyt c hk) hmax hac fuel hf (ts.map TT.root) r2.2 (fun _ h => h) (by
      intro b s hs
      by_cases hb : b ∈ L
      · obtain ⟨es, he⟩ := hLl b hb
        rw [hleafsum b es he hb] at hs
        cases hs
        refine ⟨?_, fun h t r hst hbt => shT_same 0 (b, es) true he h t r hst hbt.symm⟩
        show Sum.ofLeaf _ = _
        unfold exactOf
        rw [keysOf_eq (TChk.Keys.leaf b es he)]
        simp only [Sum.ofLeaf, mkSum, nEnt, he, List.length_map]
      · rw [b2, if_neg (fun h => hb h.1), a1, if_neg (fun h => hb h.1)] at hs
        cases hs) (by
      intro b es hb he
      rw [hleafsum b es he ((hLm b).mpr ⟨(hmem b).mpr hb, es, he⟩)]
      simp)
  rw [e2] at hr
  have hsum : ∀ t ∈ ts, m' t.root = some ⟨exactOf d t.root, shT msm dsm t.1 t.2⟩ := fun t ht => r2' t.root (List.mem_map.mpr ⟨t, ht, rfl⟩) t.1 t.2 (hc t ht) rfl
  have hu : ∀ t ∈ ts, u32 t.root = t.root := by
    intro t ht
    obtain ⟨k, hk⟩ := hac.balanced t.root (List.mem_map.mpr ⟨t, ht, rfl⟩)
    exact hk.u32 hd
  refine ⟨m', (ts.map TT.root).map fun r => (m' r).getD LSum.error, hr, ?_, ?_⟩
  · apply rootSums_all
    intro r hr
    obtain ⟨t, ht, rfl⟩ := List.mem_map.mp hr
    rw [hu t ht, hsum t ht]
    exact ⟨rfl, rfl⟩
  · apply List.ext_getElem
    · simp [figures]
    · intro i h1 h2
      have hi : i < ts.length := by simpa using h1
      simp only [List.getElem_map, figures, List.getElem_mapIdx]
      have ht : ts[i] ∈ ts := List.getElem_mem hi
      rw [hsum _ ht]
      have hsplit : ts = ts.take i ++ ts[i] :: ts.drop (i + 1) := by
        rw [List.getElem_cons_drop, List.take_append_drop]
      have hk := keysOf_eq (keys_of_tree (d := d) ts[i].1 ts[i].2 true (hc _ ht).stored)
      have hsm := shared_meaning (d := d) (pre := ts.take i) (post := ts.drop (i + 1)) (t := ts[i]) (by rw [← hsplit]; exact hc) hN (by
        rw [← hsplit]; intro y; rw [hmem, reach_trees hc]) (hone _ ht) hL hLm (msm := msm) (dsm := dsm) (by rw [← hsplit]; exact c5) a2
      rw [List.eraseIdx_eq_take_drop_succ, ← hsm]
      simp only [Option.getD_some]
      have hso : (ts[i].entries.map (·.1)).Pairwise (· < ·) := List.pairwise_map.mpr (LW.ordered_sorted ts[i].1 ts[i].2 0 none (hc _ ht).ordered)
      unfold highest
      rw [foldl_max_sorted _ 0 hso (fun _ _ => Nat.zero_le _)]
      have hk' : keysOf d ts[i].root = ts[i].entries.map (·.1) := hk
      simp only [exactOf, mkSum, hk', List.length_map]

end Verif.Ls
