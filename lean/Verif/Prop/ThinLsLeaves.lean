import Verif.Prop.ThinLsCollect

/-!
# C66: the passes of `thin_ls` over the leaves
-/

namespace Verif.Ls

open Verif.BT (Blk Tree)
open Verif.TChk (Dev Sm NodeMap Sum u32 setBit chunks leavesOf chunkRead chunkFail kids Reach Sane dataOf)

variable {d : Dev} {roots : List Nat}

theorem incData_ok : ∀ (es : List (Nat × Nat)) (sm : Sm), sm.mx = 2 → sm.sat = true → (∀ e ∈ es, e.2 >>> 24 < sm.nr) → (∀ x, sm.cnt x ≤ 2) →
    ∃ sm', incData es sm = some sm' ∧ sm'.nr = sm.nr ∧ sm'.mx = 2 ∧ sm'.sat = true ∧ ∀ x, sm'.cnt x = min 2 (sm.cnt x + (es.map fun e => e.2 >>> 24).count x) := by
  intro es
  induction es with
  | nil =>
    intro sm h1 h2 _ hc
    refine ⟨sm, rfl, rfl, h1, h2, fun x => ?_⟩
    have := hc x
    simp only [List.map_nil, List.count_nil]
    omega
  | cons e es ih =>
    intro sm h1 h2 hb hc
    obtain ⟨s1, e1, a1, a2, a3, a4⟩ : ∃ s1, sm.inc (e.2 >>> 24) = some s1 ∧ s1.nr = sm.nr ∧ s1.mx = 2 ∧ s1.sat = true ∧
        ∀ x, s1.cnt x = min 2 (sm.cnt x + if e.2 >>> 24 = x then 1 else 0) := by
      have hlt := hb e (by simp)
      generalize e.2 >>> 24 = b at *
      unfold Sm.inc
      rw [if_pos hlt]
      by_cases hx : sm.cnt b < sm.mx
      · rw [if_pos hx]
        refine ⟨_, rfl, rfl, h1, h2, fun x => ?_⟩
        show (if x = b then sm.cnt b + 1 else sm.cnt x) = _
        have := hc x
        by_cases q : x = b
        · subst q; rw [if_pos rfl, if_pos rfl]; omega
        · rw [if_neg q, if_neg (fun h => q h.symm)]; omega
      · rw [if_neg hx, if_pos h2]
        refine ⟨_, rfl, rfl, h1, h2, fun x => ?_⟩
        have := hc x
        by_cases q : b = x
        · subst q; rw [if_pos rfl]; omega
        · rw [if_neg q]; omega
    obtain ⟨s2, e2, b1, b2, b3, b4⟩ := ih s1 a2 a3 (fun y hy => by rw [a1]; exact hb y (by simp [hy])) (fun x => by rw [a4]; omega)
    refine ⟨s2, ?_, b1.trans a1, b2, b3, fun x => ?_⟩
    · unfold incData
      rw [e1]
      exact e2
    · rw [b4, a4, List.map_cons, List.count_cons]
      simp only [beq_iff_eq]
      omega

/-- the entry of the first pass for a leaf -/
def sharedLeafSum (d : Dev) (b : Nat) : Option LSum :=
  match d.rd b with
  | some (.leaf es) => some (LSum.ofLeaf (es.map (·.1)) es.length)
  | _ => none

/-- the entry of the second pass for a leaf -/
def exclLeafSum (d : Dev) (dsm : Sm) (b : Nat) : Option LSum :=
  match d.rd b with
  | some (.leaf es) => some (LSum.ofLeaf (es.map (·.1)) (es.countP fun e => decide (dsm.cnt (e.2 >>> 24) > 1)))
  | _ => none

/-- the leaves are read in some order -/
theorem order_perm (hd : Sane d) (hm : ∀ l i, d.many l i = true) (hc : ∀ l, d.chunkOk l = true) {n : NodeMap} {order L : List Nat} (hL : L.Nodup) {p : Nat → Bool}
    (hmem : ∀ b, b ∈ L ↔ n.leafBit b = true ∧ p b = true) (hleaf : ∀ b ∈ L, ∃ es, d.rd b = some (.leaf es))
    (hp : order.Perm ((chunks 1024 (d.nr + 1) ((leavesOf d n).filter p)).flatMap (chunkRead d))) : order.Perm L := by
  have hlist : (chunks 1024 (d.nr + 1) ((leavesOf d n).filter p)).flatMap (chunkRead d) = (leavesOf d n).filter p := by
    rw [show chunkRead d = id from funext (TChk.chunkRead_all hm hc)]
    apply TChk.chunks_flat 1024 (by decide)
    unfold leavesOf
    have h1 := List.length_filter_le p ((List.range d.nr).filter n.leafBit)
    have h2 := List.length_filter_le n.leafBit (List.range d.nr)
    simp only [List.length_range] at h2
    omega
  rw [hlist] at hp
  refine hp.trans ?_
  unfold leavesOf
  rw [List.perm_ext_iff_of_nodup ((List.nodup_range.sublist List.filter_sublist).sublist List.filter_sublist) hL]
  intro y
  simp only [List.mem_filter, List.mem_range, hmem]
  refine ⟨fun h => ⟨h.1.2, h.2⟩, fun h => ⟨⟨?_, h.1⟩, h.2⟩⟩
  obtain ⟨es, he⟩ := hleaf y ((hmem y).mpr h)
  exact hd.bound y _ he

/-- **C66, the second pass.**  `L` are the leaves on record.  If they are readable and map to blocks of the data device, the pass ends well in whatever order the threads work:
every data block is counted once for each mapping in a distinct leaf, up to two, and the shared leaves are summarised, as shared altogether. -/
theorem read_leaves_two (hd : Sane d) (hm : ∀ l i, d.many l i = true) (hc : ∀ l, d.chunkOk l = true) {n : NodeMap} {msm : Sm} {nrData : Nat} {L : List Nat} (hL : L.Nodup)
    (hmem : ∀ b, b ∈ L ↔ n.leafBit b = true) (hleaf : ∀ b ∈ L, ∃ es, d.rd b = some (.leaf es)) (hin : ∀ b ∈ L, ∀ x ∈ dataOf d b, x < nrData)
    {r : Option (NodeMap × Sm × LSums)} (hr : ReadLeaves d n msm (two nrData) r) :
    ∃ dsm m, r = some (n, dsm, m) ∧ (∀ b, m b = if b ∈ L ∧ msm.cnt b > 1 then sharedLeafSum d b else none) ∧
      ∀ x, dsm.cnt x = min 2 ((L.map fun b => (dataOf d b).count x).sum) := by
  obtain ⟨order, hp, e⟩ := hr
  rw [TChk.chunkFail_none hc] at e
  have hp' : order.Perm L := order_perm (n := n) (order := order) (p := fun _ => true) hd hm hc hL (fun b => by simp [hmem]) hleaf (by rw [List.filter_eq_self.mpr (fun _ _ => rfl)]; exact hp)
  have key : ∀ (l : List Nat) (s : NodeMap × Sm × LSums), (∀ b ∈ l, b ∈ L) → s.2.1.mx = 2 → s.2.1.sat = true → s.2.1.nr = nrData → (∀ x, s.2.1.cnt x ≤ 2) →
      ∃ dsm m, leafSteps d msm l s = some (s.1, dsm, m) ∧ (∀ b, m b = if b ∈ l ∧ msm.cnt b > 1 then sharedLeafSum d b else s.2.2 b) ∧
        ∀ x, dsm.cnt x = min 2 (s.2.1.cnt x + (l.map fun b => (dataOf d b).count x).sum) := by
    intro l
    induction l with
    | nil =>
      intro s _ _ _ _ h2
      refine ⟨s.2.1, s.2.2, rfl, fun b => by simp, fun x => ?_⟩
      have := h2 x
      simp only [List.map_nil, List.sum_nil]
      omega
    | cons b l ih =>
      intro s hl q1 q2 q3 q4
      have hbL := hl b (by simp)
      obtain ⟨es, he⟩ := hleaf b hbL
      have hub : u32 b = b := TChk.u32_of_lt (Nat.lt_of_lt_of_le (hd.bound b _ he) hd.small)
      have hdat : dataOf d b = es.map fun e => e.2 >>> 24 := by simp only [dataOf, he]
      obtain ⟨s1, e1, a1, a2, a3, a4⟩ := incData_ok es s.2.1 q1 q2 (fun y hy => by
        rw [q3]; exact hin b hbL _ (by rw [hdat]; exact List.mem_map.mpr ⟨y, hy, rfl⟩)) q4
      have hst : leafStep d msm s b = some (s.1, s1, if msm.cnt b > 1 then setBit s.2.2 b (sharedLeafSum d b) else s.2.2) := by
        simp only [leafStep, he, hub, e1, sharedLeafSum]
      obtain ⟨dsm, m, e2, b1, b2⟩ := ih (s.1, s1, if msm.cnt b > 1 then setBit s.2.2 b (sharedLeafSum d b) else s.2.2) (fun x hx => hl x (by simp [hx])) a2 a3 (a1.trans q3)
        (fun x => by show s1.cnt x ≤ 2; rw [a4]; omega)
      refine ⟨dsm, m, ?_, fun x => ?_, fun x => ?_⟩
      · unfold leafSteps
        rw [hst]
        exact e2
      · rw [b1 x]
        by_cases hx : x ∈ l ∧ msm.cnt x > 1
        · rw [if_pos hx, if_pos ⟨List.mem_cons_of_mem _ hx.1, hx.2⟩]
        · rw [if_neg hx]
          simp only
          by_cases hxb : x = b
          · subst hxb
            by_cases hs : msm.cnt x > 1
            · rw [if_pos hs, if_pos ⟨by simp, hs⟩]; simp [setBit]
            · rw [if_neg hs, if_neg (fun h => hs h.2)]
          · rw [if_neg (c := x ∈ b :: l ∧ _) (by simp only [List.mem_cons, hxb, false_or]; exact hx)]
            by_cases hs : msm.cnt b > 1
            · rw [if_pos hs]; simp [setBit, hxb]
            · rw [if_neg hs]
      · rw [b2 x, List.map_cons, List.sum_cons, hdat]
        show min 2 (s1.cnt x + _) = _
        rw [a4]
        omega
  obtain ⟨dsm, m, k1, k2, k3⟩ := key order (n, two nrData, fun _ => none) (fun b hb => hp'.mem_iff.mp hb) rfl rfl rfl (fun _ => Nat.zero_le _)
  refine ⟨dsm, m, e.trans k1, fun b => ?_, fun x => ?_⟩
  · rw [k2 b]
    simp only [hp'.mem_iff]
  · rw [k3 x, (hp'.map fun b => (dataOf d b).count x).sum_nat]
    show min 2 (0 + _) = _
    rw [Nat.zero_add]

/-- **C66, the third pass.**  The leaves with one reference are summarised, with the mappings to data blocks that were counted twice. -/
theorem read_excl_two (hd : Sane d) (hm : ∀ l i, d.many l i = true) (hc : ∀ l, d.chunkOk l = true) {n : NodeMap} {msm dsm : Sm} {m : LSums} {L : List Nat} (hL : L.Nodup)
    (hmem : ∀ b, b ∈ L ↔ n.leafBit b = true) (hleaf : ∀ b ∈ L, ∃ es, d.rd b = some (.leaf es)) {r : NodeMap × LSums} (hr : ReadExcl d n msm dsm m r) :
    r.1 = n ∧ ∀ b, r.2 b = if b ∈ L ∧ msm.cnt b = 1 then exclLeafSum d dsm b else m b := by
  obtain ⟨order, hp, e⟩ := hr
  rw [TChk.chunkFail_none hc] at e
  have hp' := order_perm (p := fun b => decide (msm.cnt b = 1)) (L := L.filter fun b => decide (msm.cnt b = 1)) hd hm hc (hL.sublist List.filter_sublist) (fun b => by simp [hmem])
    (fun b hb => hleaf b (List.mem_filter.mp hb).1) hp
  have key : ∀ (l : List Nat) (s : NodeMap × LSums), (∀ b ∈ l, b ∈ L ∧ msm.cnt b = 1) →
      (l.foldl (exclStep d msm dsm) s).1 = s.1 ∧ ∀ b, (l.foldl (exclStep d msm dsm) s).2 b = if b ∈ l then exclLeafSum d dsm b else s.2 b := by
    intro l
    induction l with
    | nil => intro s _; exact ⟨rfl, fun b => by simp⟩
    | cons b l ih =>
      intro s hl
      obtain ⟨hbL, hb1⟩ := hl b (by simp)
      obtain ⟨es, he⟩ := hleaf b hbL
      have hub : u32 b = b := TChk.u32_of_lt (Nat.lt_of_lt_of_le (hd.bound b _ he) hd.small)
      have hst : exclStep d msm dsm s b = (s.1, setBit s.2 b (exclLeafSum d dsm b)) := by
        simp only [exclStep, he, hub, exclLeafSum, if_pos hb1]
      obtain ⟨i1, i2⟩ := ih (exclStep d msm dsm s b) (fun x hx => hl x (by simp [hx]))
      rw [List.foldl_cons]
      refine ⟨i1.trans (by rw [hst]), fun x => ?_⟩
      rw [i2 x]
      by_cases hx : x ∈ l
      · rw [if_pos hx, if_pos (List.mem_cons_of_mem _ hx)]
      · rw [if_neg hx, hst]
        by_cases hxb : x = b
        · subst hxb; rw [if_pos (by simp)]; simp [setBit]
        · rw [if_neg (by simp [hxb, hx])]; simp [setBit, hxb]
  obtain ⟨k1, k2⟩ := key order (n, m) (fun b hb => by
    have := hp'.mem_iff.mp hb
    simpa using this)
  rw [← e] at k1 k2
  refine ⟨k1, fun b => ?_⟩
  rw [k2 b]
  have : b ∈ order ↔ b ∈ L ∧ msm.cnt b = 1 := by rw [hp'.mem_iff]; simp
  by_cases hb : b ∈ order
  · rw [if_pos hb, if_pos (this.mp hb)]
  · rw [if_neg hb, if_neg (fun h => hb (this.mpr h))]

end Verif.Ls
