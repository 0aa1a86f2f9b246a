import Verif.Prop.ThinCheckExact

/-!
# C47: no block has more references than there are devices

And what the passes leave alone in the space maps.
-/

namespace Verif.TChk

open Verif.BT (Blk Tree)

variable {d : Dev} {roots : List Nat}

/-! ## Frames -/

/-- the same space map but for the counts -/
def SmLike (a b : Sm) : Prop := b.nr = a.nr ∧ b.mx = a.mx ∧ b.sat = a.sat

theorem SmLike.refl (a : Sm) : SmLike a a := ⟨rfl, rfl, rfl⟩

theorem SmLike.trans {a b c : Sm} (h : SmLike a b) (h' : SmLike b c) : SmLike a c := ⟨h'.1.trans h.1, h'.2.1.trans h.2.1, h'.2.2.trans h.2.2⟩

theorem Sm.inc_like {sm sm' : Sm} {b : Nat} (h : sm.inc b = some sm') : SmLike sm sm' := by
  unfold Sm.inc at h
  split at h
  · split at h
    · cases h; exact ⟨rfl, rfl, rfl⟩
    · split at h
      · cases h; exact SmLike.refl _
      · cases h
  · cases h

theorem isSeen_like {sm sm' : Sm} {b : Nat} {r : Bool} (h : isSeen b sm = some (sm', r)) : SmLike sm sm' := by
  unfold isSeen at h
  cases hi : sm.inc b with
  | none => rw [hi] at h; cases h
  | some s =>
    rw [hi] at h
    simp only [Option.map_some, Option.some.injEq, Prod.mk.injEq] at h
    rw [← h.1]
    exact Sm.inc_like hi

theorem newKids_like (n : NodeMap) (depth : Nat) : ∀ (vs : List Nat) (sm : Sm), SmLike sm (newKids n depth vs sm).1 := by
  intro vs
  induction vs with
  | nil => intro sm; exact SmLike.refl sm
  | cons v vs ih =>
    intro sm
    unfold newKids
    cases h : isSeen (u32 v) sm with
    | none => exact ih sm
    | some p => exact (isSeen_like h).trans (ih p.1)

theorem readKids_like (all : List Nat) (read : Nat → NodeMap → Sm → NodeMap × Sm) (hr : ∀ v n sm, SmLike sm (read v n sm).2) : ∀ (vs : List Nat) (i : Nat) (n : NodeMap) (sm : Sm),
    SmLike sm (readKids d all read vs i n sm).2 := by
  intro vs
  induction vs with
  | nil => intro i n sm; exact SmLike.refl sm
  | cons v vs ih =>
    intro i n sm
    unfold readKids
    split
    · exact (hr v n sm).trans (ih _ _ _)
    · exact ih _ _ _

theorem readNode_like : ∀ (depth b : Nat) (n : NodeMap) (sm : Sm), SmLike sm (readNode d depth b n sm).2 := by
  intro depth
  induction depth with
  | zero =>
    intro b n sm
    unfold readNode
    split
    · exact SmLike.refl sm
    · exact SmLike.refl sm
    · exact newKids_like _ _ _ _
  | succ depth ih =>
    intro b n sm
    unfold readNode
    split
    · exact SmLike.refl sm
    · exact SmLike.refl sm
    · exact (newKids_like _ _ _ _).trans (readKids_like _ _ ih _ _ _ _)

theorem readInternal_like (root : Nat) (n : NodeMap) (sm : Sm) : SmLike sm (readInternal d root n sm).2 := by
  unfold readInternal
  cases h : isSeen root sm with
  | none => exact SmLike.refl sm
  | some p =>
    obtain ⟨s, r⟩ := p
    cases r
    · simp only
      split
      · exact isSeen_like h
      · exact (isSeen_like h).trans (readNode_like _ _ _ _)
      · exact isSeen_like h
    · exact isSeen_like h

theorem collect_like : ∀ (roots : List Nat) (n : NodeMap) (sm : Sm), SmLike sm (collectNodes d roots n sm).2 := by
  intro roots
  induction roots with
  | nil => intro n sm; exact SmLike.refl sm
  | cons r rs ih => intro n sm; exact (readInternal_like _ _ _).trans (ih _ _)

theorem incData_like : ∀ (es : List (Nat × Nat)) (sm : Sm), SmLike sm (incData sm es) := by
  intro es
  induction es with
  | nil => intro sm; exact SmLike.refl sm
  | cons e es ih =>
    intro sm
    refine SmLike.trans (b := (sm.inc (e.2 >>> 24)).getD sm) ?_ (ih _)
    cases h : sm.inc (e.2 >>> 24) with
    | none => exact SmLike.refl sm
    | some s => exact Sm.inc_like h

theorem leafStep_like (s : NodeMap × Sm × Sums) (b : Nat) : SmLike s.2.1 (leafStep d s b).2.1 := by
  unfold leafStep
  split
  · exact SmLike.refl _
  · exact SmLike.refl _
  · exact incData_like _ _

/-- the passes over the mapping trees change nothing but counts -/
theorem Bottom.like {ign : Bool} {fuel : Nat} {msm dsm : Sm} {r : Sm × Sm × Option Sums} (h : Bottom d ign fuel roots msm dsm r) : SmLike msm r.1 ∧ SmLike dsm r.2.1 := by
  obtain ⟨n', dsm', m, ⟨order, -, e⟩, rfl⟩ := h
  refine ⟨collect_like _ _ _, ?_⟩
  have : ∀ (l : List Nat) (s : NodeMap × Sm × Sums), SmLike s.2.1 (l.foldl (leafStep d) s).2.1 := by
    intro l
    induction l with
    | nil => intro s; exact SmLike.refl _
    | cons b l ih => intro s; exact (leafStep_like s b).trans (ih _)
  have h := this order ((chunks 1024 (d.nr + 1) (leavesOf d (collectNodes d roots NodeMap.empty msm).1)).foldl (chunkFail d) (collectNodes d roots NodeMap.empty msm).1, dsm, fun _ => none)
  rw [← e] at h
  exact h

/-! ## References -/

theorem sum_le_of_subset (k : Nat → Nat) : ∀ (N M : List Nat), N.Nodup → (∀ y ∈ N, y ∈ M) → (N.map k).sum ≤ (M.map k).sum := by
  intro N
  induction N with
  | nil => intro M _ _; simp
  | cons y N ih =>
    intro M hn hs
    rw [List.nodup_cons] at hn
    have hy := hs y (by simp)
    have h1 := ih (M.erase y) hn.2 (fun z hz => by
      have hne : z ≠ y := fun e => hn.1 (e ▸ hz)
      exact (List.mem_erase_of_ne hne).mpr (hs z (by simp [hz])))
    have h2 : (M.map k).sum = k y + ((M.erase y).map k).sum := by
      have := (List.perm_cons_erase hy).map k
      rw [this.sum_nat]
      simp
    simp only [List.map_cons, List.sum_cons]
    omega

theorem blk_mem_blocks {V : Type} {h : Nat} (t : Tree V h) : t.blk h ∈ t.blocks h := by
  cases h <;> simp [Tree.blk, Tree.blocks]

theorem kids_leaf {b : Nat} {es : List (Nat × Nat)} (h : d.rd b = some (.leaf es)) : kids d b = [] := by
  unfold kids; rw [h]

theorem kids_node {b : Nat} {ch : List (Nat × Nat)} (h : d.rd b = some (.internal ch)) : kids d b = ch.map (·.2) := by
  unfold kids; rw [h]

/-- in one tree, every block but the root has as many references as it has occurrences -/
theorem tree_refs (x : Nat) : ∀ (h : Nat) (t : Tree Nat h) (r : Bool), t.Stored (fun _ b => d.rd b) r h →
    [t.blk h].count x + ((t.blocks h).map fun y => (kids d y).count x).sum = (t.blocks h).count x := by
  intro h
  induction h with
  | zero =>
    intro t r hs
    have : kids d t.1 = [] := kids_leaf hs
    simp [Tree.blk, Tree.blocks, this]
  | succ h ih =>
    intro t r hs
    obtain ⟨b, ch⟩ := t
    obtain ⟨hs1, hs2⟩ := hs
    have hk : kids d b = ch.map fun c => Tree.blk h c.2 := by
      rw [kids_node hs1, List.map_map]; rfl
    have hl : ∀ l : List (Nat × Tree Nat h), (∀ c ∈ l, c ∈ ch) →
        (l.map fun c => Tree.blk h c.2).count x + ((l.flatMap fun c => c.2.blocks h).map fun y => (kids d y).count x).sum = (l.flatMap fun c => c.2.blocks h).count x := by
      intro l
      induction l with
      | nil => intro _; simp
      | cons c l ihl =>
        intro hl
        have h1 := ihl fun c hc => hl c (by simp [hc])
        have h2 := ih c.2 false (hs2 c (hl c (by simp)))
        simp only [List.map_cons, List.flatMap_cons, List.map_append, List.sum_append_nat, List.count_append]
        rw [List.count_cons]
        simp only [List.count_cons, List.count_nil] at h2
        omega
    have h3 := hl ch fun _ h => h
    show [b].count x + ((b :: ch.flatMap fun c => c.2.blocks h).map fun y => (kids d y).count x).sum = (b :: ch.flatMap fun c => c.2.blocks h).count x
    rw [List.map_cons, List.sum_cons, hk]
    simp only [List.count_cons, List.count_nil]
    omega

theorem tree_kids {c : Nat} : ∀ (h : Nat) (t : Tree Nat h) (r : Bool), t.Stored (fun _ b => d.rd b) r h → ∀ y ∈ t.blocks h, c ∈ kids d y → c ∈ t.blocks h := by
  intro h
  induction h with
  | zero =>
    intro t r hs y hy hc
    simp only [Tree.blocks, List.mem_singleton] at hy
    rw [hy, kids_leaf hs] at hc
    cases hc
  | succ h ih =>
    intro t r hs y hy hc
    obtain ⟨b, ch⟩ := t
    obtain ⟨hs1, hs2⟩ := hs
    simp only [Tree.blocks, List.mem_cons, List.mem_flatMap] at hy ⊢
    right
    rcases hy with rfl | ⟨q, hq, hy⟩
    · rw [kids_node hs1, List.map_map] at hc
      obtain ⟨q, hq, rfl⟩ := List.mem_map.mp hc
      exact ⟨q, hq, blk_mem_blocks q.2⟩
    · exact ⟨q, hq, ih q.2 false (hs2 q hq) y hy hc⟩

theorem reach_tree_of (hc : AllClean d roots) {y : Nat} (hy : Reach d roots y) : ∃ r ∈ roots, ∃ (h : Nat) (t : Tree Nat h), LW.Clean d.rd d.nr h t ∧ t.blk h = r ∧ y ∈ t.blocks h := by
  induction hy with
  | root r hr =>
    obtain ⟨h, t, h1, h2⟩ := hc r hr
    exact ⟨r, hr, h, t, h1, h2, by rw [← h2]; exact blk_mem_blocks t⟩
  | kid b c hb hk ih =>
    obtain ⟨r, hr, h, t, h1, h2, h3⟩ := ih
    exact ⟨r, hr, h, t, h1, h2, tree_kids h t true h1.stored b h3 hk⟩

theorem blocks_same {h h' : Nat} {t : Tree Nat h} {t' : Tree Nat h'} (h1' : t'.Stored (fun _ b => d.rd b) true h') (h1 : t.Stored (fun _ b => d.rd b) true h) (he : t'.blk h' = t.blk h) :
    ∀ y ∈ t'.blocks h', y ∈ t.blocks h := by
  intro y hy
  have hr : ∀ y, Reach d [t.blk h] y → y ∈ t.blocks h := by
    intro y hy
    induction hy with
    | root r' hr' => rw [List.mem_singleton.mp hr']; exact blk_mem_blocks t
    | kid b c _ hk ih => exact tree_kids h t true h1 b ih hk
  apply hr
  have hin : ∀ (k : Nat) (s : Tree Nat k) (rt : Bool), s.Stored (fun _ b => d.rd b) rt k → Reach d [t.blk h] (s.blk k) → ∀ y ∈ s.blocks k, Reach d [t.blk h] y := by
    intro k
    induction k with
    | zero => intro s rt _ hr y hy; simp only [Tree.blocks, List.mem_singleton] at hy; rw [hy]; exact hr
    | succ k ih =>
      intro s rt hs hr y hy
      obtain ⟨b, ch⟩ := s
      obtain ⟨hs1, hs2⟩ := hs
      simp only [Tree.blocks, List.mem_cons, List.mem_flatMap] at hy
      rcases hy with rfl | ⟨q, hq, hy⟩
      · exact hr
      · refine ih q.2 false (hs2 q hq) (.kid b _ hr ?_) y hy
        rw [kids_node hs1, List.map_map]
        exact List.mem_map.mpr ⟨q, hq, rfl⟩
  exact hin h' t' true h1' (by rw [he]; exact .root _ (by simp)) y hy

/-- the blocks of the tree at `r` -/
theorem blocks_of (hc : AllClean d roots) : ∃ B : Nat → List Nat, ∀ r ∈ roots, (B r).Nodup ∧ (∀ x, [r].count x + ((B r).map fun y => (kids d y).count x).sum = (B r).count x) ∧
    ∀ (h : Nat) (t : Tree Nat h), LW.Clean d.rd d.nr h t → t.blk h = r → ∀ y ∈ t.blocks h, y ∈ B r := by
  have : ∀ r, ∃ B : List Nat, r ∈ roots → B.Nodup ∧ (∀ x, [r].count x + (B.map fun y => (kids d y).count x).sum = B.count x) ∧
      ∀ (h : Nat) (t : Tree Nat h), LW.Clean d.rd d.nr h t → t.blk h = r → ∀ y ∈ t.blocks h, y ∈ B := by
    intro r
    by_cases hr : r ∈ roots
    · obtain ⟨h, t, h1, h2⟩ := hc r hr
      refine ⟨t.blocks h, fun _ => ⟨h1.nodup, fun x => ?_, ?_⟩⟩
      · rw [← h2]; exact tree_refs x h t true h1.stored
      · intro h' t' h1' h2' y hy
        exact blocks_same h1'.stored h1.stored (h2'.trans h2.symm) y hy
    · exact ⟨[], fun h => absurd h hr⟩
  obtain ⟨B, hB⟩ := Classical.axiomOfChoice this
  exact ⟨B, hB⟩

/-- **C47.**  However undamaged trees share nodes, no block is referenced more often than there are devices, so the counters `thin_check` chooses suffice. -/
theorem refs_le_devices (hc : AllClean d roots) {N : List Nat} (hN : N.Nodup) (hmem : ∀ y, y ∈ N ↔ Reach d roots y) (x : Nat) :
    roots.count x + (N.map fun y => (kids d y).count x).sum ≤ roots.length := by
  obtain ⟨B, hB⟩ := blocks_of hc
  have h1 : (N.map fun y => (kids d y).count x).sum ≤ ((roots.flatMap B).map fun y => (kids d y).count x).sum := by
    apply sum_le_of_subset _ N _ hN
    intro y hy
    obtain ⟨r, hr, h, t, h1, h2, h3⟩ := reach_tree_of hc ((hmem y).mp hy)
    exact List.mem_flatMap.mpr ⟨r, hr, (hB r hr).2.2 h t h1 h2 y h3⟩
  have h2 : ∀ l : List Nat, (∀ r ∈ l, r ∈ roots) → l.count x + ((l.flatMap B).map fun y => (kids d y).count x).sum ≤ l.length := by
    intro l
    induction l with
    | nil => intro _; simp
    | cons r l ih =>
      intro hl
      have h1 := ih fun r hr => hl r (by simp [hr])
      obtain ⟨b1, b2, -⟩ := hB r (hl r (by simp))
      have h2 := b2 x
      have h3 : (B r).count x ≤ 1 := List.nodup_iff_count.mp b1 x
      simp only [List.flatMap_cons, List.map_append, List.sum_append_nat, List.length_cons]
      rw [List.count_cons]
      simp only [List.count_cons, List.count_nil] at h2
      omega
  have := h2 roots fun _ h => h
  omega

theorem refs_out {N : List Nat} (hmem : ∀ y, y ∈ N ↔ Reach d roots y) {x : Nat} (hx : x ∉ N) : roots.count x = 0 ∧ (N.map fun y => (kids d y).count x).sum = 0 := by
  constructor
  · exact List.count_eq_zero.mpr fun h => hx ((hmem x).mpr (.root x h))
  · have : ∀ l : List Nat, (∀ y ∈ l, y ∈ N) → (l.map fun y => (kids d y).count x).sum = 0 := by
      intro l
      induction l with
      | nil => intro _; rfl
      | cons y l ih =>
        intro hl
        simp only [List.map_cons, List.sum_cons]
        rw [ih fun y hy => hl y (by simp [hy]), List.count_eq_zero.mpr fun h => hx ((hmem x).mpr (.kid y x ((hmem y).mp (hl y (by simp))) h))]
    exact this N fun _ h => h

/-! ## Data blocks -/

/-- the data blocks a tree maps to -/
def treeData {h : Nat} (t : Tree Nat h) : List Nat := (t.contents h).map (·.2 >>> 24)

theorem tree_data (x : Nat) : ∀ (h : Nat) (t : Tree Nat h) (r : Bool), t.Stored (fun _ b => d.rd b) r h →
    ((t.blocks h).map fun y => (dataOf d y).count x).sum = (treeData t).count x := by
  intro h
  induction h with
  | zero =>
    intro t r hs
    have : dataOf d t.1 = (t.2 : List (Nat × Nat)).map (·.2 >>> 24) := by
      unfold dataOf
      rw [show d.rd t.1 = some (.leaf t.2) from hs]
    simp only [Tree.blocks, List.map_cons, List.map_nil, List.sum_cons, List.sum_nil, Nat.add_zero]
    rw [this]
    rfl
  | succ h ih =>
    intro t r hs
    obtain ⟨b, ch⟩ := t
    obtain ⟨hs1, hs2⟩ := hs
    have h0 : dataOf d b = [] := by unfold dataOf; rw [show d.rd b = _ from hs1]
    have hl : ∀ l : List (Nat × Tree Nat h), (∀ c ∈ l, c ∈ ch) →
        ((l.flatMap fun c => c.2.blocks h).map fun y => (dataOf d y).count x).sum = ((l.flatMap fun c => c.2.contents h).map (·.2 >>> 24)).count x := by
      intro l
      induction l with
      | nil => intro _; simp
      | cons c l ihl =>
        intro hl
        have h1 := ihl fun c hc => hl c (by simp [hc])
        have h2 := ih c.2 false (hs2 c (hl c (by simp)))
        simp only [List.flatMap_cons, List.map_append, List.sum_append_nat, List.count_append]
        rw [h1, h2]
        rfl
    show ((b :: ch.flatMap fun c => c.2.blocks h).map fun y => (dataOf d y).count x).sum = _
    rw [List.map_cons, List.sum_cons, h0]
    have := hl ch fun _ h => h
    simp only [List.count_nil, Nat.zero_add]
    exact this

/-- **C47.**  If no device maps a data block twice, no data block is counted more often than there are devices. -/
theorem data_le_devices (hc : AllClean d roots) (hone : ∀ r ∈ roots, ∀ (h : Nat) (t : Tree Nat h), LW.Clean d.rd d.nr h t → t.blk h = r → (treeData t).Nodup)
    {L : List Nat} (hL : L.Nodup) (hmem : ∀ y ∈ L, Reach d roots y) (x : Nat) : (L.map fun b => (dataOf d b).count x).sum ≤ roots.length := by
  have : ∀ r, ∃ B : List Nat, r ∈ roots → ((B.map fun y => (dataOf d y).count x).sum ≤ 1 ∧ ∀ (h : Nat) (t : Tree Nat h), LW.Clean d.rd d.nr h t → t.blk h = r → ∀ y ∈ t.blocks h, y ∈ B) := by
    intro r
    by_cases hr : r ∈ roots
    · obtain ⟨h, t, h1, h2⟩ := hc r hr
      refine ⟨t.blocks h, fun _ => ⟨?_, ?_⟩⟩
      · rw [tree_data x h t true h1.stored]
        exact List.nodup_iff_count.mp (hone r hr h t h1 h2) x
      · intro h' t' h1' h2' y hy
        exact blocks_same h1'.stored h1.stored (h2'.trans h2.symm) y hy
    · exact ⟨[], fun h => absurd h hr⟩
  obtain ⟨B, hB⟩ := Classical.axiomOfChoice this
  have h1 : (L.map fun b => (dataOf d b).count x).sum ≤ ((roots.flatMap B).map fun b => (dataOf d b).count x).sum := by
    apply sum_le_of_subset _ L _ hL
    intro y hy
    obtain ⟨r, hr, h, t, h1, h2, h3⟩ := reach_tree_of hc (hmem y hy)
    exact List.mem_flatMap.mpr ⟨r, hr, (hB r hr).2 h t h1 h2 y h3⟩
  have h2 : ∀ l : List Nat, (∀ r ∈ l, r ∈ roots) → ((l.flatMap B).map fun b => (dataOf d b).count x).sum ≤ l.length := by
    intro l
    induction l with
    | nil => intro _; simp
    | cons r l ih =>
      intro hl
      have h1 := ih fun r hr => hl r (by simp [hr])
      have h2 := (hB r (hl r (by simp))).1
      simp only [List.flatMap_cons, List.map_append, List.sum_append_nat, List.length_cons]
      omega
  exact Nat.le_trans h1 (h2 roots fun _ h => h)

end Verif.TChk
