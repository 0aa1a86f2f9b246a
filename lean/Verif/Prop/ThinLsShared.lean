import Verif.Prop.ThinLsCount

/-!
# C66: what the counters of `thin_ls` mean

A mapping is counted as shared exactly if another device maps the same data block.
-/

namespace Verif.Ls

open Verif.BT (Blk Tree)
open Verif.TChk (Dev Sm kids Reach dataOf treeData)

variable {d : Dev}

/-- a tree, of whatever height -/
abbrev TT := (h : Nat) × Tree Nat h

/-- its root -/
def TT.root (t : TT) : Nat := t.2.blk t.1

/-- its mappings -/
def TT.entries (t : TT) : List (Nat × Nat) := t.2.contents t.1

/-- its nodes -/
def TT.nodes (t : TT) : List Nat := t.2.blocks t.1

/-- the number of mappings of a device whose data block is mapped by another device, too -/
def sharedWith (others : List TT) (t : TT) : Nat := t.entries.countP fun e => others.any fun u => u.entries.any fun e' => e'.2 >>> 24 == e.2 >>> 24

theorem mem_le_sum (f : Nat → Nat) : ∀ (l : List Nat) (y : Nat), y ∈ l → f y ≤ (l.map f).sum := by
  intro l
  induction l with
  | nil => intro y h; cases h
  | cons a l ih =>
    intro y h
    simp only [List.map_cons, List.sum_cons]
    rcases List.mem_cons.mp h with rfl | h
    · omega
    · have := ih y h; omega

theorem two_le_sum (f : Nat → Nat) : ∀ (l : List Nat) (y z : Nat), y ∈ l → z ∈ l → y ≠ z → f y + f z ≤ (l.map f).sum := by
  intro l
  induction l with
  | nil => intro y z h; cases h
  | cons a l ih =>
    intro y z h h' hne
    simp only [List.map_cons, List.sum_cons]
    rcases List.mem_cons.mp h with rfl | h
    · rcases List.mem_cons.mp h' with rfl | h'
      · exact absurd rfl hne
      · have := mem_le_sum f l z h'; omega
    · rcases List.mem_cons.mp h' with rfl | h'
      · have := mem_le_sum f l y (by assumption); omega
      · have := ih y z h h' hne; omega

theorem sum_pos (f : Nat → Nat) : ∀ (l : List Nat), 0 < (l.map f).sum → ∃ y ∈ l, 0 < f y := by
  intro l
  induction l with
  | nil => intro h; simp at h
  | cons a l ih =>
    intro h
    simp only [List.map_cons, List.sum_cons] at h
    by_cases ha : 0 < f a
    · exact ⟨a, by simp, ha⟩
    · obtain ⟨y, hy, hp⟩ := ih (by omega)
      exact ⟨y, by simp [hy], hp⟩

theorem sum_flat {α : Type} (f : Nat → Nat) (g : α → List Nat) : ∀ l : List α, ((l.flatMap g).map f).sum = (l.map fun a => ((g a).map f).sum).sum := by
  intro l
  induction l with
  | nil => rfl
  | cons a l ih => simp only [List.flatMap_cons, List.map_append, List.sum_append_nat, List.map_cons, List.sum_cons, ih]

theorem sum_pos' {α : Type} (f : α → Nat) : ∀ (l : List α), 0 < (l.map f).sum → ∃ y ∈ l, 0 < f y := by
  intro l
  induction l with
  | nil => intro h; simp at h
  | cons a l ih =>
    intro h
    simp only [List.map_cons, List.sum_cons] at h
    by_cases ha : 0 < f a
    · exact ⟨a, by simp, ha⟩
    · obtain ⟨y, hy, hp⟩ := ih (by omega)
      exact ⟨y, by simp [hy], hp⟩

/-- the blocks of a subtree lie in every set that is closed under pointers -/
theorem subtree_in {S : Nat → Prop} (hS : ∀ y c, S y → c ∈ kids d y → S c) : ∀ (h : Nat) (t : Tree Nat h) (r : Bool), t.Stored (fun _ b => d.rd b) r h → S (t.blk h) → ∀ y ∈ t.blocks h, S y := by
  intro h
  induction h with
  | zero => intro t r _ hs y hy; simp only [Tree.blocks, List.mem_singleton] at hy; rw [hy]; exact hs
  | succ h ih =>
    intro t r hst hs y hy
    obtain ⟨b, ch⟩ := t
    obtain ⟨hs1, hs2⟩ := hst
    simp only [Tree.blocks, List.mem_cons, List.mem_flatMap] at hy
    rcases hy with rfl | ⟨q, hq, hy⟩
    · exact hs
    · refine ih q.2 false (hs2 q hq) (hS b _ hs ?_) y hy
      rw [TChk.kids_node hs1, List.map_map]
      exact List.mem_map.mpr ⟨q, hq, rfl⟩

/-- an undamaged tree of the device -/
def TT.Clean (d : Dev) (t : TT) : Prop := LW.Clean d.rd d.nr t.1 t.2

theorem TT.Clean.refs {t : TT} (h : t.Clean d) (x : Nat) : [t.root].count x + (t.nodes.map fun y => (kids d y).count x).sum = t.nodes.count x :=
  TChk.tree_refs x t.1 t.2 true h.stored

theorem TT.Clean.data {t : TT} (h : t.Clean d) (x : Nat) : (t.nodes.map fun y => (dataOf d y).count x).sum = (t.entries.map (·.2 >>> 24)).count x :=
  TChk.tree_data x t.1 t.2 true h.stored

theorem TT.Clean.closed {t : TT} (h : t.Clean d) {y c : Nat} (hy : y ∈ t.nodes) (hc : c ∈ kids d y) : c ∈ t.nodes :=
  TChk.tree_kids t.1 t.2 true h.stored y hy hc

theorem reach_trees {ts : List TT} (hc : ∀ t ∈ ts, t.Clean d) {y : Nat} : Reach d (ts.map TT.root) y ↔ ∃ t ∈ ts, y ∈ t.nodes := by
  constructor
  · intro h
    induction h with
    | root r hr =>
      obtain ⟨t, ht, rfl⟩ := List.mem_map.mp hr
      exact ⟨t, ht, TChk.blk_mem_blocks t.2⟩
    | kid b c _ hk ih =>
      obtain ⟨t, ht, hb⟩ := ih
      exact ⟨t, ht, (hc t ht).closed hb hk⟩
  · rintro ⟨t, ht, hy⟩
    exact subtree_in (d := d) (S := Reach d (ts.map TT.root)) (fun y c h h' => .kid y c h h') t.1 t.2 true (hc t ht).stored (.root _ (List.mem_map.mpr ⟨t, ht, rfl⟩)) y hy

section
variable {pre post : List TT} {t : TT} (hc : ∀ u ∈ pre ++ t :: post, u.Clean d) {N : List Nat} (hN : N.Nodup) (hmem : ∀ y, y ∈ N ↔ ∃ u ∈ pre ++ t :: post, y ∈ u.nodes)
include hc hN hmem

/-- a block of the tree with two references is in another tree -/
theorem other_of_refs {b : Nat} (h : 1 < ((pre ++ t :: post).map TT.root).count b + (N.map fun y => (kids d y).count b).sum) : ∃ u ∈ pre ++ post, b ∈ u.nodes := by
  have h1 : (N.map fun y => (kids d y).count b).sum ≤ (((pre ++ t :: post).flatMap TT.nodes).map fun y => (kids d y).count b).sum := by
    apply TChk.sum_le_of_subset _ N _ hN
    intro y hy
    obtain ⟨u, hu, hy⟩ := (hmem y).mp hy
    exact List.mem_flatMap.mpr ⟨u, hu, hy⟩
  rw [sum_flat] at h1
  have h2 : ∀ l : List TT, (∀ u ∈ l, u.Clean d) → (l.map TT.root).count b + (l.map fun u => (u.nodes.map fun y => (kids d y).count b).sum).sum = (l.map fun u => u.nodes.count b).sum := by
    intro l
    induction l with
    | nil => intro _; rfl
    | cons u l ih =>
      intro hl
      have h1 := ih fun x hx => hl x (by simp [hx])
      have h2 := (hl u (by simp)).refs b
      simp only [List.map_cons, List.sum_cons]
      rw [List.count_cons]
      simp only [List.count_cons, List.count_nil] at h2
      omega
  have h3 := h2 _ hc
  have h4 : t.nodes.count b ≤ 1 := List.nodup_iff_count.mp (hc t (by simp)).nodup b
  have h5 : ((pre ++ t :: post).map fun u => u.nodes.count b).sum = t.nodes.count b + ((pre ++ post).map fun u => u.nodes.count b).sum := by
    simp only [List.map_append, List.sum_append_nat, List.map_cons, List.sum_cons]; omega
  obtain ⟨u, hu, hp⟩ := sum_pos' _ _ (show 0 < ((pre ++ post).map fun u => u.nodes.count b).sum by omega)
  exact ⟨u, hu, List.count_pos_iff.mp hp⟩

/-- the root of the tree, if it is in another tree, has two references -/
theorem refs_root {u : TT} (hu : u ∈ pre ++ post) (hb : t.root ∈ u.nodes) : 1 < ((pre ++ t :: post).map TT.root).count t.root + (N.map fun y => (kids d y).count t.root).sum := by
  have huc := hc u (by rcases List.mem_append.mp hu with h | h <;> simp [h])
  have h1 := huc.refs t.root
  have h2 : 0 < u.nodes.count t.root := List.count_pos_iff.mpr hb
  have h3 : ((pre ++ t :: post).map TT.root).count t.root = 1 + ((pre ++ post).map TT.root).count t.root := by
    simp only [List.map_append, List.map_cons, List.count_append, List.count_cons, beq_self_eq_true, if_true]; omega
  by_cases e : u.root = t.root
  · have : 0 < ((pre ++ post).map TT.root).count t.root := List.count_pos_iff.mpr (List.mem_map.mpr ⟨u, hu, e⟩)
    omega
  · have h0 : [u.root].count t.root = 0 := List.count_eq_zero.mpr (by simp; exact fun h => e h.symm)
    obtain ⟨y, hy, hp⟩ := sum_pos (fun y => (kids d y).count t.root) u.nodes (by omega)
    have := mem_le_sum (fun y => (kids d y).count t.root) N y ((hmem y).mpr ⟨u, by rcases List.mem_append.mp hu with h | h <;> simp [h], hy⟩)
    omega

/-- a child of a block that is in no other tree has two references if it is in another tree -/
theorem refs_kid {u : TT} (hu : u ∈ pre ++ post) {y c : Nat} (hy : y ∈ t.nodes) (hk : c ∈ kids d y) (hno : ¬ ∃ u ∈ pre ++ post, y ∈ u.nodes) (hb : c ∈ u.nodes) :
    1 < ((pre ++ t :: post).map TT.root).count c + (N.map fun y => (kids d y).count c).sum := by
  have hu' : u ∈ pre ++ t :: post := by rcases List.mem_append.mp hu with h | h <;> simp [h]
  have h1 := (hc u hu').refs c
  have h2 : 0 < u.nodes.count c := List.count_pos_iff.mpr hb
  have hyN : y ∈ N := (hmem y).mpr ⟨t, by simp, hy⟩
  have hk1 : 0 < (kids d y).count c := List.count_pos_iff.mpr hk
  by_cases e : u.root = c
  · have : 0 < ((pre ++ t :: post).map TT.root).count c := List.count_pos_iff.mpr (List.mem_map.mpr ⟨u, hu', e⟩)
    have h3 := mem_le_sum (fun y => (kids d y).count c) N y hyN
    omega
  · have h0 : [u.root].count c = 0 := List.count_eq_zero.mpr (by simp; exact fun h => e h.symm)
    obtain ⟨z, hz, hp⟩ := sum_pos (fun y => (kids d y).count c) u.nodes (by omega)
    have hne : y ≠ z := fun q => hno ⟨u, hu, q ▸ hz⟩
    have := two_le_sum (fun y => (kids d y).count c) N y z hyN ((hmem z).mpr ⟨u, hu', hz⟩) hne
    omega

/-- a mapping in a leaf of this tree alone: its data block is counted twice exactly if another device maps it -/
theorem data_twice (hone : (t.entries.map (·.2 >>> 24)).Nodup) {L : List Nat} (hL : L.Nodup) (hLm : ∀ y, y ∈ L ↔ y ∈ N ∧ ∃ es, d.rd y = some (.leaf es)) {b x : Nat} (hb : b ∈ t.nodes)
    (hx : x ∈ dataOf d b) (hno : ¬ ∃ u ∈ pre ++ post, b ∈ u.nodes) :
    1 < (L.map fun y => (dataOf d y).count x).sum ↔ ∃ u ∈ pre ++ post, x ∈ u.entries.map (·.2 >>> 24) := by
  have hleaf : ∀ y, y ∈ N → 0 < (dataOf d y).count x → y ∈ L := by
    intro y hy h
    refine (hLm y).mpr ⟨hy, ?_⟩
    unfold dataOf at h
    split at h
    · rename_i es he; exact ⟨es, he⟩
    · simp at h
  constructor
  · intro h
    have h1 : (L.map fun y => (dataOf d y).count x).sum ≤ (((pre ++ t :: post).flatMap TT.nodes).map fun y => (dataOf d y).count x).sum := by
      apply TChk.sum_le_of_subset _ L _ hL
      intro y hy
      obtain ⟨u, hu, hy⟩ := (hmem y).mp ((hLm y).mp hy).1
      exact List.mem_flatMap.mpr ⟨u, hu, hy⟩
    rw [sum_flat] at h1
    have h2 : ((pre ++ t :: post).map fun u => (u.nodes.map fun y => (dataOf d y).count x).sum) = (pre ++ t :: post).map fun u => (u.entries.map (·.2 >>> 24)).count x :=
      List.map_congr_left fun u hu => (hc u hu).data x
    rw [h2] at h1
    have h4 : (t.entries.map (·.2 >>> 24)).count x ≤ 1 := List.nodup_iff_count.mp hone x
    have h5 : ((pre ++ t :: post).map fun u => (u.entries.map (·.2 >>> 24)).count x).sum = (t.entries.map (·.2 >>> 24)).count x + ((pre ++ post).map fun u => (u.entries.map (·.2 >>> 24)).count x).sum := by
      simp only [List.map_append, List.sum_append_nat, List.map_cons, List.sum_cons]; omega
    obtain ⟨u, hu, hp⟩ := sum_pos' _ _ (show 0 < ((pre ++ post).map fun u => (u.entries.map (·.2 >>> 24)).count x).sum by omega)
    exact ⟨u, hu, List.count_pos_iff.mp hp⟩
  · rintro ⟨u, hu, hxu⟩
    have hu' : u ∈ pre ++ t :: post := by rcases List.mem_append.mp hu with h | h <;> simp [h]
    have h1 := (hc u hu').data x
    have h2 : 0 < (u.entries.map (·.2 >>> 24)).count x := List.count_pos_iff.mpr hxu
    obtain ⟨z, hz, hp⟩ := sum_pos (fun y => (dataOf d y).count x) u.nodes (by omega)
    have hne : b ≠ z := fun q => hno ⟨u, hu, q ▸ hz⟩
    have hb1 : 0 < (dataOf d b).count x := List.count_pos_iff.mpr hx
    have := two_le_sum (fun y => (dataOf d y).count x) L b z (hleaf b ((hmem b).mpr ⟨t, by simp, hb⟩) hb1) (hleaf z ((hmem z).mpr ⟨u, hu', hz⟩) hp) hne
    omega

/-- **C66, the meaning of the counts.**  With the counters of the passes, the number of shared mappings computed for a device is the number of its mappings whose data block is
mapped by another device, too, if the device does not map a data block twice. -/
theorem shared_meaning (hone : (t.entries.map (·.2 >>> 24)).Nodup) {L : List Nat} (hL : L.Nodup) (hLm : ∀ y, y ∈ L ↔ y ∈ N ∧ ∃ es, d.rd y = some (.leaf es)) {msm dsm : Sm}
    (hms : ∀ x, msm.cnt x = min 2 (((pre ++ t :: post).map TT.root).count x + (N.map fun y => (kids d y).count x).sum))
    (hds : ∀ x, dsm.cnt x = min 2 ((L.map fun b => (dataOf d b).count x).sum)) : shT msm dsm t.1 t.2 = sharedWith (pre ++ post) t := by
  let P : Nat × Nat → Bool := fun e => (pre ++ post).any fun u => u.entries.any fun e' => e'.2 >>> 24 == e.2 >>> 24
  have hP : ∀ e, P e = true ↔ ∃ u ∈ pre ++ post, e.2 >>> 24 ∈ u.entries.map (·.2 >>> 24) := by
    intro e
    simp only [P, List.any_eq_true, beq_iff_eq, List.mem_map]
  have hin : ∀ (h : Nat) (s : Tree Nat h) (r : Bool) (u : TT), u ∈ pre ++ post → s.Stored (fun _ b => d.rd b) r h → s.blk h ∈ u.nodes → ∀ e ∈ s.contents h, P e = true := by
    intro h s r u hu hs hb e he
    rw [hP]
    refine ⟨u, hu, ?_⟩
    have hu' : u ∈ pre ++ t :: post := by rcases List.mem_append.mp hu with h | h <;> simp [h]
    have h1 : 0 < (treeData s).count (e.2 >>> 24) := List.count_pos_iff.mpr (List.mem_map.mpr ⟨e, he, rfl⟩)
    rw [← TChk.tree_data _ h s r hs] at h1
    obtain ⟨z, hz, hp⟩ := sum_pos _ _ h1
    have hzu : z ∈ u.nodes := subtree_in (d := d) (S := fun y => y ∈ u.nodes) (fun y c hy hc' => (hc u hu').closed hy hc') h s r hs hb z hz
    have h2 := mem_le_sum (fun y => (dataOf d y).count (e.2 >>> 24)) u.nodes z hzu
    rw [(hc u hu').data] at h2
    exact List.count_pos_iff.mp (Nat.lt_of_lt_of_le hp h2)
  have main : ∀ (h : Nat) (s : Tree Nat h) (r : Bool), s.Stored (fun _ b => d.rd b) r h → s.blk h ∈ t.nodes → (msm.cnt (s.blk h) > 1 ↔ ∃ u ∈ pre ++ post, s.blk h ∈ u.nodes) →
      shT msm dsm h s = (s.contents h).countP P := by
    intro h
    induction h with
    | zero =>
      intro s r hs hb hi
      obtain ⟨b, es⟩ := s
      have hs' : d.rd b = some (.leaf es) := hs
      show (if msm.cnt b > 1 then es.length else es.countP fun e => decide (dsm.cnt (e.2 >>> 24) > 1)) = es.countP P
      by_cases hc2 : msm.cnt b > 1
      · obtain ⟨u, hu, hbu⟩ := hi.mp hc2
        rw [if_pos hc2]
        exact (List.countP_eq_length.mpr (hin 0 (b, es) r u hu hs hbu)).symm
      · rw [if_neg hc2]
        apply List.countP_congr
        intro e he
        rw [decide_eq_true_eq, hP, hds, ← data_twice hc hN hmem hone hL hLm (b := b) (x := e.2 >>> 24) hb (by
          unfold dataOf; rw [hs']; exact List.mem_map.mpr ⟨e, he, rfl⟩) (fun h => hc2 (hi.mpr h))]
        omega
    | succ h ih =>
      intro s r hs hb hi
      obtain ⟨b, ch⟩ := s
      have hst := hs
      obtain ⟨hs1, hs2⟩ := hs
      rw [shT_node]
      by_cases hc2 : msm.cnt b > 1
      · obtain ⟨u, hu, hbu⟩ := hi.mp hc2
        rw [if_pos hc2]
        exact (List.countP_eq_length.mpr (hin (h + 1) (b, ch) r u hu hst hbu)).symm
      · rw [if_neg hc2]
        have hno : ¬ ∃ u ∈ pre ++ post, b ∈ u.nodes := fun h => hc2 (hi.mpr h)
        have hkids : ∀ c ∈ ch, Tree.blk h c.2 ∈ kids d b := by
          intro c hcm
          rw [TChk.kids_node hs1, List.map_map]
          exact List.mem_map.mpr ⟨c, hcm, rfl⟩
        have hall : ∀ l : List (Nat × Tree Nat h), (∀ c ∈ l, c ∈ ch) → (l.map fun c => shT msm dsm h c.2).sum = (l.flatMap fun c => c.2.contents h).countP P := by
          intro l
          induction l with
          | nil => intro _; rfl
          | cons c l ihl =>
            intro hl
            have hcm := hl c (by simp)
            have hk := hkids c hcm
            rw [List.map_cons, List.sum_cons, List.flatMap_cons, List.countP_append, ihl fun x hx => hl x (by simp [hx]),
              ih c.2 false (hs2 c hcm) ((hc t (by simp)).closed hb hk) (by
                rw [hms]
                constructor
                · intro h; exact other_of_refs hc hN hmem (by omega)
                · rintro ⟨u, hu, hcu⟩
                  have := refs_kid hc hN hmem hu hb hk hno hcu
                  omega)]
        exact hall ch fun _ h => h
  exact main t.1 t.2 true (hc t (by simp)).stored (TChk.blk_mem_blocks t.2) (by
    rw [hms]
    constructor
    · intro h; exact other_of_refs hc hN hmem (show _ < _ by unfold TT.root at *; omega)
    · rintro ⟨u, hu, hcu⟩
      have := refs_root hc hN hmem hu hcu
      unfold TT.root at this ⊢
      omega)

end

end Verif.Ls
