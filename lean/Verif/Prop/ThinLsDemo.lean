import Verif.Prop.ThinLsSound

/-!
# C66, C67: a pool that meets the hypotheses, and what `thin_ls` gets wrong

Twenty metadata blocks: superblock 0, mapping trees in 1 to 5, details 6, top level 7.  Two devices of 168 blocks share leaf 3, and 68 of the blocks of leaf 4 are mapped by leaf 5, too.
-/

namespace Verif.Ls

open Verif.BT (Blk Tree)
open Verif.TChk (Dev Sm NodeMap u32 chunks leavesOf chunkRead chunkFail kids Sane nEnt TDev Keys)

/-- one order in which the threads may work -/
def countOf (d : Dev) (ign : Bool) (fuel : Nat) (roots : List Nat) (nrData : Nat) : Res LSums :=
  match collectNodes d roots NodeMap.empty (two d.nr) with
  | none => .crash
  | some (n, msm) =>
    match leafSteps d msm ((chunks 1024 (d.nr + 1) (leavesOf d n)).flatMap (chunkRead d)) ((chunks 1024 (d.nr + 1) (leavesOf d n)).foldl (chunkFail d) n, two nrData, fun _ => none) with
    | none => .crash
    | some (n1, dsm, m1) =>
      let r := ((chunks 1024 (d.nr + 1) (exclLeaves d n1 msm)).flatMap (chunkRead d)).foldl (exclStep d msm dsm) ((chunks 1024 (d.nr + 1) (exclLeaves d n1 msm)).foldl (chunkFail d) n1, m1)
      match countMapped r.1 msm ign fuel roots r.2 with
      | none => .crash
      | some m => .ok m

theorem countOf_ok (d : Dev) (ign : Bool) (fuel : Nat) (roots : List Nat) (nrData : Nat) : Count d ign fuel roots nrData (countOf d ign fuel roots nrData) := by
  unfold Count countOf
  cases collectNodes d roots NodeMap.empty (two d.nr) with
  | none => rfl
  | some p =>
    refine ⟨_, ⟨_, List.Perm.refl _, rfl⟩, ?_⟩
    simp only
    cases leafSteps d p.2 ((chunks 1024 (d.nr + 1) (leavesOf d p.1)).flatMap (chunkRead d)) ((chunks 1024 (d.nr + 1) (leavesOf d p.1)).foldl (chunkFail d) p.1, two nrData, fun _ => none) with
    | none => rfl
    | some q => exact ⟨_, ⟨_, List.Perm.refl _, rfl⟩, rfl⟩

/-- `n` mappings from block `k` on, to data blocks from `v` on -/
def row : Nat → Nat → Nat → List (Nat × Nat)
  | 0, _, _ => []
  | n + 1, k, v => (k, v * 2 ^ 24) :: row n (k + 1) (v + 1)

theorem row_chain : ∀ (n k v lo : Nat) (hi : Option Nat), lo ≤ k → (∀ x, x < k + n → BT.Below x hi) → BT.Chain (fun _ _ _ => True) lo hi (row n k v) := by
  intro n
  induction n with
  | zero => intro k v lo hi _ _; trivial
  | succ n ih =>
    intro k v lo hi h1 h2
    exact ⟨h1, h2 k (by omega), trivial, ih (k + 1) (v + 1) (k + 1) hi (Nat.le_refl _) fun x hx => h2 x (by omega)⟩

def lsBlk (b : Nat) : Option (Blk Nat) :=
  if b = 1 then some (.internal [(0, 3), (84, 4)]) else if b = 2 then some (.internal [(0, 3), (84, 5)]) else if b = 3 then some (.leaf (row 84 0 0))
  else if b = 4 then some (.leaf (row 84 84 84)) else if b = 5 then some (.leaf (row 84 84 100)) else none

def lsLow : Dev := ⟨20, lsBlk, lsBlk, fun _ _ => true, fun _ => true⟩

def lsDetails : List (Nat × DeviceDetail) := [(1, ⟨168, 4, 0, 1⟩), (7, ⟨168, 5, 1, 1⟩)]

def lsDev : TDev where
  nr := 20
  sb := some TChk.pdSb
  sbAt := fun _ => none
  dets := fun _ b => if b = 6 then some (.leaf lsDetails) else none
  tops := fun _ b => if b = 7 then some (.leaf [(1, 1), (7, 2)]) else none
  low := lsLow
  rdn := fun _ _ => none
  bm := fun _ => none
  index := fun _ => none

/-- a data device of 200 blocks -/
def lsUnpack (_ : Bytes) : Option SMRoot := some ⟨200, 0, 0, 0⟩

def lsT1 : TT := ⟨1, (1, [(0, ((3, row 84 0 0) : Tree Nat 0)), (84, ((4, row 84 84 84) : Tree Nat 0))])⟩
def lsT2 : TT := ⟨1, (2, [(0, ((3, row 84 0 0) : Tree Nat 0)), (84, ((5, row 84 84 100) : Tree Nat 0))])⟩

theorem ls_rd {b : Nat} {n : Blk Nat} (h : lsBlk b = some n) :
    (b = 1 ∧ n = .internal [(0, 3), (84, 4)]) ∨ (b = 2 ∧ n = .internal [(0, 3), (84, 5)]) ∨ (b = 3 ∧ n = .leaf (row 84 0 0)) ∨
    (b = 4 ∧ n = .leaf (row 84 84 84)) ∨ (b = 5 ∧ n = .leaf (row 84 84 100)) := by
  unfold lsBlk at h
  by_cases h1 : b = 1
  · rw [if_pos h1] at h; cases h; exact Or.inl ⟨h1, rfl⟩
  by_cases h2 : b = 2
  · rw [if_neg h1, if_pos h2] at h; cases h; exact Or.inr (Or.inl ⟨h2, rfl⟩)
  by_cases h3 : b = 3
  · rw [if_neg h1, if_neg h2, if_pos h3] at h; cases h; exact Or.inr (Or.inr (Or.inl ⟨h3, rfl⟩))
  by_cases h4 : b = 4
  · rw [if_neg h1, if_neg h2, if_neg h3, if_pos h4] at h; cases h; exact Or.inr (Or.inr (Or.inr (Or.inl ⟨h4, rfl⟩)))
  by_cases h5 : b = 5
  · rw [if_neg h1, if_neg h2, if_neg h3, if_neg h4, if_pos h5] at h; cases h; exact Or.inr (Or.inr (Or.inr (Or.inr ⟨h5, rfl⟩)))
  · rw [if_neg h1, if_neg h2, if_neg h3, if_neg h4, if_neg h5] at h; cases h

theorem row_lt : ∀ (n k v : Nat), ∀ e ∈ row n k v, k ≤ e.1 ∧ e.1 < k + n := by
  intro n
  induction n with
  | zero => intro k v e he; cases he
  | succ n ih =>
    intro k v e he
    rcases List.mem_cons.mp he with rfl | he
    · exact ⟨Nat.le_refl _, by show k < k + (n + 1); omega⟩
    · have := ih _ _ e he; omega

theorem row_sorted : ∀ (n k v : Nat), (row n k v).Pairwise (fun a b => a.1 < b.1) := by
  intro n
  induction n with
  | zero => intro k v; exact .nil
  | succ n ih =>
    intro k v
    refine List.pairwise_cons.mpr ⟨fun e he => ?_, ih _ _⟩
    have := row_lt _ _ _ e he
    show k < e.1
    omega

theorem ls_sane : Sane lsLow := by
  refine ⟨?_, by decide, ?_, ?_⟩
  · intro b n h
    rcases ls_rd h with h | h | h | h | h <;> (rw [h.1]; decide)
  · intro b es h
    have key : ∀ n k v, k + n < 1000 → ((row n k v).map (·.1)).Pairwise (· < ·) ∧ ∀ e ∈ row n k v, e.1 < 2 ^ 64 - 1 := by
      intro n k v hk
      refine ⟨List.pairwise_map.mpr (row_sorted n k v), fun e he => ?_⟩
      have := row_lt _ _ _ e he
      omega
    rcases ls_rd h with ⟨-, h⟩ | ⟨-, h⟩ | ⟨-, h⟩ | ⟨-, h⟩ | ⟨-, h⟩
    · cases h
    · cases h
    · injection h with h; rw [h]; exact key _ _ _ (by decide)
    · injection h with h; rw [h]; exact key _ _ _ (by decide)
    · injection h with h; rw [h]; exact key _ _ _ (by decide)
  · intro b ch h
    rcases ls_rd h with ⟨-, h⟩ | ⟨-, h⟩ | ⟨-, h⟩ | ⟨-, h⟩ | ⟨-, h⟩ <;> cases h <;> decide

theorem ls_tree (r a b v w : Nat) (hr : lsBlk r = some (.internal [(0, a), (84, b)])) (ha : lsBlk a = some (.leaf (row 84 0 v))) (hb : lsBlk b = some (.leaf (row 84 84 w)))
    (hlt : r < 20 ∧ a < 20 ∧ b < 20) : TT.Clean lsLow ⟨1, (r, [(0, ((a, row 84 0 v) : Tree Nat 0)), (84, ((b, row 84 84 w) : Tree Nat 0))])⟩ := by
  refine ⟨⟨hr, ?_⟩, ?_, Or.inr ⟨by simp, ?_⟩, ?_⟩
  · intro c hc
    simp only [List.mem_cons, List.not_mem_nil, or_false] at hc
    rcases hc with rfl | rfl
    · exact ha
    · exact hb
  · refine ⟨Nat.le_refl _, trivial, ?_, by omega, trivial, ?_, trivial⟩
    · exact row_chain _ _ _ _ _ (Nat.le_refl _) fun x hx => by show x < 84; omega
    · exact row_chain _ _ _ _ _ (Nat.le_refl _) fun x _ => trivial
  · intro c hc
    simp only [List.mem_cons, List.not_mem_nil, or_false] at hc
    rcases hc with rfl | rfl <;> exact fun h => by cases h
  · intro x hx
    simp only [Tree.blocks, List.mem_cons, List.flatMap_cons, List.flatMap_nil, List.append_nil, List.mem_append, List.not_mem_nil, or_false] at hx
    show x < 20
    omega

theorem lsT1_clean : lsT1.Clean lsLow := ls_tree 1 3 4 0 84 rfl rfl rfl (by decide)
theorem lsT2_clean : lsT2.Clean lsLow := ls_tree 2 3 5 0 100 rfl rfl rfl (by decide)

/-- the hypotheses of `ls_exact` are met -/
theorem ls_undamaged : Undamaged lsUnpack lsDev false TChk.pdSb lsDetails [lsT1, lsT2] 200 where
  main := ⟨_, _, _, rfl, rfl, rfl, rfl, rfl⟩
  top := ⟨_, 0, (7, [(1, 1), (7, 2)]), rfl, ⟨rfl, by simp [Tree.Ordered, BT.Chain, BT.Below, BT.nextKey], Or.inl rfl, by simp [Tree.blocks, lsDev]⟩, rfl, rfl, rfl⟩
  det := ⟨_, 0, (6, lsDetails), rfl, ⟨rfl, by simp [Tree.Ordered, BT.Chain, BT.Below, BT.nextKey, lsDetails], Or.inl rfl, by simp [Tree.blocks, lsDev]⟩, rfl, rfl⟩
  lowNr := rfl
  sane := ls_sane
  readAll := ⟨fun _ _ h => h, fun _ _ => rfl, fun _ => rfl⟩
  clean := by
    intro t ht
    simp only [List.mem_cons, List.not_mem_nil, or_false] at ht
    rcases ht with rfl | rfl
    · exact lsT1_clean
    · exact lsT2_clean
  full := by
    intro t ht y hy
    have : y ∈ [1, 2, 3, 4, 5] := by
      simp only [List.mem_cons, List.not_mem_nil, or_false] at ht
      rcases ht with rfl | rfl
      · have : y ∈ [1, 3, 4] := hy
        simp at this ⊢; omega
      · have : y ∈ [2, 3, 5] := hy
        simp at this ⊢; omega
    revert this
    clear hy ht
    revert y
    decide +kernel
  small := by
    intro b
    unfold nEnt
    cases h : lsDev.low.rd b with
    | none => exact Nat.zero_le _
    | some n => rcases ls_rd h with ⟨-, h⟩ | ⟨-, h⟩ | ⟨-, h⟩ | ⟨-, h⟩ | ⟨-, h⟩ <;> subst h <;> decide +kernel
  once := by decide +kernel
  inside := by decide +kernel
  block := by decide
  size := by decide +kernel

/-- and this is what it prints: the sizes, 152 blocks of each device are the other's, too -/
example : (ls lsUnpack (countOf lsLow false 20) ⟨[.dev, .mappedBlocks, .exclusiveBlocks, .sharedBlocks, .highestBlock, .mapped, .snapTime], false, false⟩ lsDev) =
    .ok ("DEV MAPPED_BLOCKS EXCLUSIVE_BLOCKS SHARED_BLOCKS HIGHEST_BLOCK MAPPED SNAP_TIME \n" ++
         "  1           168               16           152           167  11MiB         1 \n" ++
         "  7           168               16           152           167  11MiB         1 \n").toList := by
  rw [ls_exact ls_undamaged (by simp) (Nat.le_refl 20) (countOf lsLow false 20) fun roots nr => countOf_ok _ _ _ _ _]
  decide +kernel

/-- the hypotheses of `ls_sound_partial` are met, too -/
example : ∃ s, ls lsUnpack (countOf lsLow false 20) ⟨[.mappedBlocks], false, false⟩ lsDev = .ok s ∧ Sane lsDev.low ∧ Keys lsDev.low 1 (lsT1.entries.map (·.1)) := by
  refine ⟨_, ls_exact ls_undamaged (by simp) (Nat.le_refl 20) (countOf lsLow false 20) fun roots nr => countOf_ok _ _ _ _ _, ls_sane, ?_⟩
  exact TChk.keys_of_tree 1 lsT1.2 true lsT1_clean.stored

/-! ## Findings -/

/-- what `thin_ls` shows: mapped, shared, highest -/
def shown (d : Dev) (ign : Bool) (fuel : Nat) (roots : List Nat) (nrData : Nat) : Option (List (Nat × Nat × Nat)) :=
  match countOf d ign fuel roots nrData with
  | .ok m => (rootSums roots m).map fun l => l.map fun s => (s.sum.maps, s.shared, s.sum.high)
  | _ => none

def isCrash {α : Type} : Res α → Bool
  | .crash => true
  | _ => false

/-- **Finding.**  A single device that maps data block 7 twice is shown with two blocks shared, though there is no device to share them with. -/
theorem ls_twice_refuted : shown TChk.twiceLow false 20 [1] 20 = some [(2, 2, 2)] ∧ sharedWith [] ⟨0, (1, [(0, 7 * 2 ^ 24), (2, 7 * 2 ^ 24)])⟩ = 0 := by
  constructor
  · decide +kernel
  · decide

/-- a device without mappings -/
def noneLow : Dev := ⟨20, fun b => if b = 1 then some (.leaf []) else none, fun b => if b = 1 then some (.leaf []) else none, fun _ _ => true, fun _ => true⟩

/-- **Finding.**  A device without mappings is shown with the highest mapped block 0, and the last sector of that block: like a device on which just block 0 is mapped. -/
theorem ls_empty_refuted (id : Nat) (dt : DeviceDetail) : shown noneLow false 20 [1] 20 = some [(0, 0, 0)] ∧ value 128 id dt 0 0 0 .highestSector = 127 ∧
    value 128 id dt 0 0 0 .highestSector = value 128 id dt 1 0 0 .highestSector := by
  refine ⟨by decide +kernel, rfl, rfl⟩

theorem inc_nr {sm sm' : Sm} {b : Nat} (h : sm.inc b = some sm') : sm'.nr = sm.nr := by
  unfold TChk.Sm.inc at h
  split at h
  · split at h
    · cases h; rfl
    · split at h
      · cases h; rfl
      · cases h
  · cases h

theorem incData_nr : ∀ (es : List (Nat × Nat)) (sm sm' : Sm), incData es sm = some sm' → sm'.nr = sm.nr ∧ ∀ e ∈ es, e.2 >>> 24 < sm.nr := by
  intro es
  induction es with
  | nil => intro sm sm' h; cases h; exact ⟨rfl, fun e he => by cases he⟩
  | cons a es ih =>
    intro sm sm' h
    unfold incData at h
    cases hi : sm.inc (a.2 >>> 24) with
    | none => rw [hi] at h; cases h
    | some s1 =>
      rw [hi] at h
      obtain ⟨h1, h2⟩ := ih s1 sm' h
      have hn := inc_nr hi
      refine ⟨h1.trans hn, fun e he => ?_⟩
      rcases List.mem_cons.mp he with rfl | he
      · unfold TChk.Sm.inc at hi
        by_cases hb : e.2 >>> 24 < sm.nr
        · exact hb
        · rw [if_neg hb] at hi; cases hi
      · rw [← hn]; exact h2 e he

theorem leafSteps_in {d : Dev} {msm : Sm} : ∀ (l : List Nat) (s r : NodeMap × Sm × LSums), leafSteps d msm l s = some r → ∀ b ∈ l, ∀ es, d.rd b = some (.leaf es) → ∀ e ∈ es, e.2 >>> 24 < s.2.1.nr := by
  intro l
  induction l with
  | nil => intro s r _ b hb; cases hb
  | cons a l ih =>
    intro s r h b hb es he
    unfold leafSteps at h
    cases hs : leafStep d msm s a with
    | none => rw [hs] at h; cases h
    | some s1 =>
      rw [hs] at h
      have key : s1.2.1.nr = s.2.1.nr ∧ ∀ es, d.rd a = some (.leaf es) → ∀ e ∈ es, e.2 >>> 24 < s.2.1.nr := by
        unfold leafStep at hs
        cases ha : d.rd a with
        | none => rw [ha] at hs; cases hs; exact ⟨rfl, fun es h => by cases h⟩
        | some blk =>
          cases blk with
          | internal ch => rw [ha] at hs; cases hs; exact ⟨rfl, fun es h => by cases h⟩
          | leaf es' =>
            rw [ha] at hs
            simp only at hs
            cases hi : incData es' s.2.1 with
            | none => rw [hi] at hs; cases hs
            | some sm' =>
              rw [hi] at hs
              cases hs
              obtain ⟨q1, q2⟩ := incData_nr _ _ _ hi
              exact ⟨q1, fun es h => by cases h; exact q2⟩
      rcases List.mem_cons.mp hb with rfl | hb
      · exact key.2 es he
      · rw [← key.1]; exact ih s1 r h b hb es he

/-- **Finding.**  A mapping to a block beyond the end of the data device ends `thin_ls` with a panic, not with an error, in whatever order the threads work. -/
theorem count_range_refuted {d : Dev} (hd : Sane d) (hl : ∀ b n, d.rd b = some n → d.rdl b = some n) (hm : ∀ l i, d.many l i = true) (hck : ∀ l, d.chunkOk l = true)
    {ts : List TT} (hc : ∀ t ∈ ts, t.Clean d) {ign : Bool} {nrData : Nat} (hout : ∃ t ∈ ts, ∃ e ∈ t.entries, nrData ≤ e.2 >>> 24) {fuel : Nat} {r : Res LSums}
    (hr : Count d ign fuel (ts.map TT.root) nrData r) : r = .crash := by
  classical
  have hac : TChk.AllClean d (ts.map TT.root) := by
    intro r hr
    obtain ⟨t, ht, rfl⟩ := List.mem_map.mp hr
    exact ⟨t.1, t.2, hc t ht, rfl⟩
  let N := (List.range d.nr).filter fun y => decide (TChk.Reach d (ts.map TT.root) y)
  have hN : N.Nodup := List.nodup_range.sublist List.filter_sublist
  have hmem : ∀ y, y ∈ N ↔ TChk.Reach d (ts.map TT.root) y := by
    intro y
    simp only [N, List.mem_filter, List.mem_range, decide_eq_true_eq]
    refine ⟨fun h => h.2, fun h => ⟨?_, h⟩⟩
    obtain ⟨k, hk⟩ := h.bal hac.balanced
    exact hk.lt hd
  let L := N.filter fun y => decide (∃ es, d.rd y = some (.leaf es))
  have hL : L.Nodup := hN.sublist List.filter_sublist
  have hLm : ∀ y, y ∈ L ↔ y ∈ N ∧ ∃ es, d.rd y = some (.leaf es) := by
    intro y; simp only [L, List.mem_filter, decide_eq_true_eq]
  obtain ⟨n, msm, c0, c1, c2, c3, c4, c5⟩ := collect_two hd hl hm hac N hN hmem
  unfold Count at hr
  rw [c0] at hr
  obtain ⟨r1, ⟨order, hp, e⟩, hr⟩ := hr
  have hp' : order.Perm L := order_perm hd hm hck hL (p := fun _ => true) (fun b => by rw [hLm, c4, decide_eq_true_eq, c2]; simp) (fun b hb => ((hLm b).mp hb).2)
    (by rw [List.filter_eq_self.mpr fun _ _ => rfl]; exact hp)
  cases r1 with
  | none => exact hr
  | some q =>
    exfalso
    obtain ⟨t, ht, x, hx, hout⟩ := hout
    have hpos : 0 < (t.nodes.map fun y => (TChk.dataOf d y).count (x.2 >>> 24)).sum := by
      rw [(hc t ht).data]
      exact List.count_pos_iff.mpr (List.mem_map.mpr ⟨x, hx, rfl⟩)
    obtain ⟨y, hy, hyx⟩ : ∃ y ∈ t.nodes, 0 < (TChk.dataOf d y).count (x.2 >>> 24) := by
      have key : ∀ l : List Nat, 0 < (l.map fun y => (TChk.dataOf d y).count (x.2 >>> 24)).sum → ∃ y ∈ l, 0 < (TChk.dataOf d y).count (x.2 >>> 24) := by
        intro l
        induction l with
        | nil => intro h; simp at h
        | cons a l ih =>
          intro h
          rw [List.map_cons, List.sum_cons] at h
          by_cases ha : 0 < (TChk.dataOf d a).count (x.2 >>> 24)
          · exact ⟨a, by simp, ha⟩
          · obtain ⟨y, hy, h⟩ := ih (by omega)
            exact ⟨y, List.mem_cons_of_mem _ hy, h⟩
      exact key _ hpos
    have hyN := (hmem y).mpr ((reach_trees hc).mpr ⟨t, ht, hy⟩)
    have hin := List.count_pos_iff.mp hyx
    unfold TChk.dataOf at hin
    cases hb : d.rd y with
    | none => rw [hb] at hin; cases hin
    | some blk =>
      cases blk with
      | internal ch => rw [hb] at hin; cases hin
      | leaf es =>
        rw [hb] at hin
        obtain ⟨e', he', hee⟩ := List.mem_map.mp hin
        have := leafSteps_in _ _ _ e.symm y (hp'.mem_iff.mpr ((hLm y).mpr ⟨hyN, es, hb⟩)) es hb e' he'
        rw [hee] at this
        have h2 : x.2 >>> 24 < nrData := this
        omega

/-- such a pool: the data device has 150 blocks -/
example : countOf lsLow false 20 [1, 2] 150 = .crash :=
  count_range_refuted (ts := [lsT1, lsT2]) ls_sane (fun _ _ h => h) (fun _ _ => rfl) (fun _ => rfl) ls_undamaged.clean
    ⟨lsT2, by simp, (167, 183 * 2 ^ 24), by decide +kernel, by decide⟩ (countOf_ok lsLow false 20 [1, 2] 150)

/-- two leaves with 84 entries each, one of which has the key 83 as well -/
def lapLow : Dev :=
  let f := fun b => if b = 1 then some (Blk.internal [(0, 2), (83, 3)]) else if b = 2 then some (.leaf (row 84 0 0)) else if b = 3 then some (.leaf (row 84 83 84)) else none
  ⟨20, f, f, fun _ _ => true, fun _ => true⟩

/-- **Finding.**  Overlapping leaves are not noticed: the summary of the second one is dropped, and with it 84 of 168 entries. -/
theorem ls_overlap_refuted : shown lapLow false 20 [1] 200 = some [(84, 0, 83)] ∧ Keys lapLow 1 ((row 84 0 0 ++ row 84 83 84).map (·.1)) := by
  refine ⟨by decide +kernel, ?_⟩
  have := Keys.node (d := lapLow) 1 [(0, 2), (83, 3)] (fun b => if b = 2 then (row 84 0 0).map (·.1) else (row 84 83 84).map (·.1)) rfl (by
    intro c hc
    simp only [List.mem_cons, List.not_mem_nil, or_false] at hc
    rcases hc with rfl | rfl
    · exact Keys.leaf 2 (row 84 0 0) rfl
    · exact Keys.leaf 3 (row 84 83 84) rfl)
  simpa using this

end Verif.Ls
