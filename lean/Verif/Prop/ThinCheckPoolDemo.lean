import Verif.Prop.ThinCheckPool

/-!
# C47: a pool that meets the hypotheses, and what `thin_check` misses in one

Twenty metadata blocks: superblock 0, mapping trees in 1 to 5, details 6, top level 7, data space map 8 (index), 9 (bitmap), 10 (overflow), metadata space map 11 (overflow), 12 (index),
13 (bitmap).  Two devices share leaf 3.
-/

namespace Verif.TChk

open Verif.BT (Blk WSt Tree)
open Verif.SMD (SVal)

/-- one order in which the threads may work -/
def bottomOf (d : Dev) (ign : Bool) (fuel : Nat) (roots : List Nat) (msm dsm : Sm) : Sm × Sm × Option Sums :=
  let c := collectNodes d roots NodeMap.empty msm
  let r := ((chunks 1024 (d.nr + 1) (leavesOf d c.1)).flatMap (chunkRead d)).foldl (leafStep d) ((chunks 1024 (d.nr + 1) (leavesOf d c.1)).foldl (chunkFail d) c.1, dsm, fun _ => none)
  (c.2, r.2.1, countMapped r.1 ign fuel roots r.2.2)

theorem bottomOf_ok (d : Dev) (ign : Bool) (fuel : Nat) (roots : List Nat) (msm dsm : Sm) : Bottom d ign fuel roots msm dsm (bottomOf d ign fuel roots msm dsm) :=
  ⟨_, _, _, ⟨_, List.Perm.refl _, rfl⟩, rfl⟩

def pdLow : Dev :=
  let f := fun b => if b = 1 then some (Blk.internal [(0, 3), (5, 4)]) else if b = 2 then some (.internal [(0, 3), (5, 5)])
    else if b = 3 then some (.leaf [(0, 7 * 2 ^ 24), (2, 8 * 2 ^ 24)]) else if b = 4 then some (.leaf [(5, 9 * 2 ^ 24)]) else if b = 5 then some (.leaf [(6, 9 * 2 ^ 24)]) else none
  ⟨20, f, f, fun _ _ => true, fun _ => true⟩

def pdDetails : List (Nat × DeviceDetail) := [(1, ⟨3, 0, 0, 0⟩), (2, ⟨3, 0, 0, 0⟩)]
def pdDroot : SMRoot := ⟨20, 3, 8, 10⟩
def pdMroot : SMRoot := ⟨20, 14, 12, 11⟩

/-- the roots are told apart by their length here -/
def pdUnpack (b : Bytes) : Option SMRoot := if b = [] then some pdDroot else some pdMroot

def pdSb : Thin.Superblock := ⟨true, 0, 2, 0, 0, 0, [], [0], 7, 6, 128, 20⟩

def pdSm : Nat → Option (Blk SVal) := fun b => if b = 8 then some (.leaf [(0, .ie ⟨9, 17, 0⟩)]) else if b = 10 then some (.leaf []) else if b = 11 then some (.leaf []) else none

/-- `n` entries -/
def pdRow (f : Nat → Nat) : List BE := (List.range 20).map fun b => .small (f b)

def pdData (b : Nat) : Nat := if b = 7 ∨ b = 8 then 1 else if b = 9 then 2 else 0
def pdMeta (b : Nat) : Nat := if b = 3 then 2 else if b < 14 then 1 else 0

def pdDev : TDev where
  nr := 20
  sb := some pdSb
  sbAt := fun _ => none
  dets := fun _ b => if b = 6 then some (.leaf pdDetails) else none
  tops := fun _ b => if b = 7 then some (.leaf [(1, 1), (2, 2)]) else none
  low := pdLow
  rdn := fun _ b => pdSm b
  bm := fun b => if b = 9 then some (true, pdRow pdData) else if b = 13 then some (true, pdRow pdMeta) else none
  index := fun b => if b = 12 then some [⟨13, 6, 0⟩] else none

def pd : Pool where
  hT := 0
  tT := (7, [(1, 1), (2, 2)])
  hD := 0
  tD := (6, pdDetails)
  N := [1, 2, 3, 4, 5]
  L := [3, 4, 5]
  droot := pdDroot
  hX := 0
  tX := (8, [(0, .ie ⟨9, 17, 0⟩)])
  ies := [⟨9, 17, 0⟩]
  hO := 0
  tO := (10, [])
  mroot := pdMroot
  hM := 0
  tM := (11, [])
  mies := [⟨13, 6, 0⟩]

theorem pd_rd {b : Nat} {n : Blk Nat} (h : pdLow.rd b = some n) :
    (b = 1 ∧ n = .internal [(0, 3), (5, 4)]) ∨ (b = 2 ∧ n = .internal [(0, 3), (5, 5)]) ∨ (b = 3 ∧ n = .leaf [(0, 7 * 2 ^ 24), (2, 8 * 2 ^ 24)]) ∨
    (b = 4 ∧ n = .leaf [(5, 9 * 2 ^ 24)]) ∨ (b = 5 ∧ n = .leaf [(6, 9 * 2 ^ 24)]) := by
  simp only [pdLow] at h
  split at h
  · cases h; simp_all
  · split at h
    · cases h; simp_all
    · split at h
      · cases h; simp_all
      · split at h
        · cases h; simp_all
        · split at h
          · cases h; simp_all
          · cases h

theorem pd_sane : Sane pdLow := by
  refine ⟨?_, by decide, ?_, ?_⟩
  · intro b n h
    rcases pd_rd h with h | h | h | h | h <;> (rw [h.1]; decide)
  · intro b es h
    rcases pd_rd h with ⟨-, h⟩ | ⟨-, h⟩ | ⟨-, h⟩ | ⟨-, h⟩ | ⟨-, h⟩ <;> cases h <;> simp
  · intro b ch h
    rcases pd_rd h with ⟨-, h⟩ | ⟨-, h⟩ | ⟨-, h⟩ | ⟨-, h⟩ | ⟨-, h⟩ <;> cases h <;> simp

def pdT1 : Tree Nat 1 := (1, [(0, ((3, [(0, 7 * 2 ^ 24), (2, 8 * 2 ^ 24)]) : Tree Nat 0)), (5, ((4, [(5, 9 * 2 ^ 24)]) : Tree Nat 0))])
def pdT2 : Tree Nat 1 := (2, [(0, ((3, [(0, 7 * 2 ^ 24), (2, 8 * 2 ^ 24)]) : Tree Nat 0)), (5, ((5, [(6, 9 * 2 ^ 24)]) : Tree Nat 0))])

theorem pdT1_clean : LW.Clean pdLow.rd pdLow.nr 1 pdT1 := by
  refine ⟨⟨rfl, ?_⟩, ?_, Or.inr ⟨by simp [pdT1], ?_⟩, ?_⟩
  · intro c hc; simp [pdT1] at hc; rcases hc with rfl | rfl <;> rfl
  · simp [pdT1, Tree.Ordered, BT.Chain, BT.Below, BT.nextKey]
  · intro c hc; simp [pdT1] at hc; rcases hc with rfl | rfl <;> simp [Tree.NoEmpty]
  · simp [pdT1, Tree.blocks, pdLow]

theorem pdT2_clean : LW.Clean pdLow.rd pdLow.nr 1 pdT2 := by
  refine ⟨⟨rfl, ?_⟩, ?_, Or.inr ⟨by simp [pdT2], ?_⟩, ?_⟩
  · intro c hc; simp [pdT2] at hc; rcases hc with rfl | rfl <;> rfl
  · simp [pdT2, Tree.Ordered, BT.Chain, BT.Below, BT.nextKey]
  · intro c hc; simp [pdT2] at hc; rcases hc with rfl | rfl <;> simp [Tree.NoEmpty]
  · simp [pdT2, Tree.blocks, pdLow]

theorem pd_roots : pd.roots = [1, 2] := rfl

theorem pd_clean : AllClean pdLow pd.roots := by
  intro r hr
  rw [pd_roots] at hr
  simp only [List.mem_cons, List.not_mem_nil, or_false] at hr
  rcases hr with rfl | rfl
  · exact ⟨1, pdT1, pdT1_clean, rfl⟩
  · exact ⟨1, pdT2, pdT2_clean, rfl⟩

theorem pd_nodes (y : Nat) : y ∈ pd.N ↔ Reach pdLow pd.roots y := by
  show y ∈ [1, 2, 3, 4, 5] ↔ Reach pdLow [1, 2] y
  constructor
  · intro h
    have r1 : Reach pdLow [1, 2] 1 := .root 1 (by simp)
    have r2 : Reach pdLow [1, 2] 2 := .root 2 (by simp)
    simp only [List.mem_cons, List.not_mem_nil, or_false] at h
    rcases h with rfl | rfl | rfl | rfl | rfl
    · exact r1
    · exact r2
    · exact .kid 1 3 r1 (by decide)
    · exact .kid 1 4 r1 (by decide)
    · exact .kid 2 5 r2 (by decide)
  · intro h
    induction h with
    | root r h => simp at h ⊢; omega
    | kid b c hb hc ih =>
      simp only [List.mem_cons, List.not_mem_nil, or_false] at ih
      rcases ih with rfl | rfl | rfl | rfl | rfl
      · have : c ∈ [3, 4] := hc
        simp at this ⊢; omega
      · have : c ∈ [3, 5] := hc
        simp at this ⊢; omega
      · have : c ∈ ([] : List Nat) := hc
        cases this
      · have : c ∈ ([] : List Nat) := hc
        cases this
      · have : c ∈ ([] : List Nat) := hc
        cases this

theorem pd_intact : pd.Intact pdDev pdSb pdUnpack where
  sbIs := rfl
  snap := rfl
  top := ⟨_, rfl, ⟨rfl, by simp [pd, Tree.Ordered, BT.Chain, BT.Below, BT.nextKey], Or.inl rfl, by simp [pd, Tree.blocks, pdDev]⟩⟩
  topBlk := rfl
  det := ⟨_, rfl, ⟨rfl, by simp [pd, Tree.Ordered, BT.Chain, BT.Below, BT.nextKey, pdDetails], Or.inl rfl, by simp [pd, Tree.blocks, pdDev]⟩⟩
  detBlk := rfl
  lowNr := rfl
  sane := pd_sane
  readAll := ⟨fun _ _ h => h, fun _ _ => rfl, fun _ => rfl⟩
  low := pd_clean
  nodes := ⟨by decide, pd_nodes⟩
  leaves := by
    refine ⟨by decide, ?_⟩
    intro y
    show y ∈ [3, 4, 5] ↔ y ∈ [1, 2, 3, 4, 5] ∧ ∃ es, pdLow.rd y = some (.leaf es)
    constructor
    · intro h
      refine ⟨by simp at h ⊢; omega, ?_⟩
      simp only [List.mem_cons, List.not_mem_nil, or_false] at h
      rcases h with rfl | rfl | rfl <;> exact ⟨_, rfl⟩
    · rintro ⟨-, es, h⟩
      rcases pd_rd h with ⟨h, h'⟩ | ⟨h, h'⟩ | ⟨h, h'⟩ | ⟨h, h'⟩ | ⟨h, h'⟩ <;> first | (cases h'; done) | simp [h]
  small := by
    intro b
    unfold nEnt
    cases h : pdDev.low.rd b with
    | none => exact Nat.zero_le _
    | some n => rcases pd_rd h with ⟨-, h⟩ | ⟨-, h⟩ | ⟨-, h⟩ | ⟨-, h⟩ | ⟨-, h⟩ <;> subst h <;> decide
  few := by decide
  sms := ⟨pdSm, rfl, ⟨⟨rfl, by simp [pd, Tree.Ordered, BT.Chain, BT.Below, BT.nextKey], Or.inl rfl, by simp [pd, Tree.blocks, pdDev]⟩, rfl, rfl⟩,
    ⟨rfl, by simp [pd, Tree.Ordered, BT.Chain], Or.inl rfl, by simp [pd, Tree.blocks, pdDev]⟩, ⟨rfl, by simp [pd, Tree.Ordered, BT.Chain], Or.inl rfl, by simp [pd, Tree.blocks, pdDev]⟩⟩
  droot := rfl
  ovBlk := rfl
  mroot := rfl
  movBlk := rfl
  index := rfl
  nodup := by decide
  bound := by decide

theorem pdRow_ok (f : Nat → Nat) (hf : ∀ b, f b ≤ 2) : (pdRow f).length = 20 ∧ ∀ n, BE.small n ∈ pdRow f → n ≤ 2 := by
  refine ⟨by simp [pdRow], fun n hn => ?_⟩
  obtain ⟨b, -, h⟩ := List.mem_map.mp hn
  cases h
  exact hf b

theorem pd_entries : SMC.Entries 20 pdDev.bm := by
  intro loc tag es h
  simp only [pdDev] at h
  split at h
  · cases h; exact pdRow_ok pdData (fun b => by unfold pdData; split; omega; split <;> omega)
  · split at h
    · cases h; exact pdRow_ok pdMeta (fun b => by unfold pdMeta; split; omega; split <;> omega)
    · cases h

theorem pd_tree {r : Nat} {k : Nat} {s : Tree Nat k} (hs : LW.Clean pdLow.rd pdLow.nr k s) (hr : s.blk k = r) {h : Nat} {t : Tree Nat h} (hc : LW.Clean pdLow.rd pdLow.nr h t) (hb : t.blk h = r) :
    t.contents h = s.contents k :=
  (LW.stored_unique h k t s true true hc.stored hs.stored hc.noEmpty hs.noEmpty (hb.trans hr.symm)).2

/-- the hypotheses of `check_pool_complete` and `check_pool_sound` are met: the pool passes, and `--clear-needs-check-flag` clears the flag -/
example : check pdUnpack (bottomOf pdLow true 20) ⟨fun _ => true, fun _ => true, true⟩ ⟨false, false, true, false, true, false, none, none⟩ pdDev =
    ({ pdDev with sb := some { pdSb with needs_check := false } }, .ok) := by
  have hone : ∀ r ∈ pd.roots, ∀ (h : Nat) (t : Tree Nat h), LW.Clean pdLow.rd pdLow.nr h t → t.blk h = r → (treeData t).Nodup := by
    intro r hr h t hc hb
    rw [pd_roots] at hr
    simp only [List.mem_cons, List.not_mem_nil, or_false] at hr
    unfold treeData
    rcases hr with rfl | rfl
    · rw [pd_tree pdT1_clean rfl hc hb]; decide
    · rw [pd_tree pdT2_clean rfl hc hb]; decide
  have hcounts : pd.CountsRight pdDev := by
    intro e he h t hc hb
    have he : e ∈ [(1, 1, 3), (2, 2, 3)] := he
    simp only [List.mem_cons, List.not_mem_nil, or_false] at he
    rcases he with rfl | rfl
    · rw [pd_tree pdT1_clean rfl hc hb]; decide
    · rw [pd_tree pdT2_clean rfl hc hb]; decide
  have hentry : ∀ (f g : Nat → Nat) (ies : List IndexEntry) (loc : Nat) (ov : List (Nat × SVal)), ies.map (·.blocknr) = [loc] → pdDev.bm loc = some (true, pdRow f) → (∀ b, b < 20 → g b = f b ∧ f b < 3) →
      ov = [] → DiskRight 20 pdDev.bm ies ov 20 g := by
    intro f g ies loc ov h1 h2 h3 h4
    refine ⟨?_, ?_, ?_, by rw [h4]; intro e he; cases he⟩
    · intro ie hie
      have : ie.blocknr ∈ ies.map (·.blocknr) := List.mem_map.mpr ⟨ie, hie, rfl⟩
      rw [h1, List.mem_singleton] at this
      rw [this]
      exact ⟨_, h2⟩
    · intro b hb _
      refine ⟨loc, true, _, by rw [h1, Nat.div_eq_of_lt hb]; rfl, h2, ?_⟩
      rw [Nat.mod_eq_of_lt hb, pdRow, List.getElem?_map, List.getElem?_range hb, (h3 b hb).1]
      rfl
    · intro b hb h
      have := h3 b hb
      omega
  have := check_pool_complete (o := ⟨false, false, true, false, true, false, none, none⟩) (by decide) (fun loc tag es h => (pd_entries loc tag es h).1) pd_intact ⟨rfl, rfl, rfl, rfl, rfl⟩
    ⟨fun _ => true, fun _ => true, true⟩ (Or.inl rfl) (Nat.le_refl 20) (bottomOf pdLow true 20)
    (fun roots msm dsm => bottomOf_ok _ _ _ _ _ _) rfl hcounts hone (hentry pdData _ _ 9 _ rfl rfl (by decide) rfl) (hentry pdMeta _ _ 13 _ rfl rfl (by decide) rfl)
  rw [this]
  rfl

/-! ## Finding: a block mapped twice -/

/-- one device, which maps data block 7 twice -/
def twiceLow : Dev := { pdLow with rd := fun b => if b = 1 then some (.leaf [(0, 7 * 2 ^ 24), (2, 7 * 2 ^ 24)]) else none, rdl := fun b => if b = 1 then some (.leaf [(0, 7 * 2 ^ 24), (2, 7 * 2 ^ 24)]) else none }

def twiceDev : TDev := { pdDev with
  dets := fun _ b => if b = 6 then some (.leaf [(1, ⟨2, 0, 0, 0⟩)]) else none
  tops := fun _ b => if b = 7 then some (.leaf [(1, 1)]) else none
  low := twiceLow
  bm := fun b => if b = 9 then some (true, pdRow fun b => if b = 7 then 1 else 0) else if b = 13 then some (true, pdRow fun b => if b < 2 ∨ (6 ≤ b ∧ b < 14) then 1 else 0) else none }

/-- **Finding.**  In a pool with a single device, `thin_check` does not notice that two blocks of the device are mapped to the same data block, whose count on disk is 1: it counts
in a map that stops at one. -/
theorem check_twice_refuted : (check pdUnpack (bottomOf twiceLow false 20) ⟨fun _ => true, fun _ => true, true⟩ ⟨false, false, false, false, false, false, none, none⟩ twiceDev).2 = .ok ∧
    dataOf twiceLow 1 = [7, 7] := by
  constructor
  · decide
  · decide

end Verif.TChk
