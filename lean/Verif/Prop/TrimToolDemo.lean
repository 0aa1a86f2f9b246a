import Verif.Prop.TrimTool
import Verif.Prop.ThinCheckPoolDemo

/-!
# C87: a pool that is trimmed, and one with 256 devices that loses data
-/

namespace Verif.TrimTool

open Verif.TChk
open Verif.BT (Blk Tree)
open Verif.SMD (SVal)

/-! ## Finding: a block with 256 references -/

/-- 256 devices, each with a leaf of its own that maps its block 0 to data block 7 -/
def manyLow : Dev :=
  let f := fun b => if 20 ≤ b ∧ b < 276 then some (Blk.leaf [(0, 7 * 2 ^ 24)]) else none
  ⟨276, f, f, fun _ _ => true, fun _ => true⟩

def manyTops (lo n : Nat) : List (Nat × Nat) := (List.range n).map fun k => (lo + k, 19 + lo + k)
def manyDets (lo n : Nat) : List (Nat × DeviceDetail) := (List.range n).map fun k => (lo + k, ⟨1, 0, 0, 0⟩)
def manyDroot : SMRoot := ⟨10, 1, 8, 10⟩
def manyMroot : SMRoot := ⟨276, 270, 12, 11⟩
def manyUnpack (b : Bytes) : Option SMRoot := if b = [] then some manyDroot else some manyMroot

/-- the bitmap of the data blocks says that block 7 is unused, the tree of large counts that it has 256 references -/
def manyDev : TDev where
  nr := 276
  sb := some ⟨true, 0, 2, 0, 0, 0, [], [0], 7, 6, 128, 276⟩
  sbAt := fun _ => none
  dets := fun _ b => if b = 6 then some (.internal [(1, 16), (87, 17), (173, 18)]) else if b = 16 then some (.leaf (manyDets 1 86)) else if b = 17 then some (.leaf (manyDets 87 86))
    else if b = 18 then some (.leaf (manyDets 173 84)) else none
  tops := fun _ b => if b = 7 then some (.internal [(1, 14), (129, 15)]) else if b = 14 then some (.leaf (manyTops 1 128)) else if b = 15 then some (.leaf (manyTops 129 128)) else none
  low := manyLow
  rdn := fun _ b => if b = 8 then some (.leaf [(0, .ie ⟨9, 300, 0⟩)]) else if b = 10 then some (.leaf [(7, .rc 256)]) else if b = 11 then some (.leaf []) else none
  bm := fun b => if b = 9 then some (true, List.replicate 300 (.small 0))
    else if b = 13 then some (true, (List.range 300).map fun b => .small (if b = 0 ∨ (6 ≤ b ∧ b < 19) ∨ (20 ≤ b ∧ b < 276) then 1 else 0)) else none
  index := fun b => if b = 12 then some [⟨13, 0, 0⟩] else none

theorem many_run : (check manyUnpack (bottomOf manyLow false 276) ⟨fun _ => true, fun _ => true, true⟩ checkOpts manyDev).2 = .ok := by
  decide +kernel

/-- **Finding.**  256 thin devices map data block 7 and the bitmap says that it is unused: the check of `thin_trim` compares counts modulo 256, so it passes, the block is discarded
and `thin_trim` reports success. -/
theorem command_256_refuted : ∃ (d : TDev) (unpackRoot : Bytes → Option SMRoot) (bot : List Nat → Sm → Sm → Sm × Sm × Option Sums) (w : Wr) (dd : DataDev) (roots : List Nat),
    (∀ r msm dsm, Bottom d.low false 276 r msm dsm (bot r msm dsm)) ∧ (toMap d d.tops 7 (restricted d.nr)).1.map (·.map (·.2)) = some roots ∧ d.sb.map (·.mapping_root) = some 7 ∧
    (command 300 unpackRoot bot w d dd).code = .ok ∧ Discarded (command 300 unpackRoot bot w d dd).discards (7 * (128 * 512)) ∧
    ∀ r ∈ roots, Mapped d [r] 7 := by
  refine ⟨manyDev, manyUnpack, bottomOf manyLow false 276, ⟨fun _ => true, fun _ => true, true⟩, ⟨some 655360, true, fun _ => true⟩, (manyTops 1 128 ++ manyTops 129 128).map (·.2),
    fun _ _ _ => bottomOf_ok _ _ _ _ _ _, by decide +kernel, rfl, ?_⟩
  have h := command_ok (E := 300) (unpackRoot := manyUnpack) (dd := ⟨some 655360, true, fun _ => true⟩) (sb := ⟨true, 0, 2, 0, 0, 0, [], [0], 7, 6, 128, 276⟩) rfl many_run
  rw [h]
  have hd : (trimData 300 manyUnpack manyDev ⟨true, 0, 2, 0, 0, 0, [], [0], 7, 6, 128, 276⟩ ⟨some 655360, true, fun _ => true⟩) = (.ok, [(0, 655360)]) := by decide +kernel
  rw [hd]
  refine ⟨rfl, ⟨_, List.mem_singleton.mpr rfl, by decide, by decide⟩, ?_⟩
  intro r hr
  have hr : 20 ≤ r ∧ r < 276 := by
    obtain ⟨e, he, rfl⟩ := List.mem_map.mp hr
    rcases List.mem_append.mp he with he | he <;>
    · obtain ⟨k, hk, rfl⟩ := List.mem_map.mp he
      have := List.mem_range.mp hk
      simp only
      omega
  exact ⟨r, [(0, 7 * 2 ^ 24)], .root r (by simp), if_pos hr, (0, 7 * 2 ^ 24), by simp, by decide⟩

/-! ## A pool that meets the hypotheses -/

/-- two devices, each a single leaf; both map data block 7 -/
def flatLow : Dev :=
  let f := fun b => if b = 1 then some (Blk.leaf [(0, 7 * 2 ^ 24), (2, 8 * 2 ^ 24)]) else if b = 2 then some (.leaf [(5, 7 * 2 ^ 24), (6, 9 * 2 ^ 24)]) else none
  ⟨20, f, f, fun _ _ => true, fun _ => true⟩

def flatDetails : List (Nat × DeviceDetail) := [(1, ⟨2, 0, 0, 0⟩), (2, ⟨2, 0, 0, 0⟩)]
def flatData (b : Nat) : Nat := if b = 7 then 2 else if b = 8 ∨ b = 9 then 1 else 0
def flatMeta (b : Nat) : Nat := if b < 3 ∨ (6 ≤ b ∧ b < 14) then 1 else 0

def flatDev : TDev := { pdDev with
  dets := fun _ b => if b = 6 then some (.leaf flatDetails) else none
  low := flatLow
  bm := fun b => if b = 9 then some (true, pdRow flatData) else if b = 13 then some (true, pdRow flatMeta) else none }

def flat : Pool := { pd with tD := (6, flatDetails), N := [1, 2], L := [1, 2] }

theorem flat_rd {b : Nat} {n : Blk Nat} (h : flatLow.rd b = some n) :
    (b = 1 ∧ n = .leaf [(0, 7 * 2 ^ 24), (2, 8 * 2 ^ 24)]) ∨ (b = 2 ∧ n = .leaf [(5, 7 * 2 ^ 24), (6, 9 * 2 ^ 24)]) := by
  simp only [flatLow] at h
  split at h
  · cases h; simp_all
  · split at h
    · cases h; simp_all
    · cases h

theorem flat_nodes (y : Nat) : y ∈ flat.N ↔ Reach flatLow flat.roots y := by
  show y ∈ [1, 2] ↔ Reach flatLow [1, 2] y
  constructor
  · intro h
    exact .root y h
  · intro h
    induction h with
    | root r h => exact h
    | kid b c hb hc ih =>
      simp only [List.mem_cons, List.not_mem_nil, or_false] at ih
      rcases ih with rfl | rfl
      · have : c ∈ ([] : List Nat) := hc
        cases this
      · have : c ∈ ([] : List Nat) := hc
        cases this

theorem flat_intact : flat.Intact flatDev pdSb pdUnpack where
  sbIs := rfl
  snap := rfl
  top := pd_intact.top
  topBlk := rfl
  det := ⟨_, rfl, ⟨rfl, by simp [flat, pd, Tree.Ordered, BT.Chain, BT.Below, flatDetails], Or.inl rfl, by simp [flat, pd, Tree.blocks, flatDev, pdDev]⟩⟩
  detBlk := rfl
  lowNr := rfl
  sane := by
    refine ⟨?_, by decide, ?_, ?_⟩
    · intro b n h
      rcases flat_rd h with h | h <;> (rw [h.1]; decide)
    · intro b es h
      rcases flat_rd h with ⟨-, h⟩ | ⟨-, h⟩ <;> cases h <;> simp
    · intro b ch h
      rcases flat_rd h with ⟨-, h⟩ | ⟨-, h⟩ <;> cases h
  readAll := ⟨fun _ _ h => h, fun _ _ => rfl, fun _ => rfl⟩
  low := by
    intro r hr
    have hr : r ∈ [1, 2] := hr
    simp only [List.mem_cons, List.not_mem_nil, or_false] at hr
    rcases hr with rfl | rfl
    · exact ⟨0, ((1, [(0, 7 * 2 ^ 24), (2, 8 * 2 ^ 24)]) : BT.Tree Nat 0), ⟨rfl, by simp [BT.Tree.Ordered, BT.Chain, BT.Below], Or.inl rfl, by simp [BT.Tree.blocks, flatDev, flatLow]⟩, rfl⟩
    · exact ⟨0, ((2, [(5, 7 * 2 ^ 24), (6, 9 * 2 ^ 24)]) : BT.Tree Nat 0), ⟨rfl, by simp [BT.Tree.Ordered, BT.Chain, BT.Below], Or.inl rfl, by simp [BT.Tree.blocks, flatDev, flatLow]⟩, rfl⟩
  nodes := ⟨by decide, flat_nodes⟩
  leaves := by
    refine ⟨by decide, ?_⟩
    intro y
    show y ∈ [1, 2] ↔ y ∈ [1, 2] ∧ ∃ es, flatLow.rd y = some (.leaf es)
    refine ⟨fun h => ⟨h, ?_⟩, And.left⟩
    simp only [List.mem_cons, List.not_mem_nil, or_false] at h
    rcases h with rfl | rfl <;> exact ⟨_, rfl⟩
  small := by
    intro b
    unfold nEnt
    cases h : flatDev.low.rd b with
    | none => exact Nat.zero_le _
    | some n => rcases flat_rd h with ⟨-, h⟩ | ⟨-, h⟩ <;> subst h <;> decide
  few := by decide
  sms := pd_intact.sms
  droot := rfl
  ovBlk := rfl
  mroot := rfl
  movBlk := rfl
  index := rfl
  nodup := by decide
  bound := by decide

theorem flat_entries : SMC.Entries 20 flatDev.bm := by
  intro loc tag es h
  simp only [flatDev] at h
  split at h
  · cases h; exact pdRow_ok flatData (fun b => by unfold flatData; split; omega; split <;> omega)
  · split at h
    · cases h; exact pdRow_ok flatMeta (fun b => by unfold flatMeta; split <;> omega)
    · cases h

theorem flat_run : (command 20 pdUnpack (bottomOf flatLow false 20) ⟨fun _ => true, fun _ => true, true⟩ flatDev ⟨some 2000000, true, fun _ => true⟩).code = .ok ∧
    (command 20 pdUnpack (bottomOf flatLow false 20) ⟨fun _ => true, fun _ => true, true⟩ flatDev ⟨some 2000000, true, fun _ => true⟩).discards = [(0, 458752), (655360, 655360)] := by
  decide +kernel

/-- the hypotheses of `command_exact` (and `command_safe`) are met by a pool that is trimmed: everything but the blocks 7, 8 and 9 goes -/
example (i : Nat) : Discarded [(0, 458752), (655360, 655360)] i ↔ i / 65536 < 20 ∧ ¬ Mapped flatDev [1, 2] (i / 65536) := by
  have := command_exact (E := 20) (by decide) flat_entries flat_intact ⟨fun _ => true, fun _ => true, true⟩ (fun y c hy hc => by
      have hy : y ∈ [1, 2] := hy
      simp only [List.mem_cons, List.not_mem_nil, or_false] at hy
      rcases hy with rfl | rfl
      · have : c ∈ ([] : List Nat) := hc
        cases this
      · have : c ∈ ([] : List Nat) := hc
        cases this) (Nat.le_refl 20) (bottomOf flatLow false 20) (fun roots msm dsm => bottomOf_ok _ _ _ _ _ _) (by decide) (by decide) ⟨some 2000000, true, fun _ => true⟩
    (Or.inl (by decide)) flat_run.1 i
  rw [flat_run.2] at this
  exact this

/-- a discard that fails stops the command, which says so -/
example : (command 20 pdUnpack (bottomOf flatLow false 20) ⟨fun _ => true, fun _ => true, true⟩ flatDev ⟨some 2000000, true, fun i => decide (i ≠ 0)⟩).code = .err ∧
    (command 20 pdUnpack (bottomOf flatLow false 20) ⟨fun _ => true, fun _ => true, true⟩ flatDev ⟨some 2000000, true, fun i => decide (i ≠ 0)⟩).discards = [(0, 458752)] := by
  decide +kernel

/-- a data device that is too small, and bad metadata -/
example : (command 20 pdUnpack (bottomOf flatLow false 20) ⟨fun _ => true, fun _ => true, true⟩ flatDev ⟨some 1310719, true, fun _ => true⟩).code = .err ∧
    (command 20 pdUnpack (bottomOf pdLow false 20) ⟨fun _ => true, fun _ => true, true⟩ pdDev ⟨some 2000000, true, fun _ => true⟩).code = .dataerr := by
  decide +kernel

end Verif.TrimTool
