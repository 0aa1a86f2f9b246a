import Verif.Prop.ThinStatSound

/-!
# C68, C69: examples and findings
-/

namespace Verif.Stat

open Verif.BT (Blk Tree)
open Verif.TChk (TDev)
open Verif.SMD (SVal)
open Verif.Ls (TT lsLow lsDev lsT1 lsT2)

/-! ## Reference counts -/

def stDev : TDev := { lsDev with rdn := fun _ b => SMC.demoMem b, bm := SMC.demoRd, index := fun b => if b = 12 then some SMC.demoIes else none }

/-- data: bitmaps under block 4; metadata: under block 12; overflows for both in block 3 -/
def stUnpack (b : Bytes) : Option SMRoot := if b = [] then some ⟨7, 5, 4, 3⟩ else some ⟨7, 5, 12, 3⟩

/-- seven blocks, one of them used five times -/
def stRefs (b : Nat) : Nat := [0, 2, 5, 1, 1, 1, 1].getD b 0

theorem st_disk : OnDisk 4 SMC.demoRd SMC.demoIes [(2, .rc 5)] 7 stRefs where
  read := by
    intro ie hie
    simp only [SMC.demoIes, List.mem_cons, List.not_mem_nil, or_false] at hie
    rcases hie with rfl | rfl <;> exact ⟨_, rfl⟩
  small := by
    intro b hb hr
    have : b = 0 ∨ b = 1 ∨ b = 2 ∨ b = 3 ∨ b = 4 ∨ b = 5 ∨ b = 6 := by omega
    rcases this with rfl | rfl | rfl | rfl | rfl | rfl | rfl
    · exact ⟨7, true, _, rfl, rfl, rfl⟩
    · exact ⟨7, true, _, rfl, rfl, rfl⟩
    · exact absurd hr (by decide)
    · exact ⟨7, true, _, rfl, rfl, rfl⟩
    · exact ⟨9, true, _, rfl, rfl, rfl⟩
    · exact ⟨9, true, _, rfl, rfl, rfl⟩
    · exact ⟨9, true, _, rfl, rfl, rfl⟩
  big := by
    intro b hb hr
    have : b = 0 ∨ b = 1 ∨ b = 2 ∨ b = 3 ∨ b = 4 ∨ b = 5 ∨ b = 6 := by omega
    rcases this with rfl | rfl | rfl | rfl | rfl | rfl | rfl
    case inr.inr.inl => exact ⟨7, true, _, rfl, rfl, rfl⟩
    all_goals exact absurd hr (by decide)
  beyond := by
    rintro b e hb ⟨loc, t, es, h1, h2, h3⟩
    have hb2 : b / 4 < 2 := by
      have := (List.getElem?_eq_some_iff.mp h1).1
      simpa [SMC.demoIes] using this
    have : b = 7 := by omega
    subst this
    have h1 : some 9 = some loc := h1
    cases h1
    have h2 : some (true, [BE.small 1, .small 1, .small 1, .small 0]) = some (t, es) := h2
    cases h2
    have h3 : some (BE.small 0) = some e := h3
    cases h3
    rfl
  ov := by
    intro e
    obtain ⟨b, v⟩ := e
    simp only [List.mem_singleton, Prod.mk.injEq]
    constructor
    · rintro ⟨rfl, rfl⟩; exact ⟨by decide, by decide, rfl⟩
    · rintro ⟨h1, h2, h3⟩
      have : b = 0 ∨ b = 1 ∨ b = 2 ∨ b = 3 ∨ b = 4 ∨ b = 5 ∨ b = 6 := by omega
      rcases this with rfl | rfl | rfl | rfl | rfl | rfl | rfl
      case inr.inr.inl => exact ⟨rfl, h3⟩
      all_goals exact absurd h2 (by decide)

theorem st_len : ∀ loc t es, stDev.bm loc = some (t, es) → es.length = 4 := by
  intro loc t es h
  have h : SMC.demoRd loc = some (t, es) := h
  unfold SMC.demoRd at h
  split at h
  · cases h; rfl
  · cases h; rfl
  · cases h

theorem st_ov : LW.Clean SMC.demoMem 20 0 (3, [(2, SVal.rc 5)]) :=
  ⟨rfl, by simp [Tree.Ordered, BT.Chain, BT.Below, BT.nextKey], Or.inl rfl, by simp [Tree.blocks]⟩

/-- the hypotheses of `data_blocks_exact` are met: four blocks used once, one twice and one five times -/
example : ∃ h, dataBlocks stUnpack stDev = some (h, 6) ∧ HistOf [2, 5, 1, 1, 1, 1] h :=
  data_blocks_exact (sb := TChk.pdSb) (root := ⟨7, 5, 4, 3⟩) (refs := stRefs) rfl rfl (epb := 4) (by decide) st_len (mem := SMC.demoMem) rfl (hX := 0) (tX := (4, [(0, .ie ⟨7, 1, 0⟩), (1, .ie ⟨9, 1, 3⟩)])) (ies := SMC.demoIes)
    ⟨⟨rfl, by simp [Tree.Ordered, BT.Chain, BT.Below, BT.nextKey], Or.inl rfl, by simp [Tree.blocks, stDev, lsDev]⟩, rfl, rfl⟩ st_ov rfl st_disk

example : ∃ h, metadataBlocks stUnpack stDev = some (h, 6) ∧ HistOf [2, 5, 1, 1, 1, 1] h :=
  metadata_blocks_exact (sb := TChk.pdSb) (root := ⟨7, 5, 12, 3⟩) (refs := stRefs) (ies := SMC.demoIes) rfl rfl (epb := 4) (by decide) st_len (mem := SMC.demoMem) rfl rfl st_ov rfl st_disk

example : dataBlocks stUnpack stDev = some ([(1, 4), (2, 1), (5, 1)], 6) ∧ metadataBlocks stUnpack stDev = some ([(1, 4), (2, 1), (5, 1)], 6) := by decide +kernel

/-! ## Runs -/

theorem ls_pool : Pool lsDev [lsT1, lsT2] where
  top := ⟨_, _, 0, (7, [(1, 1), (7, 2)]), rfl, rfl, ⟨rfl, by simp [Tree.Ordered, BT.Chain, BT.Below, BT.nextKey], Or.inl rfl, by simp [Tree.blocks, lsDev]⟩, rfl, rfl⟩
  lowNr := rfl
  clean := Ls.ls_undamaged.clean

/-- the hypotheses of `run_leaves_exact` are met: three leaves, the first of them in both devices -/
example : ∃ h, dataRuns lsDev = some (h, total h, 3) ∧ covered h = 252 := by
  refine run_leaves_exact ls_pool (ls := [3, 4, 5]) (by decide) ?_ (by decide +kernel)
  intro b
  constructor
  · intro hb
    simp only [List.mem_cons, List.not_mem_nil, or_false] at hb
    rcases hb with rfl | rfl | rfl
    · exact ⟨⟨lsT1, by simp, by decide⟩, _, rfl⟩
    · exact ⟨⟨lsT1, by simp, by decide⟩, _, rfl⟩
    · exact ⟨⟨lsT2, by simp, by decide⟩, _, rfl⟩
  · rintro ⟨-, es, h⟩
    rcases Ls.ls_rd h with ⟨h, h'⟩ | ⟨h, h'⟩ | ⟨h, h'⟩ | ⟨h, h'⟩ | ⟨h, h'⟩ <;> first | (cases h'; done) | simp [h]

/-- a pool with the first device only -/
def oneDev : TDev := { lsDev with tops := fun _ b => if b = 7 then some (.leaf [(1, 1)]) else none }

theorem one_pool : Pool oneDev [lsT1] where
  top := ⟨_, _, 0, (7, [(1, 1)]), rfl, rfl, ⟨rfl, by simp [Tree.Ordered, BT.Chain, BT.Below, BT.nextKey], Or.inl rfl, by simp [Tree.blocks, oneDev, lsDev]⟩, rfl, rfl⟩
  lowNr := rfl
  clean := fun t ht => Ls.ls_undamaged.clean t (by simp only [List.mem_singleton] at ht; simp [ht])

/-- the hypotheses of `run_hist_partial` are met: one run over two leaves -/
example : (∃ (runs : TT → List Dump.Run) (h : Hist) (n : Nat), (∀ t, (runs t).flatMap Dump.Run.entries = TTmaps t ∧ Dump.Maximal (runs t)) ∧
      dataRuns oneDev = some (h, ([lsT1].flatMap runs).length, n) ∧ HistOf ([lsT1].flatMap fun t => (runs t).map (·.len)) h) ∧ dataRuns oneDev = some ([(168, 1)], 1, 2) :=
  ⟨run_hist_partial one_pool (by simp) (by decide +kernel), by decide +kernel⟩

/-- **C69, finding.**  A leaf that two devices share is counted for the first only: the second has two runs of 84 blocks, of which one is missing, so there are two runs instead of three. -/
theorem run_shared_refuted : Pool lsDev [lsT1, lsT2] ∧ dataRuns lsDev = some ([(84, 1), (168, 1)], 2, 3) ∧
    (Dump.dumpDevice [lsT1.entries.map toEntry]).map (·.len) = [168] ∧ (Dump.dumpDevice [lsT2.entries.map toEntry]).map (·.len) = [84, 84] :=
  ⟨ls_pool, by decide +kernel, by decide +kernel, by decide +kernel⟩

/-- a device whose first leaf is its own and whose second one, which continues it, belongs to another device as well -/
def cutLow : TChk.Dev := ⟨20, fun b => if b = 1 then some (.leaf (Ls.row 84 84 84)) else if b = 2 then some (.internal [(0, 3), (84, 1)]) else if b = 3 then some (.leaf (Ls.row 84 0 0)) else none,
  fun _ => none, fun _ _ => true, fun _ => true⟩

def cutT1 : TT := ⟨0, (1, Ls.row 84 84 84)⟩
def cutT2 : TT := ⟨1, (2, [(0, ((3, Ls.row 84 0 0) : Tree Nat 0)), (84, ((1, Ls.row 84 84 84) : Tree Nat 0))])⟩

/-- **C69, finding.**  A run that goes on in a shared leaf is cut: the only run of the second device has 168 blocks, and no run of that length is reported. -/
theorem run_cut_refuted : dataRuns { lsDev with low := cutLow } = some ([(84, 2)], 2, 2) ∧
    (Dump.dumpDevice [cutT1.entries.map toEntry]).map (·.len) = [84] ∧ (Dump.dumpDevice [cutT2.entries.map toEntry]).map (·.len) = [168] :=
  ⟨by decide +kernel, by decide +kernel, by decide +kernel⟩

/-- **C69, finding.**  The length is kept in 32 bits. -/
theorem run_length_refuted : addRun [] ⟨0, 0, 0, 2 ^ 32⟩ = [(0, 1)] := by decide

end Verif.Stat
