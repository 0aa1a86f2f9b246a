import Verif.Prop.ThinRepair
import Verif.Prop.ThinRestoreCheckDemo

/-!
# C65: concrete pools for the theorems about `thin_repair`, and a pool that it finds but refuses to repair
-/

namespace Verif.TRep

open Verif.BT (Tree Blk)
open Verif.Rst
open Verif.Rep (Raw ThinSb btOf rd64 rdDet Found Overrides loneRd)

/-- the blocks of a pool with one device whose mappings are in two leaves, and of an old mapping leaf -/
def tallRd (b : Nat) : Option Raw :=
  if b = 1 then some (.leaf 1 [(1, 3)])
  else if b = 2 then some (.details 2 [(1, ⟨2, 4, 6, 6⟩)])
  else if b = 3 then some (.internal 3 [(0, 4), (1, 5)])
  else if b = 4 then some (.leaf 4 [(0, 20 * 2 ^ 24 + 5)])
  else if b = 5 then some (.leaf 5 [(1, 21 * 2 ^ 24 + 6)])
  else if b = 6 then some (.leaf 6 [(0, 9 * 2 ^ 24 + 1)])
  else none

theorem tall_cases {b : Nat} {r : Raw} (h : tallRd b = some r) : (b = 1 ∧ r = .leaf 1 [(1, 3)]) ∨ (b = 2 ∧ r = .details 2 [(1, ⟨2, 4, 6, 6⟩)]) ∨
    (b = 3 ∧ r = .internal 3 [(0, 4), (1, 5)]) ∨ (b = 4 ∧ r = .leaf 4 [(0, 20 * 2 ^ 24 + 5)]) ∨ (b = 5 ∧ r = .leaf 5 [(1, 21 * 2 ^ 24 + 6)]) ∨
    (b = 6 ∧ r = .leaf 6 [(0, 9 * 2 ^ 24 + 1)]) := by
  unfold tallRd at h
  by_cases h1 : b = 1
  · rw [if_pos h1] at h; cases h; exact Or.inl ⟨h1, rfl⟩
  rw [if_neg h1] at h
  by_cases h2 : b = 2
  · rw [if_pos h2] at h; cases h; exact Or.inr (Or.inl ⟨h2, rfl⟩)
  rw [if_neg h2] at h
  by_cases h3 : b = 3
  · rw [if_pos h3] at h; cases h; exact Or.inr (Or.inr (Or.inl ⟨h3, rfl⟩))
  rw [if_neg h3] at h
  by_cases h4 : b = 4
  · rw [if_pos h4] at h; cases h; exact Or.inr (Or.inr (Or.inr (Or.inl ⟨h4, rfl⟩)))
  rw [if_neg h4] at h
  by_cases h5 : b = 5
  · rw [if_pos h5] at h; cases h; exact Or.inr (Or.inr (Or.inr (Or.inr (Or.inl ⟨h5, rfl⟩))))
  rw [if_neg h5] at h
  by_cases h6 : b = 6
  · rw [if_pos h6] at h; cases h; exact Or.inr (Or.inr (Or.inr (Or.inr (Or.inr ⟨h6, rfl⟩))))
  rw [if_neg h6] at h
  cases h

theorem tall_wf : Rep.WF tallRd ∧ Rep.InPlace tallRd := by
  refine ⟨⟨fun b blk es h => ?_, fun b blk es h => ?_⟩, fun b r h => ?_⟩
  · rcases tall_cases h with ⟨-, e⟩ | ⟨-, e⟩ | ⟨-, e⟩ | ⟨-, e⟩ | ⟨-, e⟩ | ⟨-, e⟩ <;> cases e <;> simp
  · rcases tall_cases h with ⟨-, e⟩ | ⟨-, e⟩ | ⟨-, e⟩ | ⟨-, e⟩ | ⟨-, e⟩ | ⟨-, e⟩ <;> cases e; simp
  · rcases tall_cases h with ⟨rfl, rfl⟩ | ⟨rfl, rfl⟩ | ⟨rfl, rfl⟩ | ⟨rfl, rfl⟩ | ⟨rfl, rfl⟩ | ⟨rfl, rfl⟩ <;> rfl

/-- its device -/
def tallDev : PDev := ⟨1, ⟨2, 4, 6, 6⟩, 1, (3, [(0, ((4, [(0, 20 * 2 ^ 24 + 5)]) : Tree Nat 0)), (1, ((5, [(1, 21 * 2 ^ 24 + 6)]) : Tree Nat 0))])⟩

/-- it maps two blocks -/
example : tallDev.means = (⟨1, ⟨2, 4, 6, 6⟩⟩, [(0, .bt 20 5), (1, .bt 21 6)]) := rfl

/-- nothing wrong with any node -/
def allFine (_ : Bool) (_ : Nat) : Bool := true

/-- block 4 has too few entries for a node that is not a root -/
def thinFour (isRoot : Bool) (b : Nat) : Bool := isRoot || b != 4

theorem tall_clean : LW.Clean (rd64 tallRd true) 8 tallDev.h tallDev.t := by
  refine ⟨⟨rfl, ?_⟩, ?_, Or.inr ?_, ?_⟩
  · intro c hc
    rcases List.mem_cons.mp hc with rfl | hc
    · rfl
    · rcases List.mem_cons.mp hc with rfl | hc
      · rfl
      · cases hc
  · simp [tallDev, Tree.Ordered, BT.Chain, BT.Below, BT.nextKey]
  · simp [tallDev, Tree.NoEmpty]
  · intro b hb
    simp [tallDev, Tree.blocks] at hb
    omega

theorem tall_pool : Pool tallRd allFine 8 1 2 [tallDev] where
  sorted := List.pairwise_singleton _ _
  top := ⟨0, ((1, [(1, 3)]) : Tree Nat 0), ⟨rfl, by simp [Tree.Ordered, BT.Chain, BT.Below], Or.inl rfl, by intro b hb; rw [List.mem_singleton.mp hb]; decide⟩, rfl, rfl⟩
  dev := by
    intro d hd
    rw [List.mem_singleton.mp hd]
    exact ⟨by decide, tall_clean, tall_clean.stored⟩
  details := ⟨0, ((2, [(1, ⟨2, 4, 6, 6⟩)]) : Tree DeviceDetail 0), ⟨rfl, by simp [Tree.Ordered, BT.Chain, BT.Below], Or.inl rfl, by intro b hb; rw [List.mem_singleton.mp hb]; decide⟩, rfl, rfl⟩

theorem tall_root {b : Nat} (hb : b ≠ 4 ∧ b ≠ 5) : Rep.IsRoot tallRd 8 b := by
  intro p blk ch i hp
  rcases tall_cases hp with ⟨-, e⟩ | ⟨-, e⟩ | ⟨-, e⟩ | ⟨-, e⟩ | ⟨-, e⟩ | ⟨-, e⟩ <;> cases e
  simp
  omega

theorem tall_recognisable : Recognisable tallRd 8 1 2 [tallDev] where
  some := by simp
  maps := by
    intro d hd l hl
    rw [List.mem_singleton.mp hd] at hl
    have hl : l ∈ [(4, [(0, 20 * 2 ^ 24 + 5)]), (5, [(1, 21 * 2 ^ 24 + 6)])] := hl
    simp only [List.mem_cons, List.not_mem_nil, or_false] at hl
    rcases hl with rfl | rfl
    · exact Or.inr ⟨_, List.mem_singleton.mpr rfl, by decide⟩
    · exact Or.inr ⟨_, List.mem_singleton.mpr rfl, by decide⟩
  mroot := tall_root (by decide)
  count := rfl
  droot := tall_root (by decide)

/-- the scan of a device with one root of each kind -/
def scanOne (rd : Nat → Option Raw) (m d : Nat) : Bool :=
  match Rep.collect rd 8 with
  | .error _ => false
  | .ok s => decide ((Rep.devRoots 8 s).map (·.b) = [m] ∧ (Rep.detRoots 8 s).map (·.b) = [d]) && decide ((Rep.filterDet (Rep.detRoots 8 s) (Rep.distinctNr (Rep.devRoots 8 s) [])).length ≤ 1) &&
      match Rep.pairLoop (fun d t => Rep.identical rd 8 d.b t.b) (Rep.filterDet (Rep.detRoots 8 s) (Rep.distinctNr (Rep.devRoots 8 s) [])) (Rep.devRoots 8 s) with
      | some [_] => true
      | _ => false

theorem tall_one : scanOne tallRd 1 2 = true := by decide +kernel

theorem sorted_short {α : Type} {gt : α → α → Prop} : ∀ {l : List α}, l.length ≤ 1 → l.Pairwise gt
  | [], _ => List.Pairwise.nil
  | [_], _ => List.pairwise_singleton _ _
  | _ :: _ :: _, h => absurd h (by simp)

/-- the scan of its blocks -/
theorem tall_scan : ∃ s d t, Rep.collect tallRd 8 = .ok s ∧ Rep.devRoots 8 s = [d] ∧ Rep.detRoots 8 s = [t] ∧ d.b = 1 ∧ t.b = 2 ∧
    ∃ p, Rep.FindPairs tallRd 8 (Rep.devRoots 8 s) (Rep.detRoots 8 s) [d] (some [p]) := by
  have h := tall_one
  unfold scanOne at h
  cases e : Rep.collect tallRd 8 with
  | error _ => rw [e] at h; cases h
  | ok s =>
    rw [e] at h
    simp only [Bool.and_eq_true] at h
    obtain ⟨⟨h1, h2⟩, h3⟩ := h
    have h1 := of_decide_eq_true h1
    have h2 := of_decide_eq_true h2
    obtain ⟨d, hd, h4⟩ : ∃ d, Rep.devRoots 8 s = [d] ∧ d.b = 1 := by
      cases e1 : Rep.devRoots 8 s with
      | nil => rw [e1] at h1; cases h1.1
      | cons d l =>
        rw [e1] at h1
        cases l with
        | nil => exact ⟨d, rfl, by simpa using h1.1⟩
        | cons _ _ => simp at h1
    obtain ⟨t, ht, h5⟩ : ∃ d, Rep.detRoots 8 s = [d] ∧ d.b = 2 := by
      cases e1 : Rep.detRoots 8 s with
      | nil => rw [e1] at h1; cases h1.2
      | cons d l =>
        rw [e1] at h1
        cases l with
        | nil => exact ⟨d, rfl, by simpa using h1.2⟩
        | cons _ _ => simp at h1
    obtain ⟨p, hp⟩ : ∃ p, Rep.pairLoop (fun d t => Rep.identical tallRd 8 d.b t.b) (Rep.filterDet (Rep.detRoots 8 s) (Rep.distinctNr (Rep.devRoots 8 s) [])) (Rep.devRoots 8 s) = some [p] := by
      split at h3
      · exact ⟨_, ‹_›⟩
      · cases h3
    refine ⟨s, d, t, rfl, hd, ht, h4, h5, p, ⟨by rw [hd], ?_⟩, _, ⟨List.Perm.refl _, ?_⟩, ?_⟩
    · exact List.pairwise_singleton _ _
    · rw [hd] at h2
      exact sorted_short h2
    · rw [hd] at hp
      exact hp.symm

theorem tall_only : ∀ d t, Rep.Compat tallRd 8 d t → d.b = 1 ∧ t.b = 2 := by
  obtain ⟨s, d0, t0, h1, h2, h3, h4, h5, -⟩ := tall_scan
  rintro d t ⟨v1, v2, v3, v4, -⟩
  have hd := (Rep.mem_devRoots tall_wf.2 h1 d).mpr ⟨v1, v2⟩
  have ht := (Rep.mem_detRoots tall_wf.2 h1 t).mpr ⟨v3, v4⟩
  rw [h2] at hd
  rw [h3] at ht
  rw [List.mem_singleton.mp hd, List.mem_singleton.mp ht]
  exact ⟨h4, h5⟩

theorem tall_found : ∃ fs, Rep.FindRoots tallRd 8 (some fs) := by
  obtain ⟨s, d, t, h1, h2, -, -, -, p, hp⟩ := tall_scan
  exact ⟨_, s, [d], [p], h1, hp, rfl⟩

/-- a superblock for the pool, with room for 22 data blocks -/
def tallSb : Thin.Superblock := ⟨false, 0, 2, 6, 5, 0, (SMRoot.pack ⟨22, 2, 0, 0⟩) ++ List.replicate 96 0, [], 1, 2, 128, 8⟩

/-- the hypotheses of `repair_pool` hold for it -/
theorem repair_pool_demo : ∃ found x, Rep.FindRoots tallRd 8 (some found) ∧ repair 16 tallRd allFine 8 found (some tallSb) ⟨none, none, none⟩ 30 (fun _ => none) = some x ∧
    PostR x (fun img => Output 16 30 img ⟨6, 5, 128, 22⟩ [(⟨1, ⟨2, 4, 6, 6⟩⟩, [(0, .bt 20 5), (1, .bt 21 6)])]) := by
  obtain ⟨fs, hf⟩ := tall_found
  have hno : Rep.refNr tallSb = some 22 := by decide +kernel
  obtain ⟨found, x, h1, h2, h3⟩ := repair_pool demo_size (by decide) tall_wf.1 tall_wf.2 (by decide) tall_pool tall_recognisable hf (dsb := tallSb) (o := ⟨none, none, none⟩) rfl rfl rfl
    hno (by decide) ⟨by decide, by decide, by decide⟩ (fun _ => none)
  cases h1
  exact ⟨_, x, hf, h2, h3⟩

theorem last_word : (btOf (21 * 2 ^ 24 + 6)).block = 21 ∧ (btOf (21 * 2 ^ 24 + 6)).time = 6 := by decide +kernel

/-- Without its superblock, given the block size. -/
theorem repair_lost_superblock_demo : ∃ found x sb, Rep.FindRoots tallRd 8 (some found) ∧ repair 16 tallRd allFine 8 found none ⟨none, some 128, none⟩ 30 (fun _ => none) = some x ∧
    PostR x (fun img => Output 16 30 img sb [(⟨1, ⟨2, 4, 6, 6⟩⟩, [(0, .bt 20 5), (1, .bt 21 6)])]) ∧ 6 ≤ sb.time ∧ 4 < sb.transaction ∧ 21 < sb.nrData := by
  obtain ⟨fs, hf⟩ := tall_found
  obtain ⟨found, x, sb, h1, h2, h3, -, h4, h5, h6⟩ := repair_lost_superblock demo_size (by decide) tall_wf.1 tall_wf.2 (by decide) tall_pool tall_recognisable tall_only hf (dsb := none)
    (o := ⟨none, some 128, none⟩) (by intro s h; cases h) rfl (by decide) (by intro k hk; cases hk) (fun _ => none)
  cases h1
  refine ⟨_, x, sb, hf, h2, h3, (h4 tallDev (by simp)).1, h5 ?_ tallDev (by simp), ?_⟩
  · intro d hd; rw [List.mem_singleton.mp hd]; decide
  · rw [← last_word.1]
    refine h6 ?_ tallDev (by simp) (1, 21 * 2 ^ 24 + 6) (by simp [tallDev, Tree.contents])
    intro d hd e he
    rw [List.mem_singleton.mp hd] at he
    have he : e ∈ [(0, 20 * 2 ^ 24 + 5), (1, 21 * 2 ^ 24 + 6)] := he
    simp only [List.mem_cons, List.not_mem_nil, or_false] at he
    rcases he with rfl | rfl <;> decide

/-- the device of the pool that has lost its details -/
def loneDev (det : DeviceDetail) : PDev := ⟨1, det, 0, Rep.demoMaps⟩

theorem lone_only : ∀ d, Rep.Valid loneRd 8 d.b (.dev d) → Rep.IsRoot loneRd 8 d.b → d.b = 1 := by
  obtain ⟨s, x, h1, h2, h3⟩ : ∃ s d, Rep.collect loneRd 8 = .ok s ∧ Rep.devRoots 8 s = [d] ∧ d.b = 1 := ⟨_, _, rfl, rfl, rfl⟩
  have hm := Rep.mem_devRoots Rep.lone_wf.2 h1
  rw [h2] at hm
  intro d hd hr
  rw [List.mem_singleton.mp ((hm d).mpr ⟨hd, hr⟩), h3]

theorem lone_means (d : DeviceDetail) : (loneDev d).maps = [(0, .bt 20 5), (1, .bt 21 6)] := rfl

theorem lone_tops : Tops loneRd allFine 8 1 [loneDev ⟨0, 0, 0, 0⟩] ∧ RecTops loneRd 8 1 [loneDev ⟨0, 0, 0, 0⟩] := by
  have hc : LW.Clean (rd64 loneRd true) 8 0 Rep.demoMaps :=
    ⟨rfl, by simp [Rep.demoMaps, BT.Tree.Ordered, BT.Chain, BT.Below], Or.inl rfl, by intro b hb; rw [List.mem_singleton.mp hb]; decide⟩
  have ht : Tops loneRd allFine 8 1 [loneDev ⟨0, 0, 0, 0⟩] :=
    { sorted := List.pairwise_singleton _ _
      top := ⟨0, Rep.demoDevs, ⟨rfl, by simp [Rep.demoDevs, BT.Tree.Ordered, BT.Chain, BT.Below], Or.inl rfl, by intro b hb; rw [List.mem_singleton.mp hb]; decide⟩, rfl, rfl⟩
      dev := by
        intro d hd
        rw [List.mem_singleton.mp hd]
        exact ⟨by decide, hc, hc.stored⟩ }
  have hroot : Rep.IsRoot loneRd 8 1 := by
    intro p blk ch i hp
    exfalso
    unfold loneRd Rep.demoRd at hp
    by_cases h1 : p = 1
    · subst h1; cases hp
    by_cases h2 : p = 2
    · subst h2; cases hp
    by_cases h3 : p = 3
    · subst h3; cases hp
    rw [if_neg h2, if_neg h1, if_neg h2, if_neg h3] at hp
    cases hp
  have hr : RecTops loneRd 8 1 [loneDev ⟨0, 0, 0, 0⟩] :=
    { some := by simp
      maps := by
        intro d hd l hl
        rw [List.mem_singleton.mp hd] at hl
        rw [List.mem_singleton.mp (show l ∈ [(3, [(0, 20 * 2 ^ 24 + 5), (1, 21 * 2 ^ 24 + 6)])] from hl)]
        exact Or.inr ⟨_, List.mem_cons_self, by decide⟩
      mroot := hroot }
  exact ⟨ht, hr⟩

/-- Without superblock and details. -/
theorem repair_lost_details_demo : ∃ found x sb time, Rep.FindRoots loneRd 8 (some found) ∧ repair 16 loneRd allFine 8 found none ⟨none, some 128, none⟩ 30 (fun _ => none) = some x ∧
    PostR x (fun img => Output 16 30 img sb [(⟨1, ⟨2, sb.transaction - 1, time, time⟩⟩, [(0, .bt 20 5), (1, .bt 21 6)])]) ∧ 6 < time ∧ time ≤ sb.time ∧ 21 < sb.nrData := by
  obtain ⟨f, hf, -⟩ := Rep.lone_found
  obtain ⟨found, x, sb, time, h1, h2, h3, -, -, h4, h5, h6⟩ := repair_lost_details demo_size (by decide) Rep.lone_wf.1 Rep.lone_wf.2 (by decide) lone_tops.1 lone_tops.2
    (by intro d hd; rw [List.mem_singleton.mp hd]; decide) Rep.lone_incompat lone_only hf (dsb := none) (o := ⟨none, some 128, none⟩) rfl (by decide) (by intro k hk; cases hk) (fun _ => none)
  cases h1
  refine ⟨_, x, sb, time, hf, h2, h3, ?_, h4, ?_⟩
  · rw [← last_word.2]
    exact h5 _ (List.mem_singleton.mpr rfl) (1, 21 * 2 ^ 24 + 6) (by simp [loneDev, Rep.demoMaps, Tree.contents])
  rw [← last_word.1]
  refine h6 ?_ _ (List.mem_singleton.mpr rfl) (1, 21 * 2 ^ 24 + 6) (by simp [loneDev, Rep.demoMaps, Tree.contents])
  intro d hd e he
  rw [List.mem_singleton.mp hd] at he
  have he : e ∈ [(0, 20 * 2 ^ 24 + 5), (1, 21 * 2 ^ 24 + 6)] := he
  simp only [List.mem_cons, List.not_mem_nil, or_false] at he
  rcases he with rfl | rfl <;> decide

/-- the repair of the tall pool does not run out of space -/
example : (match repair 16 tallRd allFine 8 [⟨.onDisk 1 2, 6, 5, 22⟩] (some tallSb) ⟨none, none, none⟩ 30 (fun _ => none) with | some (.ok _) => true | _ => false) = true := by
  decide +kernel

/-- **Finding.**  The full claim is false: the search for roots overlooks non-fatal errors, the dump after it does not.  A pool in which one node of a mapping tree has too few
entries (every mapping is there and readable) is found, and then `thin_repair` gives up. -/
theorem repair_underfull_refuted : ¬ ∀ (rd : Nat → Option Raw) (fine : Bool → Nat → Bool) (nr mr dr : Nat) (devs : List PDev) (found : List Found) (dsb : Thin.Superblock),
    Rep.WF rd → Rep.InPlace rd → Pool rd allFine nr mr dr devs → Recognisable rd nr mr dr devs → (∀ d ∈ devs, fine true (d.t.blk d.h) = true) → Rep.FindRoots rd nr (some found) →
    dsb.mapping_root = mr → dsb.details_root = dr → repair 16 rd fine nr found (some dsb) ⟨none, none, none⟩ 30 (fun _ => none) ≠ none := by
  intro h
  obtain ⟨fs, hf⟩ := tall_found
  refine h tallRd thinFour 8 1 2 [tallDev] fs tallSb tall_wf.1 tall_wf.2 tall_pool tall_recognisable ?_ hf rfl rfl ?_
  · intro d _; rfl
  · obtain ⟨d, t, hc, e1, e2⟩ := tall_pool.found tall_recognisable (by decide) tall_wf.1 tall_wf.2
    obtain ⟨f, fs', e, hall, -⟩ := Rep.findRoots_pairs tall_wf.1 tall_wf.2 hf ⟨d, t, hc⟩
    cases e
    have hsb : Rep.readOrRebuild (f :: fs') (some tallSb) ⟨none, none, none⟩ = some (.onDisk tallSb) := by
      unfold Rep.readOrRebuild
      simp only
      rw [if_pos]
      · rfl
      · unfold Rep.consistentSb
        rw [List.any_eq_true]
        refine ⟨_, (hall _).mpr ⟨d, t, hc, rfl⟩, ?_⟩
        show decide (tallSb.mapping_root = d.b ∧ tallSb.details_root = t.b) = true
        exact decide_eq_true ⟨e1.symm, e2.symm⟩
    have hno : (dumpSb tallRd thinFour 8 (.onDisk tallSb) none false).isNone = true := by decide +kernel
    unfold repair
    rw [hsb]
    simp only [Option.bind_some]
    rw [Option.isNone_iff_eq_none.mp hno]

end Verif.TRep
