import Verif.Prop.RestoreImage
import Verif.Prop.ThinRestoreCheckDemo
import Verif.Prop.EraRestoreImage
import Verif.Prop.CacheRestoreCheck
import Verif.Prop.EraRestoreCheck

/-!
# C82 and C83 on documents

A device that stores what a block means (so the checksum step keeps the contents), and documents that the tools
accept: the hypotheses of the three theorems are met.
-/

namespace Verif.RTr

open Verif.RIo (Op restore)
open Verif.Batch (Resp)

/-- what a block of the demonstration device holds -/
inductive Stored where
  | junk
  | sb (s : Thin.Superblock)
  | csb (s : Cache.Superblock)
  | esb (s : Era.Superblock)
  | cell (c : Cell)

/-- a concrete restore, for every device of thirty or more blocks and every batch size: success, and then the device has
nodes in blocks 1 to 4 and the index in block 13, all from the image -/
theorem restore_image_demo : ∃ img, Rst.demoImage 5 = .ok img ∧ (img.nodes 4).isSome = true ∧ (img.index 13).isSome = true ∧
    ∃ body : List (Op Stored Unit), ∀ (d : Batch.Disk Stored) (bs : Nat), 30 ≤ d.nr → ∀ last,
      (restore (fun _ x => some x) d bs 30 255 body Resp.good (.sb img.sb) ⟨true, true⟩ last).2 = true ∧
      Holds Stored.cell Stored.sb img (restore (fun _ x => some x) d bs 30 255 body Resp.good (.sb img.sb) ⟨true, true⟩ last).1 := by
  have h : (Rst.demoImage 5).toOption.map (fun i => (i.nodes 4).isSome && (i.index 13).isSome) = some true := by decide +kernel
  cases e : Rst.demoImage 5 with
  | error _ => rw [e] at h; cases h
  | ok img =>
    rw [e] at h
    simp only [Except.toOption, Option.map_some, Option.some.injEq, Bool.and_eq_true] at h
    obtain ⟨body, -, hb⟩ := restore_image_on_device (stamp := fun (_ : Unit) x => some x) (fun c => (Stored.cell c, ())) Stored.cell (fun _ => rfl) Stored.sb
      (n := 30) (max := 255) (by decide) (by decide) (by decide) e
    exact ⟨img, rfl, h.1, h.2, body, fun d bs hd => (hb d bs hd).1⟩

/-- `cache_restore`, both versions -/
theorem cache_restore_demo (v : Nat) (hv : v = 1 ∨ v = 2) : ∃ r sb,
    CacheM.restore (CacheM.fullCfg v) true (CacheM.docOf (CacheM.smallSb 4) [(0, 9, true), (4, 7, false)] [(0, [1, 2, 3, 4]), (4, [4, 3, 2, 1])]) CacheM.newDev = .ok r ∧ r.out = some sb ∧
    (r.dev.readArr 2).isSome = true ∧ ∃ body : List (Op Stored Unit), ∀ (d : Batch.Disk Stored) (bs : Nat), 24 ≤ d.nr → ∀ last,
      (restore (fun _ x => some x) d bs 24 100 body Resp.good (.csb sb) ⟨true, true⟩ last).2 = true ∧
      HoldsC Stored.cell Stored.csb sb r (restore (fun _ x => some x) d bs 24 100 body Resp.good (.csb sb) ⟨true, true⟩ last).1 := by
  have h : ∀ v, v = 1 ∨ v = 2 → (match CacheM.restore (CacheM.fullCfg v) true (CacheM.docOf (CacheM.smallSb 4) [(0, 9, true), (4, 7, false)] [(0, [1, 2, 3, 4]), (4, [4, 3, 2, 1])]) CacheM.newDev with
      | .ok r => r.out.isSome && (r.dev.readArr 2).isSome
      | .error _ => false) = true := by
    rintro v (rfl | rfl) <;> decide +kernel
  have h := h v hv
  cases e : CacheM.restore (CacheM.fullCfg v) true (CacheM.docOf (CacheM.smallSb 4) [(0, 9, true), (4, 7, false)] [(0, [1, 2, 3, 4]), (4, [4, 3, 2, 1])]) CacheM.newDev with
  | error _ => rw [e] at h; cases h
  | ok r =>
    rw [e] at h
    simp only [Bool.and_eq_true] at h
    obtain ⟨sb, hsb⟩ := Option.isSome_iff_exists.mp h.1
    obtain ⟨body, -, hb⟩ := cache_restore_on_device (stamp := fun (_ : Unit) x => some x) (fun c => (Stored.cell c, ())) Stored.cell (fun _ => rfl) Stored.csb
      (n := 24) (max := 100) (by decide) (by decide) (by decide) (epb := 8) (cfg := CacheM.fullCfg v) rfl true _ e hsb
    exact ⟨r, sb, rfl, hsb, h.2, body, fun d bs hd => (hb d bs hd).1⟩

/-- the document of `Prop/EraRestoreCheck.lean` up to the end of the superblock -/
def eraPre : List Xml.EEv := EraT.smallDoc.dropLast

/-- `era_restore` -/
theorem era_restore_demo : ∃ r sb, EraT.restore EraT.smallCfg (eraPre ++ [.sbE, .eof]) EraT.smallDev = .ok r ∧ r.out = some sb ∧ .sbE ∉ eraPre ∧ 1 < eraPre.length ∧
    ∃ body : List (Op Stored Unit), ∀ (d : Batch.Disk Stored) (bs : Nat), 60 ≤ d.nr → ∀ last,
      (restore (fun _ x => some x) d bs 60 100 body Resp.good (.esb sb) ⟨true, true⟩ last).2 = true ∧
      HoldsE Stored.cell Stored.esb sb r (restore (fun _ x => some x) d bs 60 100 body Resp.good (.esb sb) ⟨true, true⟩ last).1 := by
  have h : (match EraT.restore EraT.smallCfg (eraPre ++ [.sbE, .eof]) EraT.smallDev with
      | .ok r => r.out.isSome
      | .error _ => false) = true := by decide +kernel
  have hd : Xml.EEv.sbE ∉ eraPre := by decide +kernel
  cases e : EraT.restore EraT.smallCfg (eraPre ++ [.sbE, .eof]) EraT.smallDev with
  | error _ => rw [e] at h; cases h
  | ok r =>
    rw [e] at h
    obtain ⟨sb, hsb⟩ := Option.isSome_iff_exists.mp h
    obtain ⟨body, -, hb⟩ := era_restore_on_device (stamp := fun (_ : Unit) x => some x) (fun c => (Stored.cell c, ())) Stored.cell (fun _ => rfl) Stored.esb
      (n := 60) (max := 100) (by decide) (by decide) (by decide) (epb := 8) (cfg := EraT.smallCfg) rfl eraPre hd e hsb
    exact ⟨r, sb, rfl, hsb, hd, by decide +kernel, body, fun d bs hd => (hb d bs hd).1⟩

end Verif.RTr
