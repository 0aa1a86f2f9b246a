import Verif.Model.ThinCheckTool
import Verif.Prop.ThinCheckRefuted
import Verif.Prop.SpaceMapCheck

/-!
# C47: what `thin_check` as a whole writes, and when it clears `needs_check`
-/

namespace Verif.TChk

open Verif.BT (Blk WSt Tree)
open Verif.SMD (SVal)

/-! ## The steps -/

/-- the two devices differ in nothing but bitmaps and the flag -/
structure SameBut (d d' : TDev) : Prop where
  nr : d'.nr = d.nr
  sbAt : d'.sbAt = d.sbAt
  dets : d'.dets = d.dets
  tops : d'.tops = d.tops
  low : d'.low = d.low
  rdn : d'.rdn = d.rdn
  index : d'.index = d.index

theorem SameBut.refl (d : TDev) : SameBut d d := ⟨rfl, rfl, rfl, rfl, rfl, rfl, rfl⟩

theorem SameBut.trans {d d' d'' : TDev} (h : SameBut d d') (h' : SameBut d' d'') : SameBut d d'' :=
  ⟨h'.nr.trans h.nr, h'.sbAt.trans h.sbAt, h'.dets.trans h.dets, h'.tops.trans h.tops, h'.low.trans h.low, h'.rdn.trans h.rdn, h'.index.trans h.index⟩

/-- the superblock is as it was, or the flag was cleared and the run succeeded -/
def SbStep (d : TDev) (r : TDev × End) : Prop :=
  r.1.sb = d.sb ∨ (r.2 = .ok ∧ ∃ sb, d.sb = some sb ∧ sb.needs_check = true ∧ r.1.sb = some { sb with needs_check := false })

theorem clearFlag_spec (w : Wr) (writable : Bool) (d : TDev) :
    SameBut d (clearFlag w writable d).1 ∧ (clearFlag w writable d).1.bm = d.bm ∧ SbStep d (clearFlag w writable d) ∧ (writable = false → (clearFlag w writable d).1 = d) ∧
    ((clearFlag w writable d).2 = .ok ↔ ∃ sb, (clearFlag w writable d).1.sb = some sb ∧ sb.needs_check = false) := by
  unfold clearFlag
  cases hsb : d.sb with
  | none => simp [SameBut.refl, SbStep, hsb]
  | some sb =>
    simp only
    cases hn : sb.needs_check
    · simp [SameBut.refl, SbStep, hsb, hn]
    · cases hw : (writable && w.sb)
      · simp [SameBut.refl, SbStep, hsb, hn]
      · have hwr : writable = true := by simp at hw; exact hw.1
        simp only [if_true]
        refine ⟨⟨rfl, rfl, rfl, rfl, rfl, rfl, rfl⟩, trivial, Or.inr ⟨rfl, sb, hsb, hn, rfl⟩, ?_, ?_⟩
        · intro h; rw [h] at hwr; cases hwr
        · simp

theorem repairStep_spec (wr : Nat → Bool) (o : TOpts) (d : TDev) (leaks : List SMC.Leak) (exp : List Nat) :
    SameBut d (repairStep wr o d leaks exp).1 ∧ (repairStep wr o d leaks exp).1.sb = d.sb ∧ ((o.repair || o.clear) = false → (repairStep wr o d leaks exp).1 = d) ∧
    (repairStep wr o d leaks exp).2 ≠ .crash ∧
    ((repairStep wr o d leaks exp).1.bm = d.bm ∨ SMC.repair wr d.bm exp leaks = some (repairStep wr o d leaks exp).1.bm) ∧
    ((repairStep wr o d leaks exp).2 = .ok → leaks ≠ [] → (o.repair || o.clear) = true → (∀ i, i < leaks.length → wr i = true) ∧
      SMC.repair wr d.bm exp leaks = some (repairStep wr o d leaks exp).1.bm) := by
  unfold repairStep
  cases hl : leaks.isEmpty
  · cases hf : (o.repair || o.clear)
    · cases o.ign <;> simp [SameBut.refl]
    · simp only [Bool.false_eq_true, if_false, if_true]
      cases hr : SMC.repair wr d.bm exp leaks with
      | none => simp [SameBut.refl]
      | some bm =>
        refine ⟨⟨rfl, rfl, rfl, rfl, rfl, rfl, rfl⟩, rfl, fun h => (by cases h), ?_, Or.inr rfl, ?_⟩
        · cases (List.range leaks.length).all wr <;> simp
        · intro ho _ _
          cases hall : (List.range leaks.length).all wr
          · simp [hall] at ho
          · exact ⟨fun i hi => List.all_eq_true.mp hall i (List.mem_range.mpr hi), rfl⟩
  · simp only [if_true]
    refine ⟨SameBut.refl d, trivial, fun _ => trivial, by simp, Or.inl trivial, fun _ h => ?_⟩
    exact absurd (List.isEmpty_iff.mp hl) h

/-- what any part of the run guarantees -/
structure Guar (o : TOpts) (d : TDev) (r : TDev × End) : Prop where
  same : SameBut d r.1
  sb : SbStep d r
  quiet : (o.repair || o.clear) = false → r.1 = d

theorem Guar.stay (o : TOpts) (d : TDev) (e : End) : Guar o d (d, e) := ⟨SameBut.refl d, Or.inl rfl, fun _ => rfl⟩

theorem finish_guar (w : Wr) (o : TOpts) (d : TDev) (dl ml : List SMC.Leak) (dexp mexp : List Nat) : Guar o d (finish w o d dl ml dexp mexp) ∧
    ((o.repair || o.clear) = true → (finish w o d dl ml dexp mexp).2 = .ok → ∃ sb, (finish w o d dl ml dexp mexp).1.sb = some sb ∧ sb.needs_check = false) := by
  unfold finish
  obtain ⟨a1, a2, a3, a4, -⟩ := repairStep_spec w.data o d dl dexp
  cases h1 : repairStep w.data o d dl dexp with
  | mk d1 e1 =>
    rw [h1] at a1 a2 a3 a4
    cases e1 with
    | crash => exact absurd rfl a4
    | err => exact ⟨⟨a1, Or.inl a2, a3⟩, fun _ h => (by cases h)⟩
    | ok =>
      simp only
      obtain ⟨b1, b2, b3, b4, -⟩ := repairStep_spec w.metad o d1 ml mexp
      cases h2 : repairStep w.metad o d1 ml mexp with
      | mk d2 e2 =>
        rw [h2] at b1 b2 b3 b4
        simp only at a1 a2 a3 b1 b2 b3
        cases e2 with
        | crash => exact absurd rfl b4
        | err => exact ⟨⟨a1.trans b1, Or.inl (b2.trans a2), fun h => by rw [b3 h, a3 h]⟩, fun _ h => (by cases h)⟩
        | ok =>
          simp only
          cases hf : (o.repair || o.clear)
          · simp only [Bool.false_eq_true, if_false]
            exact ⟨⟨a1.trans b1, Or.inl (b2.trans a2), fun h => by simp only; rw [b3 hf, a3 hf]⟩, fun h => (by cases h)⟩
          · simp only [if_true]
            obtain ⟨c1, -, c3, -, c5⟩ := clearFlag_spec w true d2
            refine ⟨⟨(a1.trans b1).trans c1, ?_, fun h => (by rw [hf] at h; cases h)⟩, fun _ h => c5.mp h⟩
            rcases c3 with h | ⟨h, sb, h3, h4, h5⟩
            · exact Or.inl (h.trans (b2.trans a2))
            · exact Or.inr ⟨h, sb, by rw [← a2, ← b2]; exact h3, h4, h5⟩

theorem checkMaps_guar (unpackRoot : Bytes → Option SMRoot) (w : Wr) (o : TOpts) (d : TDev) (sb : Thin.Superblock) (msm dsm : Sm) :
    Guar o d (checkMaps unpackRoot w o d sb msm dsm) ∧ ((o.repair || o.clear) = true → (checkMaps unpackRoot w o d sb msm dsm).2 = .ok →
      ∃ sb', (checkMaps unpackRoot w o d sb msm dsm).1.sb = some sb' ∧ sb'.needs_check = false) := by
  have hstay : ∀ e, e ≠ End.ok → Guar o d (d, e) ∧ ((o.repair || o.clear) = true → e = .ok → ∃ sb', d.sb = some sb' ∧ sb'.needs_check = false) :=
    fun e he => ⟨Guar.stay o d e, fun _ h => absurd h he⟩
  unfold checkMaps
  cases unpackRoot sb.data_sm_root with
  | none => exact hstay .err (by simp)
  | some droot =>
    simp only
    split
    · exact hstay .err (by simp)
    · rename_i dl st _
      cases unpackRoot sb.metadata_sm_root with
      | none => exact hstay .err (by simp)
      | some mroot =>
        simp only
        split
        · exact hstay .err (by simp)
        · exact finish_guar ..

/-- asked to clear the flag: `--clear-needs-check-flag`, or `--auto-repair` of more than the superblock -/
def TOpts.asked (o : TOpts) : Bool := o.clear || (o.repair && !o.sbOnly)

theorem checkSb_guar (unpackRoot : Bytes → Option SMRoot) (bot : List Nat → Sm → Sm → Sm × Sm × Option Sums) (w : Wr) (o : TOpts) (d : TDev) (sb : Thin.Superblock)
    (hs : (o.repair || o.clear) = true → o.snap = false) :
    Guar o d (checkSb unpackRoot bot w o d sb) ∧ (o.asked = true → (checkSb unpackRoot bot w o d sb).2 = .ok →
      ∃ sb', (checkSb unpackRoot bot w o d sb).1.sb = some sb' ∧ sb'.needs_check = false) ∧
    (o.asked = false → (checkSb unpackRoot bot w o d sb).1.sb = d.sb) := by
  have hstay : ∀ e, e ≠ End.ok → Guar o d (d, e) ∧ (o.asked = true → e = .ok → ∃ sb', d.sb = some sb' ∧ sb'.needs_check = false) ∧ (o.asked = false → d.sb = d.sb) :=
    fun e he => ⟨Guar.stay o d e, fun _ h => absurd h he, fun _ => rfl⟩
  have hask : o.sbOnly = false → o.asked = (o.repair || o.clear) := by
    intro h; unfold TOpts.asked; rw [h]; cases o.repair <;> cases o.clear <;> rfl
  have hbot : o.sbOnly = false → ∀ thins roots ts, Guar o d (checkBottom unpackRoot bot w o d sb thins roots ts) ∧ (o.asked = true →
      (checkBottom unpackRoot bot w o d sb thins roots ts).2 = .ok → ∃ sb', (checkBottom unpackRoot bot w o d sb thins roots ts).1.sb = some sb' ∧ sb'.needs_check = false) ∧
      (o.asked = false → (checkBottom unpackRoot bot w o d sb thins roots ts).1.sb = d.sb) := by
    intro hso thins roots ts
    unfold checkBottom
    split
    · exact hstay .err (by simp)
    · split
      · exact hstay .err (by simp)
      · simp only
        split
        · exact hstay .crash (by simp)
        · split
          · exact hstay .err (by simp)
          · split
            · exact hstay .err (by simp)
            · split
              · exact hstay .err (by simp)
              · cases hsn : o.snap
                · simp only [Bool.false_eq_true, if_false]
                  obtain ⟨g1, g2⟩ := checkMaps_guar unpackRoot w o d sb (bot (allRoots roots ts.1) ts.2 (createDataSm ‹SMRoot› (allRoots roots ts.1).length)).1
                    (bot (allRoots roots ts.1) ts.2 (createDataSm ‹SMRoot› (allRoots roots ts.1).length)).2.1
                  rw [hask hso]
                  exact ⟨g1, g2, fun h => by rw [g1.quiet h]⟩
                · simp only [if_true]
                  refine ⟨Guar.stay o d .ok, ?_, fun _ => trivial⟩
                  intro ha
                  rw [hask hso] at ha
                  rw [hs ha] at hsn
                  cases hsn
  unfold checkSb
  split
  · exact hstay .err (by simp)
  · cases hso : o.sbOnly
    · simp only [Bool.false_eq_true, if_false]
      split
      · exact hstay .err (by simp)
      · split
        · exact hstay .err (by simp)
        · split
          · exact hstay .err (by simp)
          · cases hsk : o.skip
            · simp only [Bool.false_eq_true, if_false]
              exact hbot hso _ _ _
            · simp only [if_true]
              obtain ⟨c1, -, c3, c4, c5⟩ := clearFlag_spec w (o.repair || o.clear) d
              exact ⟨⟨c1, c3, c4⟩, fun _ h => c5.mp h, fun h => by rw [hask hso] at h; rw [c4 h]⟩
    · simp only [if_true]
      cases hc : o.clear
      · simp only [Bool.false_eq_true, if_false]
        refine ⟨Guar.stay o d .ok, fun h => ?_, fun _ => (by simp)⟩
        simp [TOpts.asked, hc, hso] at h
      · simp only [if_true]
        obtain ⟨c1, -, c3, c4, c5⟩ := clearFlag_spec w true d
        refine ⟨⟨c1, c3, fun h => ?_⟩, fun _ h => c5.mp h, fun h => ?_⟩
        · simp [hc] at h
        · simp [TOpts.asked, hc] at h

/-! ## C47 -/

/-- **C47.**  Whatever is on the device, whatever the passes over the mapping trees find and whichever writes fail, `thin_check` changes nothing but bitmaps of the space maps and the
superblock; without `--auto-repair` and `--clear-needs-check-flag` it changes nothing.  If the superblock is changed, the run succeeded and the change is that `needs_check`,
which was set, is cleared. -/
theorem check_writes (unpackRoot : Bytes → Option SMRoot) (bot : List Nat → Sm → Sm → Sm × Sm × Option Sums) (w : Wr) (o : TOpts) (d : TDev) :
    SameBut d (check unpackRoot bot w o d).1 ∧ ((o.repair || o.clear) = false → (check unpackRoot bot w o d).1 = d) ∧
    ((check unpackRoot bot w o d).1.sb ≠ d.sb → (check unpackRoot bot w o d).2 = .ok ∧
      ∃ sb, d.sb = some sb ∧ sb.needs_check = true ∧ (check unpackRoot bot w o d).1.sb = some { sb with needs_check := false }) := by
  have hg : Guar o d (check unpackRoot bot w o d) := by
    unfold check
    split
    · exact Guar.stay o d .err
    · rename_i h
      cases hsb : d.sb with
      | none => exact Guar.stay o d .err
      | some sb =>
        simp only
        refine (checkSb_guar unpackRoot bot w o d _ ?_).1
        intro hf
        cases hsn : o.snap
        · rfl
        · simp [hf, hsn] at h
  exact ⟨hg.same, hg.quiet, fun hne => hg.sb.resolve_left hne⟩

/-- **C47.**  Let `needs_check` be set.  It is clear after the run exactly if the user asked for that, by `--clear-needs-check-flag` or by `--auto-repair` together with a check of more
than the superblock, and the run succeeded. -/
theorem check_clears (unpackRoot : Bytes → Option SMRoot) (bot : List Nat → Sm → Sm → Sm × Sm × Option Sums) (w : Wr) (o : TOpts) (d : TDev) (sb : Thin.Superblock)
    (hsb : d.sb = some sb) (hn : sb.needs_check = true) :
    (∃ sb', (check unpackRoot bot w o d).1.sb = some sb' ∧ sb'.needs_check = false) ↔
      (check unpackRoot bot w o d).2 = .ok ∧ (o.clear = true ∨ (o.repair = true ∧ o.sbOnly = false)) := by
  have hask : o.asked = true ↔ (o.clear = true ∨ (o.repair = true ∧ o.sbOnly = false)) := by
    unfold TOpts.asked; cases o.clear <;> cases o.repair <;> cases o.sbOnly <;> simp
  rw [← hask]
  have key : (o.asked = true → (check unpackRoot bot w o d).2 = .ok → ∃ sb', (check unpackRoot bot w o d).1.sb = some sb' ∧ sb'.needs_check = false) ∧
      (o.asked = false → (check unpackRoot bot w o d).1.sb = d.sb) := by
    unfold check
    split
    · exact ⟨fun _ h => (by cases h), fun _ => rfl⟩
    · rename_i h
      rw [hsb]
      simp only
      rw [← hsb]
      refine (checkSb_guar unpackRoot bot w o d _ ?_).2
      intro hf
      cases hsn : o.snap
      · rfl
      · simp [hf, hsn] at h
  constructor
  · rintro ⟨sb', h1, h2⟩
    have hne : (check unpackRoot bot w o d).1.sb ≠ d.sb := by
      rw [h1, hsb]
      intro e
      cases e
      rw [hn] at h2
      cases h2
    refine ⟨((check_writes unpackRoot bot w o d).2.2 hne).1, ?_⟩
    cases ha : o.asked
    · exact absurd (key.2 ha) hne
    · rfl
  · rintro ⟨h1, h2⟩
    exact key.1 h2 h1

/-- **Finding.**  `thin_check --skip-mappings` on its own always fails if `needs_check` is set, whatever the state of the metadata: it tries to clear the flag although nobody asked for it,
on a device it has opened for reading. -/
theorem check_skip_refuted (unpackRoot : Bytes → Option SMRoot) (bot : List Nat → Sm → Sm → Sm × Sm × Option Sums) (w : Wr) (o : TOpts) (d : TDev) (sb : Thin.Superblock)
    (hsb : d.sb = some sb) (hn : sb.needs_check = true) (h1 : o.skip = true) (h2 : o.sbOnly = false) (h3 : (o.repair || o.clear) = false) :
    check unpackRoot bot w o d = (d, .err) := by
  unfold check
  simp only [h3, Bool.false_and, Bool.false_eq_true, if_false, hsb]
  unfold checkSb
  simp only [h1, h2, h3, if_true, Bool.false_eq_true, if_false]
  split
  · rfl
  · split
    · rfl
    · split
      · rfl
      · split
        · rfl
        · unfold clearFlag
          rw [hsb]
          simp [hn]

end Verif.TChk
