import Verif.Model.Generators
import Verif.Prop.EraRestoreCheck

/-!
# C72: what `era_generate_metadata` produces
-/

namespace Verif.Gen

open Verif.Xml (ESb EEv)
open Verif.EraT (eraDoc wsEvents pushesW CfgOk SmOk imageOf)
open Verif.CacheM (New RPost)
open Verif.Arr (ASt divUp arrayOf)

/-! ## Specification -/

/-- The writesets and eras of a generated document: one writeset for each of the last eras, as many as asked for, in increasing order; the writeset of era
`e` has a bit for each block, and those are set for which the draw was below 10; and an era for each block, in order. -/
structure EraSpec (p : EraParams) (coin : Nat → Nat → Nat) (draw : Nat → Nat) (sets : List (Nat × Nat × List (Nat × Nat))) (eras : List (Nat × Nat)) : Prop where
  number : sets.length = p.nrWritesets
  era : ∀ i w, sets[i]? = some w → w.1 + p.nrWritesets = p.currentEra + 1 + i
  bits : ∀ w ∈ sets, w.2.1 = p.nrBlocks
  marked : ∀ w ∈ sets, Rng.Exactly (fun b => b < p.nrBlocks ∧ coin w.1 b < 10) w.2.2
  eras : eras = (List.range p.nrBlocks).map fun b => (b, draw b)

/-! ## The ranges of a writeset -/

theorem skipTo_spec (coin : Nat → Nat) (prob fin : Nat) : ∀ (fuel b : Nat), b ≤ fin → fin ≤ b + fuel →
    b ≤ (skipTo coin prob fin fuel b b).2 ∧ (skipTo coin prob fin fuel b b).2 ≤ fin ∧
    (∀ i, b ≤ i → i < (skipTo coin prob fin fuel b b).2 → prob ≤ coin i) ∧
    ((skipTo coin prob fin fuel b b).2 < fin → coin (skipTo coin prob fin fuel b b).2 < prob ∧
      (skipTo coin prob fin fuel b b).1 = (skipTo coin prob fin fuel b b).2 + 1) := by
  intro fuel
  induction fuel with
  | zero =>
    intro b h1 h2
    refine ⟨Nat.le_refl _, h1, fun i h3 h4 => ?_, fun h => ?_⟩
    · simp only [skipTo] at h4; omega
    · simp only [skipTo] at h; omega
  | succ fuel ih =>
    intro b h1 h2
    unfold skipTo
    by_cases c1 : b < fin
    · rw [if_pos c1]
      by_cases c2 : coin b ≥ prob
      · rw [if_pos c2]
        obtain ⟨g1, g2, g3, g4⟩ := ih (b + 1) (by omega) (by omega)
        refine ⟨by omega, g2, fun i h3 h4 => ?_, g4⟩
        by_cases e : i = b
        · rw [e]; exact c2
        · exact g3 i (by omega) h4
      · rw [if_neg c2]
        refine ⟨Nat.le_refl _, h1, fun i h3 h4 => ?_, fun _ => ⟨?_, rfl⟩⟩
        · simp only at h4; omega
        · show coin b < prob; omega
    · rw [if_neg c1]
      refine ⟨Nat.le_refl _, h1, fun i h3 h4 => ?_, fun h => ?_⟩
      · simp only at h4; omega
      · exact absurd h c1

theorem extend_spec (coin : Nat → Nat) (prob fin : Nat) : ∀ (fuel e : Nat), e ≤ fin → fin ≤ e + fuel →
    e ≤ (extend coin prob fin fuel e e).2 ∧ (extend coin prob fin fuel e e).2 ≤ fin ∧
    (∀ i, e ≤ i → i < (extend coin prob fin fuel e e).2 → coin i < prob) ∧
    ((extend coin prob fin fuel e e).2 < fin → prob ≤ coin (extend coin prob fin fuel e e).2 ∧
      (extend coin prob fin fuel e e).1 = (extend coin prob fin fuel e e).2 + 1) := by
  intro fuel
  induction fuel with
  | zero =>
    intro b h1 h2
    refine ⟨Nat.le_refl _, h1, fun i h3 h4 => ?_, fun h => ?_⟩
    · simp only [extend] at h4; omega
    · simp only [extend] at h; omega
  | succ fuel ih =>
    intro b h1 h2
    unfold extend
    by_cases c1 : b < fin
    · rw [if_pos c1]
      by_cases c2 : coin b < prob
      · rw [if_pos c2]
        obtain ⟨g1, g2, g3, g4⟩ := ih (b + 1) (by omega) (by omega)
        refine ⟨by omega, g2, fun i h3 h4 => ?_, g4⟩
        by_cases e : i = b
        · rw [e]; exact c2
        · exact g3 i (by omega) h4
      · rw [if_neg c2]
        refine ⟨Nat.le_refl _, h1, fun i h3 h4 => ?_, fun _ => ⟨?_, rfl⟩⟩
        · simp only at h4; omega
        · show prob ≤ coin b; omega
    · rw [if_neg c1]
      refine ⟨Nat.le_refl _, h1, fun i h3 h4 => ?_, fun h => ?_⟩
      · simp only at h4; omega
      · exact absurd h c1

theorem sequence_from (coin : Nat → Nat) (prob fin : Nat) (hf : fin + 1 < 2 ^ 32) : ∀ (fuel k b : Nat), (b ≤ fin → k = b) → fin ≤ b + fuel → b ≤ fin + 1 →
    Rng.Exactly (fun i => b ≤ i ∧ i < fin ∧ coin i < prob) (sequence coin prob fin fuel k b) := by
  intro fuel
  induction fuel with
  | zero =>
    intro k b _ h2 _
    exact ⟨fun r hr => (by cases hr), List.Pairwise.nil, fun i => ⟨fun h => absurd h (by omega), fun ⟨r, hr, _⟩ => by cases hr⟩⟩
  | succ fuel ih =>
    intro k b hk h2 h3
    unfold sequence
    by_cases c1 : b ≥ fin
    · rw [if_pos c1]
      exact ⟨fun r hr => (by cases hr), List.Pairwise.nil, fun i => ⟨fun h => absurd h (by omega), fun ⟨r, hr, _⟩ => by cases hr⟩⟩
    · rw [if_neg c1]
      simp only
      cases hk (by omega)
      obtain ⟨s1, s2, s3, s4⟩ := skipTo_spec coin prob fin fin k (by omega) (by omega)
      generalize skipTo coin prob fin fin k k = s at s1 s2 s3 s4 ⊢
      obtain ⟨sk, sb⟩ := s
      simp only at s1 s2 s3 s4 ⊢
      by_cases c2 : sb = fin
      · rw [if_pos c2]
        refine ⟨fun r hr => (by cases hr), List.Pairwise.nil, fun i => ⟨fun h => ?_, fun ⟨r, hr, _⟩ => by cases hr⟩⟩
        have := s3 i h.1 (by omega)
        omega
      · rw [if_neg c2]
        obtain ⟨s5, rfl⟩ := s4 (by omega)
        obtain ⟨t1, t2, t3, t4⟩ := extend_spec coin prob fin fin (sb + 1) (by omega) (by omega)
        generalize extend coin prob fin fin (sb + 1) (sb + 1) = t at t1 t2 t3 t4 ⊢
        obtain ⟨tk, te⟩ := t
        simp only at t1 t2 t3 t4 ⊢
        rw [Nat.mod_eq_of_lt (by omega : te + 1 < 2 ^ 32)]
        have IH := ih tk (te + 1) (fun h => (t4 (by omega)).2) (by omega) (by omega)
        refine ⟨fun r hr => ?_, List.pairwise_cons.mpr ⟨fun r hr => ?_, IH.sep⟩, fun i => ?_⟩
        · rcases List.mem_cons.mp hr with rfl | hr
          · show 0 < te - sb; omega
          · exact IH.pos r hr
        · have := (IH.cover r.1).mpr ⟨r, hr, Nat.le_refl _, by have := IH.pos r hr; omega⟩
          show sb + (te - sb) < r.1
          omega
        · constructor
          · rintro ⟨i1, i2, i3⟩
            by_cases c3 : i < te
            · refine ⟨(sb, te - sb), List.mem_cons_self .., ?_, by show i < sb + (te - sb); omega⟩
              show sb ≤ i
              rcases Nat.lt_or_ge i sb with h | h
              · have := s3 i i1 h; omega
              · exact h
            · by_cases c4 : i = te
              · have := (t4 (by omega)).1
                rw [← c4] at this
                omega
              · obtain ⟨r, hr, h⟩ := (IH.cover i).mp ⟨by omega, i2, i3⟩
                exact ⟨r, List.mem_cons_of_mem _ hr, h⟩
          · rintro ⟨r, hr, h⟩
            rcases List.mem_cons.mp hr with rfl | hr
            · simp only at h
              refine ⟨by omega, by omega, ?_⟩
              by_cases c3 : i = sb
              · rw [c3]; exact s5
              · exact t3 i (by omega) (by omega)
            · have := (IH.cover i).mpr ⟨r, hr, h⟩
              exact ⟨by omega, this.2⟩

/-- the ranges of the sequence are the maximal runs of the blocks whose draw was below the probability -/
theorem sequence_exact (coin : Nat → Nat) (prob fin : Nat) (hf : fin + 1 < 2 ^ 32) :
    Rng.Exactly (fun b => b < fin ∧ coin b < prob) (sequence coin prob fin fin 0 0) :=
  (sequence_from coin prob fin hf fin 0 0 (fun _ => rfl) (by omega) (by omega)).congr fun i => ⟨fun h => h.2, fun h => ⟨Nat.zero_le _, h⟩⟩

/-- Without the bound it is false: for 2^32 - 1 blocks a run that ends with the last block is followed by the first block again. -/
theorem sequence_wrap_refuted (fin : Nat) (hf : fin + 1 = 2 ^ 32) : ∃ rest, sequence (fun _ => 0) 10 fin fin 0 0 = (0, fin) :: (0, fin) :: rest := by
  have one : ∀ (fuel k : Nat), sequence (fun _ => 0) 10 fin (fuel + 1) k 0 =
      (0, fin) :: sequence (fun _ => 0) 10 fin fuel ((extend (fun _ => 0) 10 fin fin (k + 1) 1).1) 0 := by
    intro fuel k
    have hs : skipTo (fun _ => 0) 10 fin fin k 0 = (k + 1, 0) := by
      obtain ⟨m, hm⟩ : ∃ m, fin = m + 1 := ⟨fin - 1, by omega⟩
      rw [show skipTo (fun _ => 0) 10 fin fin k 0 = skipTo (fun _ => 0) 10 fin (m + 1) k 0 by rw [hm]]
      unfold skipTo
      rw [if_pos (by omega), if_neg (by decide)]
    have he : ∀ (f k e : Nat), e ≤ fin → fin ≤ e + f → (extend (fun _ => 0) 10 fin f k e).2 = fin := by
      intro f
      induction f with
      | zero => intro k e h1 h2; show e = fin; omega
      | succ f ih =>
        intro k e h1 h2
        unfold extend
        by_cases c : e < fin
        · rw [if_pos c, if_pos (by decide)]; exact ih _ _ (by omega) (by omega)
        · rw [if_neg c]; show e = fin; omega
    rw [sequence, if_neg (by omega)]
    simp only
    rw [hs, if_neg (by show ¬ 0 = fin; omega)]
    show (0, (extend (fun _ => 0) 10 fin fin (k + 1) 1).2 - 0) :: sequence _ _ _ _ _ (((extend (fun _ => 0) 10 fin fin (k + 1) 1).2 + 1) % 2 ^ 32) = _
    rw [he fin (k + 1) 1 (by omega) (by omega), hf, Nat.mod_self, Nat.sub_zero]
  obtain ⟨m, hm⟩ : ∃ m, fin = m + 1 + 1 := ⟨fin - 2, by omega⟩
  rw [show sequence (fun _ => 0) 10 fin fin 0 0 = sequence (fun _ => 0) 10 fin (m + 1 + 1) 0 0 by rw [← hm], one, one]
  exact ⟨_, rfl⟩

/-! ## The document -/

/-- the superblock that is asked for -/
def eraSb (p : EraParams) : ESb := { uuid := [], blockSize := p.blockSize, nrBlocks := p.nrBlocks, currentEra := p.currentEra }

/-- **C72**: whatever the draws, a document that is generated describes an era device as asked for. -/
theorem eraGen_exact_partial (p : EraParams) (hn : p.nrBlocks + 1 < 2 ^ 32) (hc : p.currentEra + 1 < 2 ^ 32) (coin : Nat → Nat → Nat) (draw : Nat → Nat) (es : List EEv)
    (h : eraGen p coin draw = some es) :
    ∃ sets eras, es = eraDoc (eraSb p) sets eras ∧ EraSpec p coin draw sets eras := by
  unfold eraGen at h
  by_cases c1 : p.currentEra < 1
  · rw [if_pos c1] at h; cases h
  rw [if_neg c1] at h
  by_cases c2 : p.currentEra < p.nrWritesets
  · rw [if_pos c2] at h; cases h
  rw [if_neg c2] at h
  by_cases c3 : eraLow p = 0 ∧ p.nrBlocks ≠ 0
  · rw [if_pos c3] at h; cases h
  rw [if_neg c3] at h
  cases h
  have hlow : eraLow p = p.currentEra - p.nrWritesets + 1 := Nat.mod_eq_of_lt (by omega)
  rw [Nat.mod_eq_of_lt hc, hlow, show p.currentEra + 1 - (p.currentEra - p.nrWritesets + 1) = p.nrWritesets by omega]
  refine ⟨(List.range' (p.currentEra - p.nrWritesets + 1) p.nrWritesets).map fun e => (e, p.nrBlocks, sequence (coin e) 10 p.nrBlocks p.nrBlocks 0 0),
    (List.range p.nrBlocks).map fun b => (b, draw b), ?_, ⟨?_, ?_, ?_, ?_, rfl⟩⟩
  · unfold eraDoc eraEvents
    rw [List.flatMap_map, List.map_map]
    simp only [List.append_assoc, List.cons_append, List.nil_append]
    rfl
  · rw [List.length_map, List.length_range']
  · intro i w hw
    rw [List.getElem?_map] at hw
    cases e : (List.range' (p.currentEra - p.nrWritesets + 1) p.nrWritesets)[i]? with
    | none => rw [e] at hw; cases hw
    | some x =>
      rw [e] at hw
      cases hw
      obtain ⟨hi, hx⟩ := List.getElem?_eq_some_iff.mp e
      rw [List.getElem_range'] at hx
      show x + _ = _
      omega
  · intro w hw
    obtain ⟨e, _, rfl⟩ := List.mem_map.mp hw
    rfl
  · intro w hw
    obtain ⟨e, _, rfl⟩ := List.mem_map.mp hw
    exact sequence_exact (coin e) 10 p.nrBlocks hn

/-- and it is generated whenever the parameters make sense -/
theorem eraGen_total (p : EraParams) (h1 : 0 < p.currentEra) (h2 : p.nrWritesets ≤ p.currentEra) (hc : p.currentEra + 1 < 2 ^ 32) (coin : Nat → Nat → Nat) (draw : Nat → Nat) :
    ∃ es, eraGen p coin draw = some es := by
  unfold eraGen
  have hlow : eraLow p = p.currentEra - p.nrWritesets + 1 := Nat.mod_eq_of_lt (by omega)
  rw [if_neg (by omega), if_neg (by omega), if_neg (by omega)]
  exact ⟨_, rfl⟩

/-- The claim without the bound on the era is false: for the last era no writeset is generated, whatever their number. -/
theorem eraGen_last_refuted (p : EraParams) (hc : p.currentEra + 1 = 2 ^ 32) (h0 : 0 < p.nrWritesets) (hw : p.nrWritesets ≤ p.currentEra) (coin : Nat → Nat → Nat)
    (draw : Nat → Nat) : eraGen p coin draw = some (eraDoc (eraSb p) [] ((List.range p.nrBlocks).map fun b => (b, draw b))) := by
  unfold eraGen
  have hlow : eraLow p = p.currentEra - p.nrWritesets + 1 := Nat.mod_eq_of_lt (by omega)
  rw [if_neg (by omega), if_neg (by omega), if_neg (by omega)]
  simp only
  rw [hc, Nat.mod_self, Nat.zero_sub]
  unfold eraDoc eraEvents
  rw [List.map_map]
  simp only [List.append_assoc, List.cons_append, List.nil_append]
  rfl

/-! ## What is written -/

/-- `superblock_e` finishes the restored metadata; the end of the document changes nothing -/
theorem restore_eof {cfg : EraT.Cfg} {es : List EEv} {dev : ASt Nat} {r : EraT.RSt} (h : EraT.restore cfg (es ++ [.eof]) dev = .ok r) :
    EraT.restore cfg es dev = .ok r := by
  unfold EraT.restore at h ⊢
  rw [EraT.run_append] at h
  cases e : EraT.run cfg es (EraT.RSt.new dev) with
  | error x => rw [e] at h; cases h
  | ok s =>
    rw [e] at h
    simp only [EraT.run, EraT.step] at h
    by_cases c : s.sect = .finalized
    · rw [if_pos c] at h; exact h
    · rw [if_neg c] at h; cases h

/-- **C72**: if no run of marked blocks crosses a word, what is generated is written unless there is no space; it passes `era_check`, and the marked blocks are
those that were drawn.  (`draw` is what `gen_range(0..era_low)` returns.) -/
theorem eraGen_check_partial {epb : Nat} {cfg : EraT.Cfg} {n max : Nat} (hc : CfgOk cfg n) (hz : CacheM.SmSize epb n) (hw : cfg.writeSm = CacheM.smWriter epb) {dev : ASt Nat}
    (hdev : New n max dev) (p : EraParams) (h0 : 0 < p.nrBlocks) (hn : p.nrBlocks + cfg.epb4 ≤ 2 ^ 32) (hn1 : p.nrBlocks + 1 < 2 ^ 32) (hcur : p.currentEra + 1 < 2 ^ 32)
    (coin : Nat → Nat → Nat) (draw : Nat → Nat) (hdraw : ∀ b, draw b + p.nrWritesets < p.currentEra + 1)
    (hrun : ∀ e b, (b + 1) % 64 = 0 → ¬ (coin e b < 10 ∧ coin e (b + 1) < 10))
    (es : List EEv) (h : eraGen p coin draw = some es) :
    RPost (EraT.restore cfg (es ++ [.eof]) dev) (fun r => EraT.restore cfg es dev = .ok r ∧ EraC.check false (imageOf cfg n r) = none ∧
      ∃ sets eras, EraSpec p coin draw sets eras ∧ es = eraDoc (eraSb p) sets eras ∧
        ∀ w ∈ sets, ∀ b, EraR.bitAt (arrayOf (pushesW w.2.2)) b = true ↔ b < p.nrBlocks ∧ coin w.1 b < 10) := by
  obtain ⟨sets, eras, rfl, hspec⟩ := eraGen_exact_partial p hn1 hcur coin draw es h
  have hsm := EraT.smWriter_sm hz max hw
  have hfit : ∀ w ∈ sets, (∀ q ∈ pushesW w.2.2, q.1 < divUp w.2.1 64) ∧ ∀ i, EraR.bitAt (arrayOf (pushesW w.2.2)) i = true ↔ EraR.Marked w.2.2 i := by
    intro w hw'
    have hx := hspec.marked w hw'
    rw [hspec.bits w hw']
    refine EraT.pushesW_inWord h0 (by omega) (fun r hr => ?_) (hx.sep.imp fun h => by omega)
    have hp := hx.pos r hr
    have hlast := (hx.cover (r.1 + r.2 - 1)).mpr ⟨r, hr, by omega, by omega⟩
    refine ⟨⟨hp, ?_⟩, by omega⟩
    have hin : ∀ k, k < r.2 → r.1 / 64 = (r.1 + k) / 64 := by
      intro k
      induction k with
      | zero => intro _; rfl
      | succ k ih =>
        intro hk
        rw [ih (by omega)]
        have a1 := (hx.cover (r.1 + k)).mpr ⟨r, hr, by omega, by omega⟩
        have a2 := (hx.cover (r.1 + k + 1)).mpr ⟨r, hr, by omega, by omega⟩
        have := hrun w.1 (r.1 + k)
        have h3 : (r.1 + k + 1) % 64 ≠ 0 := fun h => this h ⟨a1.2, a2.2⟩
        omega
    rw [hin (r.2 - 1) (by omega), show r.1 + (r.2 - 1) = r.1 + r.2 - 1 by omega]
  have hsorted : Bld.Sorted eras := by
    rw [hspec.eras]
    exact List.pairwise_map.mpr List.pairwise_lt_range
  have hacc := EraT.restore_accepts hc hsm hdev (eraSb p) (sets := sets) (eras := eras) (fun w hw' => (hfit w hw').1) hsorted (fun e he => by
    rw [hspec.eras] at he
    obtain ⟨b, hb, rfl⟩ := List.mem_map.mp he
    exact List.mem_range.mp hb)
  refine EraT.RPost.with hacc fun r hr => ?_
  have hdoc := EraT.docOf_eraDoc (eraSb p) sets eras
  refine ⟨restore_eof hr, ?_, sets, eras, hspec, rfl, fun w hw' b => ?_⟩
  · refine (EraT.restore_check hc hsm hdev hr (sb := eraSb p) (by rw [hdoc]) (fun w hw' => ?_) hn).mpr (fun e he => ?_)
    · rw [hdoc] at hw'
      rw [hspec.bits w hw']
      omega
    · rw [hdoc] at he
      have he' : e ∈ eras := he
      rw [hspec.eras] at he'
      obtain ⟨b, hb, rfl⟩ := List.mem_map.mp he'
      have := hdraw b
      show draw b ≤ p.currentEra
      omega
  · rw [(hfit w hw').2 b]
    exact ((hspec.marked w hw').cover b).symm

/-! ## Examples -/

def eraDemo : EraParams := { blockSize := 128, nrBlocks := 200, currentEra := 7, nrWritesets := 2 }

/-- blocks 0, 1, 2, 64 and 199 are drawn for era 6, none for era 7 -/
def eraCoin (e b : Nat) : Nat := if e = 6 ∧ (b < 3 ∨ b = 64 ∨ b = 199) then 9 else 10

example : (eraGen eraDemo eraCoin (fun b => b % 6)).map (fun es => es.take 9) =
    some [.sbB (eraSb eraDemo), .wsB 6 200, .blocks 0 3, .blocks 64 1, .blocks 199 1, .wsE, .wsB 7 200, .wsE, .eraB] := by decide +kernel

/-- the hypotheses of `eraGen_check_partial` hold -/
example : (∀ b, b % 6 + eraDemo.nrWritesets < eraDemo.currentEra + 1) ∧ ∀ e b, (b + 1) % 64 = 0 → ¬ (eraCoin e b < 10 ∧ eraCoin e (b + 1) < 10) := by
  refine ⟨fun b => ?_, fun e b h => ?_⟩
  · show b % 6 + 2 < 7 + 1; omega
  · rintro ⟨h1, h2⟩
    unfold eraCoin at h1 h2
    by_cases c1 : e = 6 ∧ (b < 3 ∨ b = 64 ∨ b = 199)
    · omega
    · rw [if_neg c1] at h1; omega

/-- and it is generated, restored and checked -/
example : (eraGen eraDemo eraCoin (fun b => b % 6)).map (fun es =>
    match EraT.restore EraT.smallCfg es EraT.smallDev with
    | .ok r => some (EraC.check false (imageOf EraT.smallCfg 60 r))
    | .error _ => none) = some (some none) := by decide +kernel

/-- two neighbouring blocks of different words, at the end of the device: the generator fails -/
theorem eraGen_crossing_refuted : (eraGen { eraDemo with nrBlocks := 128 } (fun _ b => if b = 63 ∨ b = 64 then 0 else 50) (fun _ => 1)).map (fun es =>
    match EraT.restore EraT.smallCfg es EraT.smallDev with
    | .ok _ => true
    | .error _ => false) = some false := by decide +kernel

/-- the same on a larger device: it is written, and blocks 65 to 191 are marked too, none of which was drawn -/
theorem eraGen_spurious_refuted : sequence (fun b => if b = 63 ∨ b = 64 then 0 else 50) 10 200 200 0 0 = [(63, 2)] ∧
    (List.range 200).filter (EraR.bitAt (arrayOf (pushesW [(63, 2)]))) = List.range' 63 129 := by decide +kernel

end Verif.Gen
