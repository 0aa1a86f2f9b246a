import Verif.Prop.CacheRestoreImage
import Verif.Model.EraTool

/-!
# C83 for `era_restore`
-/

namespace Verif.RTr

open Verif.Arr (ASt AB AErr)
open Verif.CacheM (RErr)
open Verif.EraT (Cfg RSt)

theorem pushList_own {era : Bool} {a0 : A Cell} (w : Nat) (hw : w = 4 ∨ w = 8) : ∀ (qs : List (Nat × Nat)) (ab : AB Nat) (s : ASt Nat) (r : AB Nat × ASt Nat), OwnA era a0 s →
    Arr.pushList qs ab s = .ok r → OwnA era a0 r.2 := by
  intro qs
  induction qs with
  | nil => intro ab s r h e; cases e; exact h
  | cons q qs ih =>
    obtain ⟨i, v⟩ := q
    intro ab s r h e
    unfold Arr.pushList at e
    split at e
    · cases e
    · rename_i ab' t hb
      exact ih _ _ _ (push_own w hw h hb) e

theorem eraPush_own {era : Bool} {a0 : A Cell} (w : Nat) (hw : w = 4 ∨ w = 8) {qs : List (Nat × Nat)} {b : Option (AB Nat)} {s : ASt Nat} (h : OwnA era a0 s) {r : AB Nat × ASt Nat}
    (e : EraT.pushAll qs b s = .ok r) : OwnA era a0 r.2 ∧ b.isSome = true := by
  unfold EraT.pushAll at e
  cases b with
  | none => cases e
  | some ab =>
    simp only at e
    split at e
    · cases e
    · rename_i q hq
      cases e
      exact ⟨pushList_own w hw _ _ _ _ h hq, rfl⟩

theorem eraComplete_own {era : Bool} {a0 : A Cell} (w : Nat) (hw : w = 4 ∨ w = 8) {cfg : Cfg} {ab : AB Nat} {s : ASt Nat} (h : OwnA era a0 s) {r : Nat × ASt Nat}
    (e : EraT.complete cfg ab s = .ok r) : OwnA era a0 r.2 := by
  unfold EraT.complete at e
  split at e
  · cases e
  · rename_i q hq
    cases e
    exact completeArray_own w hw h hq

theorem buildSets_own {a0 : A Cell} {cfg : Cfg} {sets : List (Nat × Nat)} {s : ASt Nat} (h : OwnA true a0 s) {r : Nat × ASt Nat}
    (e : EraT.buildSets cfg sets s = .ok r) : OwnA true a0 r.2 := by
  unfold EraT.buildSets at e
  split at e
  · cases e
  · rename_i root t ht
    cases e
    have h12 : Own (view3 true 12 (.inr ⟨rfl, rfl⟩) s.arr) a0 [] [] s.bt := h
    have := buildVals_own (io := Bld.leafIO (fun _ => []) (fun _ _ => true)) (fun i hi => ?_) h12 _ ht
    · exact this
    · obtain ⟨x, -, rfl⟩ := List.mem_map.mp hi
      exact ⟨_, _, rfl⟩

/-- before and within the superblock -/
inductive HistE (a0 : A Cell) (dev : ASt Nat) : RSt → Prop where
  | fresh : HistE a0 dev (RSt.new dev)
  | opened {r : RSt} : OwnA true a0 r.dev → r.out = none → r.sect ≠ .none → r.sect ≠ .finalized → HistE a0 dev r

/-- everything but the end of the superblock -/
theorem eraStep_own {n max : Nat} (hn0 : 0 < n) {cfg : Cfg} {dev : ASt Nat} (hd : dev = ⟨⟨fun _ => none, SM.Core.new max n, [], []⟩, fun _ => none⟩) {s : RSt}
    (h : HistE (begun max n) dev s) (ev : Xml.EEv) (hev : ev ≠ .sbE) {t : RSt} (e : EraT.step cfg s ev = .ok t) : HistE (begun max n) dev t := by
  have setSect : ∀ (x y : EraT.Section), x ≠ .none → y ≠ .none → y ≠ .finalized → s.sect = x → HistE (begun max n) dev { s with sect := y } := by
    intro x y h1 h2 h3 h4
    cases h with
    | fresh => exact absurd h4.symm h1
    | opened a b _ _ => exact .opened a b h2 h3
  cases ev with
  | sbE => exact absurd rfl hev
  | sbB sb =>
    have e : EraT.superblockB cfg sb s = .ok t := e
    unfold EraT.superblockB at e
    split at e
    · cases e
    · rename_i hs
      cases h with
      | opened _ _ h3 => exact absurd h3 hs
      | fresh =>
        subst hd
        split at e
        · cases e
        · rename_i b bt hb
          split at e
          · cases e
          · cases e
            refine .opened ?_ rfl (by simp [EraT.begun]) (by simp [EraT.begun])
            obtain ⟨sm, hs', -⟩ := RIo.reserve_some (D := Unit) ⟨0, fun _ => ()⟩ 0 n max hn0
            have hb' : Bld.alloc (V := Nat) ⟨fun _ => none, SM.Core.new max n, [], []⟩ = .ok (b, bt) := hb
            have hbt : bt.sm = (SM.Core.new max n).alloc.1 ∧ bt.mem = fun _ => none := by
              unfold Bld.alloc at hb'
              simp only [hs'] at hb' ⊢
              cases hb'
              exact ⟨rfl, rfl⟩
            refine ⟨RTr.begun max n, .refl _, hbt.1.symm, ?_, fun b hb => (by cases hb), fun m hm => (by cases hm)⟩
            intro x
            refine ⟨?_, fun _ vs hvs => (by cases hvs)⟩
            show ∀ n, bt.mem x = some n → _
            rw [hbt.2]
            intro n hn
            cases hn
  | wsB era bits =>
    have e : EraT.writesetB cfg era bits s = .ok t := e
    unfold EraT.writesetB at e
    split at e
    · cases e
    · rename_i hs
      cases e
      cases h with
      | fresh => exact absurd (fun h => by cases h) hs
      | opened a b _ _ => exact .opened a b (by simp) (by simp)
  | wsE =>
    have e : EraT.writesetE cfg s = .ok t := e
    unfold EraT.writesetE at e
    split at e
    · cases e
    · rename_i hs
      cases h with
      | fresh => exact absurd (fun h => by cases h) hs
      | opened a b _ _ =>
        split at e
        · split at e
          · cases e
          · rename_i ab' d1 h1
            split at e
            · cases e
            · rename_i root d2 h2
              cases e
              exact .opened (eraComplete_own 8 (.inr rfl) (eraPush_own 8 (.inr rfl) a h1).1 h2) b (by simp [EraT.closed]) (by simp [EraT.closed])
        · cases e
  | blocks b len =>
    have e : EraT.writesetBlocks b len s = .ok t := e
    unfold EraT.writesetBlocks at e
    simp only at e
    split at e
    · cases e
    · rename_i ab d1 h1
      cases e
      cases h with
      | fresh => cases h1
      | opened a b' c d => exact .opened (eraPush_own 8 (.inr rfl) a h1).1 b' c d
  | eraB => simp only [EraT.step] at e; split at e <;> cases e; exact setSect .superblock .eraArray (by decide) (by decide) (by decide) (by assumption)
  | eraE => simp only [EraT.step] at e; split at e <;> cases e; exact setSect .eraArray .superblock (by decide) (by decide) (by decide) (by assumption)
  | era b v =>
    have e : EraT.era b v s = .ok t := e
    unfold EraT.era at e
    split at e
    · cases e
    · rename_i ab d1 h1
      cases e
      cases h with
      | fresh => cases h1
      | opened a b' c d => exact .opened (eraPush_own 4 (.inl rfl) a h1).1 b' c d
  | eof =>
    simp only [EraT.step] at e
    split at e
    · rename_i hs
      cases h with
      | fresh => cases hs
      | opened _ _ _ d => exact absurd hs d
    · cases e

theorem eraFinalize_own {n max : Nat} (hn0 : 0 < n) (hn : n < 2 ^ 64) (hm : 1 ≤ max) {epb : Nat} {cfg : Cfg} (hc : cfg.writeSm = CacheM.smWriter epb)
    {s : RSt} (h : OwnA true (begun max n) s.dev) {t : RSt} (e : EraT.finalize cfg s = .ok t) :
    ∃ a, Tr (begun max n) a ∧ InMemC true t.sm t.dev a.mem := by
  unfold EraT.finalize at e
  split at e
  · cases e
  · split at e
    · cases e
    · rename_i tree d1 h1
      have o1 := buildSets_own h h1
      split at e
      · cases e
      · split at e
        · cases e
        · rename_i eras d2 h2
          have o2 := eraComplete_own 4 (.inl rfl) o1 h2
          split at e
          · cases e
          · rename_i smRoot sm d3 h3
            cases e
            rw [hc] at h3
            exact smWriter_own hn0 hn hm o2 h3

/-- the steps of an `era_restore` lead to its metadata -/
theorem era_trace {n max : Nat} (hn0 : 0 < n) (hn : n < 2 ^ 64) (hm : 1 ≤ max) {epb : Nat} {cfg : Cfg} (hc : cfg.writeSm = CacheM.smWriter epb)
    (doc : List Xml.EEv) (hdoc : Xml.EEv.sbE ∉ doc) {r : RSt} (h : EraT.restore cfg (doc ++ [.sbE, .eof]) ⟨⟨fun _ => none, SM.Core.new max n, [], []⟩, fun _ => none⟩ = .ok r) :
    ∃ a, Tr (begun max n) a ∧ InMemC true r.sm r.dev a.mem := by
  have key : ∀ (doc : List Xml.EEv) (s : RSt), Xml.EEv.sbE ∉ doc → HistE (begun max n) ⟨⟨fun _ => none, SM.Core.new max n, [], []⟩, fun _ => none⟩ s →
      EraT.run cfg (doc ++ [.sbE, .eof]) s = .ok r → ∃ a, Tr (begun max n) a ∧ InMemC true r.sm r.dev a.mem := by
    intro doc
    induction doc with
    | nil =>
      intro s _ h e
      simp only [List.nil_append, EraT.run] at e
      split at e
      · cases e
      · rename_i s1 h1
        have h1 : EraT.finalize cfg s = .ok s1 := h1
        split at e
        · cases e
        · rename_i s2 h2
          cases e
          have : r = s1 := by
            simp only [EraT.step] at h2
            split at h2 <;> cases h2
            rfl
          subst this
          cases h with
          | fresh => cases h1
          | opened a _ _ _ => exact eraFinalize_own hn0 hn hm hc a h1
    | cons ev doc ih =>
      intro s hd h e
      simp only [List.cons_append] at e
      unfold EraT.run at e
      split at e
      · cases e
      · rename_i s' hs'
        exact ih s' (fun hx => hd (List.mem_cons_of_mem _ hx)) (eraStep_own hn0 rfl h ev (fun hx => hd (by simp [hx])) hs') e
  exact key doc _ hdoc .fresh h

open Verif.RIo (Op restore Crash)
open Verif.Batch (Resp)

section
variable {D K : Type} {stamp : K → D → Option D}

/-- the device holds era metadata: superblock, index trees and the tree of writesets (values of 8 or 12 bytes), array blocks
(of 4 or 8 byte values) and space map -/
structure HoldsE (fin : Cell → D) (enc : Era.Superblock → D) (sb : Era.Superblock) (r : RSt) (dk : Batch.Disk D) : Prop where
  sb : dk.data 0 = enc sb
  nodes : ∀ b x, r.dev.bt.mem b = some x → ∃ w, (w = 8 ∨ w = 12) ∧ dk.data b = fin (.inode w x)
  arrays : ∀ b vs, r.dev.readArr b = some vs → ∃ w, (w = 4 ∨ w = 8) ∧ dk.data b = fin (.arr w vs)
  smNodes : ∀ b x, r.sm.nodes b = some x → r.sm.index b = none → dk.data b = fin (.smNode x)
  bitmaps : ∀ b x, r.sm.bitmaps b = some x → r.sm.index b = none → dk.data b = fin (.bitmap x)
  index : ∀ b x, r.sm.index b = some x → dk.data b = fin (.index x)

/-- C83 for `era_restore`, for documents with one superblock, as XML nesting makes them -/
theorem era_restore_on_device (code : Cell → D × K) (fin : Cell → D) (hst : ∀ c, stamp (code c).2 (code c).1 = some (fin c)) (enc : Era.Superblock → D)
    {n max : Nat} (hn0 : 0 < n) (hn : n < 2 ^ 64) (hm : 1 ≤ max) {epb : Nat} {cfg : Cfg} (hc : cfg.writeSm = CacheM.smWriter epb)
    (doc : List Xml.EEv) (hdoc : Xml.EEv.sbE ∉ doc) {r : RSt} (h : EraT.restore cfg (doc ++ [.sbE, .eof]) ⟨⟨fun _ => none, SM.Core.new max n, [], []⟩, fun _ => none⟩ = .ok r)
    {sb : Era.Superblock} (_hs : r.out = some sb) :
    ∃ body : List (Op D K), (∀ o ∈ body, o.Good) ∧ ∀ (d : Batch.Disk D) (bs : Nat), n ≤ d.nr →
      (∀ last, (restore stamp d bs n max body Resp.good (enc sb) ⟨true, true⟩ last).2 = true ∧
        HoldsE fin enc sb r (restore stamp d bs n max body Resp.good (enc sb) ⟨true, true⟩ last).1) ∧
      ∀ dk, Crash stamp d bs n max body (enc sb) dk → dk.data 0 = d.data 0 ∨ HoldsE fin enc sb r dk := by
  obtain ⟨a, tr, mem⟩ := era_trace hn0 hn hm hc doc hdoc h
  obtain ⟨body, hg, hrun⟩ := trace_on_device code fin hst hn0 hn hm tr mem.zero
  have holds : ∀ dk : Batch.Disk D, (dk.data 0 = enc sb ∧ ∀ b c, a.mem b = some c → dk.data b = fin c) → HoldsE fin enc sb r dk := by
    intro dk ⟨h0, hk⟩
    refine ⟨h0, ?_, ?_, fun b x hx hi => hk _ _ (mem.smNodes b x hx hi), fun b x hx hi => hk _ _ (mem.bitmaps b x hx hi), fun b x hx => hk _ _ (mem.index b x hx)⟩
    · intro b x hx
      obtain ⟨w, hw, e⟩ := mem.nodes b x hx
      exact ⟨w, hw.imp id (fun h => h.2), hk _ _ e⟩
    · intro b vs hv
      obtain ⟨w, hw, e⟩ := mem.arrays b vs hv
      exact ⟨w, hw, hk _ _ e⟩
  refine ⟨body, hg, fun d bs hd => ?_⟩
  obtain ⟨h1, h2⟩ := hrun d bs hd (enc sb)
  refine ⟨fun last => ⟨(h1 last).1, holds _ (h1 last).2⟩, fun dk hc => ?_⟩
  rcases h2 dk hc with hc | hc
  · exact .inl hc
  · exact .inr (holds _ hc)

end

end Verif.RTr
