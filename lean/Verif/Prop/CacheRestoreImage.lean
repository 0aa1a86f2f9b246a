import Verif.Prop.RestoreImage
import Verif.Model.CacheRestore

/-!
# C83: what `cache_restore` builds reaches the device

As `Prop/RestoreImage.lean`, for the array builders and the restorer of caches.
-/

namespace Verif.RTr

open Verif.Bld (St Err NB NIO Summary Item IfOk)
open Verif.Arr (ASt AB AErr)
open Verif.CacheM (RSt Cfg RErr)

/-- the values of a tree have eight bytes, but for the tree of writesets (`src/era/writeset.rs:9-28`), which have twelve -/
def Leaf (era : Bool) (w : Nat) : Prop := w = 8 ∨ (era = true ∧ w = 12)

/-- nodes of index trees, and array blocks -/
def view3 (era : Bool) (w : Nat) (hw : Leaf era w) (arr : Nat → Option (List Nat)) : View Cell Nat where
  node := .inode w
  rel := fun b c m => (∀ n, m = some n → ∃ w, Leaf era w ∧ c = some (.inode w n)) ∧ (m = none → ∀ vs, arr b = some vs → ∃ w, (w = 4 ∨ w = 8) ∧ c = some (.arr w vs))
  new := fun _ _ => ⟨fun _ h => by cases h; exact ⟨w, hw, rfl⟩, fun h => by cases h⟩

/-- the device of the array builders -/
def OwnA (era : Bool) (a0 : A Cell) (s : ASt Nat) : Prop := Own (view3 era 8 (.inl rfl) s.arr) a0 [] [] s.bt

theorem writeArr_own {era : Bool} {a0 : A Cell} {vs : List Nat} {s : ASt Nat} (w : Nat) (hw : w = 4 ∨ w = 8) (h : OwnA era a0 s) {r : Nat × ASt Nat} (e : Arr.writeArr vs s = .ok r) : OwnA era a0 r.2 := by
  unfold Arr.writeArr at e
  cases ha : Bld.alloc s.bt with
  | error x => rw [ha] at e; cases e
  | ok q =>
    rw [ha] at e
    cases e
    obtain ⟨a, tr, e1, m, u, -⟩ := Own.alloc h ha
    refine ⟨_, tr.snoc (.put (.arr w vs) (u q.1 (by simp))), e1, ?_, fun b hb => (by cases hb), fun b hb => (by cases hb)⟩
    intro x
    simp only [A.put, view3]
    by_cases hx : x = q.1
    · rw [if_pos hx, if_pos hx, if_pos hx]
      exact ⟨fun n h => (by cases h), fun _ es h => (by cases h; exact ⟨w, hw, rfl⟩)⟩
    · rw [if_neg hx, if_neg hx, if_neg hx]
      exact m x

theorem emitBlock_own {era : Bool} {a0 : A Cell} {ab : AB Nat} {s : ASt Nat} (w : Nat) (hw : w = 4 ∨ w = 8) (h : OwnA era a0 s) {r : AB Nat × ASt Nat} (e : Arr.emitBlock ab s = .ok r) :
    OwnA era a0 r.2 := by
  unfold Arr.emitBlock at e
  simp only at e
  split at e
  · cases e
  · rename_i b t hb
    cases e
    exact writeArr_own w hw h hb

theorem emitN_own {era : Bool} {a0 : A Cell} (w : Nat) (hw : w = 4 ∨ w = 8) : ∀ (n : Nat) (ab : AB Nat) (s : ASt Nat) (r : AB Nat × ASt Nat), OwnA era a0 s → Arr.emitN n ab s = .ok r → OwnA era a0 r.2 := by
  intro n
  induction n with
  | zero => intro ab s r h e; cases e; exact h
  | succ n ih =>
    intro ab s r h e
    unfold Arr.emitN at e
    split at e
    · cases e
    · rename_i ab' t hb
      exact ih _ _ _ (emitBlock_own w hw h hb) e

theorem push_own {era : Bool} {a0 : A Cell} {i v : Nat} {ab : AB Nat} {s : ASt Nat} (w : Nat) (hw : w = 4 ∨ w = 8) (h : OwnA era a0 s) {r : AB Nat × ASt Nat} (e : Arr.push i v ab s = .ok r) :
    OwnA era a0 r.2 := by
  unfold Arr.push at e
  simp only at e
  split at e
  · cases e
  · split at e
    · cases e
    · rename_i ab' t hb
      split at e
      · cases e
      · cases e
        have := emitN_own w hw _ _ _ _ h hb
        exact this

theorem completeArray_own {era : Bool} {a0 : A Cell} {capL capI : Nat} {ab : AB Nat} {s : ASt Nat} (w : Nat) (hw : w = 4 ∨ w = 8) (h : OwnA era a0 s) {r : Nat × ASt Nat}
    (e : Arr.completeArray capL capI ab s = .ok r) : OwnA era a0 r.2 := by
  unfold Arr.completeArray at e
  split at e
  · cases e
  · rename_i blocks t hb
    unfold Arr.completeBlocks at hb
    split at hb
    · cases hb
    · rename_i ab' t' hb'
      cases hb
      have ht := emitN_own w hw _ _ _ _ h hb'
      split at e
      · cases e
      · rename_i root u hu
        cases e
        refine buildVals_own (w := view3 era 8 _ _) (io := Bld.leafIO (fun _ => []) (fun _ _ => true)) ?_ ht _ hu
        intro i hi
        unfold Arr.indexItems at hi
        obtain ⟨x, -, rfl⟩ := List.mem_map.mp hi
        exact ⟨_, _, rfl⟩

theorem pushInto_own {era : Bool} {a0 : A Cell} {i v : Nat} {b : Option (AB Nat)} {s : ASt Nat} (w : Nat) (hw : w = 4 ∨ w = 8) (h : OwnA era a0 s) {r : AB Nat × ASt Nat}
    (e : CacheM.pushInto i v b s = .ok r) : OwnA era a0 r.2 ∧ b.isSome = true := by
  unfold CacheM.pushInto at e
  cases b with
  | none => cases e
  | some ab =>
    simp only at e
    split at e
    · cases e
    · rename_i q hq
      cases e
      exact ⟨push_own w hw h hq, rfl⟩

theorem completeOpt_own {era : Bool} {a0 : A Cell} {cfg : Cfg} {b : Option (AB Nat)} {old : Option Nat} {s : ASt Nat} (w : Nat) (hw : w = 4 ∨ w = 8) (h : OwnA era a0 s) {r : Option Nat × ASt Nat}
    (e : CacheM.completeOpt cfg b old s = .ok r) : OwnA era a0 r.2 := by
  unfold CacheM.completeOpt at e
  cases b with
  | none => cases e; exact h
  | some ab =>
    simp only at e
    split at e
    · cases e
    · rename_i root t hq
      cases e
      exact completeArray_own w hw h hq

theorem completeDirty_own {era : Bool} {a0 : A Cell} {cfg : Cfg} {s : RSt} (h : OwnA era a0 s.dev) {r : Option Nat × ASt Nat} (e : CacheM.completeDirty cfg s = .ok r) : OwnA era a0 r.2 := by
  unfold CacheM.completeDirty at e
  split at e
  · cases e; exact h
  · split at e
    · cases e
    · rename_i ab t hq
      exact completeOpt_own 8 (.inr rfl) (push_own 8 (.inr rfl) h hq) e

/-- the metadata of a cache is in memory `m`, outside block 0 -/
structure InMemC (era : Bool) (sm : CacheM.SmImage) (dev : ASt Nat) (m : Nat → Option Cell) : Prop where
  zero : m 0 = none
  nodes : ∀ b x, dev.bt.mem b = some x → ∃ w, Leaf era w ∧ m b = some (.inode w x)
  arrays : ∀ b vs, dev.readArr b = some vs → ∃ w, (w = 4 ∨ w = 8) ∧ m b = some (.arr w vs)
  smNodes : ∀ b x, sm.nodes b = some x → sm.index b = none → m b = some (.smNode x)
  bitmaps : ∀ b x, sm.bitmaps b = some x → sm.index b = none → m b = some (.bitmap x)
  index : ∀ b x, sm.index b = some x → m b = some (.index x)

/-- before, during and after the superblock -/
inductive HistC (a0 : A Cell) (dev : ASt Nat) (clean : Bool) : RSt → Prop where
  | fresh : HistC a0 dev clean (RSt.new dev clean)
  | opened {r : RSt} : OwnA false a0 r.dev → r.out = none → r.sect ≠ .none → HistC a0 dev clean r
  | done {r : RSt} : (∃ a, Tr a0 a ∧ InMemC false r.sm r.dev a.mem) → r.mapB = none → r.hintB = none → r.sb = none → r.sect = .finalized → HistC a0 dev clean r

/-- the space map writer, after the arrays -/
theorem smWriter_own {n max : Nat} (hn0 : 0 < n) (hn : n < 2 ^ 64) (hm : 1 ≤ max) {epb : Nat} {era : Bool} {s : ASt Nat} (h : OwnA era (begun max n) s)
    {r : Bytes × CacheM.SmImage × ASt Nat} (e : CacheM.smWriter epb s = .ok r) : ∃ a, Tr (begun max n) a ∧ InMemC era r.2.1 r.2.2 a.mem := by
  obtain ⟨a1, tr1, e1, m1, -, -⟩ := h
  obtain ⟨o1, z1⟩ := tr1.out hn (begun_out hn0 hm)
  have h0 : OwnS { a1 with held := [] } [] [] (CacheM.smStart s) :=
    ⟨_, .refl _, e1, fun b => ⟨fun n h => (by cases h), fun _ => ⟨fun es h => (by cases h), fun _ => rfl⟩⟩, fun b hb => (by cases hb), fun b hb => (by cases hb)⟩
  unfold CacheM.smWriter at e
  split at e
  · cases e
  · rename_i root ies S hS
    split at e
    · cases e
    · rename_i bs hbs
      cases e
      obtain ⟨a3, tr3, e3, m3, u3, -⟩ := writeMetadataSm_own h0 _ hS
      have hix := u3 root.bitmap_root (by simp)
      have tr4 := tr3.snoc (.put (.index ies) hix)
      have out0 : Out n max (fun b => b = 0) { a1 with held := [] } := ⟨o1.inv, o1.used, fun b hb => (by cases hb)⟩
      obtain ⟨-, f3⟩ := tr3.out hn out0
      obtain ⟨-, f4⟩ := tr4.out hn out0
      have tr5 := tr4.plus a1.held
      have e5 : A.plus a1.held { a1 with held := [] } = a1 := by unfold A.plus; simp
      rw [e5] at tr5
      -- a block that the space map writer left alone
      have keep : ∀ b, ((S.bt.mem b).isSome || (S.bm b).isSome || b == root.bitmap_root) = false → (A.plus a1.held (a3.put root.bitmap_root (.index ies))).mem b = a1.mem b := by
        intro b hb
        simp only [Bool.or_eq_false_iff, Option.isSome_eq_false_iff, Option.isNone_iff_eq_none, beq_eq_false_iff_ne] at hb
        obtain ⟨⟨hb1, hb2⟩, hb3⟩ := hb
        simp only [A.plus, A.put]
        rw [if_neg hb3]
        exact ((m3 b).2 hb1).2 hb2
      refine ⟨_, tr1.trans tr5, ?_, ?_, ?_, ?_, ?_, ?_⟩
      · exact (f4 0 rfl).trans (z1 0 rfl)
      · intro b x hx
        simp only [CacheM.smOver] at hx
        split at hx
        · cases hx
        · rename_i hc
          rw [keep b (by simpa using hc)]
          exact (m1 b).1 x hx
      · intro b vs hx
        simp only [CacheM.smOver, ASt.readArr, Arr.ASt.readArr] at hx
        split at hx
        · rename_i hmm
          split at hmm
          · rename_i hc
            rw [if_pos hc] at hx
            cases hx
          · rename_i hc
            rw [if_neg hc] at hx
            rw [keep b (by simpa using hc)]
            exact (m1 b).2 hmm vs hx
        · cases hx
      · intro b x hx hi
        have hb : b ≠ root.bitmap_root := by
          intro hb
          simp only [hb, if_true] at hi
          cases hi
        simp only [A.plus, A.put]
        rw [if_neg hb]
        exact (m3 b).1 x hx
      · intro b x hx hi
        have hb : b ≠ root.bitmap_root := by
          intro hb
          simp only [hb, if_true] at hi
          cases hi
        simp only [A.plus, A.put]
        rw [if_neg hb]
        simp only [SMD.SSt.readBm] at hx
        split at hx
        · rename_i hmm
          exact ((m3 b).2 hmm).1 x hx
        · cases hx
      · intro b x hx
        simp only at hx
        split at hx
        · rename_i hb
          cases hx
          simp only [A.plus, A.put]
          rw [if_pos hb]
        · cases hx

theorem finalize_own {n max : Nat} (hn0 : 0 < n) (hn : n < 2 ^ 64) (hm : 1 ≤ max) {epb : Nat} {cfg : Cfg} (hc : cfg.writeSm = CacheM.smWriter epb) {dev : ASt Nat} {clean : Bool}
    {s : RSt} (h : OwnA false (begun max n) s.dev) {t : RSt} (e : CacheM.finalize cfg s = .ok t) : HistC (begun max n) dev clean t := by
  unfold CacheM.finalize at e
  split at e
  · cases e
  · rename_i src hsrc
    split at e
    · cases e
    · rename_i mapRoot d1 h1
      have o1 := completeOpt_own 8 (.inr rfl) h h1
      split at e
      · cases e
      · rename_i dirtyRoot d2 h2
        have o2 := completeDirty_own (s := { s with dev := d1 }) o1 h2
        split at e
        · cases e
        · rename_i hintRoot d3 h3
          have o3 := completeOpt_own 4 (.inl rfl) o2 h3
          split at e
          · cases e
          · rename_i smRoot sm d4 h4
            split at e
            · cases e
              rw [hc] at h4
              exact .done (smWriter_own hn0 hn hm o3 h4) rfl rfl rfl rfl
            · cases e

theorem superblockB_own {n max : Nat} (hn0 : 0 < n) {cfg : Cfg} {dev : ASt Nat} (hd : dev = ⟨⟨fun _ => none, SM.Core.new max n, [], []⟩, fun _ => none⟩) {clean : Bool}
    {sb : CacheM.SbIr} {s : RSt} (h : HistC (begun max n) dev clean s) {t : RSt} (e : CacheM.superblockB cfg sb s = .ok t) : HistC (begun max n) dev clean t := by
  unfold CacheM.superblockB at e
  split at e
  · cases e
  · rename_i hs
    cases h with
    | opened _ _ h3 => exact absurd h3 hs
    | done _ _ _ _ h5 => rw [h5] at hs; exact absurd (by decide) hs
    | fresh =>
      subst hd
      split at e
      · cases e
      · rename_i b bt hb
        split at e
        · cases e
        · rename_i hb0
          split at e
          · cases e
          · rename_i root d2 h2
            cases e
            refine .opened ?_ rfl (by simp)
            refine completeArray_own 8 (.inr rfl) ?_ h2
            obtain ⟨sm, hs', -⟩ := RIo.reserve_some (D := Unit) ⟨0, fun _ => ()⟩ 0 n max hn0
            have hb' : Bld.alloc (V := Nat) ⟨fun _ => none, SM.Core.new max n, [], []⟩ = .ok (b, bt) := hb
            have hbt : bt.sm = (SM.Core.new max n).alloc.1 ∧ bt.mem = fun _ => none := by
              unfold Bld.alloc at hb'
              simp only [hs'] at hb' ⊢
              cases hb'
              exact ⟨rfl, rfl⟩
            refine ⟨begun max n, .refl _, hbt.1.symm, ?_, fun b hb => (by cases hb), fun m hm => (by cases hm)⟩
            intro x
            refine ⟨?_, fun _ vs hvs => (by cases hvs)⟩
            show ∀ n, bt.mem x = some n → _
            rw [hbt.2]
            intro n hn
            cases hn

theorem setDirty_own {a0 : A Cell} {c : Nat} {s : RSt} (h : OwnA false a0 s.dev) {t : RSt} (e : CacheM.setDirty c s = .ok t) :
    OwnA false a0 t.dev ∧ t.out = s.out ∧ t.sect = s.sect := by
  unfold CacheM.setDirty at e
  simp only at e
  split at e
  · cases e; exact ⟨h, rfl, rfl⟩
  · split at e
    · cases e
    · rename_i ab d hq
      cases e
      exact ⟨(pushInto_own 8 (.inr rfl) h hq).1, rfl, rfl⟩

theorem setDirty_map {c : Nat} {s t : RSt} (e : CacheM.setDirty c s = .ok t) : t.mapB = s.mapB := by
  unfold CacheM.setDirty at e
  simp only at e
  split at e
  · cases e; rfl
  · split at e
    · cases e
    · cases e; rfl

theorem mapping_own {a0 : A Cell} {cfg : Cfg} {c o : Nat} {d : Bool} {dev : ASt Nat} {clean : Bool} {s : RSt} (h : HistC a0 dev clean s) {t : RSt}
    (e : CacheM.mapping cfg c o d s = .ok t) : HistC a0 dev clean t := by
  have hmap : s.mapB.isSome = true := by
    unfold CacheM.mapping at e
    simp only at e
    split at e
    · cases e
    · rename_i s' hs'
      have hm : s'.mapB = s.mapB := by
        split at hs'
        · exact setDirty_map hs'
        · cases hs'; rfl
      rw [← hm]
      cases hb : s'.mapB with
      | some _ => rfl
      | none => rw [hb] at e; cases e
  cases h with
  | fresh => cases hmap
  | done _ h2 => rw [h2] at hmap; cases hmap
  | opened h1 h2 h3 =>
    unfold CacheM.mapping at e
    simp only at e
    split at e
    · cases e
    · rename_i s' hs'
      have hm : OwnA false a0 s'.dev ∧ s'.out = s.out ∧ s'.sect = s.sect := by
        split at hs'
        · exact setDirty_own h1 hs'
        · cases hs'; exact ⟨h1, rfl, rfl⟩
      split at e
      · cases e
      · rename_i ab d2 hq
        cases e
        exact .opened (pushInto_own 8 (.inr rfl) hm.1 hq).1 (hm.2.1.trans h2) (by show s'.sect ≠ _; rw [hm.2.2]; exact h3)

theorem hint_own {a0 : A Cell} {c : Nat} {data : Bytes} {dev : ASt Nat} {clean : Bool} {s : RSt} (h : HistC a0 dev clean s) {t : RSt}
    (e : CacheM.hint c data s = .ok t) : HistC a0 dev clean t := by
  unfold CacheM.hint at e
  split at e
  · cases e
  · split at e
    · cases e
    · rename_i ab d2 hq
      cases e
      cases h with
      | fresh => cases hq
      | done _ _ h3 => rw [h3] at hq; cases hq
      | opened h1 h2 h3 => exact .opened (pushInto_own 4 (.inl rfl) h1 hq).1 h2 h3

theorem cacheStep_own {n max : Nat} (hn0 : 0 < n) (hn : n < 2 ^ 64) (hm : 1 ≤ max) {epb : Nat} {cfg : Cfg} (hc : cfg.writeSm = CacheM.smWriter epb)
    {dev : ASt Nat} (hd : dev = ⟨⟨fun _ => none, SM.Core.new max n, [], []⟩, fun _ => none⟩) {clean : Bool} {s : RSt} (h : HistC (begun max n) dev clean s)
    (ev : CacheM.Ev) {t : RSt} (e : CacheM.step cfg s ev = .ok t) : HistC (begun max n) dev clean t := by
  have setSect : ∀ (x y : CacheM.Section), x ≠ .none → x ≠ .finalized → y ≠ .none → s.sect = x → HistC (begun max n) dev clean { s with sect := y } := by
    intro x y h1 h2 h3 h4
    cases h with
    | fresh => exact absurd h4.symm h1
    | done _ _ _ _ h5 => exact absurd (h4.symm.trans h5) h2
    | opened a b _ => exact .opened a b h3
  cases ev with
  | superblockB sb => exact superblockB_own hn0 hd h e
  | superblockE =>
    have e : CacheM.finalize cfg s = .ok t := e
    cases h with
    | fresh => cases e
    | done _ _ _ h4 => unfold CacheM.finalize at e; rw [h4] at e; cases e
    | opened h1 => exact finalize_own hn0 hn hm hc h1 e
  | mappingsB => simp only [CacheM.step] at e; split at e <;> cases e; exact setSect .superblock .mappings (by decide) (by decide) (by decide) (by assumption)
  | mappingsE => simp only [CacheM.step] at e; split at e <;> cases e; exact setSect .mappings .superblock (by decide) (by decide) (by decide) (by assumption)
  | mapping c o d => exact mapping_own h e
  | hintsB => simp only [CacheM.step] at e; split at e <;> cases e; exact setSect .superblock .hints (by decide) (by decide) (by decide) (by assumption)
  | hintsE => simp only [CacheM.step] at e; split at e <;> cases e; exact setSect .hints .superblock (by decide) (by decide) (by decide) (by assumption)
  | hint c data => exact hint_own h e
  | discardsB => cases e; exact h
  | discardsE => cases e; exact h
  | discard _ _ => cases e; exact h
  | eof => simp only [CacheM.step] at e; split at e <;> cases e; exact h

/-- the steps of a `cache_restore` that writes a superblock lead to its metadata -/
theorem cache_trace {n max : Nat} (hn0 : 0 < n) (hn : n < 2 ^ 64) (hm : 1 ≤ max) {epb : Nat} {cfg : Cfg} (hc : cfg.writeSm = CacheM.smWriter epb) (clean : Bool)
    (doc : List CacheM.Ev) {r : RSt} (h : CacheM.restore cfg clean doc ⟨⟨fun _ => none, SM.Core.new max n, [], []⟩, fun _ => none⟩ = .ok r) {sb : Cache.Superblock} (hs : r.out = some sb) :
    ∃ a, Tr (begun max n) a ∧ InMemC false r.sm r.dev a.mem := by
  have key : ∀ (doc : List CacheM.Ev) (s : RSt), HistC (begun max n) ⟨⟨fun _ => none, SM.Core.new max n, [], []⟩, fun _ => none⟩ clean s → CacheM.run cfg doc s = .ok r → HistC (begun max n) ⟨⟨fun _ => none, SM.Core.new max n, [], []⟩, fun _ => none⟩ clean r := by
    intro doc
    induction doc with
    | nil => intro s h e; cases e; exact h
    | cons ev doc ih =>
      intro s h e
      unfold CacheM.run at e
      split at e
      · cases e
      · rename_i s' hs'
        exact ih s' (cacheStep_own hn0 hn hm hc rfl h ev hs') e
  cases key doc _ .fresh h with
  | fresh => cases hs
  | opened _ h2 => rw [h2] at hs; cases hs
  | done h1 => exact h1

/-! ## On the device -/

open Verif.RIo (Op restore Crash)
open Verif.Batch (Resp)

section
variable {D K : Type} {stamp : K → D → Option D}

/-- any steps become calls; after success, or after a crash that left the new superblock, everything stored last is on
the device -/
theorem trace_on_device (code : Cell → D × K) (fin : Cell → D) (hst : ∀ c, stamp (code c).2 (code c).1 = some (fin c)) {n max : Nat} (hn0 : 0 < n) (hn : n < 2 ^ 64) (hm : 1 ≤ max)
    {a : A Cell} (tr : Tr (begun max n) a) (h0 : a.mem 0 = none) :
    ∃ body : List (Op D K), (∀ o ∈ body, o.Good) ∧ ∀ (d : Batch.Disk D) (bs : Nat), n ≤ d.nr → ∀ sb : D,
      (∀ last, (restore stamp d bs n max body Resp.good sb ⟨true, true⟩ last).2 = true ∧
        (restore stamp d bs n max body Resp.good sb ⟨true, true⟩ last).1.data 0 = sb ∧
        ∀ b c, a.mem b = some c → (restore stamp d bs n max body Resp.good sb ⟨true, true⟩ last).1.data b = fin c) ∧
      ∀ dk, Crash stamp d bs n max body sb dk → dk.data 0 = d.data 0 ∨ (dk.data 0 = sb ∧ ∀ b c, a.mem b = some c → dk.data b = fin c) := by
  obtain ⟨body, hg, hrun⟩ := tr_calls hn0 hn hm code fin hst tr
  have fill : ∀ (d dk : Batch.Disk D) (M : Nat → D) (sb : D), (∀ b c, a.mem b = some c → M b = fin c) → (∀ l, dk.data l = if l = 0 then sb else M l) →
      dk.data 0 = sb ∧ ∀ b c, a.mem b = some c → dk.data b = fin c := by
    intro d dk M sb hM hd
    refine ⟨by rw [hd 0, if_pos rfl], fun b c hc => ?_⟩
    have hb : b ≠ 0 := by
      intro e
      subst e
      rw [h0] at hc
      cases hc
    rw [hd b, if_neg hb]
    exact hM b c hc
  refine ⟨body, hg, fun d bs hd sb => ?_⟩
  obtain ⟨r1, -, -, r4⟩ := hrun d bs hd
  refine ⟨fun last => ?_, fun dk hc => ?_⟩
  · have hok := restore_succeeds hn0 d bs body sb last r1
    exact ⟨hok, fill d _ _ sb r4 (RIo.restore_ok_complete stamp d bs n max hn0 hn hm hd body hg _ last hok)⟩
  · rcases RIo.restore_crash_partial stamp d bs n max hn0 hn hm hd body hg _ dk hc with hc | hc
    · exact .inl hc
    · exact .inr (fill d _ _ sb r4 hc)

/-- the device holds the metadata of a cache: superblock, index trees, array blocks (of 4 or 8 byte values) and space map -/
structure HoldsC (fin : Cell → D) (enc : Cache.Superblock → D) (sb : Cache.Superblock) (r : RSt) (dk : Batch.Disk D) : Prop where
  sb : dk.data 0 = enc sb
  nodes : ∀ b x, r.dev.bt.mem b = some x → dk.data b = fin (.inode 8 x)
  arrays : ∀ b vs, r.dev.readArr b = some vs → ∃ w, (w = 4 ∨ w = 8) ∧ dk.data b = fin (.arr w vs)
  smNodes : ∀ b x, r.sm.nodes b = some x → r.sm.index b = none → dk.data b = fin (.smNode x)
  bitmaps : ∀ b x, r.sm.bitmaps b = some x → r.sm.index b = none → dk.data b = fin (.bitmap x)
  index : ∀ b x, r.sm.index b = some x → dk.data b = fin (.index x)

/-- C83.  As C82, for `cache_restore`, both metadata versions, with or without the clean shutdown flag: whatever document
it accepts, the calls it makes (`body`) do not depend on the device or the batch size, and on any device of at least `n`
blocks that stores what it is given the tool reports success and the device then holds everything it built; wherever it is
interrupted, block 0 is as it was before or everything is there. -/
theorem cache_restore_on_device (code : Cell → D × K) (fin : Cell → D) (hst : ∀ c, stamp (code c).2 (code c).1 = some (fin c)) (enc : Cache.Superblock → D)
    {n max : Nat} (hn0 : 0 < n) (hn : n < 2 ^ 64) (hm : 1 ≤ max) {epb : Nat} {cfg : Cfg} (hc : cfg.writeSm = CacheM.smWriter epb) (clean : Bool)
    (doc : List CacheM.Ev) {r : RSt} (h : CacheM.restore cfg clean doc ⟨⟨fun _ => none, SM.Core.new max n, [], []⟩, fun _ => none⟩ = .ok r) {sb : Cache.Superblock} (hs : r.out = some sb) :
    ∃ body : List (Op D K), (∀ o ∈ body, o.Good) ∧ ∀ (d : Batch.Disk D) (bs : Nat), n ≤ d.nr →
      (∀ last, (restore stamp d bs n max body Resp.good (enc sb) ⟨true, true⟩ last).2 = true ∧
        HoldsC fin enc sb r (restore stamp d bs n max body Resp.good (enc sb) ⟨true, true⟩ last).1) ∧
      ∀ dk, Crash stamp d bs n max body (enc sb) dk → dk.data 0 = d.data 0 ∨ HoldsC fin enc sb r dk := by
  obtain ⟨a, tr, mem⟩ := cache_trace hn0 hn hm hc clean doc h hs
  obtain ⟨body, hg, hrun⟩ := trace_on_device code fin hst hn0 hn hm tr mem.zero
  have holds : ∀ dk : Batch.Disk D, (dk.data 0 = enc sb ∧ ∀ b c, a.mem b = some c → dk.data b = fin c) → HoldsC fin enc sb r dk := by
    intro dk ⟨h0, hk⟩
    refine ⟨h0, ?_, ?_, fun b x hx hi => hk _ _ (mem.smNodes b x hx hi), fun b x hx hi => hk _ _ (mem.bitmaps b x hx hi), fun b x hx => hk _ _ (mem.index b x hx)⟩
    · intro b x hx
      obtain ⟨w, hw, e⟩ := mem.nodes b x hx
      have : w = 8 := by rcases hw with h | h; exact h; cases h.1
      rw [this] at e
      exact hk _ _ e
    intro b vs hv
    obtain ⟨w, hw, e⟩ := mem.arrays b vs hv
    exact ⟨w, hw, hk _ _ e⟩
  refine ⟨body, hg, fun d bs hd => ?_⟩
  obtain ⟨h1, h2⟩ := hrun d bs hd (enc sb)
  refine ⟨fun last => ⟨(h1 last).1, holds _ (h1 last).2⟩, fun dk hc => ?_⟩
  rcases h2 dk hc with hc | hc
  · exact .inl hc
  · exact .inr (holds _ hc)

end

end Verif.RTr
