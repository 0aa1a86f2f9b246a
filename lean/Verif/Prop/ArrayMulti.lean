import Verif.Prop.ArrayBuilder
import Verif.Prop.SpaceMapWritten

/-!
# Several arrays built at the same time on one device

`Prop/ArrayBuilder.lean` follows one array from an initial state.  `cache_restore` fills three arrays alternately; here the
state of one builder (`Part`) is separated from the growth of the device (`Ext`), so that a builder's state survives the
writes of the others.
-/

namespace Verif.Arr

open Verif.Bld (St Err Item build leafIO Sorted)
open Verif.BT (Tree)

variable {V : Type}

/-- state of a builder after the pushes `ps` -/
structure Part [Inhabited V] (epb nr : Nat) (ps : List (Nat × V)) (ab : AB V) (s : ASt V) : Prop where
  hnr : ab.nr = nr
  hepb : ab.epb = epb
  nrB : ab.nrBlocks = divUp nr epb
  le : ab.blocks.length ≤ divUp nr epb
  cap : ab.cap = min (nr - ab.blocks.length * epb) epb
  fits : ab.values.length ≤ ab.cap
  later : ∀ p ∈ ps, p.1 < ab.blocks.length * epb + ab.values.length
  vals : ab.values = (List.range ab.values.length).map fun j => arrayOf ps (ab.blocks.length * epb + j)
  stored : ∀ i (h : i < ab.blocks.length), s.readArr ab.blocks[i] = some (chunk epb nr (arrayOf ps) i)
  live : ∀ b ∈ ab.blocks, 0 < s.bt.sm.abs b

/-- the device grew by the blocks `new`: nothing in use was touched -/
structure Ext (n max : Nat) (s s' : ASt V) (new : List Nat) : Prop where
  sm : s'.bt.sm.Inv n max
  rc : ∀ b, s'.bt.sm.abs b = s.bt.sm.abs b + new.count b
  keep : ∀ b, 0 < s.bt.sm.abs b → s'.bt.mem b = s.bt.mem b ∧ s'.arr b = s.arr b
  fresh : ∀ b ∈ new, s.bt.sm.abs b = 0
  cur : SMD.Cursor n max s.bt → SMD.Cursor n max s'.bt
  nodup : new.Nodup

/-- … without the record of what was allocated -/
structure Grown (n max : Nat) (s s' : ASt V) (new : List Nat) : Prop where
  sm : s'.bt.sm.Inv n max
  rc : ∀ b, s'.bt.sm.abs b = s.bt.sm.abs b + new.count b
  keep : ∀ b, 0 < s.bt.sm.abs b → s'.bt.mem b = s.bt.mem b ∧ s'.arr b = s.arr b
  fresh : ∀ b ∈ new, s.bt.sm.abs b = 0

theorem Ext.grown {n max : Nat} {s s' : ASt V} {new : List Nat} (h : Ext n max s s' new) : Grown n max s s' new := ⟨h.sm, h.rc, h.keep, h.fresh⟩

theorem Ext.refl {n max : Nat} {s : ASt V} (h : s.bt.sm.Inv n max) : Ext n max s s [] :=
  ⟨h, fun _ => by simp, fun _ _ => ⟨rfl, rfl⟩, by simp, id, List.nodup_nil⟩

theorem Ext.trans {n max : Nat} {s s' s'' : ASt V} {a b : List Nat} (h : Ext n max s s' a) (g : Ext n max s' s'' b) :
    Ext n max s s'' (a ++ b) := by
  refine ⟨g.sm, fun x => ?_, fun x hx => ?_, fun x hx => ?_, fun hc => g.cur (h.cur hc), ?_⟩
  · rw [g.rc, h.rc, List.count_append]; omega
  · have := h.rc x
    rw [(g.keep x (by omega)).1, (g.keep x (by omega)).2]
    exact h.keep x hx
  · rcases List.mem_append.mp hx with hx | hx
    · exact h.fresh x hx
    · have := g.fresh x hx
      have := h.rc x
      omega
  · rw [List.nodup_append]
    refine ⟨h.nodup, g.nodup, ?_⟩
    rintro x hx _ hy rfl
    have := g.fresh x hy
    have := h.rc x
    have := List.count_pos_iff.mpr hx
    omega

/-- no block has two references -/
theorem Ext.one {n max : Nat} {s s' : ASt V} {a : List Nat} (h : Ext n max s s' a) (h1 : ∀ b, s.bt.sm.abs b ≤ 1) (b : Nat) : s'.bt.sm.abs b ≤ 1 := by
  rw [h.rc]
  have h2 := List.nodup_iff_count.mp h.nodup b
  rcases Nat.eq_zero_or_pos (a.count b) with h0 | h0
  · have := h1 b; omega
  · have := h.fresh b (List.count_pos_iff.mp h0); omega

theorem Grown.read {n max : Nat} {s s' : ASt V} {a : List Nat} (h : Grown n max s s' a) {b : Nat} (hb : 0 < s.bt.sm.abs b) :
    s'.readArr b = s.readArr b := readArr_congr (h.keep b hb)

theorem Grown.live {n max : Nat} {s s' : ASt V} {a : List Nat} (h : Grown n max s s' a) {b : Nat} (hb : 0 < s.bt.sm.abs b) :
    0 < s'.bt.sm.abs b := by rw [h.rc]; omega

/-- a block in use keeps its contents -/
theorem Ext.read {n max : Nat} {s s' : ASt V} {a : List Nat} (h : Ext n max s s' a) {b : Nat} (hb : 0 < s.bt.sm.abs b) :
    s'.readArr b = s.readArr b := readArr_congr (h.keep b hb)

/-- … and stays in use -/
theorem Ext.live {n max : Nat} {s s' : ASt V} {a : List Nat} (h : Ext n max s s' a) {b : Nat} (hb : 0 < s.bt.sm.abs b) :
    0 < s'.bt.sm.abs b := by rw [h.rc]; omega

theorem Part.ext [Inhabited V] {epb nr n max : Nat} {ps : List (Nat × V)} {ab : AB V} {s s' : ASt V} {a : List Nat}
    (h : Part epb nr ps ab s) (g : Ext n max s s' a) : Part epb nr ps ab s' :=
  ⟨h.hnr, h.hepb, h.nrB, h.le, h.cap, h.fits, h.later, h.vals,
    fun i hi => by rw [g.read (h.live _ (List.getElem_mem hi))]; exact h.stored i hi, fun b hb => g.live (h.live b hb)⟩

theorem part_new [Inhabited V] {epb nr : Nat} {s : ASt V} : Part epb nr [] (AB.new epb nr) s := by
  refine ⟨rfl, rfl, rfl, by simp [AB.new], by simp [AB.new], by simp [AB.new], by simp, by simp [AB.new], by simp [AB.new],
    by simp [AB.new]⟩

theorem part_chunk [Inhabited V] {epb nr : Nat} {s : ASt V} {ps : List (Nat × V)} {ab : AB V}
    (h : Part epb nr ps ab s) :
    ab.values ++ List.replicate (ab.cap - ab.values.length) default = chunk epb nr (arrayOf ps) ab.blocks.length := by
  unfold chunk
  rw [← h.cap]
  have hf := h.fits
  apply List.ext_getElem
  · simp; omega
  · intro j h1 h2
    simp only [List.getElem_map, List.getElem_range]
    rw [List.getElem_append]
    split
    · next hj =>
      have : ∀ l : List V, l = ab.values → ∀ (hl : j < l.length), l[j] = ab.values[j] := by
        intro l hl _; subst hl; rfl
      rw [← this _ h.vals.symm (by simpa using hj)]
      simp
    · next hj =>
      simp only [List.getElem_replicate]
      rw [arrayOf_out h.later (by omega)]

theorem writeArr_ext {n max : Nat} (vs : List V) {s : ASt V} (hi : s.bt.sm.Inv n max) :
    APost (writeArr vs s) (fun r => Ext n max s r.2 [r.1] ∧ r.2.readArr r.1 = some vs) := by
  have := writeArr_post vs hi
  cases e : writeArr vs s with
  | error err => rw [e] at this; cases err <;> exact this
  | ok r =>
    rw [e] at this
    obtain ⟨b, t⟩ := r
    obtain ⟨h1, h2, h3, h4, h5, h6⟩ := this
    simp only at h1 h2 h3 h4 h5 h6
    refine ⟨⟨h2, fun x => ?_, fun x hx => h5 x (fun e => by rw [e] at hx; omega), fun x hx => ?_, fun hc => ?_, by simp⟩, h4⟩
    · show t.bt.sm.abs x = _
      rw [h3]
      simp only [SM.Counts.upd, List.count_singleton]
      by_cases hx : x = b
      · subst hx; rw [if_pos rfl, h1]; simp
      · rw [if_neg hx]
        have : (b == x) = false := by simpa using fun e => hx e.symm
        rw [this]; simp
    · rw [List.mem_singleton.mp hx]; exact h1
    · unfold writeArr at e
      split at e
      · cases e
      · rename_i ea
        cases e
        exact SMD.cursor_frame (SMD.cursor_alloc hc ea) rfl rfl

theorem emit_part [Inhabited V] {epb nr n max : Nat} (he : 0 < epb) {s : ASt V} {ps : List (Nat × V)} {ab : AB V}
    (h : Part epb nr ps ab s) (hi : s.bt.sm.Inv n max) (hlt : ab.blocks.length < divUp nr epb) :
    APost (emitBlock ab s) (fun r => Part epb nr ps r.1 r.2 ∧
      (∃ b, r.1.blocks = ab.blocks ++ [b] ∧ Ext n max s r.2 [b]) ∧ r.1.values = []) := by
  unfold emitBlock
  have := writeArr_ext (ab.values ++ List.replicate (ab.cap - ab.values.length) default) hi
  rw [part_chunk h] at this ⊢
  cases e : writeArr (chunk epb nr (arrayOf ps) ab.blocks.length) s with
  | error err => rw [e] at this; cases err <;> exact this
  | ok r =>
    rw [e] at this
    obtain ⟨b, t⟩ := r
    obtain ⟨h1, h2⟩ := this
    simp only at h1 h2
    have hrd := (lt_divUp he).mp hlt
    have hp := h.ext h1
    refine ⟨⟨h.hnr, h.hepb, h.nrB, ?_, ?_, ?_, ?_, ?_, ?_, ?_⟩, ⟨b, rfl, h1⟩, rfl⟩
    · simp; omega
    · simp only [List.length_append, List.length_singleton]
      rw [h.nrB, h.hnr, h.hepb]
      split
      · rfl
      · next hn =>
        have h1 : ab.blocks.length + 1 = divUp nr epb := by omega
        rw [h1]
        have := divUp_le (nr := nr) he
        omega
    · simp
    · intro p hp
      have := h.later p hp
      have := h.fits
      have hc := h.cap
      simp only [List.length_append, List.length_singleton, List.length_nil]
      rw [Nat.add_mul]
      omega
    · simp
    · intro i hi
      simp only [List.length_append, List.length_singleton] at hi
      simp only [List.getElem_append]
      split
      · next hlt => exact hp.stored i hlt
      · next hge =>
        have : i = ab.blocks.length := by omega
        subst this
        simp only [Nat.sub_self, List.getElem_cons_zero]
        exact h2
    · intro x hx
      rcases List.mem_append.mp hx with hx | hx
      · exact hp.live x hx
      · rw [h1.rc, List.mem_singleton.mp hx]; simp

theorem emitN_part [Inhabited V] {epb nr n max : Nat} (he : 0 < epb) {ps : List (Nat × V)} (k : Nat) :
    ∀ {ab : AB V} {s : ASt V}, Part epb nr ps ab s → s.bt.sm.Inv n max → ab.blocks.length + k ≤ divUp nr epb →
    APost (emitN k ab s) (fun r => Part epb nr ps r.1 r.2 ∧
      (∃ bs, r.1.blocks = ab.blocks ++ bs ∧ bs.length = k ∧ Ext n max s r.2 bs) ∧
      (k = 0 → r.1.values = ab.values) ∧ (0 < k → r.1.values = [])) := by
  induction k with
  | zero =>
    intro ab s h hi hk
    exact ⟨h, ⟨[], by simp, rfl, Ext.refl hi⟩, fun _ => rfl, fun h => absurd h (by omega)⟩
  | succ k ih =>
    intro ab s h hi hk
    unfold emitN
    have := emit_part he h hi (by omega)
    cases e : emitBlock ab s with
    | error err => rw [e] at this; cases err <;> exact this
    | ok r =>
      rw [e] at this
      obtain ⟨ab', s'⟩ := r
      obtain ⟨h1, ⟨b, hb, h2⟩, h3⟩ := this
      simp only at h1 h2 h3 hb ⊢
      have g := ih h1 h2.sm (by rw [hb, List.length_append, List.length_singleton]; omega)
      cases e2 : emitN k ab' s' with
      | error err => rw [e2] at g; cases err <;> exact g
      | ok r =>
        rw [e2] at g
        obtain ⟨g1, ⟨bs, gb, gl, g2⟩, g3, g4⟩ := g
        refine ⟨g1, ⟨[b] ++ bs, ?_, ?_, h2.trans g2⟩, fun h => absurd h (by omega), fun _ => ?_⟩
        · rw [gb, hb, List.append_assoc]
        · simp [gl]
        rcases Nat.eq_zero_or_pos k with hk0 | hk0
        · rw [g3 hk0, h3]
        · exact g4 hk0

/-- a push above everything pushed before -/
theorem push_part [Inhabited V] {epb nr n max : Nat} (he : 0 < epb) {s : ASt V} {ps : List (Nat × V)} {ab : AB V}
    (h : Part epb nr ps ab s) (hinv : s.bt.sm.Inv n max) {i : Nat} (v : V) (hi : i < nr)
    (hpos : ab.blocks.length * epb + ab.values.length ≤ i) :
    APost (push i v ab s) (fun r => Part epb nr (ps ++ [(i, v)]) r.1 r.2 ∧
      r.1.blocks.length * epb + r.1.values.length = i + 1 ∧
      ∃ bs, r.1.blocks = ab.blocks ++ bs ∧ Ext n max s r.2 bs) := by
  unfold push
  simp only [h.hepb, h.hnr]
  rw [if_neg (by omega)]
  have hdm := Nat.div_add_mod i epb
  have hml := Nat.mod_lt i he
  have hbi : ab.blocks.length ≤ i / epb := (Nat.le_div_iff_mul_le he).mpr (by omega)
  have hbn : i / epb < divUp nr epb := (lt_divUp he).mpr (by rw [Nat.mul_comm]; omega)
  have := emitN_part he (i / epb - ab.blocks.length) h hinv (by omega)
  cases e : emitN (i / epb - ab.blocks.length) ab s with
  | error err => rw [e] at this; cases err <;> exact this
  | ok r =>
    rw [e] at this
    obtain ⟨ab', s'⟩ := r
    obtain ⟨h1, ⟨bs, hb, hbl, h2⟩, h3, h4⟩ := this
    simp only at h1 h2 h3 h4 hb ⊢
    have hl : ab'.blocks.length = i / epb := by rw [hb, List.length_append, hbl]; omega
    have hvl : ab'.values.length ≤ i % epb := by
      rcases Nat.eq_zero_or_pos (i / epb - ab.blocks.length) with h0 | h0
      · rw [h3 h0]
        have : ab.blocks.length = i / epb := by omega
        rw [this, Nat.mul_comm] at hpos
        omega
      · rw [h4 h0]; simp
    rw [if_neg (by omega)]
    have hps : ∀ p ∈ ps, p.1 < i := by
      intro p hp
      have := h.later p hp
      omega
    have hcap := h1.cap
    rw [hl] at hcap
    have hmul : i / epb * epb = epb * (i / epb) := Nat.mul_comm _ _
    refine ⟨⟨h1.hnr, h1.hepb, h1.nrB, h1.le, h1.cap, ?_, ?_, ?_, ?_, h1.live⟩, ?_, ⟨bs, hb, h2⟩⟩
    · simp only [List.length_append, List.length_replicate, List.length_singleton]
      rw [hcap]; omega
    · intro p hp
      simp only [List.length_append, List.length_replicate, List.length_singleton]
      rw [hl]
      rcases List.mem_append.mp hp with hp | hp
      · have := hps p hp; omega
      · rw [List.mem_singleton.mp hp]; simp only; omega
    · apply List.ext_getElem
      · simp
      · intro j g1 g2
        simp only [List.getElem_map, List.getElem_range]
        simp only [List.length_append, List.length_replicate, List.length_singleton] at g1
        rw [hl]
        rw [arrayOf_append _ _ _ hps]
        by_cases hj : j = i % epb
        · rw [if_pos (by omega)]
          subst hj
          rw [List.getElem_append_right (by simp; omega)]
          simp
        · rw [if_neg (by omega), List.getElem_append_left (by simp; omega)]
          rw [List.getElem_append]
          split
          · next hlt =>
            have : ∀ l : List V, l = ab'.values → ∀ (hl : j < l.length), l[j] = ab'.values[j] := by
              intro l hl _; subst hl; rfl
            rw [← this _ h1.vals.symm (by simpa using hlt)]
            simp [hl]
          · next hge =>
            rw [List.getElem_replicate, arrayOf_out h1.later (by rw [hl]; omega)]
    · intro k hk
      have hk : k < ab'.blocks.length := hk
      rw [h1.stored k hk]
      congr 1
      apply chunk_congr
      intro j hj
      rw [arrayOf_lt hps]
      have : (k + 1) * epb ≤ i / epb * epb := Nat.mul_le_mul_right _ (by omega)
      omega
    · simp only [List.length_append, List.length_replicate, List.length_singleton]
      rw [hl]; omega

/-- what a successful push tells about the index -/
theorem push_part_pos [Inhabited V] {epb nr : Nat} (he : 0 < epb) {s : ASt V} {ps : List (Nat × V)} {ab : AB V}
    (h : Part epb nr ps ab s) {i : Nat} (v : V) {r : AB V × ASt V} (hr : push i v ab s = .ok r) :
    i < nr ∧ ab.blocks.length * epb + ab.values.length ≤ i := by
  unfold push at hr
  simp only [h.hepb, h.hnr] at hr
  split at hr
  · cases hr
  · next hlt =>
    refine ⟨by omega, ?_⟩
    by_cases hb : i / epb ≤ ab.blocks.length
    · rw [show i / epb - ab.blocks.length = 0 by omega] at hr
      simp only [emitN] at hr
      split at hr
      · cases hr
      · next hn =>
        have hdm := Nat.div_add_mod i epb
        have : ab.blocks.length = i / epb := by omega
        rw [this, Nat.mul_comm]
        omega
    · have h1 : (ab.blocks.length + 1) * epb ≤ i / epb * epb := Nat.mul_le_mul_right _ (by omega)
      have := Nat.div_mul_le_self i epb
      have hf := h.fits
      have hc := h.cap
      rw [Nat.add_mul] at h1
      omega

/-- An array of `nr` entries `a` on disk: an index tree whose entry `k` is the block with entries `k * epb, …` -/
structure Stored (epb nr n : Nat) (a : Nat → V) (root : Nat) (s : ASt V) (h : Nat) (t : Tree Nat h) (blocks : List Nat) : Prop where
  blk : t.blk h = root
  tree : t.Stored (fun _ b => s.bt.mem b) true h
  ordered : t.Ordered h 0 none
  keys : Bld.KeysFirst h t
  noEmpty : h = 0 ∨ t.NoEmpty h
  contents : t.contents h = (List.range blocks.length).zip blocks
  count : blocks.length = divUp nr epb
  values : ∀ i (hi : i < blocks.length), s.readArr blocks[i] = some (chunk epb nr a i)
  live : ∀ b ∈ blocks, 0 < s.bt.sm.abs b
  liveT : ∀ b ∈ t.blocks h, 0 < s.bt.sm.abs b
  sm : ∃ max, s.bt.sm.Inv n max

theorem tree_stored_keep {mem mem' : Nat → Option (BT.Blk V)} : ∀ (h : Nat) (t : Tree V h) (r : Bool),
    (∀ b ∈ t.blocks h, mem' b = mem b) → t.Stored (fun _ b => mem b) r h → t.Stored (fun _ b => mem' b) r h := by
  intro h
  induction h with
  | zero =>
    intro t r hm hs
    have : mem' (t.blk 0) = mem (t.blk 0) := hm _ (by simp [Tree.blocks, Tree.blk])
    exact this.trans hs
  | succ h ih =>
    intro t r hm hs
    refine ⟨?_, fun c hc => ih c.2 false (fun b hb => hm b ?_) (hs.2 c hc)⟩
    · have : mem' t.1 = mem t.1 := hm _ (by simp [Tree.blocks])
      exact this.trans hs.1
    · simp only [Tree.blocks, List.mem_cons, List.mem_flatMap]
      exact Or.inr ⟨c, hc, hb⟩

theorem Stored.grown {epb nr n max : Nat} {a : Nat → V} {root : Nat} {s s' : ASt V} {h : Nat} {t : Tree Nat h} {blocks new : List Nat}
    (hs : Stored epb nr n a root s h t blocks) (g : Grown n max s s' new) : Stored epb nr n a root s' h t blocks :=
  ⟨hs.blk, tree_stored_keep h t true (fun b hb => (g.keep b (hs.liveT b hb)).1) hs.tree, hs.ordered, hs.keys, hs.noEmpty,
    hs.contents, hs.count, fun i hi => by rw [g.read (hs.live _ (List.getElem_mem hi))]; exact hs.values i hi,
    fun b hb => g.live (hs.live b hb), fun b hb => g.live (hs.liveT b hb), ⟨max, g.sm⟩⟩

theorem Stored.ext {epb nr n max : Nat} {a : Nat → V} {root : Nat} {s s' : ASt V} {h : Nat} {t : Tree Nat h} {blocks new : List Nat}
    (hs : Stored epb nr n a root s h t blocks) (g : Ext n max s s' new) : Stored epb nr n a root s' h t blocks := hs.grown g.grown

/-- C17, C33: completing an array -/
theorem complete_part [Inhabited V] {epb capL capI nr n max : Nat} (he : 0 < epb) (hL : 2 ≤ capL) (hI : 4 ≤ capI)
    (hn : n < 2 ^ 64) {s : ASt V} {ps : List (Nat × V)} {ab : AB V} (hp : Part epb nr ps ab s) (hi : s.bt.sm.Inv n max) :
    APost (completeArray capL capI ab s) (fun r => ∃ (h : Nat) (t : Tree Nat h) (new : List Nat), Ext n max s r.2 (new ++ t.blocks h) ∧
      Stored epb nr n (arrayOf ps) r.1 r.2 h t (ab.blocks ++ new)) := by
  unfold completeArray completeBlocks
  have hle := hp.le
  have h1 := emitN_part he (divUp nr epb - ab.blocks.length) hp hi (by omega)
  rw [hp.nrB]
  cases e2 : emitN (divUp nr epb - ab.blocks.length) ab s with
  | error err => rw [e2] at h1; cases err <;> exact h1
  | ok r =>
    rw [e2] at h1
    obtain ⟨ab', s'⟩ := r
    obtain ⟨g1, ⟨bs, gb, gl, g2⟩, -, -⟩ := h1
    simp only at g1 gb g2 ⊢
    have hlen : ab'.blocks.length = divUp nr epb := by rw [gb, List.length_append, gl]; omega
    have h2 := Bld.build_correct (fun _ : Nat => ([] : List Nat)) (fun _ _ => true) (capL := capL) hL hI hn s'.bt g2.sm
      (indexItems ab'.blocks)
      (by intro i hi; obtain ⟨e, -, rfl⟩ := List.mem_map.mp hi; trivial)
      (by unfold indexItems; rw [flatMap_val]; exact sorted_zip ab'.blocks)
    cases e3 : build (leafIO (fun _ => []) (fun _ _ => true)) capL capI (indexItems ab'.blocks) s'.bt with
    | error err => rw [e3] at h2; exact h2
    | ok r =>
      rw [e3] at h2
      obtain ⟨root, t⟩ := r
      obtain ⟨ht, tr, hr⟩ := h2
      simp only at hr
      unfold indexItems at hr
      rw [flatMap_val] at hr
      have hx : Ext n max s' { s' with bt := t } (tr.blocks ht) := by
        have hvals : ∀ i ∈ indexItems ab'.blocks, ∃ k v, i = .val k v := by
          intro i hi
          obtain ⟨e, -, rfl⟩ := List.mem_map.mp hi
          exact ⟨_, _, rfl⟩
        refine ⟨hr.sm, hr.rc, fun b hb => ⟨hr.mem b hb, rfl⟩, fun b hb => ?_, fun hc => SMD.buildVals_kept (SMD.cursor_kept n max) hvals hc _ e3,
          LW.blocks_nodup ht tr true 0 none hr.stored hr.ordered (SMC.rootFilled_noEmpty hL (by omega) ht tr hr.filled)⟩
        rcases Nat.eq_zero_or_pos (s'.bt.sm.abs b) with h0 | h0
        · exact h0
        · have hf := hr.fresh b hb h0
          have hf : b ∈ List.flatMap Item.blocks (List.map (fun e => Item.val e.fst e.snd) ((List.range ab'.blocks.length).zip ab'.blocks)) := hf
          obtain ⟨it, hit, hbi⟩ := List.mem_flatMap.mp hf
          obtain ⟨e, -, rfl⟩ := List.mem_map.mp hit
          exact absurd hbi (by simp [Item.blocks])
      refine ⟨ht, tr, bs, g2.trans hx, ?_⟩
      rw [← gb]
      have hq := g1.ext hx
      refine ⟨hr.blk, hr.stored, hr.ordered, hr.keys, SMC.rootFilled_noEmpty hL (by omega) ht tr hr.filled, hr.contents, hlen, hq.stored, hq.live, ?_, ⟨max, hr.sm⟩⟩
      intro b hb
      have := List.count_pos_iff.mpr hb
      rw [hx.rc]
      omega

end Verif.Arr
