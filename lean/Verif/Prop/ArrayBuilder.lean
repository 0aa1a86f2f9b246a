import Verif.Model.ArrayBuilder
import Verif.Prop.Builder

/-!
# C17: the array builder stores every value at its index

The specification is the array itself, a function of the index: `arrayOf ps`.
-/

namespace Verif.Arr

open Verif.Bld (St Err Item build leafIO Sorted)
open Verif.BT (Tree)

variable {V : Type}

/-- the array described by a list of pushes: the pushed value, or the default -/
def arrayOf [Inhabited V] (ps : List (Nat × V)) (i : Nat) : V :=
  match ps.find? (fun p => p.1 == i) with
  | some p => p.2
  | none => default

/-- the contents of block number `i` of an array `a` of `nr` entries -/
def chunk (epb nr : Nat) (a : Nat → V) (i : Nat) : List V :=
  (List.range (min (nr - i * epb) epb)).map fun j => a (i * epb + j)

/-- the call succeeds with `Q`, or fails for lack of metadata space only -/
def APost {α : Type} (r : Except AErr α) (Q : α → Prop) : Prop :=
  match r with
  | .ok a => Q a
  | .error (.io e) => e.Resource
  | .error _ => False

theorem APost.ok {α : Type} {a : α} {Q : α → Prop} (h : Q a) : APost (.ok a) Q := h

/-- state of a builder after the pushes `ps`, started from `s0` -/
structure Inv [Inhabited V] (epb nr n max : Nat) (s0 : ASt V) (ps : List (Nat × V)) (ab : AB V) (s : ASt V) : Prop where
  hnr : ab.nr = nr
  hepb : ab.epb = epb
  nrB : ab.nrBlocks = divUp nr epb
  le : ab.blocks.length ≤ divUp nr epb
  cap : ab.cap = min (nr - ab.blocks.length * epb) epb
  fits : ab.values.length ≤ ab.cap
  later : ∀ p ∈ ps, p.1 < ab.blocks.length * epb + ab.values.length
  vals : ab.values = (List.range ab.values.length).map fun j => arrayOf ps (ab.blocks.length * epb + j)
  stored : ∀ i (h : i < ab.blocks.length), s.readArr ab.blocks[i] = some (chunk epb nr (arrayOf ps) i)
  sm : s.bt.sm.Inv n max
  rc : ∀ b, s.bt.sm.abs b = s0.bt.sm.abs b + ab.blocks.count b
  keep : ∀ b, 0 < s0.bt.sm.abs b → s.bt.mem b = s0.bt.mem b ∧ s.arr b = s0.arr b
  new : ∀ b ∈ ab.blocks, s0.bt.sm.abs b = 0
  log : s.bt.log = s0.bt.log

theorem arrayOf_out [Inhabited V] {ps : List (Nat × V)} {k i : Nat} (h : ∀ p ∈ ps, p.1 < k) (hi : k ≤ i) :
    arrayOf ps i = default := by
  unfold arrayOf
  rw [List.find?_eq_none.mpr]
  intro p hp
  have := h p hp
  simp only [beq_iff_eq]; omega

theorem writeArr_post {n max : Nat} (vs : List V) {s : ASt V} (hi : s.bt.sm.Inv n max) :
    APost (writeArr vs s) (fun r => s.bt.sm.abs r.1 = 0 ∧ r.2.bt.sm.Inv n max ∧
      r.2.bt.sm.abs = s.bt.sm.abs.upd r.1 1 ∧ r.2.readArr r.1 = some vs ∧
      (∀ x, x ≠ r.1 → r.2.bt.mem x = s.bt.mem x ∧ r.2.arr x = s.arr x) ∧ r.2.bt.log = s.bt.log) := by
  have := Bld.alloc_post hi
  unfold writeArr
  cases e : Bld.alloc s.bt with
  | error err => rw [e] at this; exact this
  | ok r =>
    rw [e] at this
    obtain ⟨b, t⟩ := r
    obtain ⟨h1, h2, h3, h4, h5, h6⟩ := this
    refine ⟨h2, h3, h4, ?_, ?_, h6⟩
    · simp [ASt.readArr]
    · intro x hx
      have hx : x ≠ b := hx
      refine ⟨?_, ?_⟩
      · show (if x = b then _ else t.mem x) = _
        rw [if_neg hx, h5]
      · show (if x = b then _ else s.arr x) = _
        rw [if_neg hx]

theorem readArr_congr {s t : ASt V} {b : Nat} (h : t.bt.mem b = s.bt.mem b ∧ t.arr b = s.arr b) :
    t.readArr b = s.readArr b := by
  unfold ASt.readArr; rw [h.1, h.2]

theorem divUp_le {nr d : Nat} (hd : 0 < d) : nr ≤ divUp nr d * d := by
  unfold divUp
  have := Nat.div_add_mod (nr + (d - 1)) d
  have := Nat.mod_lt (nr + (d - 1)) hd
  rw [Nat.mul_comm]
  omega

theorem lt_divUp {nr d i : Nat} (hd : 0 < d) : i < divUp nr d ↔ i * d < nr := by
  unfold divUp
  rw [Nat.lt_div_iff_mul_lt hd]
  have : d - (1 : Nat) + 1 = d := by omega
  constructor
  · intro h; omega
  · intro h; omega

theorem chunk_of_vals [Inhabited V] {epb nr n max : Nat} {s0 s : ASt V} {ps : List (Nat × V)} {ab : AB V}
    (h : Inv epb nr n max s0 ps ab s) :
    ab.values ++ List.replicate (ab.cap - ab.values.length) default = chunk epb nr (arrayOf ps) ab.blocks.length := by
  unfold chunk
  rw [← h.cap]
  have hf := h.fits
  apply List.ext_getElem
  · simp; omega
  · intro j h1 h2
    simp only [List.getElem_map, List.getElem_range]
    rw [List.getElem_append]
    split
    · next hj =>
      have : ∀ l : List V, l = ab.values → ∀ (hl : j < l.length), l[j] = ab.values[j] := by
        intro l hl _; subst hl; rfl
      rw [← this _ h.vals.symm (by simpa using hj)]
      simp
    · next hj =>
      simp only [List.getElem_replicate]
      rw [arrayOf_out h.later (by omega)]

theorem emit_post [Inhabited V] {epb nr n max : Nat} (he : 0 < epb) {s0 s : ASt V} {ps : List (Nat × V)} {ab : AB V}
    (h : Inv epb nr n max s0 ps ab s) (hlt : ab.blocks.length < divUp nr epb) :
    APost (emitBlock ab s) (fun r => Inv epb nr n max s0 ps r.1 r.2 ∧
      r.1.blocks.length = ab.blocks.length + 1 ∧ r.1.values = []) := by
  unfold emitBlock
  have := writeArr_post (ab.values ++ List.replicate (ab.cap - ab.values.length) default) h.sm
  rw [chunk_of_vals h] at this ⊢
  cases e : writeArr (chunk epb nr (arrayOf ps) ab.blocks.length) s with
  | error err => rw [e] at this; cases err <;> exact this
  | ok r =>
    rw [e] at this
    obtain ⟨b, t⟩ := r
    obtain ⟨h1, h2, h3, h4, h5, h6⟩ := this
    simp only at h1 h2 h3 h4 h5 h6
    have hb0 : s0.bt.sm.abs b = 0 ∧ ab.blocks.count b = 0 := by have := h.rc b; omega
    have hnot : b ∉ ab.blocks := List.count_eq_zero.mp hb0.2
    have hrd := (lt_divUp he).mp hlt
    refine ⟨⟨h.hnr, h.hepb, h.nrB, ?_, ?_, ?_, ?_, ?_, ?_, h2, ?_, ?_, ?_, ?_⟩, ?_, rfl⟩
    · simp; omega
    · simp only [List.length_append, List.length_singleton]
      rw [h.nrB, h.hnr, h.hepb]
      split
      · rfl
      · next hn =>
        have h1 : ab.blocks.length + 1 = divUp nr epb := by omega
        rw [h1]
        have := divUp_le (nr := nr) he
        omega
    · simp
    · intro p hp
      have := h.later p hp
      have := h.fits
      have hc := h.cap
      simp only [List.length_append, List.length_singleton, List.length_nil]
      rw [Nat.add_mul]
      omega
    · simp
    · intro i hi
      simp only [List.length_append, List.length_singleton] at hi
      simp only [List.getElem_append]
      split
      · next hlt =>
        have hne : ab.blocks[i] ≠ b := fun e => hnot (e ▸ List.getElem_mem hlt)
        rw [readArr_congr (h5 _ hne)]
        exact h.stored i hlt
      · next hge =>
        have : i = ab.blocks.length := by omega
        subst this
        simp only [Nat.sub_self, List.getElem_cons_zero]
        exact h4
    · intro x
      rw [h3]
      simp only [SM.Counts.upd, List.count_append]
      by_cases hx : x = b
      · subst hx; rw [if_pos rfl, hb0.1, hb0.2]; simp
      · rw [if_neg hx, h.rc x]
        rw [List.count_singleton]
        have : (b == x) = false := by simpa using fun e => hx e.symm
        rw [this]; simp
    · intro x hx
      have hne : x ≠ b := fun e => by rw [e] at hx; omega
      rw [(h5 x hne).1, (h5 x hne).2]
      exact h.keep x hx
    · intro x hx
      rcases List.mem_append.mp hx with hx | hx
      · exact h.new x hx
      · rw [List.mem_singleton.mp hx]; exact hb0.1
    · rw [h6]; exact h.log
    · simp

theorem emitN_post [Inhabited V] {epb nr n max : Nat} (he : 0 < epb) {s0 : ASt V} {ps : List (Nat × V)} (k : Nat) :
    ∀ {ab : AB V} {s : ASt V}, Inv epb nr n max s0 ps ab s → ab.blocks.length + k ≤ divUp nr epb →
    APost (emitN k ab s) (fun r => Inv epb nr n max s0 ps r.1 r.2 ∧ r.1.blocks.length = ab.blocks.length + k ∧
      (k = 0 → r.1.values = ab.values) ∧ (0 < k → r.1.values = [])) := by
  induction k with
  | zero => intro ab s h hk; exact ⟨h, rfl, fun _ => rfl, fun h => absurd h (by omega)⟩
  | succ k ih =>
    intro ab s h hk
    unfold emitN
    have := emit_post he h (by omega)
    cases e : emitBlock ab s with
    | error err => rw [e] at this; cases err <;> exact this
    | ok r =>
      rw [e] at this
      obtain ⟨ab', s'⟩ := r
      obtain ⟨h1, h2, h3⟩ := this
      simp only at h1 h2 h3 ⊢
      have g := ih h1 (by omega)
      cases e2 : emitN k ab' s' with
      | error err => rw [e2] at g; cases err <;> exact g
      | ok r =>
        rw [e2] at g
        obtain ⟨g1, g2, g3, g4⟩ := g
        refine ⟨g1, by omega, fun h => absurd h (by omega), fun _ => ?_⟩
        rcases Nat.eq_zero_or_pos k with hk0 | hk0
        · rw [g3 hk0, h3]
        · exact g4 hk0

theorem arrayOf_append [Inhabited V] (ps : List (Nat × V)) (i : Nat) (v : V) (h : ∀ p ∈ ps, p.1 < i) (j : Nat) :
    arrayOf (ps ++ [(i, v)]) j = if j = i then v else arrayOf ps j := by
  unfold arrayOf
  rw [List.find?_append]
  by_cases hj : j = i
  · subst hj
    rw [if_pos rfl, List.find?_eq_none.mpr]
    · simp
    · intro p hp; have := h p hp; simp only [beq_iff_eq]; omega
  · rw [if_neg hj]
    cases List.find? (fun p => p.1 == j) ps with
    | some p => rfl
    | none =>
      have : (i == j) = false := by simpa using fun e => hj e.symm
      simp [this]

theorem arrayOf_lt [Inhabited V] {ps : List (Nat × V)} {i : Nat} {v : V} (h : ∀ p ∈ ps, p.1 < i) {j : Nat} (hj : j < i) :
    arrayOf (ps ++ [(i, v)]) j = arrayOf ps j := by
  rw [arrayOf_append ps i v h, if_neg (by omega)]

theorem chunk_congr {epb nr : Nat} {a a' : Nat → V} {i : Nat} (h : ∀ j, j < (i + 1) * epb → a j = a' j) :
    chunk epb nr a i = chunk epb nr a' i := by
  unfold chunk
  apply List.map_congr_left
  intro j hj
  have := List.mem_range.mp hj
  apply h
  rw [Nat.add_mul]
  omega

/-- a push above everything pushed before -/
theorem push_post [Inhabited V] {epb nr n max : Nat} (he : 0 < epb) {s0 s : ASt V} {ps : List (Nat × V)} {ab : AB V}
    (h : Inv epb nr n max s0 ps ab s) {i : Nat} (v : V) (hi : i < nr)
    (hpos : ab.blocks.length * epb + ab.values.length ≤ i) :
    APost (push i v ab s) (fun r => Inv epb nr n max s0 (ps ++ [(i, v)]) r.1 r.2 ∧
      r.1.blocks.length * epb + r.1.values.length = i + 1) := by
  unfold push
  simp only [h.hepb, h.hnr]
  rw [if_neg (by omega)]
  have hdm := Nat.div_add_mod i epb
  have hml := Nat.mod_lt i he
  have hbi : ab.blocks.length ≤ i / epb := (Nat.le_div_iff_mul_le he).mpr (by omega)
  have hbn : i / epb < divUp nr epb := (lt_divUp he).mpr (by rw [Nat.mul_comm]; omega)
  have := emitN_post he (i / epb - ab.blocks.length) h (by omega)
  cases e : emitN (i / epb - ab.blocks.length) ab s with
  | error err => rw [e] at this; cases err <;> exact this
  | ok r =>
    rw [e] at this
    obtain ⟨ab', s'⟩ := r
    obtain ⟨h1, h2, h3, h4⟩ := this
    simp only at h1 h2 h3 h4 ⊢
    have hl : ab'.blocks.length = i / epb := by omega
    have hvl : ab'.values.length ≤ i % epb := by
      rcases Nat.eq_zero_or_pos (i / epb - ab.blocks.length) with h0 | h0
      · rw [h3 h0]
        have : ab.blocks.length = i / epb := by omega
        rw [this, Nat.mul_comm] at hpos
        omega
      · rw [h4 h0]; simp
    rw [if_neg (by omega)]
    have hps : ∀ p ∈ ps, p.1 < i := by
      intro p hp
      have := h.later p hp
      omega
    have hcap := h1.cap
    rw [hl] at hcap
    have hmul : i / epb * epb = epb * (i / epb) := Nat.mul_comm _ _
    refine ⟨⟨h1.hnr, h1.hepb, h1.nrB, h1.le, h1.cap, ?_, ?_, ?_, ?_, h1.sm, h1.rc, h1.keep, h1.new, h1.log⟩, ?_⟩
    · simp only [List.length_append, List.length_replicate, List.length_singleton]
      rw [hcap]; omega
    · intro p hp
      simp only [List.length_append, List.length_replicate, List.length_singleton]
      rw [hl]
      rcases List.mem_append.mp hp with hp | hp
      · have := hps p hp; omega
      · rw [List.mem_singleton.mp hp]; simp only; omega
    · apply List.ext_getElem
      · simp
      · intro j g1 g2
        simp only [List.getElem_map, List.getElem_range]
        simp only [List.length_append, List.length_replicate, List.length_singleton] at g1
        rw [hl]
        rw [arrayOf_append _ _ _ hps]
        by_cases hj : j = i % epb
        · rw [if_pos (by omega)]
          subst hj
          rw [List.getElem_append_right (by simp; omega)]
          simp
        · rw [if_neg (by omega), List.getElem_append_left (by simp; omega)]
          rw [List.getElem_append]
          split
          · next hlt =>
            have : ∀ l : List V, l = ab'.values → ∀ (hl : j < l.length), l[j] = ab'.values[j] := by
              intro l hl _; subst hl; rfl
            rw [← this _ h1.vals.symm (by simpa using hlt)]
            simp [hl]
          · next hge =>
            rw [List.getElem_replicate, arrayOf_out h1.later (by rw [hl]; omega)]
    · intro k hk
      have hk : k < ab'.blocks.length := hk
      rw [h1.stored k hk]
      congr 1
      apply chunk_congr
      intro j hj
      rw [arrayOf_lt hps]
      have : (k + 1) * epb ≤ i / epb * epb := Nat.mul_le_mul_right _ (by omega)
      omega
    · simp only [List.length_append, List.length_replicate, List.length_singleton]
      rw [hl]; omega

/-- where the next index must lie -/
def pos (ab : AB V) : Nat := ab.blocks.length * ab.epb + ab.values.length

theorem pushList_post [Inhabited V] {epb nr n max : Nat} (he : 0 < epb) {s0 : ASt V} (qs : List (Nat × V)) :
    ∀ {ps : List (Nat × V)} {ab : AB V} {s : ASt V}, Inv epb nr n max s0 ps ab s → (∀ q ∈ qs, q.1 < nr) → Sorted qs →
    (∀ q ∈ qs, ab.blocks.length * epb + ab.values.length ≤ q.1) →
    APost (pushList qs ab s) (fun r => Inv epb nr n max s0 (ps ++ qs) r.1 r.2) := by
  induction qs with
  | nil => intro ps ab s h _ _ _; rw [List.append_nil]; exact h
  | cons q qs ih =>
    intro ps ab s h hb hs hp
    obtain ⟨i, v⟩ := q
    unfold pushList
    have := push_post he h v (hb (i, v) (by simp)) (hp (i, v) (by simp))
    cases e : push i v ab s with
    | error err => rw [e] at this; cases err <;> exact this
    | ok r =>
      rw [e] at this
      obtain ⟨ab', s'⟩ := r
      obtain ⟨h1, h2⟩ := this
      simp only at h1 h2 ⊢
      have hs' := List.pairwise_cons.mp hs
      have := ih h1 (fun q hq => hb q (by simp [hq])) hs'.2 (fun q hq => by have := hs'.1 q hq; omega)
      rw [List.append_assoc] at this
      exact this

theorem inv_new [Inhabited V] {epb nr n max : Nat} {s0 : ASt V} (hs0 : s0.bt.sm.Inv n max) :
    Inv epb nr n max s0 [] (AB.new epb nr) s0 := by
  refine ⟨rfl, rfl, rfl, by simp [AB.new], by simp [AB.new], by simp [AB.new], by simp, by simp [AB.new], by simp [AB.new],
    hs0, by simp [AB.new], fun b _ => ⟨rfl, rfl⟩, by simp [AB.new], rfl⟩

/-- What is on disk after the blocks of an array have been written. -/
structure Blocks [Inhabited V] (epb nr n max : Nat) (s0 : ASt V) (a : Nat → V) (blocks : List Nat) (s : ASt V) : Prop where
  count : blocks.length = divUp nr epb
  stored : ∀ i (h : i < blocks.length), s.readArr blocks[i] = some (chunk epb nr a i)
  rc : ∀ b, s.bt.sm.abs b = s0.bt.sm.abs b + blocks.count b
  keep : ∀ b, 0 < s0.bt.sm.abs b → s.bt.mem b = s0.bt.mem b ∧ s.arr b = s0.arr b
  new : ∀ b ∈ blocks, s0.bt.sm.abs b = 0
  sm : s.bt.sm.Inv n max
  log : s.bt.log = s0.bt.log

/-- C17 for `ArrayBlockBuilder`. -/
theorem buildBlocks_correct [Inhabited V] {epb nr n max : Nat} (he : 0 < epb) {s0 : ASt V} (hs0 : s0.bt.sm.Inv n max)
    (ps : List (Nat × V)) (hb : ∀ p ∈ ps, p.1 < nr) (hs : Sorted ps) :
    APost (buildBlocks epb nr ps s0) (fun r => Blocks epb nr n max s0 (arrayOf ps) r.1 r.2) := by
  unfold buildBlocks
  have := pushList_post he ps (inv_new (epb := epb) (nr := nr) hs0) hb hs (by simp [AB.new])
  cases e : pushList ps (AB.new epb nr) s0 with
  | error err => rw [e] at this; cases err <;> exact this
  | ok r =>
    rw [e] at this
    obtain ⟨ab, s⟩ := r
    simp only [List.nil_append] at this ⊢
    have this : Inv epb nr n max s0 ps ab s := this
    have hle := this.le
    unfold completeBlocks
    have h1 := emitN_post he (divUp nr epb - ab.blocks.length) this (by omega)
    rw [this.nrB]
    cases e2 : emitN (divUp nr epb - ab.blocks.length) ab s with
    | error err => rw [e2] at h1; cases err <;> exact h1
    | ok r =>
      rw [e2] at h1
      obtain ⟨ab', s'⟩ := r
      obtain ⟨g1, g2, -, -⟩ := h1
      simp only at g1 g2
      exact ⟨by simp only; omega, g1.stored, g1.rc, g1.keep, g1.new, g1.sm, g1.log⟩

theorem sorted_zip (l : List Nat) : Sorted ((List.range l.length).zip l) := by
  unfold Sorted
  rw [List.pairwise_iff_getElem]
  intro i j hi hj hij
  simpa using hij

theorem flatMap_val (mem : Nat → Option (BT.Blk Nat)) (es : List (Nat × Nat)) :
    (es.map fun e => Item.val e.1 e.2).flatMap (Item.contents mem) = es := by
  induction es with
  | nil => rfl
  | cons e es ih =>
    rw [List.map_cons, List.flatMap_cons, ih]
    rfl

/-- C17: pushing values at strictly increasing indexes below the declared size either runs out of metadata space or gives
the root of an index tree whose entry `k` is the block that holds entries `k * epb, k * epb + 1, …` of the array; every
block but the last is full and the total is the declared size; blocks in use before keep their contents. -/
theorem buildArray_correct [Inhabited V] {epb capL capI nr n max : Nat} (he : 0 < epb) (hL : 2 ≤ capL) (hI : 4 ≤ capI)
    (hn : n < 2 ^ 64) {s0 : ASt V} (hs0 : s0.bt.sm.Inv n max) (ps : List (Nat × V)) (hb : ∀ p ∈ ps, p.1 < nr)
    (hs : Sorted ps) :
    APost (buildArray epb capL capI nr ps s0) (fun r => ∃ (h : Nat) (t : Tree Nat h) (blocks : List Nat),
      t.blk h = r.1 ∧ t.Stored (fun _ b => r.2.bt.mem b) true h ∧ t.Ordered h 0 none ∧
      t.contents h = (List.range blocks.length).zip blocks ∧
      blocks.length = divUp nr epb ∧ (∀ i (h : i < blocks.length), r.2.readArr blocks[i] = some (chunk epb nr (arrayOf ps) i)) ∧
      (∀ b, 0 < s0.bt.sm.abs b → r.2.bt.mem b = s0.bt.mem b ∧ r.2.arr b = s0.arr b) ∧
      (∀ b, r.2.bt.sm.abs b = s0.bt.sm.abs b + blocks.count b + (t.blocks h).count b)) := by
  unfold buildArray
  have h1 := buildBlocks_correct he hs0 ps hb hs
  cases e : buildBlocks epb nr ps s0 with
  | error err => rw [e] at h1; cases err <;> exact h1
  | ok r =>
    rw [e] at h1
    obtain ⟨blocks, s⟩ := r
    obtain ⟨c1, c2, c3, c4, c5, c6, c7⟩ := h1
    simp only at c1 c2 c3 c4 c5 c6 c7 ⊢
    have h2 := Bld.build_correct (fun _ : Nat => ([] : List Nat)) (fun _ _ => true) (capL := capL) hL hI hn s.bt c6
      (indexItems blocks)
      (by intro i hi; obtain ⟨e, -, rfl⟩ := List.mem_map.mp hi; trivial)
      (by unfold indexItems; rw [flatMap_val]; exact sorted_zip blocks)
    cases e2 : build (leafIO (fun _ => []) (fun _ _ => true)) capL capI (indexItems blocks) s.bt with
    | error err => rw [e2] at h2; exact h2
    | ok r =>
      rw [e2] at h2
      obtain ⟨root, t⟩ := r
      obtain ⟨ht, tr, hr⟩ := h2
      simp only at hr
      unfold indexItems at hr
      rw [flatMap_val] at hr
      refine ⟨ht, tr, blocks, hr.blk, hr.stored, hr.ordered, hr.contents, c1, ?_, ?_, ?_⟩
      · intro i hi
        rw [← c2 i hi]
        apply readArr_congr
        refine ⟨?_, rfl⟩
        apply hr.mem
        rw [c3]
        have := List.count_pos_iff.mpr (List.getElem_mem hi)
        omega
      · intro b hb
        rw [← (c4 b hb).1, ← (c4 b hb).2]
        exact ⟨hr.mem b (by rw [c3]; omega), rfl⟩
      · intro b
        have := hr.rc b
        simp only at this ⊢
        rw [this, c3]

/-- reading back: entry `i` of the array is in block `i / epb` at place `i % epb` -/
theorem chunk_get {epb nr : Nat} (a : Nat → V) {i : Nat} (hi : i < nr) (he : 0 < epb) :
    (chunk epb nr a (i / epb))[i % epb]? = some (a i) := by
  have hdm := Nat.div_add_mod i epb
  have hml := Nat.mod_lt i he
  have hmul : i / epb * epb = epb * (i / epb) := Nat.mul_comm _ _
  unfold chunk
  rw [List.getElem?_map, List.getElem?_range (by omega)]
  simp only [Option.map_some]
  rw [show i / epb * epb + i % epb = i by omega]

/-- the value pushed at an index is the one the array has there -/
theorem arrayOf_pushed [Inhabited V] {ps : List (Nat × V)} (hs : Sorted ps) {p : Nat × V} (hp : p ∈ ps) :
    arrayOf ps p.1 = p.2 := by
  induction ps with
  | nil => cases hp
  | cons q qs ih =>
    have hs' := List.pairwise_cons.mp hs
    unfold arrayOf
    rcases List.mem_cons.mp hp with rfl | hp
    · simp
    · have := hs'.1 p hp
      rw [List.find?_cons_of_neg (by simp only [beq_iff_eq]; omega)]
      exact ih hs'.2 hp

/-- … and the default where nothing was pushed -/
theorem arrayOf_default [Inhabited V] {ps : List (Nat × V)} {i : Nat} (h : ∀ p ∈ ps, p.1 ≠ i) : arrayOf ps i = default := by
  unfold arrayOf
  rw [List.find?_eq_none.mpr]
  intro p hp
  simpa using h p hp

/-- every block is full, but for the last -/
theorem chunk_length (epb nr : Nat) (a : Nat → V) (i : Nat) : (chunk epb nr a i).length = min (nr - i * epb) epb := by
  simp [chunk]

/-! ### Rejected pushes -/

/-- C17: an index at or beyond the declared size is refused. -/
theorem push_bounds [Inhabited V] (i : Nat) (v : V) (ab : AB V) (s : ASt V) (h : ab.nr ≤ i) :
    push i v ab s = .error .bounds := by
  unfold push
  rw [if_pos h]

theorem push_pos [Inhabited V] {epb nr n max : Nat} (he : 0 < epb) {s0 s : ASt V} {ps : List (Nat × V)} {ab : AB V}
    (h : Inv epb nr n max s0 ps ab s) {i : Nat} (v : V) {r : AB V × ASt V} (hr : push i v ab s = .ok r) :
    i < nr ∧ ab.blocks.length * epb + ab.values.length ≤ i := by
  unfold push at hr
  simp only [h.hepb, h.hnr] at hr
  split at hr
  · cases hr
  · next hlt =>
    refine ⟨by omega, ?_⟩
    by_cases hb : i / epb ≤ ab.blocks.length
    · rw [show i / epb - ab.blocks.length = 0 by omega] at hr
      simp only [emitN] at hr
      split at hr
      · cases hr
      · next hn =>
        have hdm := Nat.div_add_mod i epb
        have : ab.blocks.length = i / epb := by omega
        rw [this, Nat.mul_comm]
        omega
    · have h1 : (ab.blocks.length + 1) * epb ≤ i / epb * epb := Nat.mul_le_mul_right _ (by omega)
      have := Nat.div_mul_le_self i epb
      have hf := h.fits
      have hc := h.cap
      rw [Nat.add_mul] at h1
      omega

theorem pushList_ok [Inhabited V] {epb nr n max : Nat} (he : 0 < epb) {s0 : ASt V} (qs : List (Nat × V)) :
    ∀ {ps : List (Nat × V)} {ab : AB V} {s : ASt V} {r : AB V × ASt V}, Inv epb nr n max s0 ps ab s →
    pushList qs ab s = .ok r →
    (∀ q ∈ qs, q.1 < nr ∧ ab.blocks.length * epb + ab.values.length ≤ q.1) ∧ Sorted qs := by
  induction qs with
  | nil => intro ps ab s r _ _; exact ⟨by simp, List.Pairwise.nil⟩
  | cons q qs ih =>
    intro ps ab s r h hr
    obtain ⟨i, v⟩ := q
    unfold pushList at hr
    cases e : push i v ab s with
    | error err => rw [e] at hr; cases hr
    | ok r1 =>
      rw [e] at hr
      obtain ⟨ab', s'⟩ := r1
      simp only at hr
      have hp := push_pos he h v e
      have := push_post he h v hp.1 hp.2
      rw [e] at this
      obtain ⟨h1, h2⟩ := this
      simp only at h1 h2
      obtain ⟨g1, g2⟩ := ih h1 hr
      refine ⟨?_, List.pairwise_cons.mpr ⟨fun q hq => ?_, g2⟩⟩
      · intro q hq
        rcases List.mem_cons.mp hq with rfl | hq
        · exact hp
        · have := g1 q hq; omega
      · have := g1 q hq
        show i < q.1
        omega

/-- C17: if a build succeeds, every index was below the declared size and the indexes increased strictly. -/
theorem buildBlocks_rejects [Inhabited V] {epb nr n max : Nat} (he : 0 < epb) {s0 : ASt V} (hs0 : s0.bt.sm.Inv n max)
    (ps : List (Nat × V)) (r : List Nat × ASt V) (h : buildBlocks epb nr ps s0 = .ok r) :
    (∀ p ∈ ps, p.1 < nr) ∧ Sorted ps := by
  unfold buildBlocks at h
  cases e : pushList ps (AB.new epb nr) s0 with
  | error err => rw [e] at h; cases h
  | ok r =>
    obtain ⟨h1, h2⟩ := pushList_ok he ps (inv_new (epb := epb) (nr := nr) hs0) e
    exact ⟨fun p hp => (h1 p hp).1, h2⟩

/-! ### Non-vacuity -/

/-- an empty device of 20 blocks -/
def demoSt : ASt Nat := { bt := { mem := fun _ => none, sm := SM.Core.new 100 20, log := [] }, arr := fun _ => none }

example : demoSt.bt.sm.Inv 20 100 ∧ (match buildArray 3 4 4 8 [(1, 11), (4, 14), (7, 17)] demoSt with
    | .ok r => [0, 1, 2].map r.2.readArr == [some [0, 11, 0], some [0, 14, 0], some [0, 17]] && r.1 == 3 &&
        r.2.bt.mem 3 == some (.leaf [(0, 0), (1, 1), (2, 2)])
    | .error _ => false) = true :=
  ⟨SM.Core.new_inv 20 100 (by omega), by decide⟩

example : buildBlocks 3 8 [(4, 1), (4, 2)] demoSt = .error .order := rfl
example : buildBlocks 3 8 [(4, 1), (8, 2)] demoSt = .error .bounds := rfl

end Verif.Arr
