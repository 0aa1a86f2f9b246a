import Verif.Model.EraRestore
import Verif.Prop.ArrayBuilder

/-!
# C37: restoring a writeset

The English claim (exactly the marked blocks are set) is false: see `restore_crossing_refuted`.  Proved: it holds when
no range crosses a multiple of 64; and a successful restore of increasing ranges never loses a marked block.
-/

namespace Verif.EraR

open Verif.Bld (Sorted)
open Verif.Arr (arrayOf divUp)

/-- block `i` is in one of the ranges -/
def Marked (rs : List (Nat × Nat)) (i : Nat) : Prop := ∃ r ∈ rs, r.1 ≤ i ∧ i < r.1 + r.2

/-- bit `i` of an array of 64-bit words -/
def bitAt (a : Nat → Nat) (i : Nat) : Bool := (a (i / 64)).testBit (i % 64)

theorem testBit_ALL (j : Nat) : ALL.testBit j = decide (j < 64) := by
  rw [ALL, Nat.testBit_two_pow_sub_one]

theorem testBit_maskFrom (n j : Nat) : (maskFrom n).testBit j = (decide (j < 64) && decide (n ≤ j)) := by
  unfold maskFrom
  rw [Nat.testBit_mod_two_pow, Nat.testBit_shiftLeft, testBit_ALL]
  by_cases h1 : j < 64 <;> by_cases h2 : n ≤ j <;> simp [h1, h2] <;> omega

theorem testBit_maskTo (n j : Nat) (hn : n < 64) : (maskTo n).testBit j = decide (j ≤ n) := by
  unfold maskTo
  rw [Nat.one_shiftLeft, Nat.mod_eq_of_lt (Nat.pow_lt_pow_right (by omega) hn)]
  have h1 : 0 < 2 ^ n := Nat.two_pow_pos n
  have h2 : 2 ^ n < 2 ^ 64 := Nat.pow_lt_pow_right (by omega) hn
  rw [show 2 ^ n + 2 ^ 64 - 1 = (2 ^ n - 1) + 2 ^ 64 by omega, Nat.add_mod_right, Nat.mod_eq_of_lt (by omega)]
  rw [Nat.testBit_xor, Nat.testBit_two_pow, Nat.testBit_two_pow_sub_one]
  by_cases h : n = j
  · subst h; simp
  · by_cases h' : j < n
    · simp [h, h']; omega
    · simp [h, h']; omega

/-- the words pushed so far together with the buffered one -/
def RSt.words (s : RSt) (k : Nat) : Nat := if k = s.ei then s.buf else arrayOf s.pushes k

/-- order of the pushes -/
def RSt.OK (s : RSt) : Prop := Sorted s.pushes ∧ ∀ p ∈ s.pushes, p.1 < s.ei

theorem ok_push {s : RSt} (h : s.OK) {e b : Nat} (he : s.ei < e) : RSt.OK { s.push with ei := e, buf := b } := by
  obtain ⟨h1, h2⟩ := h
  refine ⟨?_, ?_⟩
  · show Sorted (s.pushes ++ [(s.ei, s.buf)])
    unfold Sorted
    rw [List.pairwise_append]
    refine ⟨h1, by simp, ?_⟩
    intro a ha b hb
    rw [List.mem_singleton.mp hb]
    exact h2 a ha
  · intro p hp
    rcases List.mem_append.mp hp with hp | hp
    · have := h2 p hp; simp only; omega
    · rw [List.mem_singleton.mp hp]; exact he

theorem ok_buf {s : RSt} (h : s.OK) (b : Nat) : RSt.OK { s with buf := b } := h

theorem words_push {s : RSt} (h : s.OK) {e b : Nat} (he : s.ei < e) (k : Nat) :
    RSt.words { s.push with ei := e, buf := b } k = if k = e then b else s.words k := by
  unfold RSt.words
  simp only
  by_cases hk : k = e
  · rw [if_pos hk, if_pos hk]
  · rw [if_neg hk, if_neg hk]
    show arrayOf (s.pushes ++ [(s.ei, s.buf)]) k = _
    rw [Arr.arrayOf_append _ _ _ h.2]

theorem words_above {s : RSt} (h : s.OK) {k : Nat} (hk : s.ei < k) : s.words k = 0 := by
  unfold RSt.words
  rw [if_neg (by omega), Arr.arrayOf_out h.2 (by omega)]
  rfl

theorem loop_spec (n : Nat) : ∀ s : RSt, s.OK → (loop n s).OK ∧ (loop n s).ei = s.ei + n ∧
    (∀ k, k ≤ s.ei → 0 < n → (loop n s).words k = s.words k) ∧ (n = 0 → loop n s = s) ∧
    (∀ k, s.ei < k → k ≤ s.ei + n → (loop n s).words k = ALL) := by
  induction n with
  | zero => intro s h; exact ⟨h, rfl, fun k _ h => absurd h (by omega), fun _ => rfl, fun k h1 h2 => by omega⟩
  | succ n ih =>
    intro s h
    have h1 := ok_push h (e := s.ei + 1) (b := ALL) (by omega)
    obtain ⟨g1, g2, g3, g4, g5⟩ := ih _ h1
    have hw := fun k => words_push h (e := s.ei + 1) (b := ALL) (by omega) k
    have hl : loop (n + 1) s = loop n { s.push with ei := s.ei + 1, buf := ALL } := rfl
    rw [hl]
    refine ⟨g1, by rw [g2]; simp only; omega, ?_, fun h => by omega, ?_⟩
    · intro k hk _
      rcases Nat.eq_zero_or_pos n with h0 | h0
      · rw [g4 h0, hw, if_neg (by omega)]
      · rw [g3 k (by simp only; omega) h0, hw, if_neg (by omega)]
    · intro k hk1 hk2
      by_cases hk : k = s.ei + 1
      · rcases Nat.eq_zero_or_pos n with h0 | h0
        · rw [g4 h0, hw, if_pos hk]
        · rw [g3 k (by simp only; omega) h0, hw, if_pos hk]
      · exact g5 k (by simp only; omega) (by simp only; omega)

/-- first part of `blocks`: move on to the word of the range -/
def move (s : RSt) (idx : Nat) : RSt := if idx > s.ei then { s.push with ei := idx, buf := 0 } else s

theorem move_spec {s : RSt} (h : s.OK) (idx : Nat) : (move s idx).OK ∧ (move s idx).ei = max s.ei idx ∧
    (∀ k, (move s idx).words k = s.words k) := by
  unfold move
  split
  · next hgt =>
    refine ⟨ok_push h hgt, by simp only; omega, fun k => ?_⟩
    rw [words_push h hgt]
    split
    · next hk => rw [words_above h (by omega)]
    · rfl
  · exact ⟨h, by omega, fun _ => rfl⟩

theorem blocks_eq (s : RSt) (r : Nat × Nat) : blocks s r =
    if r.1 / 64 = (r.1 + r.2 - 1) / 64 then
      { move s (r.1 / 64) with
        buf := (move s (r.1 / 64)).buf ||| (maskTo ((r.1 + r.2 - 1) % 64) &&& maskFrom (r.1 % 64)) }
    else
      let t := loop ((r.1 + r.2 - 1) / 64 - r.1 / 64)
        { move s (r.1 / 64) with buf := (move s (r.1 / 64)).buf ||| maskFrom (r.1 % 64) }
      { t.push with ei := t.ei + 1, buf := t.buf ||| maskTo ((r.1 + r.2 - 1) % 64) } := by
  have h63 : ∀ x : Nat, x &&& 63 = x % 64 := fun x => Nat.and_two_pow_sub_one_eq_mod x 6
  unfold blocks blocksTo move
  simp only [Nat.shiftRight_eq_div_pow, show (2 : Nat) ^ 6 = 64 from rfl, h63]

/-- every push goes to a larger index than the one before -/
theorem blocks_ok {s : RSt} (h : s.OK) (r : Nat × Nat) : (blocks s r).OK := by
  rw [blocks_eq]
  have hm := move_spec h (r.1 / 64)
  split
  · exact ok_buf hm.1 _
  · exact ok_push (loop_spec _ _ (ok_buf hm.1 _)).1 (Nat.lt_succ_self _)

theorem fold_ok (rs : List (Nat × Nat)) : ∀ s : RSt, s.OK → (rs.foldl blocks s).OK := by
  induction rs with
  | nil => intro s h; exact h
  | cons r rs ih => intro s h; exact ih _ (blocks_ok h r)

theorem ok_init : RSt.OK ⟨0, 0, []⟩ := ⟨List.Pairwise.nil, by simp⟩

/-- whatever the ranges, the words are pushed in increasing order -/
theorem pushes_sorted (rs : List (Nat × Nat)) : Sorted (pushesOf rs) :=
  (ok_push (fold_ok rs _ ok_init) (e := (rs.foldl blocks ⟨0, 0, []⟩).ei + 1) (b := 0) (by omega)).1

theorem pushes_words (rs : List (Nat × Nat)) (k : Nat) :
    arrayOf (pushesOf rs) k = (rs.foldl blocks ⟨0, 0, []⟩).words k := by
  have h := fold_ok rs _ ok_init
  show arrayOf ((rs.foldl blocks ⟨0, 0, []⟩).pushes ++ [((rs.foldl blocks ⟨0, 0, []⟩).ei, (rs.foldl blocks ⟨0, 0, []⟩).buf)]) k = _
  rw [Arr.arrayOf_append _ _ _ h.2]
  rfl

theorem pushes_le (rs : List (Nat × Nat)) : ∀ p ∈ pushesOf rs, p.1 ≤ (rs.foldl blocks ⟨0, 0, []⟩).ei := by
  intro p hp
  have h := fold_ok rs _ ok_init
  rcases List.mem_append.mp hp with hp | hp
  · have := h.2 p hp; omega
  · rw [List.mem_singleton.mp hp]; exact Nat.le_refl _

/-! ### Ranges within a word -/

/-- the range lies in one 64-bit word -/
def InWord (r : Nat × Nat) : Prop := 0 < r.2 ∧ r.1 / 64 = (r.1 + r.2 - 1) / 64

theorem blocks_inWord {s : RSt} (h : s.OK) {r : Nat × Nat} (hr : InWord r) (hle : s.ei ≤ r.1 / 64) :
    (blocks s r).ei = r.1 / 64 ∧
    ∀ i, bitAt (blocks s r).words i = (bitAt s.words i || decide (r.1 ≤ i ∧ i < r.1 + r.2)) := by
  obtain ⟨h0, h1⟩ := hr
  have hm := move_spec h (r.1 / 64)
  have hei : (move s (r.1 / 64)).ei = r.1 / 64 := by rw [hm.2.1]; omega
  rw [blocks_eq, if_pos h1]
  refine ⟨hei, fun i => ?_⟩
  unfold bitAt
  have hw : ∀ k b, RSt.words { move s (r.1 / 64) with buf := b } k = if k = r.1 / 64 then b else s.words k := by
    intro k b
    rw [← hm.2.2 k]
    unfold RSt.words
    simp only [hei]
    split <;> rfl
  rw [hw]
  have hbuf : (move s (r.1 / 64)).buf = s.words (r.1 / 64) := by
    rw [← hm.2.2]; unfold RSt.words; rw [if_pos hei.symm]
  by_cases hi : i / 64 = r.1 / 64
  · rw [if_pos hi, Nat.testBit_or, Nat.testBit_and, testBit_maskFrom, testBit_maskTo _ _ (Nat.mod_lt _ (by omega)), hbuf, hi]
    congr 1
    have : i % 64 < 64 := Nat.mod_lt _ (by omega)
    simp only [this, decide_true, Bool.true_and]
    rw [← Bool.decide_and, decide_eq_decide]
    omega
  · rw [if_neg hi]
    have : ¬ (r.1 ≤ i ∧ i < r.1 + r.2) := by omega
    simp [this]

theorem fold_inWord (rs : List (Nat × Nat)) : ∀ s : RSt, s.OK → (∀ r ∈ rs, InWord r ∧ s.ei ≤ r.1 / 64) →
    rs.Pairwise (fun a b => a.1 / 64 ≤ b.1 / 64) →
    ((rs.foldl blocks s).ei = s.ei ∨ ∃ r ∈ rs, (rs.foldl blocks s).ei = r.1 / 64) ∧
    ∀ i, bitAt (rs.foldl blocks s).words i = true ↔ bitAt s.words i = true ∨ Marked rs i := by
  induction rs with
  | nil => intro s _ _ _; exact ⟨Or.inl rfl, fun i => by simp [Marked]⟩
  | cons r rs ih =>
    intro s h hr hp
    have hp' := List.pairwise_cons.mp hp
    obtain ⟨h1, h2⟩ := blocks_inWord h (hr r (by simp)).1 (hr r (by simp)).2
    obtain ⟨g1, g2⟩ := ih (blocks s r) (blocks_ok h r)
      (fun q hq => ⟨(hr q (by simp [hq])).1, by rw [h1]; exact hp'.1 q hq⟩) hp'.2
    refine ⟨?_, fun i => ?_⟩
    · right
      rcases g1 with g1 | ⟨q, hq, g1⟩
      · exact ⟨r, by simp, by rw [List.foldl_cons, g1, h1]⟩
      · exact ⟨q, by simp [hq], g1⟩
    · rw [List.foldl_cons, g2, h2]
      unfold Marked
      simp only [Bool.or_eq_true, decide_eq_true_eq, List.mem_cons, exists_eq_or_imp]
      rw [or_assoc]

/-- C37, proved part: if no range crosses a word boundary and the ranges come in increasing order, restoring either runs out
of metadata space or stores a bitset of the declared size in which exactly the marked blocks are set.  What is missing:
ranges that cross a word boundary (see below). -/
theorem restore_exact_partial {epb capL capI nrBits n max : Nat} (he : 0 < epb) (hL : 2 ≤ capL) (hI : 4 ≤ capI)
    (hn : n < 2 ^ 64) (h0 : 0 < nrBits) {s0 : Arr.ASt Nat} (hs0 : s0.bt.sm.Inv n max) (rs : List (Nat × Nat))
    (hr : ∀ r ∈ rs, InWord r ∧ r.1 + r.2 ≤ nrBits) (hp : rs.Pairwise (fun a b => a.1 ≤ b.1)) :
    Arr.APost (restoreWriteset epb capL capI nrBits rs s0) (fun r => ∃ (h : Nat) (t : BT.Tree Nat h) (bs : List Nat) (a : Nat → Nat),
      t.blk h = r.1 ∧ t.Stored (fun _ b => r.2.bt.mem b) true h ∧ t.Ordered h 0 none ∧
      t.contents h = (List.range bs.length).zip bs ∧ bs.length = divUp (divUp nrBits 64) epb ∧
      (∀ i (h : i < bs.length), r.2.readArr bs[i] = some (Arr.chunk epb (divUp nrBits 64) a i)) ∧
      ∀ i, bitAt a i = true ↔ Marked rs i) := by
  have hp' : rs.Pairwise (fun a b => a.1 / 64 ≤ b.1 / 64) := hp.imp (fun h => Nat.div_le_div_right h)
  obtain ⟨g1, g2⟩ := fold_inWord rs _ ok_init (fun r hr' => ⟨(hr r hr').1, Nat.zero_le _⟩) hp'
  have hb : ∀ p ∈ pushesOf rs, p.1 < divUp nrBits 64 := by
    intro p hp
    have := pushes_le rs p hp
    rw [Arr.lt_divUp (by omega)]
    rcases g1 with g1 | ⟨r, hr', g1⟩
    · rw [g1] at this
      simp only at this
      omega
    · obtain ⟨⟨h1, h2⟩, h3⟩ := hr r hr'
      rw [g1] at this
      omega
  have := Arr.buildArray_correct he hL hI hn hs0 (pushesOf rs) hb (pushes_sorted rs)
  unfold restoreWriteset
  cases e : Arr.buildArray epb capL capI (divUp nrBits 64) (pushesOf rs) s0 with
  | error err => rw [e] at this; cases err <;> exact this
  | ok r =>
    rw [e] at this
    obtain ⟨h, t, bs, c1, c2, c3, c4, c5, c6, -, -⟩ := this
    refine ⟨h, t, bs, _, c1, c2, c3, c4, c5, c6, fun i => ?_⟩
    unfold bitAt
    rw [pushes_words]
    have := g2 i
    unfold bitAt at this
    rw [this]
    simp [RSt.words, arrayOf]

/-! ### In general: no marked block is lost -/

/-- everything up to `e` has been dealt with: words from that of `e` up to the buffered one are full -/
structure Sup (rs : List (Nat × Nat)) (e : Nat) (s : RSt) : Prop where
  ok : s.OK
  all : ∀ i, Marked rs i → bitAt s.words i = true
  full : ∀ k, e / 64 ≤ k → k < s.ei → s.words k = ALL
  fullBuf : e / 64 < s.ei → s.buf = ALL

theorem all_or {w : Nat} (m : Nat) (h : w = ALL) (hm : m < 2 ^ 64) : w ||| m = ALL := by
  apply Nat.eq_of_testBit_eq
  intro j
  rw [Nat.testBit_or, h, testBit_ALL]
  by_cases hj : j < 64
  · simp [hj]
  · simp only [hj, decide_false, Bool.false_or]
    exact Nat.testBit_lt_two_pow (Nat.lt_of_lt_of_le hm (Nat.pow_le_pow_right (by omega) (by omega)))

theorem maskFrom_lt (n : Nat) : maskFrom n < 2 ^ 64 := Nat.mod_lt _ (by decide)

theorem maskTo_lt (n : Nat) : maskTo n < 2 ^ 64 := by
  unfold maskTo
  exact Nat.xor_lt_two_pow (Nat.mod_lt _ (by decide)) (Nat.mod_lt _ (by decide))

theorem blocks_sup {rs : List (Nat × Nat)} {e : Nat} {s : RSt} (h : Sup rs e s) {r : Nat × Nat} (hr : 0 < r.2)
    (he : e ≤ r.1) : Sup (rs ++ [r]) (r.1 + r.2) (blocks s r) := by
  have hok := h.ok
  have hm := move_spec hok (r.1 / 64)
  have hmark : ∀ i, Marked (rs ++ [r]) i ↔ Marked rs i ∨ (r.1 ≤ i ∧ i < r.1 + r.2) := by
    intro i; unfold Marked; simp [or_and_right, exists_or]
  have hediv : e / 64 ≤ r.1 / 64 := Nat.div_le_div_right he
  -- the word buffered after moving, and the full words below it
  have hfull : ∀ k, r.1 / 64 ≤ k → k < (move s (r.1 / 64)).ei → (move s (r.1 / 64)).words k = ALL := by
    intro k h1 h2
    rw [hm.2.2]
    have h3 := hm.2.1
    exact h.full k (by omega) (by omega)
  have hbufAll : r.1 / 64 < (move s (r.1 / 64)).ei → (move s (r.1 / 64)).buf = ALL := by
    intro hlt
    have h3 := hm.2.1
    have : move s (r.1 / 64) = s := by unfold move; rw [if_neg (by omega)]
    rw [this]
    exact h.fullBuf (by omega)
  generalize hS : move s (r.1 / 64) = S at *
  have hwb : ∀ k b, RSt.words { S with buf := b } k = if k = S.ei then b else S.words k := by
    intro k b; unfold RSt.words; simp only; split <;> rfl
  have hSbuf : S.words S.ei = S.buf := by unfold RSt.words; rw [if_pos rfl]
  have hmei : r.1 / 64 ≤ S.ei := by have := hm.2.1; omega
  refine ⟨blocks_ok hok r, ?_, ?_, ?_⟩
  · intro i hi
    rw [hmark] at hi
    rw [blocks_eq, hS]
    split
    · next hone =>
      unfold bitAt
      rw [hwb]
      rcases hi with hi | hi
      · have := h.all i hi
        unfold bitAt at this
        rw [← hm.2.2] at this
        split
        · next hk => rw [Nat.testBit_or, ← hSbuf, ← hk, this]; rfl
        · exact this
      · have hdiv : i / 64 = r.1 / 64 := by omega
        have hmod : i % 64 < 64 := Nat.mod_lt _ (by omega)
        by_cases hk : i / 64 = S.ei
        · rw [if_pos hk, Nat.testBit_or, Nat.testBit_and, testBit_maskFrom, testBit_maskTo _ _ (Nat.mod_lt _ (by omega))]
          have a1 : i % 64 ≤ (r.1 + r.2 - 1) % 64 := by omega
          have a2 : r.1 % 64 ≤ i % 64 := by omega
          simp [a1, a2, hmod]
        · rw [if_neg hk, hfull (i / 64) (by omega) (by omega), testBit_ALL]
          simpa using hmod
    · next hone =>
      have hlt : r.1 / 64 < (r.1 + r.2 - 1) / 64 := by
        have : r.1 / 64 ≤ (r.1 + r.2 - 1) / 64 := Nat.div_le_div_right (by omega)
        omega
      have hl := loop_spec ((r.1 + r.2 - 1) / 64 - r.1 / 64) { S with buf := S.buf ||| maskFrom (r.1 % 64) } (ok_buf hm.1 _)
      generalize loop ((r.1 + r.2 - 1) / 64 - r.1 / 64) { S with buf := S.buf ||| maskFrom (r.1 % 64) } = T at hl ⊢
      obtain ⟨g1, g2, g3, -, g5⟩ := hl
      simp only at g2 g3 g5
      unfold bitAt
      simp only
      rw [words_push g1 (by omega)]
      have hmod : i % 64 < 64 := Nat.mod_lt _ (by omega)
      have hword : ∀ k, k ≤ S.ei → T.words k = if k = S.ei then S.buf ||| maskFrom (r.1 % 64) else S.words k := by
        intro k hk; rw [g3 k hk (by omega), hwb]
      have hT : (T.words (i / 64)).testBit (i % 64) = true → ((if i / 64 = T.ei + 1 then T.buf ||| maskTo ((r.1 + r.2 - 1) % 64) else T.words (i / 64))).testBit (i % 64) = true := by
        intro hb
        split
        · next hk =>
          rw [words_above g1 (by omega)] at hb
          simp at hb
        · exact hb
      apply hT
      rcases hi with hi | hi
      · have := h.all i hi
        unfold bitAt at this
        rw [← hm.2.2] at this
        by_cases hk : i / 64 ≤ S.ei
        · rw [hword _ hk]
          split
          · next hk' => rw [Nat.testBit_or, ← hSbuf, ← hk', this]; rfl
          · exact this
        · rw [words_above hm.1 (by omega)] at this
          simp at this
      · by_cases hk : i / 64 ≤ S.ei
        · rw [hword _ hk]
          split
          · next hk' =>
            by_cases hk2 : r.1 / 64 < S.ei
            · rw [all_or _ (hbufAll hk2) (maskFrom_lt _), testBit_ALL]; simpa using hmod
            · rw [Nat.testBit_or, testBit_maskFrom]
              have : r.1 % 64 ≤ i % 64 := by omega
              simp [hmod, this]
          · next hk' =>
            rw [hfull (i / 64) (by omega) (by omega), testBit_ALL]; simpa using hmod
        · rw [g5 (i / 64) (by omega) (by omega), testBit_ALL]; simpa using hmod
  · intro k h1 h2
    rw [blocks_eq, hS] at h2 ⊢
    split at h2
    · next hone =>
      rw [if_pos hone]
      simp only at h2
      rw [hwb, if_neg (by omega)]
      exact hfull k (by omega) h2
    · next hone =>
      rw [if_neg hone]
      have hl := loop_spec ((r.1 + r.2 - 1) / 64 - r.1 / 64) { S with buf := S.buf ||| maskFrom (r.1 % 64) } (ok_buf hm.1 _)
      generalize loop ((r.1 + r.2 - 1) / 64 - r.1 / 64) { S with buf := S.buf ||| maskFrom (r.1 % 64) } = T at hl h2 ⊢
      obtain ⟨g1, g2, g3, -, g5⟩ := hl
      simp only at g2 g3 g5 h2 ⊢
      have hlt : r.1 / 64 < (r.1 + r.2 - 1) / 64 := by
        have : r.1 / 64 ≤ (r.1 + r.2 - 1) / 64 := Nat.div_le_div_right (by omega)
        omega
      rw [words_push g1 (by omega), if_neg (by omega)]
      by_cases hk : k ≤ S.ei
      · have h3 : r.1 / 64 < S.ei := by omega
        rw [g3 k hk (by omega), hwb]
        split
        · exact all_or _ (hbufAll h3) (maskFrom_lt _)
        · exact hfull k (by omega) (by omega)
      · exact g5 k (by omega) (by omega)
  · intro h1
    rw [blocks_eq, hS] at h1 ⊢
    split at h1
    · next hone =>
      rw [if_pos hone]
      simp only at h1 ⊢
      apply all_or _ (hbufAll (by omega))
      have := maskFrom_lt (r.1 % 64)
      exact Nat.and_lt_two_pow _ this
    · next hone =>
      rw [if_neg hone]
      simp only
      have hlt : r.1 / 64 < (r.1 + r.2 - 1) / 64 := by
        have : r.1 / 64 ≤ (r.1 + r.2 - 1) / 64 := Nat.div_le_div_right (by omega)
        omega
      have hl := loop_spec ((r.1 + r.2 - 1) / 64 - r.1 / 64) { S with buf := S.buf ||| maskFrom (r.1 % 64) } (ok_buf hm.1 _)
      generalize loop ((r.1 + r.2 - 1) / 64 - r.1 / 64) { S with buf := S.buf ||| maskFrom (r.1 % 64) } = T at hl ⊢
      obtain ⟨g1, g2, g3, -, g5⟩ := hl
      simp only at g2 g3 g5
      apply all_or _ _ (maskTo_lt _)
      have := g5 T.ei (by omega) (by omega)
      unfold RSt.words at this
      rw [if_pos rfl] at this
      exact this

theorem fold_sup (rs : List (Nat × Nat)) : ∀ (ps : List (Nat × Nat)) (e : Nat) (s : RSt), Sup ps e s →
    (∀ r ∈ rs, 0 < r.2 ∧ e ≤ r.1) → rs.Pairwise (fun a b => a.1 + a.2 ≤ b.1) →
    ∃ e', Sup (ps ++ rs) e' (rs.foldl blocks s) := by
  induction rs with
  | nil => intro ps e s h _ _; exact ⟨e, by rw [List.append_nil]; exact h⟩
  | cons r rs ih =>
    intro ps e s h hr hp
    have hp' := List.pairwise_cons.mp hp
    have := ih _ _ _ (blocks_sup h (hr r (by simp)).1 (hr r (by simp)).2)
      (fun q hq => ⟨(hr q (by simp [hq])).1, hp'.1 q hq⟩) hp'.2
    rw [List.append_assoc] at this
    exact this

/-- C37, the safe half: the words pushed for disjoint increasing ranges (what a dump contains) have every marked block set. -/
theorem restore_keeps_marks (rs : List (Nat × Nat)) (hr : ∀ r ∈ rs, 0 < r.2)
    (hp : rs.Pairwise (fun a b => a.1 + a.2 ≤ b.1)) (i : Nat) (hi : Marked rs i) :
    bitAt (arrayOf (pushesOf rs)) i = true := by
  have h0 : Sup [] 0 ⟨0, 0, []⟩ := ⟨ok_init, by simp [Marked], fun k _ h => by simp only at h; omega, fun h => by simp only at h; omega⟩
  obtain ⟨e, h⟩ := fold_sup rs [] 0 _ h0 (fun r h => ⟨hr r h, Nat.zero_le _⟩) hp
  have := h.all i (by simpa using hi)
  unfold bitAt at this ⊢
  rw [pushes_words]
  exact this

/-! ### What is false -/

/-- Every range that crosses a word boundary is restored wrongly: either the build fails although the range is within the
declared size, or the word after the range's last one has all of its 64 bits set. -/
theorem restore_crossing_refuted (b len nrBits : Nat) (hl : 0 < len) (hc : b / 64 < (b + len - 1) / 64)
    (hin : b + len ≤ nrBits) :
    (divUp nrBits 64 ≤ (b + len - 1) / 64 + 1 ∧
      ∀ {epb n max : Nat}, 0 < epb → ∀ {s0 : Arr.ASt Nat}, s0.bt.sm.Inv n max → ∀ r,
        Arr.buildBlocks epb (divUp nrBits 64) (pushesOf [(b, len)]) s0 ≠ .ok r) ∨
    ((b + len - 1) / 64 + 1 < divUp nrBits 64 ∧ arrayOf (pushesOf [(b, len)]) ((b + len - 1) / 64 + 1) = ALL ∧
      ∀ i, i / 64 = (b + len - 1) / 64 + 1 → ¬ Marked [(b, len)] i) := by
  have hm := move_spec ok_init (b / 64)
  generalize hS : move ⟨0, 0, []⟩ (b / 64) = S at hm
  have hSei : S.ei = b / 64 := by have := hm.2.1; simp only at this; omega
  have hg := loop_spec ((b + len - 1) / 64 - b / 64) { S with buf := S.buf ||| maskFrom (b % 64) } (ok_buf hm.1 _)
  have hfold : [(b, len)].foldl blocks ⟨0, 0, []⟩ = blocks ⟨0, 0, []⟩ (b, len) := rfl
  have heq := blocks_eq ⟨0, 0, []⟩ (b, len)
  simp only at heq
  rw [hS, if_neg (by omega)] at heq
  generalize loop ((b + len - 1) / 64 - b / 64) { S with buf := S.buf ||| maskFrom (b % 64) } = T at hg heq
  obtain ⟨g1, g2, g3, -, g5⟩ := hg
  simp only at g2 g3 g5
  have hTei : T.ei = (b + len - 1) / 64 := by omega
  by_cases hd : (b + len - 1) / 64 + 1 < divUp nrBits 64
  · right
    refine ⟨hd, ?_, ?_⟩
    · rw [pushes_words, hfold, heq, words_push g1 (by omega), if_pos (by omega)]
      apply all_or _ _ (maskTo_lt _)
      have := g5 T.ei (by omega) (by omega)
      unfold RSt.words at this
      rw [if_pos rfl] at this
      exact this
    · intro i hi
      unfold Marked
      simp only [List.mem_singleton, exists_eq_left]
      omega
  · left
    refine ⟨by omega, ?_⟩
    intro epb n max he s0 hs0 r hr
    have := (Arr.buildBlocks_rejects he hs0 _ r hr).1 (((b + len - 1) / 64 + 1), (blocks ⟨0, 0, []⟩ (b, len)).buf) (by
      have : pushesOf [(b, len)] = (blocks ⟨0, 0, []⟩ (b, len)).push.pushes := rfl
      rw [this]
      have he2 : (blocks ⟨0, 0, []⟩ (b, len)).ei = (b + len - 1) / 64 + 1 := by rw [heq]; simp only; omega
      rw [← he2]
      exact List.mem_append_right _ (by simp))
    simp only at this
    omega

/-- Ranges out of order are lost without an error: the second range's bits end up in the buffered word. -/
theorem restore_unordered_refuted :
    (divUp 128 64 = 2 ∧ pushesOf [(64, 1), (3, 1)] = [(0, 0), (1, 9)]) ∧
    bitAt (arrayOf (pushesOf [(64, 1), (3, 1)])) 3 = false ∧ bitAt (arrayOf (pushesOf [(64, 1), (3, 1)])) 67 = true := by
  decide

/-- a writeset without bits cannot be restored: the trailing push is out of bounds -/
theorem restore_empty_refuted (epb capL capI : Nat) (s : Arr.ASt Nat) :
    restoreWriteset epb capL capI 0 [] s = .error .bounds := rfl

/-- the hypotheses of the proved part -/
example : (∀ r ∈ [(0, 3), (10, 54), (64, 1), (127, 1)], InWord r ∧ r.1 + r.2 ≤ 128) ∧
    [(0, 3), (10, 54), (64, 1), (127, 1)].Pairwise (fun a b => a.1 ≤ b.1) ∧
    pushesOf [(0, 3), (10, 54), (64, 1), (127, 1)] = [(0, 2 ^ 64 - 1 - 127 * 8), (1, 2 ^ 63 + 1)] := by
  refine ⟨?_, by decide, by decide⟩
  intro r hr
  simp only [List.mem_cons, List.not_mem_nil, or_false] at hr
  rcases hr with rfl | rfl | rfl | rfl <;> exact ⟨⟨by decide, by decide⟩, by decide⟩

/-- a range of 100 blocks out of 1000: word 2 is full and so is word 3, blocks 100 to 255 were not marked -/
example : pushesOf [(0, 100)] = [(0, ALL), (1, ALL), (2, ALL)] := by decide

end Verif.EraR
