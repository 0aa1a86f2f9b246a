import Verif.Model.BitScan
import Verif.Lemmas.Ranges

/-!
# C36: the marked ranges of a bitset are exact
-/

namespace Verif.Scan

open Verif.Rng

/-- bit `i` of a bitset stored in words of `W` bits -/
def bitOf (W : Nat) (words : List Nat) (i : Nat) : Bool := ((words[i / W]?).getD 0).testBit (i % W)

theorem emit_out (s : St) : s.emit.out = done s.out s.b s.e := by
  unfold St.emit done
  split
  · rfl
  · rfl

theorem emit_e (s : St) : s.emit.e = s.e ∧ s.emit.b = s.b := by
  unfold St.emit
  split <;> exact ⟨rfl, rfl⟩

/-- how the state relates to the scan of the first `p` bits -/
def Rel (bits : Nat → Bool) (nr p : Nat) (s : St) : Prop :=
  (p ≤ nr ∧ s.e = p ∧ (s.out, s.b) = auto bits p) ∨
  (nr ≤ p ∧ done s.out s.b s.e = Rng.fin bits nr ∧ (s.e = nr ∨ (s.b = s.e ∧ nr ≤ s.e)))

theorem rel_zeros {bits : Nat → Bool} {nr p z : Nat} {s : St} (h : Rel bits nr p s) (hz : 0 < z)
    (hb : ∀ i, p ≤ i → i < p + z → i < nr → bits i = false) :
    Rel bits nr (p + z) { s.emit with e := s.emit.e + z, b := s.emit.e + z } := by
  rcases h with ⟨h1, h2, h3⟩ | ⟨h1, h2, h3⟩
  · have ha := Prod.ext_iff.mp h3
    simp only at ha
    by_cases hp : p + z ≤ nr
    · left
      refine ⟨hp, by simp only [emit_e, h2], ?_⟩
      rw [auto_clear bits p z (fun i a b => hb i a b (by omega)) hz]
      simp only [emit_out, emit_e, h2, ← ha.1, ← ha.2]
    · right
      refine ⟨by omega, ?_, Or.inr ⟨rfl, by simp only [emit_e, h2]; omega⟩⟩
      simp only [done, Nat.lt_irrefl, if_false]
      rw [emit_out, h2]
      by_cases hpn : p = nr
      · subst hpn
        unfold Rng.fin
        rw [← ha.1, ← ha.2]
      · unfold Rng.fin
        have := auto_clear bits p (nr - p) (fun i a b => hb i a (by omega) (by omega)) (by omega)
        rw [show p + (nr - p) = nr by omega] at this
        rw [this, ← ha.1, ← ha.2]
        simp [done]
  · right
    refine ⟨by omega, ?_, Or.inr ⟨rfl, ?_⟩⟩
    · simp only [done, Nat.lt_irrefl, if_false]
      rw [emit_out, h2]
    · simp only [emit_e]
      rcases h3 with h3 | ⟨-, h3⟩ <;> omega

theorem rel_ones {bits : Nat → Bool} {nr p o : Nat} {s : St} (h : Rel bits nr p s)
    (hb : ∀ i, p ≤ i → i < p + o → i < nr → bits i = true) : Rel bits nr (p + o) (s.ones o nr) := by
  rcases h with ⟨h1, h2, h3⟩ | ⟨h1, h2, h3⟩
  · by_cases hp : p + o ≤ nr
    · left
      refine ⟨hp, ?_, ?_⟩
      · simp only [St.ones, h2]; omega
      · rw [auto_set bits p o (fun i a b => hb i a b (by omega))]
        exact h3
    · right
      have e : (s.ones o nr).e = nr := by simp only [St.ones, h2]; omega
      refine ⟨by omega, ?_, Or.inl e⟩
      rw [e]
      show done s.out s.b nr = _
      unfold Rng.fin
      have := auto_set bits p (nr - p) (fun i a b => hb i a (by omega) (by omega))
      rw [show p + (nr - p) = nr by omega] at this
      rw [this, ← h3]
  · right
    have e : (s.ones o nr).e = nr := by
      simp only [St.ones]
      rcases h3 with h3 | ⟨-, h3⟩ <;> omega
    refine ⟨by omega, ?_, Or.inl e⟩
    rw [e]
    show done s.out s.b nr = _
    rcases h3 with h3 | ⟨h3, h4⟩
    · rw [← h2, h3]
    · rw [← h2]
      unfold done
      rw [if_neg (by omega), if_neg (by omega)]

theorem rel_finish {bits : Nat → Bool} {nr p : Nat} {s : St} (h : Rel bits nr p s) (hp : nr ≤ p) :
    s.emit.out = Rng.fin bits nr := by
  rw [emit_out]
  rcases h with ⟨h1, h2, h3⟩ | ⟨h1, h2, h3⟩
  · have : p = nr := by omega
    subst this
    unfold Rng.fin
    rw [← h3, h2]
  · exact h2

/-! ## Trailing zeros and ones -/

theorem tz_spec (w : Nat) : ∀ n, n ≠ 0 → n < 2 ^ w →
    tz w n < w ∧ (∀ i, i < tz w n → n.testBit i = false) ∧ n.testBit (tz w n) = true := by
  induction w with
  | zero => intro n h0 h1; simp at h1; omega
  | succ w ih =>
    intro n h0 h1
    unfold tz
    split
    · next h =>
      refine ⟨by omega, by intro i hi; omega, ?_⟩
      simp [Nat.testBit_zero, h]
    · next h =>
      obtain ⟨a, b, c⟩ := ih (n / 2) (by omega) (by rw [Nat.pow_succ] at h1; omega)
      refine ⟨by omega, ?_, ?_⟩
      · intro i hi
        cases i with
        | zero => simp [Nat.testBit_zero, h]
        | succ i => rw [Nat.testBit_succ]; exact b i (by omega)
      · rw [Nat.testBit_succ]; exact c

theorem t1_spec (w : Nat) : ∀ n, t1 w n ≤ w ∧ (∀ i, i < t1 w n → n.testBit i = true) ∧
    (n < 2 ^ w → n.testBit (t1 w n) = false) ∧ (n % 2 = 1 → 0 < w → 0 < t1 w n) := by
  induction w with
  | zero =>
    intro n
    refine ⟨by simp [t1], by intro i h; simp [t1] at h, ?_, by intro _ h; omega⟩
    intro h
    have : n = 0 := by simpa using h
    subst this
    simp
  | succ w ih =>
    intro n
    unfold t1
    split
    · next h =>
      obtain ⟨a, b, c, -⟩ := ih (n / 2)
      refine ⟨by omega, ?_, ?_, by intros; omega⟩
      · intro i hi
        cases i with
        | zero => simp [Nat.testBit_zero, h]
        | succ i => rw [Nat.testBit_succ]; exact b i (by omega)
      · intro hn
        rw [Nat.testBit_succ]
        exact c (by rw [Nat.pow_succ] at hn; omega)
    · next h =>
      refine ⟨by omega, by intro i hi; omega, ?_, by intro h'; omega⟩
      intro _
      simp [Nat.testBit_zero, h]

theorem shift_lt {n k q W : Nat} (h : n < 2 ^ (W - q)) (hk : k ≤ W - q) : n >>> k < 2 ^ (W - (q + k)) := by
  rw [Nat.shiftRight_eq_div_pow, Nat.div_lt_iff_lt_mul (Nat.two_pow_pos k), ← Nat.pow_add]
  rw [show W - (q + k) + k = W - q by omega]
  exact h

/-- the inner loop, started at bit `q` of a word whose remaining bits are `n`, reaches a position beyond which the word is
zero, or the end of the word -/
theorem inner_spec {bits : Nat → Bool} {W nr base : Nat} (fuel : Nat) : ∀ q n s, q ≤ W → n < 2 ^ (W - q) →
    W - q ≤ fuel → (∀ i, i < W - q → base + q + i < nr → bits (base + q + i) = n.testBit i) →
    Rel bits nr (base + q) s →
    ∃ q' s', inner W nr fuel n s = some s' ∧ q ≤ q' ∧ q' ≤ W ∧ Rel bits nr (base + q') s' ∧
      ∀ i, base + q' ≤ i → i < base + W → i < nr → bits i = false := by
  induction fuel with
  | zero =>
    intro q n s hq hn hf hb hr
    have : n = 0 := by
      rw [show W - q = 0 by omega] at hn; simpa using hn
    subst this
    refine ⟨q, s, by simp [inner], Nat.le_refl _, hq, hr, ?_⟩
    intro i h1 h2; omega
  | succ fuel ih =>
    intro q n s hq hn hf hb hr
    by_cases h0 : n = 0
    · subst h0
      refine ⟨q, s, by simp [inner], Nat.le_refl _, hq, hr, ?_⟩
      intro i h1 h2 h3
      have := hb (i - (base + q)) (by omega) (by omega)
      rw [show base + q + (i - (base + q)) = i by omega] at this
      rw [this]; simp
    · have hnW : n < 2 ^ W := Nat.lt_of_lt_of_le hn (Nat.pow_le_pow_right (by decide) (by omega))
      obtain ⟨z1, z2, z3⟩ := tz_spec W n h0 hnW
      have hzq : tz W n < W - q := by
        apply Classical.byContradiction
        intro hge
        have : n < 2 ^ tz W n := Nat.lt_of_lt_of_le hn (Nat.pow_le_pow_right (by decide) (by omega))
        rw [Nat.testBit_lt_two_pow this] at z3
        cases z3
      generalize hzz : tz W n = z at *
      obtain ⟨o1, o2, o3, o4⟩ := t1_spec W (n >>> z)
      have hn1 : n >>> z < 2 ^ (W - (q + z)) := shift_lt hn (by omega)
      have hoq : t1 W (n >>> z) ≤ W - (q + z) := by
        apply Classical.byContradiction
        intro hgt
        have := o2 (W - (q + z)) (by omega)
        rw [Nat.testBit_lt_two_pow hn1] at this
        cases this
      have hopos : 0 < t1 W (n >>> z) := by
        apply o4 _ (by omega)
        have : (n >>> z).testBit 0 = true := by rw [Nat.testBit_shiftRight]; simpa using z3
        rw [Nat.testBit_zero] at this
        exact of_decide_eq_true this
      generalize hoo : t1 W (n >>> z) = o at *
      have hr1 : Rel bits nr (base + q + z) (s.zeros z) := by
        unfold St.zeros
        split
        · next hz =>
          refine rel_zeros hr hz ?_
          intro i a b c
          have := hb (i - (base + q)) (by omega) (by omega)
          rw [show base + q + (i - (base + q)) = i by omega] at this
          rw [this]; exact z2 _ (by omega)
        · next hz =>
          rw [show z = 0 by omega]
          exact hr
      have hr2 : Rel bits nr (base + q + z + o) ((s.zeros z).ones o nr) := by
        refine rel_ones hr1 ?_
        intro i a b c
        have := hb (i - (base + q)) (by omega) (by omega)
        rw [show base + q + (i - (base + q)) = i by omega] at this
        rw [this]
        have := o2 (i - (base + q + z)) (by omega)
        rw [Nat.testBit_shiftRight, show z + (i - (base + q + z)) = i - (base + q) by omega] at this
        exact this
      obtain ⟨q', s', e1, e2, e3, e4, e5⟩ := ih (q + z + o) (n >>> z >>> o) ((s.zeros z).ones o nr) (by omega)
        (shift_lt hn1 (by omega)) (by omega) (by
          intro i hi hnr
          have := hb (z + o + i) (by omega) (by omega)
          rw [show base + (q + z + o) + i = base + q + (z + o + i) by omega, this]
          rw [Nat.testBit_shiftRight, Nat.testBit_shiftRight]
          congr 1; omega) (by rw [show base + (q + z + o) = base + q + z + o by omega]; exact hr2)
      refine ⟨q', s', ?_, by omega, e3, e4, e5⟩
      rw [← e1]
      conv => lhs; unfold inner
      rw [if_neg h0]
      simp only [hzz, hoo]

theorem word_spec {bits : Nat → Bool} {W nr index n : Nat} {s : St} (hn : n < 2 ^ W)
    (hb : ∀ i, i < W → index * W + i < nr → bits (index * W + i) = n.testBit i) (hr : Rel bits nr (index * W) s) :
    ∃ s', word W nr index n s = some s' ∧ Rel bits nr ((index + 1) * W) s' := by
  have hmul : (index + 1) * W = index * W + W := by rw [Nat.add_mul, Nat.one_mul]
  rw [hmul]
  unfold word
  split
  · next hmax =>
    refine ⟨_, rfl, rel_ones hr ?_⟩
    intro i a b c
    have := hb (i - index * W) (by omega) (by omega)
    rw [show index * W + (i - index * W) = i by omega] at this
    rw [this, hmax, Nat.testBit_two_pow_sub_one]
    simp; omega
  · obtain ⟨q', s', e1, -, e3, e4, e5⟩ := inner_spec (bits := bits) (base := index * W) (nr := nr) W 0 n s (by omega)
      (by simpa using hn) (by omega) (by simpa using hb) (by simpa using hr)
    rw [e1]
    simp only
    split
    · next hlt =>
      refine ⟨_, rfl, ?_⟩
      rcases Nat.lt_or_ge (index * W + q') (index * W + W) with hlt2 | hge
      · have := rel_zeros e4 (z := W - q') (by omega) (by
          intro i a b c
          exact e5 i a (by omega) c)
        rw [show index * W + q' + (W - q') = index * W + W by omega] at this
        -- the same state up to the position, which the code sets from the word index
        rcases e4 with ⟨h1, h2, h3⟩ | ⟨h1, h2, h3⟩
        · have he : s'.emit.e + (W - q') = index * W + W := by simp only [emit_e, h2]; omega
          rw [he] at this
          exact this
        · right
          refine ⟨by omega, ?_, Or.inr ⟨rfl, by simp only; omega⟩⟩
          simp only [done, Nat.lt_irrefl, if_false]
          rw [emit_out]; exact h2
      · have hq : q' = W := by omega
        subst hq
        rcases e4 with ⟨h1, h2, h3⟩ | ⟨h1, h2, h3⟩
        · omega
        · right
          refine ⟨by omega, ?_, Or.inr ⟨rfl, by simp only; omega⟩⟩
          simp only [done, Nat.lt_irrefl, if_false]
          rw [emit_out]; exact h2
    · next hge =>
      refine ⟨_, rfl, ?_⟩
      rcases e4 with ⟨h1, h2, h3⟩ | ⟨h1, h2, h3⟩
      · have : q' = W := by omega
        subst this
        exact Or.inl ⟨h1, h2, h3⟩
      · exact Or.inr ⟨by omega, h2, h3⟩

theorem scan_spec {bits : Nat → Bool} {W nr : Nat} (ns : List Nat) : ∀ index s, (∀ n ∈ ns, n < 2 ^ W) →
    (∀ k (hk : k < ns.length) i, i < W → (index + k) * W + i < nr → bits ((index + k) * W + i) = (ns[k]).testBit i) →
    nr ≤ (index + ns.length) * W → Rel bits nr (index * W) s →
    scan W nr index ns s = some (Rng.fin bits nr) := by
  induction ns with
  | nil =>
    intro index s _ _ hlen hr
    simp only [scan]
    rw [rel_finish hr (by simpa using hlen)]
  | cons n ns ih =>
    intro index s hn hb hlen hr
    obtain ⟨s', e1, e2⟩ := word_spec (hn n (by simp)) (fun i hi hnr => hb 0 (by simp) i hi hnr) hr
    show (match word W nr index n s with
      | none => none
      | some s => scan W nr (index + 1) ns s) = _
    have e1' : word W nr index n s = some s' := e1
    rw [e1']
    show scan W nr (index + 1) ns s' = _
    apply ih (index + 1) s' (fun m hm => hn m (by simp [hm])) _ _ e2
    · intro k hk i hi hnr
      have := hb (k + 1) (by simp; omega) i hi (by rw [show index + (k + 1) = index + 1 + k by omega]; exact hnr)
      rw [show index + (k + 1) = index + 1 + k by omega] at this
      simpa using this
    · simp only [List.length_cons] at hlen
      rw [show index + 1 + ns.length = index + (ns.length + 1) by omega]
      exact hlen

/-- C36: for every bitset of words of `W` bits that has at least `nr` bits (also if bits beyond `nr` are set) the scan ends
and emits exactly the maximal ranges of set bits below `nr`, in increasing order. -/
theorem markedRanges_exact (W nr : Nat) (hW : 0 < W) (words : List Nat) (hw : ∀ n ∈ words, n < 2 ^ W)
    (hlen : nr ≤ words.length * W) :
    ∃ out, markedRanges W nr words = some out ∧ Exactly (fun i => i < nr ∧ bitOf W words i = true) out := by
  refine ⟨_, ?_, fin_exactly (bitOf W words) nr⟩
  unfold markedRanges
  apply scan_spec words 0 _ hw
  · intro k hk i hi _
    unfold bitOf
    have e1 : (k * W + i) / W = k := by
      rw [Nat.mul_comm, Nat.mul_add_div hW, Nat.div_eq_of_lt hi]; omega
    have e2 : (k * W + i) % W = i := by
      rw [Nat.mul_comm, Nat.mul_add_mod, Nat.mod_eq_of_lt hi]
    rw [Nat.zero_add, e1, e2]
    simp [hk]
  · simpa using hlen
  · left
    exact ⟨by omega, by simp, by simp [auto]⟩

/-- the number of words the code uses is enough -/
theorem words_enough (W nr : Nat) (hW : 0 < W) : nr ≤ (nr + (W - 1)) / W * W := by
  have := Nat.div_add_mod (nr + (W - 1)) W
  have := Nat.mod_lt (nr + (W - 1)) hW
  rw [Nat.mul_comm]
  omega

example : markedRanges 32 70 [2 ^ 32 - 2, 2 ^ 32 - 1, 255] = some [(1, 69)] := by decide
example : markedRanges 64 66 [0x8000000000000005, 0xff] = some [(0, 1), (2, 1), (63, 3)] := by decide

end Verif.Scan
