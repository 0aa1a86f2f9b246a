import Verif.Model.Lcg
import Verif.Lemmas.Bytes

/-!
# C89: the generator of test patterns

A pattern is recognised exactly; patterns of different seeds differ in every word; and no word of a pattern occurs twice.
-/

namespace Verif.Lcg

/-- the `k`-th word of the pattern of a seed -/
def word (seed : Nat) : Nat → Nat
  | 0 => seed
  | k + 1 => step (word seed k)

theorem step_lt (x : Nat) : step x < 2 ^ 64 := Nat.mod_lt _ (by decide)

theorem step_eq (x : Nat) : step x = (6364136223846793005 * x + 1442695040888963407) % 2 ^ 64 := by
  unfold step
  omega

theorem word_succ (seed k : Nat) : word (step seed) k = word seed (k + 1) := by
  induction k with
  | zero => simp only [word]
  | succ k ih => rw [word, ih, ← word]

theorem length_leBytes (k v : Nat) : (leBytes k v).length = k := by
  induction k generalizing v with
  | zero => rfl
  | succ k ih => simp [leBytes, ih]

theorem fillWords_length (n x : Nat) : (fillWords n x).length = 8 * n := by
  induction n generalizing x with
  | zero => rfl
  | succ n ih => rw [fillWords, List.length_append, ih, length_leBytes]; omega

/-- **C89**: what `fill_buffer` writes is the sequence of words, in order, little endian. -/
theorem fill_words {seed len : Nat} {b : Bytes} (h : fill seed len = some b) :
    b.length = len ∧ ∀ k, k < len / 8 → (b.drop (8 * k)).take 8 = w64 (word seed k) := by
  unfold fill at h
  by_cases hl : len % 8 = 0
  · rw [if_pos hl] at h
    cases h
    refine ⟨by rw [fillWords_length]; omega, ?_⟩
    suffices H : ∀ n x k, k < n → ((fillWords n x).drop (8 * k)).take 8 = w64 (word x k) from fun k hk => H _ _ k hk
    intro n
    induction n with
    | zero => intro x k hk; omega
    | succ n ih =>
      intro x k hk
      cases k with
      | zero => rw [fillWords]; exact List.take_left' (length_leBytes 8 x)
      | succ k =>
        rw [fillWords, Nat.mul_succ, Nat.add_comm, ← List.drop_drop, List.drop_left' (length_leBytes 8 x), ih _ k (by omega), word_succ]
  · rw [if_neg hl] at h
    cases h

theorem verifyWords_iff (n x : Nat) (hx : x < 2 ^ 64) (b : Bytes) (hb : b.length = 8 * n) :
    (verifyWords n x b = some true ↔ b = fillWords n x) ∧ (verifyWords n x b).isSome = true := by
  induction n generalizing x b with
  | zero =>
    cases List.length_eq_zero_iff.mp hb
    exact ⟨⟨fun _ => rfl, fun _ => rfl⟩, rfl⟩
  | succ n ih =>
    have hsome := leU_isSome (k := 8) (i := b) (by omega)
    obtain ⟨⟨w, r⟩, hw⟩ := Option.isSome_iff_exists.mp hsome
    have hp := leU_eq_some hw
    rw [verifyWords]
    simp only [show leU64 b = some (w, r) from hw]
    by_cases hne : w ≠ x
    · rw [if_pos hne]
      refine ⟨⟨fun h => (by cases h), fun h => ?_⟩, rfl⟩
      rw [h, fillWords] at hw
      have := leU_leBytes 8 x (by exact hx) (fillWords n (step x))
      rw [this] at hw
      exact absurd (Prod.mk.inj (Option.some.inj hw)).1.symm hne
    · rw [if_neg hne]
      have hwx : w = x := Classical.not_not.mp hne
      subst hwx
      have hbr : b = w64 w ++ r := by
        obtain ⟨w8, h8, e, ev, -⟩ := hp
        rw [e, ev, show w64 (leVal w8) = leBytes w8.length (leVal w8) by rw [h8], leBytes_leVal]
      obtain ⟨h1, h2⟩ := ih (step w) (step_lt w) r (by
        rw [hbr, List.length_append, length_leBytes] at hb; omega)
      refine ⟨?_, h2⟩
      rw [h1, fillWords, hbr]
      exact ⟨fun h => by rw [h], fun h => List.append_cancel_left h⟩

/-- **C89**: a buffer is accepted for a seed exactly if it is the pattern of that seed; one with a wrong bit anywhere is not. -/
theorem verify_exact (seed : Nat) (hs : seed < 2 ^ 64) (b : Bytes) (hl : b.length % 8 = 0) :
    (verify seed b = some true ↔ fill seed b.length = some b) ∧ (verify seed b = some true ∨ verify seed b = some false) := by
  obtain ⟨h1, h2⟩ := verifyWords_iff (b.length / 8) seed hs b (by omega)
  unfold verify fill
  rw [if_pos hl, if_pos hl]
  refine ⟨by rw [h1]; exact ⟨fun h => by rw [← h], fun h => (Option.some.inj h).symm⟩, ?_⟩
  obtain ⟨r, hr⟩ := Option.isSome_iff_exists.mp h2
  rw [hr]
  cases r
  · exact Or.inr rfl
  · exact Or.inl rfl

theorem step_inj {x y : Nat} (hx : x < 2 ^ 64) (hy : y < 2 ^ 64) (h : step x = step y) : x = y := by
  -- the inverse of the multiplier
  have inv : ∀ z, z < 2 ^ 64 → (13877824140714322085 * ((step z + (2 ^ 64 - 1442695040888963407)) % 2 ^ 64)) % 2 ^ 64 = z := by
    intro z hz
    rw [step_eq]
    omega
  rw [← inv x hx, ← inv y hy, h]

/-- **C89**: the patterns of two seeds differ in every word. -/
theorem word_inj {s s' : Nat} (hs : s < 2 ^ 64) (hs' : s' < 2 ^ 64) (k : Nat) (h : word s k = word s' k) : s = s' := by
  induction k with
  | zero => exact h
  | succ k ih =>
    refine ih (step_inj ?_ ?_ h)
    · cases k with
      | zero => exact hs
      | succ k => exact step_lt _
    · cases k with
      | zero => exact hs'
      | succ k => exact step_lt _

/-! ## The period -/

/-- the sequence without reduction -/
def iter (x : Nat) : Nat → Nat
  | 0 => x
  | k + 1 => 6364136223846793005 * iter x k + 1442695040888963407

theorem iter_add (x m n : Nat) : iter x (m + n) = iter (iter x m) n := by
  induction n with
  | zero => rfl
  | succ n ih => show _ * iter x (m + n) + _ = _; rw [ih]; rfl

theorem word_iter {x : Nat} (hx : x < 2 ^ 64) (k : Nat) : word x k = iter x k % 2 ^ 64 := by
  induction k with
  | zero => exact (Nat.mod_eq_of_lt hx).symm
  | succ k ih =>
    show step (word x k) = (_ * iter x k + _) % _
    rw [step_eq, ih]
    omega

/-- `2 ^ j` steps are multiplication by `1 + 2 ^ (j + 2) * a` and addition of an odd multiple of `2 ^ j` -/
theorem iter_pow (j : Nat) : ∃ a c, c % 2 = 1 ∧ ∀ x, iter x (2 ^ j) = (1 + 2 ^ (j + 2) * a) * x + 2 ^ j * c := by
  induction j with
  | zero => exact ⟨1591034055961698251, 1442695040888963407, by decide, fun x => by show 6364136223846793005 * x + 1442695040888963407 = _; omega⟩
  | succ j ih =>
    obtain ⟨a, c, hc, h⟩ := ih
    refine ⟨a + 2 ^ (j + 1) * (a * a), (1 + 2 ^ (j + 1) * a) * c, ?_, fun x => ?_⟩
    · rw [Nat.pow_succ, Nat.add_mul, Nat.one_mul, Nat.mul_comm (2 ^ j) 2, Nat.mul_assoc, Nat.mul_assoc, Nat.add_mul_mod_self_left]
      exact hc
    · rw [Nat.pow_succ, Nat.mul_two, iter_add, h, h]
      simp only [Nat.pow_succ]
      generalize 2 ^ j = p
      grind

theorem iter_odd {j : Nat} (m : Nat) : ∀ x, ∃ r, r % 2 = m % 2 ∧ iter x (2 ^ j * m) = x + 2 ^ j * r := by
  obtain ⟨a, c, hc, h⟩ := iter_pow j
  induction m with
  | zero => exact fun x => ⟨0, rfl, rfl⟩
  | succ m ih =>
    intro x
    obtain ⟨r, hr, e⟩ := ih x
    refine ⟨r + c + 2 * (2 * (a * (x + 2 ^ j * r))), by omega, ?_⟩
    rw [Nat.mul_succ, iter_add, e, h]
    simp only [Nat.pow_succ]
    generalize 2 ^ j = p
    grind

theorem odd_part (n : Nat) (hn : 0 < n) : ∃ j m, n = 2 ^ j * m ∧ m % 2 = 1 := by
  induction n using Nat.strongRecOn with
  | ind n ih =>
    by_cases h : n % 2 = 1
    · exact ⟨0, n, by omega, h⟩
    · obtain ⟨j, m, e, hm⟩ := ih (n / 2) (by omega) (by omega)
      exact ⟨j + 1, m, by rw [Nat.pow_succ, Nat.mul_comm (2 ^ j) 2, Nat.mul_assoc, ← e]; omega, hm⟩

/-- **C89**: the period of the generator is `2 ^ 64`: no word occurs twice before, whatever the seed. -/
theorem word_distinct {seed i k : Nat} (hs : seed < 2 ^ 64) (hik : i < k) (hk : k - i < 2 ^ 64) : word seed i ≠ word seed k := by
  intro h
  obtain ⟨j, m, e, hm⟩ := odd_part (k - i) (by omega)
  obtain ⟨r, hr, hi⟩ := iter_odd (j := j) m (iter seed i)
  rw [word_iter hs, word_iter hs, show k = i + (k - i) by omega, iter_add, e, hi] at h
  have hj : j < 64 := by
    refine Classical.byContradiction fun hj => ?_
    have h1 : 2 ^ 64 ≤ 2 ^ j := Nat.pow_le_pow_right (by decide) (by omega)
    have h2 : 0 < m := by omega
    have h3 : 2 ^ j ≤ 2 ^ j * m := Nat.le_mul_of_pos_right _ h2
    omega
  have h4 : 2 ^ 64 ∣ 2 ^ j * r := by
    have := Nat.sub_mod_eq_zero_of_mod_eq h.symm
    rw [Nat.add_sub_cancel_left] at this
    exact Nat.dvd_of_mod_eq_zero this
  have h5 : 2 ^ (j + 1) ∣ 2 ^ j * r := Nat.dvd_trans (Nat.pow_dvd_pow 2 (by omega)) h4
  rw [Nat.pow_succ] at h5
  have h6 := Nat.dvd_of_mul_dvd_mul_left (Nat.two_pow_pos j) h5
  omega

/-- **C89**: and it is no longer than that. -/
theorem word_period {seed : Nat} (hs : seed < 2 ^ 64) (k : Nat) : word seed (k + 2 ^ 64) = word seed k := by
  rw [word_iter hs, word_iter hs, iter_add]
  obtain ⟨r, -, e⟩ := iter_odd (j := 64) 1 (iter seed k)
  rw [Nat.mul_one] at e
  rw [e, Nat.add_mul_mod_self_left]

/-- a pattern, and a wrong byte found -/
example : fill 1 16 = some (w64 1 ++ w64 7806831264735756412) ∧ verify 1 (w64 1 ++ w64 7806831264735756412) = some true ∧
    verify 1 (w64 1 ++ w64 7806831264735756413) = some false ∧ fill 1 15 = none := by decide

end Verif.Lcg
