import Verif.Model.Sizes

/-!
# C44: metadata size estimates; C45: run iteration
-/

namespace Verif.Sizes

/-! ## C44 -/

/-- 255 bitmaps of 16320 entries -/
theorem maxMetadataBlocks_eq : maxMetadataBlocks = 4161600 := by decide

theorem maxEntries_eq : maxEntries = 252 := by decide

theorem divUp_eq (v : Nat) (h : v + 125 < 2 ^ 64) : divUp v (maxEntries / 2) = (v + 125) / 126 := by
  unfold divUp w64
  rw [maxEntries_eq]
  rw [Nat.mod_eq_of_lt (by omega)]

theorem thinSize_eq (n t : Nat) (hn : n + 125 < 2 ^ 64) (ht : 1 + (n + 125) / 126 + t < 2 ^ 64) :
    thinSize n t = min (1 + (n + 125) / 126 + t) 4161600 * 4096 := by
  unfold thinSize
  simp only [divUp_eq n hn, maxMetadataBlocks_eq, blockSize]
  unfold w64
  rw [Nat.mod_eq_of_lt (a := 1 + (n + 125) / 126) (by omega), Nat.mod_eq_of_lt ht]
  rw [Nat.mod_eq_of_lt (by omega)]

/-- C44: unless the estimate is the maximal metadata size, the superblock, one root per thin device, and the leaves of
any mapping trees whose `n` mappings sit in leaves at least half full fit in it. -/
theorem thinSize_sufficient (n t : Nat) (hn : n + 125 < 2 ^ 64) (ht : 1 + (n + 125) / 126 + t < 2 ^ 64)
    (leaves : List Nat) (hhalf : ∀ k ∈ leaves, 126 ≤ k) (hsum : leaves.sum ≤ n) :
    thinSize n t = 4161600 * 4096 ∨ (1 + t + leaves.length) * 4096 ≤ thinSize n t := by
  have hl : 126 * leaves.length ≤ leaves.sum := by
    clear hsum
    induction leaves with
    | nil => simp
    | cons k l ih =>
      have h1 := hhalf k (by simp)
      have h2 := ih (fun x hx => hhalf x (by simp [hx]))
      simp only [List.length_cons, List.sum_cons]
      omega
  rw [thinSize_eq n t hn ht]
  by_cases hc : 1 + (n + 125) / 126 + t ≤ 4161600
  · right
    rw [Nat.min_eq_left hc]
    exact Nat.mul_le_mul_right _ (by omega)
  · left
    rw [Nat.min_eq_right (by omega)]

/-- C44: a bigger pool or more thin devices never need less metadata (while nothing overflows). -/
theorem thinSize_mono (n t n' t' : Nat) (hn : n ≤ n') (ht : t ≤ t') (h1 : n' + 125 < 2 ^ 64)
    (h2 : 1 + (n' + 125) / 126 + t' < 2 ^ 64) : thinSize n t ≤ thinSize n' t' := by
  rw [thinSize_eq n' t' h1 h2, thinSize_eq n t (by omega) (by omega)]
  apply Nat.mul_le_mul_right
  omega

/-- C44: never more than the maximal metadata size, and a whole number of blocks: for all arguments. -/
theorem thinSize_cap (n t : Nat) : thinSize n t ≤ 4161600 * 4096 ∧ thinSize n t % 4096 = 0 := by
  unfold thinSize
  simp only [maxMetadataBlocks_eq, blockSize]
  unfold w64
  rw [Nat.mod_eq_of_lt (by omega)]
  omega

/-- Monotonicity and sufficiency fail when the number of devices makes the sum wrap around: asking for `2^64 - 1` devices
gives the size for one leaf. -/
theorem thinSize_overflow_refuted :
    thinSize 100 (2 ^ 64 - 1) = 4096 ∧ thinSize 100 10 = 12 * 4096 := by decide

theorem and_mask (b k : Nat) : b &&& (2 ^ k - 1) = b % 2 ^ k := Nat.and_two_pow_sub_one_eq_mod b k

/-- C44: exactly the multiples of 64 KiB from 64 KiB to 1 GiB are accepted. -/
theorem checkDataBlockSize_iff (b : Nat) :
    checkDataBlockSize b = true ↔ 65536 ≤ b ∧ b ≤ 2 ^ 30 ∧ 65536 ∣ b := by
  unfold checkDataBlockSize
  rw [show (65536 - 1 : Nat) = 2 ^ 16 - 1 by decide, and_mask]
  rw [Nat.dvd_iff_mod_eq_zero]
  split
  · next h =>
    constructor
    · intro h; cases h
    · rintro ⟨h1, h2, h3⟩; omega
  · next h =>
    split
    · constructor
      · intro h; cases h
      · rintro ⟨h1, h2, h3⟩; omega
    · refine ⟨fun _ => ⟨by omega, by omega, by omega⟩, fun _ => rfl⟩

/-- C44: exactly the multiples of 32 KiB from 32 KiB to 1 GiB are accepted. -/
theorem checkCacheBlockSize_iff (b : Nat) :
    checkCacheBlockSize b = true ↔ 32768 ≤ b ∧ b ≤ 2 ^ 30 ∧ 32768 ∣ b := by
  unfold checkCacheBlockSize
  rw [show (32768 - 1 : Nat) = 2 ^ 15 - 1 by decide, and_mask]
  rw [Nat.dvd_iff_mod_eq_zero]
  split
  · next h =>
    constructor
    · intro h; cases h
    · rintro ⟨h1, h2, h3⟩; omega
  · next h =>
    split
    · constructor
      · intro h; cases h
      · rintro ⟨h1, h2, h3⟩; omega
    · refine ⟨fun _ => ⟨by omega, by omega, by omega⟩, fun _ => rfl⟩

/-- C44: a cache's estimate holds 16 bytes of mapping, 8 bytes of key and the hint for every block, plus 4 MiB, unless it
is the maximal metadata size. -/
theorem cacheSize_eq (n w : Nat) (h : 4 * 1024 * 1024 + n * (16 + 8 + w) < 2 ^ 64) :
    cacheSize n w = min (4 * 1024 * 1024 + n * (16 + 8 + w)) (4161600 * 4096) := by
  have e : n * (16 + 8 + w) = n * 16 + n * (w + 8) := by rw [← Nat.mul_add]; congr 1; omega
  unfold cacheSize w64
  rw [maxMetadataBlocks_eq, blockSize, Nat.shiftLeft_eq]
  simp only
  rw [e] at h ⊢
  generalize n * (w + 8) = y at *
  generalize n * 2 ^ 4 = x at *
  rw [Nat.mod_eq_of_lt (a := x) (by omega), Nat.mod_eq_of_lt (a := y) (by omega),
    Nat.mod_eq_of_lt (a := 4 * 1024 * 1024 + x) (by omega), Nat.mod_eq_of_lt (by omega)]
  rw [Nat.add_assoc]

theorem cacheSize_cap (n w : Nat) : cacheSize n w ≤ 4161600 * 4096 := by
  unfold cacheSize
  rw [maxMetadataBlocks_eq, blockSize]
  exact Nat.min_le_right _ _

theorem cacheSize_mono (n w n' w' : Nat) (hn : n ≤ n') (hw : w ≤ w')
    (h : 4 * 1024 * 1024 + n' * (16 + 8 + w') < 2 ^ 64) : cacheSize n w ≤ cacheSize n' w' := by
  have hm : n * (16 + 8 + w) ≤ n' * (16 + 8 + w') := Nat.mul_le_mul hn (by omega)
  rw [cacheSize_eq n' w' h, cacheSize_eq n w (by omega)]
  omega

/-- the cache estimate wraps around as well: `2^60` blocks get the size of none -/
theorem cacheSize_overflow_refuted : cacheSize (2 ^ 61) 0 = cacheSize 0 0 := by decide

example : thinSize 1000000 10 = 7948 * 4096 := by decide
example : (126 : Nat) * 7936 ≤ 1000000 := by decide

/-! ## C45 -/

/-- `l` tiles `[start, len)` with non-empty runs over which the bit is constant and as stated, and neighbouring runs
have different bits. -/
def Tiles (bits : Nat → Bool) : Nat → Nat → List (Bool × Nat × Nat) → Prop
  | start, len, [] => start = len
  | start, len, (b, s, e) :: l =>
    s = start ∧ s < e ∧ e ≤ len ∧ (∀ i, s ≤ i → i < e → bits i = b) ∧
      (∀ r, l.head? = some r → r.1 = !b) ∧ Tiles bits e len l

theorem skipRun_spec (bits : Nat → Bool) (b : Bool) (n : Nat) : ∀ cur,
    cur ≤ skipRun bits b cur n ∧ skipRun bits b cur n ≤ cur + n ∧
    (∀ i, cur ≤ i → i < skipRun bits b cur n → bits i = b) ∧
    (skipRun bits b cur n < cur + n → bits (skipRun bits b cur n) ≠ b) := by
  induction n with
  | zero => intro cur; exact ⟨Nat.le_refl _, Nat.le_refl _, fun i h1 h2 => by simp only [skipRun] at h2; omega,
      fun h => by simp only [skipRun] at h; omega⟩
  | succ n ih =>
    intro cur
    unfold skipRun
    split
    · next hb =>
      obtain ⟨h1, h2, h3, h4⟩ := ih (cur + 1)
      refine ⟨by omega, by omega, ?_, fun h => h4 (by omega)⟩
      intro i hi1 hi2
      by_cases he : i = cur
      · rw [he]; exact hb
      · exact h3 i (by omega) hi2
    · next hb => exact ⟨Nat.le_refl _, by omega, fun i h1 h2 => by omega, fun _ => hb⟩

theorem runIter_head (bits : Nat → Bool) (len fuel cur : Nat) (r : Bool × Nat × Nat)
    (h : (runIter bits len fuel cur).head? = some r) : r.1 = bits cur ∧ cur ≠ len := by
  cases fuel with
  | zero => cases h
  | succ fuel =>
    unfold runIter at h
    split at h
    · cases h
    · next hne =>
      simp only [List.head?_cons, Option.some.injEq] at h
      rw [← h]; exact ⟨rfl, hne⟩

theorem runIter_spec (bits : Nat → Bool) (len : Nat) (fuel : Nat) : ∀ cur, cur ≤ len → len ≤ cur + fuel →
    Tiles bits cur len (runIter bits len fuel cur) := by
  induction fuel with
  | zero => intro cur h1 h2; show cur = len; omega
  | succ fuel ih =>
    intro cur h1 h2
    unfold runIter
    split
    · next h => exact h
    · next h =>
      obtain ⟨k1, k2, k3, k4⟩ := skipRun_spec bits (bits cur) (len - (cur + 1)) (cur + 1)
      generalize he : skipRun bits (bits cur) (cur + 1) (len - (cur + 1)) = e at *
      refine ⟨rfl, by omega, by omega, ?_, ?_, ih e (by omega) (by omega)⟩
      · intro i hi1 hi2
        by_cases hic : i = cur
        · rw [hic]
        · exact k3 i (by omega) hi2
      · intro r hr
        obtain ⟨hr1, hr2⟩ := runIter_head bits len fuel e r hr
        have := k4 (by omega)
        rw [hr1]
        revert this
        cases bits e <;> cases bits cur <;> simp

/-- C45: iterating over a bitmap of any length yields alternating, maximal, non-empty runs that tile it in order. -/
theorem runs_tile (bits : Nat → Bool) (len : Nat) : Tiles bits 0 len (runs bits len) :=
  runIter_spec bits len len 0 (by omega) (by omega)

/-- The tiling determines the runs, so `runs_tile` describes the output completely. -/
theorem tiles_unique (bits : Nat → Bool) (len : Nat) (l l' : List (Bool × Nat × Nat)) : ∀ start,
    Tiles bits start len l → Tiles bits start len l' → l = l' := by
  induction l generalizing l' with
  | nil =>
    intro start h h'
    cases l' with
    | nil => rfl
    | cons r l' =>
      obtain ⟨b, s, e⟩ := r
      obtain ⟨h1, h2, h3, -⟩ := h'
      have : start = len := h
      omega
  | cons r l ih =>
    intro start h h'
    obtain ⟨b, s, e⟩ := r
    obtain ⟨h1, h2, h3, h4, h5, h6⟩ := h
    cases l' with
    | nil => have : start = len := h'
             omega
    | cons r' l' =>
      obtain ⟨b', s', e'⟩ := r'
      obtain ⟨g1, g2, g3, g4, g5, g6⟩ := h'
      have hs : s = s' := by rw [h1, g1]
      subst hs
      have hb : b = b' := by rw [← h4 s (by omega) h2, ← g4 s (by omega) g2]
      subst hb
      have key : ∀ (l2 : List (Bool × Nat × Nat)) (x y : Nat), x < y → y ≤ len → (∀ i, s ≤ i → i < y → bits i = b) → s < x →
          (∀ r, l2.head? = some r → r.1 = !b) → Tiles bits x len l2 → False := by
        intro l2 x y hxy hy hbits hsx hhead ht
        cases l2 with
        | nil => have : x = len := ht
                 omega
        | cons r2 l2 =>
          obtain ⟨b2, s2, e2⟩ := r2
          obtain ⟨t1, t2, t3, t4, -⟩ := ht
          have hb2 := hhead _ rfl
          simp only at hb2
          have e1 := t4 x (by omega) (by omega)
          have e2 := hbits x (by omega) hxy
          rw [e1, hb2] at e2
          revert e2; cases b <;> simp
      have he : e = e' := by
        rcases Nat.lt_trichotomy e e' with hlt | heq | hlt
        · exact absurd (key l e e' hlt g3 g4 h2 h5 h6) id
        · exact heq
        · exact absurd (key l' e' e hlt h3 h4 g2 g5 g6) id
      subst he
      rw [ih l' e h6 g6]

example : runs (fun i => i == 1 || i == 2 || i == 6) 9 =
    [(false, 0, 1), (true, 1, 3), (false, 3, 6), (true, 6, 7), (false, 7, 9)] := by decide

end Verif.Sizes
