import Verif.Prop.Cli

/-!
# C85: the size estimators' command lines
-/

namespace Verif.Cli

open Verif.Units (Unit' showNat decValue Digit)

/-! ## Specification -/

/-- the text of a number with two digits after the point; `c` is the number in hundredths -/
def Hundredths (s : Str) (c : Nat) : Prop :=
  ∃ ds a b, s = ds ++ ['.', a, b] ∧ ds ≠ [] ∧ (∀ x ∈ ds ++ [a, b], Digit x) ∧ decValue (ds ++ [a, b]) = c

/-- a size in bytes and the text of a number of units agree: exactly if the text is a whole number, otherwise to the
nearest hundredth -/
def Agrees (bytes unit : Nat) (s : Str) : Prop :=
  (s ≠ [] ∧ (∀ x ∈ s, Digit x) ∧ decValue s * unit = bytes) ∨
  ∃ c, Hundredths s c ∧ 2 * (c * unit) ≤ 2 * (100 * bytes) + unit ∧ 2 * (100 * bytes) ≤ 2 * (c * unit) + unit

/-! ## What is accepted -/

/-- C85: `thin_metadata_size` estimates exactly for block sizes that are multiples of 64 KiB up to 1 GiB and pools of at
least a block; the estimate is for the whole blocks of the pool. -/
theorem thin_accepts (pool block thins b : Nat) :
    thinEst pool block thins = .size b ↔
      65536 ≤ block ∧ block ≤ 2 ^ 30 ∧ 65536 ∣ block ∧ block ≤ pool ∧ b = Sizes.thinSize (pool / block) thins := by
  unfold thinEst
  have h := Sizes.checkDataBlockSize_iff block
  by_cases hc : Sizes.checkDataBlockSize block = true
  · obtain ⟨h1, h2, h3⟩ := h.mp hc
    rw [if_neg (by simp [hc])]
    by_cases hp : pool < block
    · rw [if_pos hp]
      exact ⟨fun h => (by cases h), fun ⟨_, _, _, h, _⟩ => by omega⟩
    · rw [if_neg hp]
      constructor
      · intro h; cases h; exact ⟨h1, h2, h3, by omega, rfl⟩
      · rintro ⟨_, _, _, _, rfl⟩; rfl
  · rw [if_pos (by simpa using hc)]
    exact ⟨fun h => (by cases h), fun ⟨h1, h2, h3, _⟩ => absurd (h.mpr ⟨h1, h2, h3⟩) hc⟩

/-- C85: for a pool whose size fits in 64 bits and fewer than `2^63` devices the estimate has a block for the superblock,
one for every 126 data blocks or part of them and one for every device, but never more than the kernel's limit. -/
theorem thin_estimate (pool block thins b : Nat) (h : thinEst pool block thins = .size b) (hp : pool < 2 ^ 64) (ht : thins < 2 ^ 63) :
    ∃ leaves, pool / block ≤ 126 * leaves ∧ (∀ l, pool / block ≤ 126 * l → leaves ≤ l) ∧ b = min (1 + leaves + thins) 4161600 * 4096 := by
  obtain ⟨h1, _, _, _, rfl⟩ := (thin_accepts pool block thins b).mp h
  have hn : pool / block ≤ 2 ^ 48 := by
    have : pool / block ≤ pool / 65536 := Nat.div_le_div_left h1 (by decide)
    omega
  generalize pool / block = n at *
  refine ⟨(n + 125) / 126, by omega, fun l hl => by omega, ?_⟩
  exact Sizes.thinSize_eq n thins (by omega) (by omega)

/-- C85: `cache_metadata_size` takes a number of blocks alone, or a device size together with a block size, nothing else;
block sizes are multiples of 32 KiB up to 1 GiB and the device has at least a block; a last part of a block counts. -/
theorem cache_accepts (nrBlocks device block : Option Nat) (w b : Nat) (hd : ∀ d ∈ device, d + 2 ^ 30 ≤ 2 ^ 64) :
    cacheEst nrBlocks device block w = .size b ↔
      (∃ n, nrBlocks = some n ∧ device = none ∧ block = none ∧ b = Sizes.cacheSize n w) ∨
      (nrBlocks = none ∧ ∃ d k n, device = some d ∧ block = some k ∧ 32768 ≤ k ∧ k ≤ 2 ^ 30 ∧ 32768 ∣ k ∧ k ≤ d ∧
        d ≤ n * k ∧ (∀ m, d ≤ m * k → n ≤ m) ∧ b = Sizes.cacheSize n w) := by
  have noc {P : Prop} (h : ¬ P) : (Est.clap = Est.size b ↔ P) := ⟨fun h => (by cases h), fun h2 => absurd h2 h⟩
  have nor {P : Prop} (h : ¬ P) : (Est.refused = Est.size b ↔ P) := ⟨fun h => (by cases h), fun h2 => absurd h2 h⟩
  cases nrBlocks with
  | some n =>
    cases device with
    | some d =>
      cases block with
      | some k => exact noc (by simp)
      | none => exact noc (by simp)
    | none =>
      cases block with
      | some k => exact noc (by simp)
      | none =>
        show Est.size (Sizes.cacheSize n w) = .size b ↔ _
        constructor
        · intro h; cases h; exact .inl ⟨n, rfl, rfl, rfl, rfl⟩
        · rintro (⟨_, h, _, _, rfl⟩ | ⟨h, _⟩) <;> cases h
          rfl
  | none =>
    cases device with
    | none =>
      cases block with
      | some k => exact noc (by simp)
      | none => exact nor (by simp)
    | some d =>
      cases block with
      | none => exact noc (by simp)
      | some k =>
        have hd := hd d rfl
        show (if (!Sizes.checkCacheBlockSize k) = true then Est.refused else if d < k then Est.refused else Est.size (Sizes.cacheSize (Sizes.divUp d k) w)) = .size b ↔ _
        have h := Sizes.checkCacheBlockSize_iff k
        by_cases hc : Sizes.checkCacheBlockSize k = true
        · obtain ⟨h1, h2, h3⟩ := h.mp hc
          rw [if_neg (by simp [hc])]
          by_cases hp : d < k
          · rw [if_pos hp]
            apply nor
            rintro (⟨_, h, _⟩ | ⟨_, d1, k1, n, hd1, hk1, _, _, _, h, _⟩)
            · cases h
            · cases hd1; cases hk1; omega
          · rw [if_neg hp]
            have e : Sizes.divUp d k = (d + (k - 1)) / k := by
              unfold Sizes.divUp Sizes.w64
              rw [Nat.mod_eq_of_lt (by omega)]
            have g1 : d ≤ (d + (k - 1)) / k * k := by
              have := Nat.div_add_mod (d + (k - 1)) k
              have := Nat.mod_lt (d + (k - 1)) (show k > 0 by omega)
              rw [Nat.mul_comm]; omega
            have g2 (m : Nat) (hm : d ≤ m * k) : (d + (k - 1)) / k ≤ m := by
              apply Nat.le_of_lt_succ
              rw [Nat.div_lt_iff_lt_mul (by omega), Nat.succ_mul]
              omega
            rw [e]
            constructor
            · intro h; cases h
              exact .inr ⟨rfl, d, k, _, rfl, rfl, h1, h2, h3, by omega, g1, g2, rfl⟩
            · rintro (⟨_, h, _⟩ | ⟨_, d1, k1, n, hd1, hk1, _, _, _, _, h4, h5, rfl⟩)
              · cases h
              · cases hd1; cases hk1
                rw [Nat.le_antisymm (g2 n h4) (h5 _ g1)]
        · rw [if_pos (by simpa using hc)]
          apply nor
          rintro (⟨_, h, _⟩ | ⟨_, d1, k1, n, hd1, hk1, h1, h2, h3, _⟩)
          · cases h
          · cases hk1; exact hc (h.mpr ⟨h1, h2, h3⟩)

/-- without that bound the number of blocks wraps around: the largest device counts no block -/
theorem cache_wrap_refuted : cacheEst none (some (2 ^ 64 - 512)) (some 32768) 4 = .size (4 * 1024 * 1024) := by decide

/-! ## What is printed -/

theorem digit_ofNat {n : Nat} (h : n < 10) : Digit (Char.ofNat (48 + n)) := by
  unfold Digit
  rw [Units.digit_toNat h]
  omega

theorem showHundredths_spec (c : Nat) : Hundredths (showHundredths c) c := by
  obtain ⟨h1, h2, h3⟩ := Units.showNat_spec (c / 100)
  have ha : c / 10 % 10 < 10 := Nat.mod_lt _ (by decide)
  have hb : c % 10 < 10 := Nat.mod_lt _ (by decide)
  refine ⟨showNat (c / 100), Char.ofNat (48 + c / 10 % 10), Char.ofNat (48 + c % 10), rfl, h2, ?_, ?_⟩
  · intro x hx
    rcases List.mem_append.mp hx with h | h
    · exact h1 x h
    · rcases List.mem_cons.mp h with e | e
      · subst e; exact digit_ofNat ha
      · rw [List.mem_singleton] at e; subst e; exact digit_ofNat hb
  · unfold decValue at h3 ⊢
    rw [List.foldl_append, h3]
    simp only [List.foldl_cons, List.foldl_nil, Units.digit_toNat ha, Units.digit_toNat hb]
    omega

/-- C85: a number is printed exactly or to the nearest hundredth of the unit. -/
theorem number_agrees (tie : Bool) (bytes : Nat) (u : Unit') (s : Str) (h : number tie bytes u = some s) :
    Agrees bytes u.sizeBytes s := by
  unfold number at h
  have hu := Units.sizeBytes_pos u
  generalize u.sizeBytes = y at *
  by_cases h0 : bytes % y = 0
  · rw [if_pos h0] at h
    obtain rfl := Option.some.inj h
    obtain ⟨h1, h2, h3⟩ := Units.showNat_spec (bytes / y)
    refine .inl ⟨h2, h1, ?_⟩
    rw [h3]
    exact Nat.div_mul_cancel (Nat.dvd_of_mod_eq_zero h0)
  · rw [if_neg h0] at h
    by_cases h1 : bytes < y
    · rw [if_pos h1] at h; cases h
    · rw [if_neg h1] at h
      obtain rfl := Option.some.inj h
      refine .inr ⟨_, showHundredths_spec _, ?_⟩
      unfold hundredths
      simp only
      have e := Nat.div_add_mod (100 * bytes) y
      have l := Nat.mod_lt (100 * bytes) (show y > 0 by omega)
      rw [Nat.mul_comm y] at e
      generalize 100 * bytes / y = q at *
      generalize 100 * bytes % y = r at *
      split
      · omega
      · split
        · omega
        · rw [Nat.add_one_mul q y]; omega

/-- C85: the number is missing from the model only for sizes below one unit. -/
theorem number_total (tie : Bool) (bytes : Nat) (u : Unit') (h : u.sizeBytes ≤ bytes ∨ bytes = 0) : ∃ s, number tie bytes u = some s := by
  unfold number
  by_cases h0 : bytes % u.sizeBytes = 0
  · rw [if_pos h0]; exact ⟨_, rfl⟩
  · rw [if_neg h0, if_neg (by rcases h with h | h; omega; exact absurd (by rw [h]; exact Nat.zero_mod _) h0)]
    exact ⟨_, rfl⟩

/-- C85: with `-n=short` the line of a whole number of units is a size that the tools' options accept, of as many bytes. -/
theorem short_line_reads_back (tie : Bool) (bytes : Nat) (u : Unit') (h : u.sizeBytes ∣ bytes) (hb : bytes < 2 ^ 64) :
    ∃ s z, line tie bytes u .short = some s ∧ Units.parseSize s = some z ∧ z.sizeBytes = some bytes := by
  obtain ⟨h1, h2, h3⟩ := Units.showNat_spec (bytes / u.sizeBytes)
  have e : decValue (showNat (bytes / u.sizeBytes)) * u.sizeBytes = bytes := by rw [h3]; exact Nat.div_mul_cancel h
  have key := Units.parseSize_intro (ds := showNat (bytes / u.sizeBytes)) (name := u.letter) (u := u) h2 h1
    (.inr ⟨(Units.names_parse u).1, by cases u <;> decide⟩) (by cases u <;> simp [Unit'.letter, Units.isDigit]) (by omega)
  refine ⟨_, _, ?_, key, ?_⟩
  · unfold line number
    rw [if_pos (Nat.mod_eq_zero_of_dvd h)]
    rfl
  · unfold Units.StorageSize.sizeBytes
    simp only [e]
    rw [if_neg (by unfold Units.u64Max; omega)]

/-- C85: in sectors, the default unit, and in bytes and kibibytes a thin estimate is a whole number. -/
theorem thin_exact (pool block thins b : Nat) (u : Unit') (hu : u = .sector ∨ u = .byte ∨ u = .kibibyte)
    (h : thinEst pool block thins = .size b) : u.sizeBytes ∣ b := by
  obtain ⟨_, _, _, _, rfl⟩ := (thin_accepts pool block thins b).mp h
  have := (Sizes.thinSize_cap (pool / block) thins).2
  rcases hu with rfl | rfl | rfl <;> simp only [Unit'.sizeBytes] <;> omega

/-- In larger units the line can understate the estimate: 257 blocks of metadata are printed as 1.00 mebibytes, 256 blocks. -/
theorem understated_refuted : thinEst 65536 65536 255 = .size (257 * 4096) ∧
    ∀ tie, hundredths tie (257 * 4096) Unit'.mebibyte.sizeBytes = 100 ∧ 257 * 4096 > 1048576 := by
  refine ⟨by decide, fun tie => ?_⟩
  cases tie <;> decide

/-- ...and a number of tebibytes is printed as a number of terabytes. -/
theorem tebibyte_line_refuted (f : Format) (hf : f = .full ∨ f = .long) : suffix .tebibyte f = suffix .terabyte f := by
  rcases hf with rfl | rfl <;> rfl

example : thinEst (2 ^ 40) (64 * 1024) 1000 = .size (134154 * 4096) := by decide
example : (65536 : Nat) ≤ 64 * 1024 ∧ (64 * 1024 : Nat) ≤ 2 ^ 30 ∧ (65536 : Nat) ∣ 64 * 1024 ∧ (64 * 1024 : Nat) ≤ 2 ^ 40 := by decide
example : cacheEst none (some (2 ^ 37)) (some 65536) 4 = cacheEst (some (2 ^ 21)) none none 4 := by decide
example : Hundredths ['5', '2', '4', '.', '0', '5'] 52405 :=
  ⟨['5', '2', '4'], '0', '5', rfl, by decide, by decide, by decide⟩

end Verif.Cli
