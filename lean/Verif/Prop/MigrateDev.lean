import Verif.Model.Migrate

/-!
# C59: device numbers and device-mapper tables of `thin_migrate`
-/

namespace Verif.Mig

/-! ## Device numbers -/

/-- Linux' `makedev` for `st_rdev` (sysmacros.h): 12 + 20 bits of major, 8 + 24 bits of minor -/
def makedev (major minor : Nat) : Nat := minor % 256 + major % 4096 * 2 ^ 8 + minor / 256 * 2 ^ 20 + major / 4096 * 2 ^ 44

theorem splitDev_makedev {major minor : Nat} (hM : major < 4096) (hm : minor < 2 ^ 20) : splitDev (makedev major minor) = (major + minor / 256 * 4096, minor % 256) := by
  have hmask : makedev major minor &&& 0xff = makedev major minor % 2 ^ 8 := Nat.and_two_pow_sub_one_eq_mod _ 8
  rw [splitDev, hmask]
  simp only [makedev, Prod.mk.injEq]
  omega

/-- C59: a device whose minor is below 256 is named by its numbers. -/
theorem splitDev_small {major minor : Nat} (hM : major < 4096) (hm : minor < 256) : splitDev (makedev major minor) = (major, minor) := by
  rw [splitDev_makedev hM (by omega), Nat.div_eq_of_lt hm, Nat.mod_eq_of_lt hm]
  simp

/-- Not so from minor 256 on: the tool refuses such a device as no device-mapper device. -/
theorem splitDev_refuted {major minor : Nat} (hM : major < 4096) (hm : 256 ≤ minor) (hm2 : minor < 2 ^ 20) :
    splitDev (makedev major minor) ≠ (major, minor) ∧ 4096 ≤ (splitDev (makedev major minor)).1 := by
  rw [splitDev_makedev hM hm2]
  have : 1 ≤ minor / 256 := Nat.div_pos hm (by omega)
  refine ⟨?_, by simp only; omega⟩
  intro h
  have := (Prod.mk.inj h).1
  omega

/-- C59: but no device is ever taken for another one: two device files have the same numbers only if they are the same device, and a device-mapper major (below 4096)
appears only for a device with these numbers. -/
theorem splitDev_inj {M m M' m' : Nat} (hM : M < 4096) (hm : m < 2 ^ 20) (hM' : M' < 4096) (hm' : m' < 2 ^ 20) :
    (splitDev (makedev M m) = splitDev (makedev M' m') → M = M' ∧ m = m') ∧ (splitDev (makedev M m) = (M', m') → M = M' ∧ m = m') := by
  rw [splitDev_makedev hM hm, splitDev_makedev hM' hm']
  simp only [Prod.mk.injEq]
  omega

example : splitDev (makedev 253 7) = (253, 7) ∧ splitDev (makedev 253 300) = (4349, 44) := by decide

/-! ## Tables -/

/-- a table begins with the decimal number `n` -/
theorem digitChar_isDigit {n : Nat} (h : n < 10) : (Nat.digitChar n).isDigit = true ∧ (Nat.digitChar n).toNat - 48 = n := by
  have : n = 0 ∨ n = 1 ∨ n = 2 ∨ n = 3 ∨ n = 4 ∨ n = 5 ∨ n = 6 ∨ n = 7 ∨ n = 8 ∨ n = 9 := by omega
  rcases this with rfl | rfl | rfl | rfl | rfl | rfl | rfl | rfl | rfl | rfl <;> decide

theorem digits_append : ∀ (ds s : List Char), (∀ c ∈ ds, c.isDigit = true) → (∀ c, s[0]? = some c → c.isDigit = false) → digits (ds ++ s) = (ds, s) := by
  intro ds s h1 h2
  induction ds with
  | nil =>
    cases s with
    | nil => rfl
    | cons c s => simp [digits, h2 c (by simp)]
  | cons d ds ih =>
    have hd := h1 d (by simp)
    rw [List.cons_append, digits, if_pos hd, ih (fun c hc => h1 c (by simp [hc]))]

theorem value_append (a : List Char) (c : Char) : value (a ++ [c]) = value a * 10 + (c.toNat - 48) := by simp [value, List.foldl_append]

theorem toDigits_value : ∀ n, value (Nat.toDigits 10 n) = n ∧ (∀ c ∈ Nat.toDigits 10 n, c.isDigit = true) ∧ Nat.toDigits 10 n ≠ [] := by
  intro n
  induction n using Nat.strongRecOn with
  | ind n ih =>
    by_cases h : n < 10
    · rw [Nat.toDigits_of_lt_base h]
      obtain ⟨d1, d2⟩ := digitChar_isDigit h
      exact ⟨by simpa [value] using d2, by simpa using d1, by simp⟩
    · rw [Nat.toDigits_of_base_le (by omega) (by omega)]
      obtain ⟨i1, i2, i3⟩ := ih (n / 10) (by omega)
      obtain ⟨d1, d2⟩ := digitChar_isDigit (n := n % 10) (by omega)
      refine ⟨by rw [value_append, i1, d2]; omega, ?_, by simp⟩
      intro c hc
      rcases List.mem_append.mp hc with hc | hc
      · exact i2 c hc
      · rw [List.mem_singleton.mp hc]; exact d1

theorem parseU32_print {n : Nat} (hn : n < 2 ^ 32) {s : List Char} (hs : ∀ c, s[0]? = some c → c.isDigit = false) : parseU32 (Nat.toDigits 10 n ++ s) = some (n, s) := by
  obtain ⟨h1, h2, h3⟩ := toDigits_value n
  rw [parseU32, digits_append _ _ h2 hs]
  simp [h1, h3, hn]

/-- numbers of 32 bits or more are refused -/
theorem parseU32_big {n : Nat} (hn : 2 ^ 32 ≤ n) {s : List Char} (hs : ∀ c, s[0]? = some c → c.isDigit = false) : parseU32 (Nat.toDigits 10 n ++ s) = none := by
  obtain ⟨h1, h2, h3⟩ := toDigits_value n
  rw [parseU32, digits_append _ _ h2 hs]
  simp [h1, h3]
  omega

/-- the kernel's way of writing a device in a table (`%u:%u`) -/
def devText (d : Nat × Nat) : List Char := Nat.toDigits 10 d.1 ++ ':' :: Nat.toDigits 10 d.2

theorem parseDev_print {d : Nat × Nat} (h1 : d.1 < 2 ^ 32) (h2 : d.2 < 2 ^ 32) {s : List Char} (hs : ∀ c, s[0]? = some c → c.isDigit = false) :
    parseDev (devText d ++ s) = some (d, s) := by
  rw [parseDev, devText, List.append_assoc, List.cons_append, parseU32_print h1 (by intro c hc; simp at hc; subst hc; decide)]
  simp only [Option.bind_eq_bind, Option.bind_some, parseColon, if_true]
  rw [parseU32_print h2 hs]
  rfl

theorem parseSpace_print {n : Nat} {s : List Char} : parseSpace (' ' :: (Nat.toDigits 10 n ++ s)) = some (Nat.toDigits 10 n ++ s) := by
  obtain ⟨-, h2, h3⟩ := toDigits_value n
  cases hd : Nat.toDigits 10 n with
  | nil => exact absurd hd h3
  | cons c cs =>
    have hc := h2 c (by rw [hd]; simp)
    have hns : ¬ (c = ' ' ∨ c = '\t' ∨ c = '\r' ∨ c = '\n') := by
      rintro (rfl | rfl | rfl | rfl) <;> exact absurd hc (by decide)
    have e1 : skipSpace (c :: (cs ++ s)) = c :: (cs ++ s) := by rw [skipSpace, if_neg hns]
    have e2 : skipSpace (' ' :: (c :: (cs ++ s))) = c :: (cs ++ s) := by rw [skipSpace, if_pos (Or.inl rfl), e1]
    rw [List.cons_append, parseSpace, e2, if_neg]
    intro h
    have := congrArg List.length h
    simp at this

theorem space_dev {d : Nat × Nat} {s : List Char} : parseSpace (' ' :: (devText d ++ s)) = some (devText d ++ s) := by
  rw [devText, List.append_assoc]
  exact parseSpace_print

/-- C59: the table of a thin device as the kernel prints it (`%s %lu`, an external origin may follow) is understood. -/
theorem parseThinTable_print {pool : Nat × Nat} {id : Nat} (h1 : pool.1 < 2 ^ 32) (h2 : pool.2 < 2 ^ 32) (h3 : id < 2 ^ 32) {rest : List Char}
    (hr : ∀ c, rest[0]? = some c → c.isDigit = false) : parseThinTable (devText pool ++ ' ' :: (Nat.toDigits 10 id ++ rest)) = some (pool, id) := by
  rw [parseThinTable, parseDev_print h1 h2 (by intro c hc; simp at hc; subst hc; decide)]
  simp only [Option.bind_eq_bind, Option.bind_some, parseSpace_print]
  rw [parseU32_print h3 hr]
  rfl

/-- C59: the table of a pool (`%s %s %lu`, low water mark and features follow) is understood. -/
theorem parsePoolTable_print {md dd : Nat × Nat} {bs : Nat} (h1 : md.1 < 2 ^ 32) (h2 : md.2 < 2 ^ 32) (h3 : dd.1 < 2 ^ 32) (h4 : dd.2 < 2 ^ 32) (h5 : bs < 2 ^ 32)
    {rest : List Char} (hr : ∀ c, rest[0]? = some c → c.isDigit = false) :
    parsePoolTable (devText md ++ ' ' :: (devText dd ++ ' ' :: (Nat.toDigits 10 bs ++ rest))) = some (md, dd, bs) := by
  rw [parsePoolTable, parseDev_print h1 h2 (by intro c hc; simp at hc; subst hc; decide)]
  simp only [Option.bind_eq_bind, Option.bind_some, space_dev]
  rw [parseDev_print h3 h4 (by intro c hc; simp at hc; subst hc; decide)]
  simp only [Option.bind_some, parseSpace_print]
  rw [parseU32_print h5 hr]
  rfl

example : parsePoolTable "253:2 253:3 128 0 1 skip_block_zeroing".toList = some ((253, 2), (253, 3), 128) := by decide +kernel

end Verif.Mig
