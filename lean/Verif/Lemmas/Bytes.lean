import Verif.Model.Bytes

namespace Verif

@[simp] theorem leBytes_length (k v : Nat) : (leBytes k v).length = k := by
  induction k generalizing v with
  | zero => rfl
  | succ k ih => simp [leBytes, ih]

theorem leVal_leBytes (k v : Nat) : leVal (leBytes k v) = v % 256 ^ k := by
  induction k generalizing v with
  | zero => simp [leBytes, leVal, Nat.mod_one]
  | succ k ih =>
    simp only [leBytes, leVal, ih]
    have h : (UInt8.ofNat (v % 256)).toNat = v % 256 := by simp
    rw [h, Nat.pow_succ', Nat.mod_mul]

theorem leVal_lt (b : Bytes) : leVal b < 256 ^ b.length := by
  induction b with
  | nil => simp [leVal]
  | cons x xs ih =>
    simp only [leVal, List.length_cons, Nat.pow_succ']
    have := x.toNat_lt
    omega

theorem leBytes_leVal (b : Bytes) : leBytes b.length (leVal b) = b := by
  induction b with
  | nil => rfl
  | cons x xs ih =>
    have hx := x.toNat_lt
    simp only [List.length_cons, leBytes, leVal]
    rw [Nat.add_mul_mod_self_left, Nat.add_mul_div_left _ _ (by decide), Nat.mod_eq_of_lt (by omega),
      Nat.div_eq_of_lt (by omega), Nat.zero_add, ih]
    simp

@[simp] theorem takeB_append (a r : Bytes) : takeB a.length (a ++ r) = some (a, r) := by
  simp [takeB]

theorem takeB_append' {n : Nat} {a : Bytes} (h : a.length = n) (r : Bytes) :
    takeB n (a ++ r) = some (a, r) := by
  subst h; simp

theorem takeB_eq_some {n : Nat} {i a r : Bytes} (h : takeB n i = some (a, r)) :
    i = a ++ r ∧ a.length = n := by
  unfold takeB at h
  split at h
  · simp only [Option.some.injEq, Prod.mk.injEq] at h
    obtain ⟨rfl, rfl⟩ := h
    simp; omega
  · simp at h

theorem leU_eq (k : Nat) (i : Bytes) :
    leU k i = if k ≤ i.length then some (leVal (i.take k), i.drop k) else none := by
  unfold leU takeB
  by_cases h : k ≤ i.length <;> simp [h]

theorem leU_leBytes (k v : Nat) (h : v < 256 ^ k) (r : Bytes) :
    leU k (leBytes k v ++ r) = some (v, r) := by
  unfold leU
  rw [takeB_append' (by simp)]
  simp [leVal_leBytes, Nat.mod_eq_of_lt h]

@[simp] theorem leU32_w32 (v : Nat) (h : v < 2 ^ 32) (r : Bytes) : leU 4 (leBytes 4 v ++ r) = some (v, r) :=
  leU_leBytes 4 v (by simpa using h) r

@[simp] theorem leU64_w64 (v : Nat) (h : v < 2 ^ 64) (r : Bytes) : leU 8 (leBytes 8 v ++ r) = some (v, r) :=
  leU_leBytes 8 v (by simpa using h) r

theorem leU_eq_some {k : Nat} {i r : Bytes} {v : Nat} (h : leU k i = some (v, r)) :
    ∃ b : Bytes, b.length = k ∧ i = b ++ r ∧ v = leVal b ∧ v < 256 ^ k := by
  unfold leU at h
  split at h
  · next b r' hb =>
    simp only [Option.some.injEq, Prod.mk.injEq] at h
    obtain ⟨rfl, rfl⟩ := h
    obtain ⟨h1, h2⟩ := takeB_eq_some hb
    exact ⟨b, h2, h1, rfl, h2 ▸ leVal_lt b⟩
  · simp at h

theorem leU_isSome {k : Nat} {i : Bytes} (h : k ≤ i.length) : (leU k i).isSome := by
  simp [leU, takeB, h]

/-- one step of a parser written in `do` notation (used instead of `simp` to stay linear) -/
theorem bind_step {α β : Type} {x : Option α} {f : α → Option β} {a : α} {y : Option β} (h : x = some a)
    (h' : f a = y) : (x >>= f) = y := by subst h; exact h'

theorem pack40_24 (s k b t : Nat) (hs : s + k = 64) (hb : b < 2 ^ k) (ht : t < 2 ^ s) :
    ((b <<< s) % 2 ^ 64 ||| t) < 2 ^ 64 ∧ ((b <<< s) % 2 ^ 64 ||| t) >>> s = b ∧
      ((b <<< s) % 2 ^ 64 ||| t) &&& (2 ^ s - 1) = t := by
  have h1 : b <<< s < 2 ^ 64 := by
    rw [Nat.shiftLeft_eq, ← hs, Nat.pow_add, Nat.mul_comm]
    exact Nat.mul_lt_mul_of_pos_left hb (Nat.two_pow_pos s)
  rw [Nat.mod_eq_of_lt h1, ← Nat.shiftLeft_add_eq_or_of_lt ht, Nat.shiftLeft_eq]
  rw [Nat.shiftLeft_eq] at h1
  have hp : 0 < 2 ^ s := Nat.two_pow_pos s
  refine ⟨?_, ?_, ?_⟩
  · have : (b + 1) * 2 ^ s ≤ 2 ^ k * 2 ^ s := Nat.mul_le_mul_right _ hb
    rw [← Nat.pow_add, Nat.add_comm k s, hs, Nat.add_mul] at this
    omega
  · rw [Nat.shiftRight_eq_div_pow, Nat.add_comm, Nat.add_mul_div_right _ _ hp, Nat.div_eq_of_lt ht,
      Nat.zero_add]
  · rw [Nat.and_two_pow_sub_one_eq_mod, Nat.add_comm, Nat.add_mul_mod_self_right, Nat.mod_eq_of_lt ht]

end Verif
