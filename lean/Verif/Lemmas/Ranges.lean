/-!
# Ranges that cover a set of numbers exactly

The specification used for lists of ranges (discards, marked blocks, ...), and the bit-by-bit scan that computes them.
-/

namespace Verif.Rng

/-- `l` is the list of the maximal ranges `(begin, length)` of `P`, in increasing order: no range is empty, ranges are
increasing and separated by at least one number, and they cover exactly the numbers that satisfy `P`. -/
structure Exactly (P : Nat → Prop) (l : List (Nat × Nat)) : Prop where
  pos : ∀ r ∈ l, 0 < r.2
  sep : l.Pairwise fun a b => a.1 + a.2 < b.1
  cover : ∀ i, P i ↔ ∃ r ∈ l, r.1 ≤ i ∧ i < r.1 + r.2

/-- close an open range -/
def done (out : List (Nat × Nat)) (b e : Nat) : List (Nat × Nat) := if b < e then out ++ [(b, e - b)] else out

/-- the closed ranges below `p` and the start of the open one -/
def auto (bits : Nat → Bool) : Nat → List (Nat × Nat) × Nat
  | 0 => ([], 0)
  | p + 1 =>
    let r := auto bits p
    if bits p then r else (done r.1 r.2 p, p + 1)

/-- all ranges below `n` -/
def fin (bits : Nat → Bool) (n : Nat) : List (Nat × Nat) := done (auto bits n).1 (auto bits n).2 n

structure AutoInv (bits : Nat → Bool) (p : Nat) (l : List (Nat × Nat)) (b : Nat) : Prop where
  le : b ≤ p
  set : ∀ i, b ≤ i → i < p → bits i = true
  pos : ∀ r ∈ l, 0 < r.2
  sep : l.Pairwise fun a b => a.1 + a.2 < b.1
  below : ∀ r ∈ l, r.1 + r.2 < b
  cover : ∀ i, i < b → (bits i = true ↔ ∃ r ∈ l, r.1 ≤ i ∧ i < r.1 + r.2)

theorem auto_inv (bits : Nat → Bool) (p : Nat) : AutoInv bits p (auto bits p).1 (auto bits p).2 := by
  induction p with
  | zero =>
    exact { le := Nat.le_refl _
            set := by intro i h1 h2; omega
            pos := by intro r h; cases h
            sep := List.Pairwise.nil
            below := by intro r h; cases h
            cover := by intro i h; exact absurd h (Nat.not_lt_zero _) }
  | succ p ih =>
    simp only [auto]
    split
    · next hb =>
      exact { le := Nat.le_succ_of_le ih.le
              set := by
                intro i h1 h2
                by_cases h : i = p
                · rw [h]; exact hb
                · exact ih.set i h1 (by omega)
              pos := ih.pos
              sep := ih.sep
              below := ih.below
              cover := ih.cover }
    · next hb =>
      generalize (auto bits p).1 = l at *
      generalize (auto bits p).2 = b at *
      have hle := ih.le
      unfold done
      split
      · next hlt =>
        refine { le := Nat.le_refl _, set := by intro i h1 h2; omega, pos := ?_, sep := ?_, below := ?_, cover := ?_ }
        · intro r hr
          rcases List.mem_append.mp hr with hr | hr
          · exact ih.pos r hr
          · rw [List.mem_singleton] at hr; subst hr; simp only; omega
        · refine List.pairwise_append.mpr ⟨ih.sep, List.pairwise_singleton _ _, ?_⟩
          intro a ha c hc
          rw [List.mem_singleton] at hc; subst hc
          exact ih.below a ha
        · intro r hr
          rcases List.mem_append.mp hr with hr | hr
          · have := ih.below r hr; omega
          · rw [List.mem_singleton] at hr; subst hr; simp only; omega
        · intro i hi
          by_cases h1 : i < b
          · rw [ih.cover i h1]
            constructor
            · rintro ⟨r, hr, h⟩; exact ⟨r, by simp [hr], h⟩
            · rintro ⟨r, hr, h⟩
              rcases List.mem_append.mp hr with hr | hr
              · exact ⟨r, hr, h⟩
              · rw [List.mem_singleton] at hr; subst hr; simp only at h; omega
          · by_cases h2 : i = p
            · subst h2
              constructor
              · intro h; exact absurd h hb
              · rintro ⟨r, hr, h⟩
                rcases List.mem_append.mp hr with hr | hr
                · have := ih.below r hr; omega
                · rw [List.mem_singleton] at hr; subst hr; simp only at h; omega
            · constructor
              · intro _; exact ⟨(b, p - b), by simp, by simp only; omega⟩
              · intro _; exact ih.set i (by omega) (by omega)
      · next hlt =>
        have : b = p := by omega
        subst this
        refine { le := Nat.le_refl _, set := by intro i h1 h2; omega, pos := ih.pos, sep := ih.sep, below := ?_, cover := ?_ }
        · intro r hr; have := ih.below r hr; omega
        · intro i hi
          by_cases h1 : i < b
          · exact ih.cover i h1
          · have : i = b := by omega
            subst this
            constructor
            · intro h; exact absurd h hb
            · rintro ⟨r, hr, h⟩
              have := ih.below r hr; omega

/-- the scan finds the maximal ranges of set bits -/
theorem fin_exactly (bits : Nat → Bool) (n : Nat) : Exactly (fun i => i < n ∧ bits i = true) (fin bits n) := by
  have h := auto_inv bits n
  unfold fin
  generalize (auto bits n).1 = l at *
  generalize (auto bits n).2 = b at *
  have hle := h.le
  unfold done
  split
  · next hlt =>
    refine { pos := ?_, sep := ?_, cover := ?_ }
    · intro r hr
      rcases List.mem_append.mp hr with hr | hr
      · exact h.pos r hr
      · rw [List.mem_singleton] at hr; subst hr; simp only; omega
    · refine List.pairwise_append.mpr ⟨h.sep, List.pairwise_singleton _ _, ?_⟩
      intro a ha c hc
      rw [List.mem_singleton] at hc; subst hc
      exact h.below a ha
    · intro i
      constructor
      · rintro ⟨h1, h2⟩
        by_cases hib : i < b
        · obtain ⟨r, hr, hh⟩ := (h.cover i hib).mp h2
          exact ⟨r, by simp [hr], hh⟩
        · exact ⟨(b, n - b), by simp, by simp only; omega⟩
      · rintro ⟨r, hr, h1⟩
        rcases List.mem_append.mp hr with hr | hr
        · have := h.below r hr
          exact ⟨by omega, (h.cover i (by omega)).mpr ⟨r, hr, h1⟩⟩
        · rw [List.mem_singleton] at hr; subst hr
          simp only at h1
          exact ⟨by omega, h.set i (by omega) (by omega)⟩
  · next hlt =>
    have : b = n := by omega
    subst this
    refine { pos := h.pos, sep := h.sep, cover := ?_ }
    intro i
    constructor
    · rintro ⟨h1, h2⟩; exact (h.cover i h1).mp h2
    · rintro ⟨r, hr, h1⟩
      have := h.below r hr
      exact ⟨by omega, (h.cover i (by omega)).mpr ⟨r, hr, h1⟩⟩

/-- scanning set bits -/
theorem auto_set (bits : Nat → Bool) (p k : Nat) (h : ∀ i, p ≤ i → i < p + k → bits i = true) :
    auto bits (p + k) = auto bits p := by
  induction k with
  | zero => rfl
  | succ k ih =>
    show auto bits (p + k + 1) = _
    simp only [auto]
    rw [if_pos (h (p + k) (by omega) (by omega))]
    exact ih (fun i h1 h2 => h i h1 (by omega))

/-- scanning clear bits -/
theorem auto_clear (bits : Nat → Bool) (p k : Nat) (h : ∀ i, p ≤ i → i < p + k → bits i = false) (hk : 0 < k) :
    auto bits (p + k) = (done (auto bits p).1 (auto bits p).2 p, p + k) := by
  induction k with
  | zero => omega
  | succ k ih =>
    show auto bits (p + k + 1) = _
    have hb := h (p + k) (by omega) (by omega)
    simp only [auto, hb, Bool.false_eq_true, if_false]
    cases k with
    | zero => rfl
    | succ k =>
      rw [ih (fun i h1 h2 => h i h1 (by omega)) (by omega)]
      simp only [done, Nat.lt_irrefl, if_false]
      rfl

theorem Exactly.congr {P Q : Nat → Prop} {l : List (Nat × Nat)} (h : Exactly P l) (hpq : ∀ i, P i ↔ Q i) : Exactly Q l :=
  ⟨h.pos, h.sep, fun i => (hpq i).symm.trans (h.cover i)⟩

/-- the ranges are determined by the set -/
theorem Exactly.unique {P : Nat → Prop} {l l' : List (Nat × Nat)} (h : Exactly P l) (h' : Exactly P l') : l = l' := by
  induction l generalizing l' P with
  | nil =>
    cases l' with
    | nil => rfl
    | cons r l' =>
      have := h'.pos r (by simp)
      have := (h.cover r.1).mp ((h'.cover r.1).mpr ⟨r, by simp, by omega, by omega⟩)
      obtain ⟨q, hq, -⟩ := this
      cases hq
  | cons r l ih =>
    cases l' with
    | nil =>
      have := h.pos r (by simp)
      have := (h'.cover r.1).mp ((h.cover r.1).mpr ⟨r, by simp, by omega, by omega⟩)
      obtain ⟨q, hq, -⟩ := this
      cases hq
    | cons r' l' =>
      have key : ∀ (r : Nat × Nat) (l : List (Nat × Nat)) (r' : Nat × Nat) (l' : List (Nat × Nat)),
          Exactly P (r :: l) → Exactly P (r' :: l') → r'.1 ≤ r.1 ∧ (r'.1 = r.1 → r'.1 + r'.2 ≤ r.1 + r.2) := by
        intro r l r' l' h h'
        have p := h.pos r (by simp)
        have p' := h'.pos r' (by simp)
        have s := (List.pairwise_cons.mp h.sep).1
        have s' := (List.pairwise_cons.mp h'.sep).1
        constructor
        · obtain ⟨q, hq, h1, h2⟩ := (h'.cover r.1).mp ((h.cover r.1).mpr ⟨r, by simp, by omega, by omega⟩)
          rcases List.mem_cons.mp hq with rfl | hq
          · exact h1
          · have := s' q hq; omega
        · intro he
          apply Classical.byContradiction
          intro hn
          have hP : P (r.1 + r.2) := (h'.cover _).mpr ⟨r', by simp, by omega, by omega⟩
          obtain ⟨q, hq, h1, h2⟩ := (h.cover _).mp hP
          rcases List.mem_cons.mp hq with rfl | hq
          · omega
          · have := s q hq; omega
      have k1 := key r l r' l' h h'
      have k2 := key r' l' r l h' h
      have e1 : r.1 = r'.1 := by omega
      have e2 : r.2 = r'.2 := by
        have := k1.2 e1.symm
        have := k2.2 e1
        omega
      have e : r = r' := Prod.ext e1 e2
      subst e
      have s := List.pairwise_cons.mp h.sep
      have s' := List.pairwise_cons.mp h'.sep
      have p := h.pos r (by simp)
      have tl : ∀ l, Exactly P (r :: l) → Exactly (fun i => P i ∧ r.1 + r.2 ≤ i) l := by
        intro l h
        have s := List.pairwise_cons.mp h.sep
        refine ⟨fun q hq => h.pos q (by simp [hq]), s.2, fun i => ?_⟩
        constructor
        · rintro ⟨h1, h2⟩
          obtain ⟨q, hq, h3, h4⟩ := (h.cover i).mp h1
          rcases List.mem_cons.mp hq with rfl | hq
          · omega
          · exact ⟨q, hq, h3, h4⟩
        · rintro ⟨q, hq, h3, h4⟩
          have := s.1 q hq
          exact ⟨(h.cover i).mpr ⟨q, by simp [hq], h3, h4⟩, by omega⟩
      rw [ih (tl l h) (tl l' h')]

end Verif.Rng
