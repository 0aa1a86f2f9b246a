import Verif.Model.Trim
import Verif.Lemmas.Ranges

/-!
# C26: `thin_trim` discards exactly the unused blocks
-/

namespace Verif.Trim

open Verif.Rng

/-- block `i` is in use -/
def used (E : Nat) (bitmaps : List (List Bool)) (i : Nat) : Bool := (bitmaps.flatten[i]?).getD false

/-- the iterator stands at a position within the bitmap it has loaded -/
structure OK (E nr : Nat) (bitmaps : List (List Bool)) (it : It) : Prop where
  bm : bitmaps[it.ie]? = some it.bitmap
  pos : it.cur / E = it.ie
  le : it.cur ≤ nr

theorem findFirst_spec (want : Bool) (l : List Bool) : findFirst want l ≤ l.length ∧
    (∀ i (h : i < l.length), i < findFirst want l → l[i] = !want) ∧
    (∀ h : findFirst want l < l.length, l[findFirst want l] = want) := by
  induction l with
  | nil => simp [findFirst]
  | cons e l ih =>
    unfold findFirst
    split
    · next h => exact ⟨by omega, by intro i _ hi; omega, by intro _; simpa using h⟩
    · next h =>
      obtain ⟨h1, h2, h3⟩ := ih
      refine ⟨by simp; omega, ?_, ?_⟩
      · intro i hl hi
        cases i with
        | zero => simp; revert h; cases e <;> cases want <;> simp
        | succ i => simpa using h2 i (by simpa using hl) (by omega)
      · intro hl
        simpa using h3 (by simpa using hl)

theorem flatten_get (E : Nat) (bitmaps : List (List Bool)) (hlen : ∀ b ∈ bitmaps, b.length = E) :
    ∀ k i, i < E → bitmaps.flatten[k * E + i]? = (bitmaps[k]?).bind fun b => b[i]? := by
  induction bitmaps with
  | nil => intro k i _; simp
  | cons b bs ih =>
    intro k i hi
    have hb := hlen b (by simp)
    cases k with
    | zero =>
      simp only [Nat.zero_mul, Nat.zero_add, List.flatten_cons, List.getElem?_cons_zero, Option.bind_some]
      rw [List.getElem?_append_left (by omega)]
    | succ k =>
      rw [List.flatten_cons, List.getElem?_append_right (by rw [Nat.add_mul]; omega), hb,
        show (k + 1) * E + i - E = k * E + i by rw [Nat.add_mul]; omega,
        ih (fun x hx => hlen x (by simp [hx])) k i hi]
      simp

theorem used_eq {E nr : Nat} {bitmaps : List (List Bool)} (hlen : ∀ b ∈ bitmaps, b.length = E) {k : Nat} {b : List Bool}
    (hb : bitmaps[k]? = some b) {i : Nat} (hi : i < E) : used E bitmaps (k * E + i) = (b[i]?).getD false := by
  unfold used
  rw [flatten_get E bitmaps hlen k i hi, hb]; rfl

theorem skip_spec {E nr : Nat} {bitmaps : List (List Bool)} (hE : 0 < E) (hlen : ∀ b ∈ bitmaps, b.length = E)
    (hnr : nr ≤ bitmaps.length * E) (want : Bool) (fuel : Nat) : ∀ it, OK E nr bitmaps it → it.cur < nr →
    bitmaps.length + 1 ≤ fuel + it.ie →
    ∃ it', skip E nr bitmaps want fuel it = some it' ∧ it.cur ≤ it'.cur ∧ it'.cur ≤ nr ∧
      (∀ i, it.cur ≤ i → i < it'.cur → used E bitmaps i = !want) ∧
      (it'.cur < nr → OK E nr bitmaps it' ∧ used E bitmaps it'.cur = want) := by
  induction fuel with
  | zero =>
    intro it h hc hf
    have : it.ie < bitmaps.length := (List.getElem?_eq_some_iff.mp h.bm).1
    omega
  | succ fuel ih =>
    intro it h hc hf
    have hbl : it.bitmap.length = E := hlen _ (List.mem_of_getElem? h.bm)
    have hmod := Nat.mod_lt it.cur hE
    have hdm := Nat.div_add_mod it.cur E
    rw [h.pos] at hdm
    have hcomm : E * it.ie = it.ie * E := Nat.mul_comm _ _
    obtain ⟨f1, f2, f3⟩ := findFirst_spec want (it.bitmap.drop (it.cur % E))
    generalize hn : findFirst want (it.bitmap.drop (it.cur % E)) = n at *
    have hdl : (it.bitmap.drop (it.cur % E)).length = E - it.cur % E := by simp [hbl]
    have hbit : ∀ i, i < E - it.cur % E → used E bitmaps (it.cur + i) =
        ((it.bitmap.drop (it.cur % E))[i]?).getD false := by
      intro i hi
      have := used_eq (nr := nr) hlen h.bm (i := it.cur % E + i) (by omega)
      rw [show it.ie * E + (it.cur % E + i) = it.cur + i by omega] at this
      rw [this, List.getElem?_drop]
    have hrun : ∀ i, it.cur ≤ i → i < it.cur + n → used E bitmaps i = !want := by
      intro i h1 h2
      have hi : i - it.cur < (it.bitmap.drop (it.cur % E)).length := by omega
      have := hbit (i - it.cur) (by omega)
      rw [show it.cur + (i - it.cur) = i by omega] at this
      rw [this, List.getElem?_eq_getElem hi]
      exact f2 (i - it.cur) hi (by omega)
    unfold skip
    simp only [hn]
    split
    · next he =>
      refine ⟨_, rfl, by simp only; omega, by simp only; omega, ?_, by intro hlt; simp only at hlt; omega⟩
      intro i h1 h2
      exact hrun i h1 (by simp only at h2; omega)
    · next he =>
      have hcur : min (it.cur + n) nr = it.cur + n := by omega
      rw [hcur] at he ⊢
      split
      · next hie =>
        -- the end of this bitmap
        have hnE : n = E - it.cur % E := by
          apply Classical.byContradiction
          intro hne
          apply hie
          have hlt : n < E - it.cur % E := by omega
          rw [show it.cur + n = E * it.ie + (it.cur % E + n) by omega, Nat.mul_add_div hE,
            Nat.div_eq_of_lt (by omega)]
          omega
        have hie' : (it.cur + n) / E = it.ie + 1 := by
          rw [show it.cur + n = E * it.ie + E by omega, Nat.mul_add_div hE, Nat.div_self hE]
        rw [hie']
        have hlt : it.ie + 1 < bitmaps.length := by
          apply Classical.byContradiction
          intro hge
          have : bitmaps.length * E ≤ (it.ie + 1) * E := Nat.mul_le_mul_right _ (by omega)
          rw [Nat.add_mul] at this
          omega
        rw [List.getElem?_eq_getElem hlt]
        simp only
        obtain ⟨it', e1, e2, e3, e4, e5⟩ := ih ⟨it.ie + 1, bitmaps[it.ie + 1], it.cur + n⟩
          ⟨List.getElem?_eq_getElem hlt, hie', by simp only; omega⟩ (by simp only; omega) (by simp only; omega)
        simp only at e2 e4
        refine ⟨it', e1, by omega, e3, ?_, e5⟩
        intro i h1 h2
        by_cases hi : i < it.cur + n
        · exact hrun i h1 hi
        · exact e4 i (by omega) h2
      · next hie =>
        have hie : (it.cur + n) / E = it.ie := by simpa using hie
        refine ⟨_, rfl, by simp only; omega, by simp only; omega, hrun, ?_⟩
        intro hlt
        refine ⟨⟨h.bm, hie, by simp only; omega⟩, ?_⟩
        have hnE : n < E - it.cur % E := by
          apply Classical.byContradiction
          intro hge
          have : n = E - it.cur % E := by omega
          rw [show it.cur + n = E * it.ie + E by omega, Nat.mul_add_div hE, Nat.div_self hE] at hie
          omega
        simp only
        rw [hbit n hnE, List.getElem?_eq_getElem (by omega)]
        exact f3 (by omega)

theorem ok_fuel {bitmaps : List (List Bool)} {it : It} : bitmaps.length + 1 ≤ bitmaps.length + 1 + it.ie := by
  omega

theorem next_spec {E nr : Nat} {bitmaps : List (List Bool)} (hE : 0 < E) (hlen : ∀ b ∈ bitmaps, b.length = E)
    (hnr : nr ≤ bitmaps.length * E) (it : It) (h : OK E nr bitmaps it ∨ it.cur = nr) :
    ∃ it' r, next E nr bitmaps it = some (it', r) ∧
      ((r = none ∧ ∀ i, it.cur ≤ i → i < nr → used E bitmaps i = false) ∨
       ∃ s, r = some (s, it'.cur) ∧ it.cur ≤ s ∧ s < it'.cur ∧ it'.cur ≤ nr ∧
        (∀ i, it.cur ≤ i → i < s → used E bitmaps i = false) ∧ (∀ i, s ≤ i → i < it'.cur → used E bitmaps i = true) ∧
        (OK E nr bitmaps it' ∨ it'.cur = nr) ∧ (it'.cur < nr → used E bitmaps it'.cur = false)) := by
  unfold next
  split
  · next hc => exact ⟨it, none, rfl, Or.inl ⟨rfl, by intro i h1 h2; omega⟩⟩
  · next hc =>
    have hok : OK E nr bitmaps it := by
      rcases h with h | h
      · exact h
      · omega
    obtain ⟨it1, e1, e2, e3, e4, e5⟩ := skip_spec hE hlen hnr true (bitmaps.length + 1) it hok (by omega) ok_fuel
    rw [e1]
    simp only
    split
    · next hend =>
      refine ⟨_, _, rfl, Or.inl ⟨rfl, ?_⟩⟩
      intro i h1 h2
      exact e4 i h1 (by omega)
    · next hend =>
      obtain ⟨hok1, hused⟩ := e5 (by omega)
      obtain ⟨it2, g1, g2, g3, g4, g5⟩ := skip_spec hE hlen hnr false (bitmaps.length + 1) it1 hok1 (by omega) ok_fuel
      rw [g1]
      have hne : it1.cur ≠ it2.cur := by
        intro he
        have := (g5 (by omega)).2
        rw [← he, hused] at this
        cases this
      refine ⟨_, _, rfl, Or.inr ⟨it1.cur, rfl, e2, by omega, g3, e4, g4, ?_, ?_⟩⟩
      · by_cases hlt : it2.cur < nr
        · exact Or.inl (g5 hlt).1
        · exact Or.inr (by omega)
      · intro hlt; exact (g5 hlt).2

/-- discards of the loop in blocks -/
theorem loop_spec {E nr : Nat} {bitmaps : List (List Bool)} (hE : 0 < E) (hlen : ∀ b ∈ bitmaps, b.length = E)
    (hnr : nr ≤ bitmaps.length * E) (bs : Nat) (fuel : Nat) : ∀ it, (OK E nr bitmaps it ∨ it.cur = nr) →
    nr - it.cur < fuel →
    ∃ l : List (Nat × Nat), loop E nr bs bitmaps fuel it.cur it = some (l.map fun r => (r.1 * bs, r.2 * bs)) ∧
      Exactly (fun i => it.cur ≤ i ∧ i < nr ∧ used E bitmaps i = false) l := by
  induction fuel with
  | zero => intro it _ hf; omega
  | succ fuel ih =>
    intro it hok hf
    obtain ⟨it', r, e1, hr⟩ := next_spec hE hlen hnr it hok
    unfold loop
    rw [e1]
    rcases hr with ⟨rfl, hfree⟩ | ⟨s, rfl, h1, h2, h3, h4, h5, h6, h7⟩
    · simp only
      by_cases hlt : nr > it.cur
      · refine ⟨[(it.cur, nr - it.cur)], by simp [hlt], ?_, List.pairwise_singleton _ _, ?_⟩
        · intro r hr; rw [List.mem_singleton] at hr; subst hr; simp only; omega
        · intro i
          constructor
          · rintro ⟨a, b, -⟩; exact ⟨_, List.mem_singleton.mpr rfl, by simp only; omega⟩
          · rintro ⟨r, hr, a⟩
            rw [List.mem_singleton] at hr; subst hr; simp only at a
            exact ⟨by omega, by omega, hfree i (by omega) (by omega)⟩
      · refine ⟨[], by simp [hlt], by simp, List.Pairwise.nil, ?_⟩
        intro i
        constructor
        · rintro ⟨a, b, -⟩; omega
        · rintro ⟨r, hr, -⟩; cases hr
    · obtain ⟨l, g1, g2⟩ := ih it' h6 (by omega)
      simp only [g1, Option.map_some]
      by_cases hlt : s > it.cur
      · refine ⟨(it.cur, s - it.cur) :: l, by simp [hlt], ?_, ?_, ?_⟩
        · intro r hr
          rcases List.mem_cons.mp hr with rfl | hr
          · simp only; omega
          · exact g2.pos r hr
        · refine List.pairwise_cons.mpr ⟨?_, g2.sep⟩
          intro r hr
          have hp := g2.pos r hr
          have := (g2.cover r.1).mpr ⟨r, hr, by omega, by omega⟩
          simp only
          omega
        · intro i
          constructor
          · rintro ⟨a, b, c⟩
            by_cases hi : i < s
            · exact ⟨_, List.mem_cons_self, by simp only; omega⟩
            · have : it'.cur ≤ i := by
                apply Classical.byContradiction
                intro hlt'
                rw [h5 i (by omega) (by omega)] at c; cases c
              obtain ⟨r, hr, hh⟩ := (g2.cover i).mp ⟨this, b, c⟩
              exact ⟨r, by simp [hr], hh⟩
          · rintro ⟨r, hr, a⟩
            rcases List.mem_cons.mp hr with rfl | hr
            · simp only at a
              exact ⟨by omega, by omega, h4 i (by omega) (by omega)⟩
            · have := (g2.cover i).mpr ⟨r, hr, a⟩
              exact ⟨by omega, this.2.1, this.2.2⟩
      · refine ⟨l, by simp [hlt], g2.pos, g2.sep, ?_⟩
        intro i
        rw [← g2.cover]
        constructor
        · rintro ⟨a, b, c⟩
          refine ⟨?_, b, c⟩
          apply Classical.byContradiction
          intro hlt'
          rw [h5 i (by omega) (by omega)] at c; cases c
        · rintro ⟨a, b, c⟩; exact ⟨by omega, b, c⟩

/-- C26: with enough bitmaps the discards, in blocks, are exactly the maximal ranges of unused blocks. -/
theorem trim_exact {E nr : Nat} {bitmaps : List (List Bool)} (hE : 0 < E) (hlen : ∀ b ∈ bitmaps, b.length = E)
    (hne : bitmaps ≠ []) (hnr : nr ≤ bitmaps.length * E) (bs : Nat) :
    ∃ l : List (Nat × Nat), trim E nr bs bitmaps = some (some (l.map fun r => (r.1 * bs, r.2 * bs))) ∧
      Exactly (fun i => i < nr ∧ used E bitmaps i = false) l := by
  cases hbm : bitmaps with
  | nil => exact absurd hbm hne
  | cons b bms =>
    rw [← hbm]
    have hok : OK E nr bitmaps ⟨0, b, 0⟩ := ⟨by simp [hbm], by simp, by simp⟩
    obtain ⟨l, h1, h2⟩ := loop_spec hE hlen hnr bs (nr + 1) ⟨0, b, 0⟩ (Or.inl hok) (by simp only; omega)
    refine ⟨l, ?_, h2.congr (by intro i; simp)⟩
    unfold trim
    rw [hbm]
    simp only
    rw [← hbm, if_neg (by omega), h1]
    rfl

/-- C26 in bytes: a byte of the data device is discarded exactly if it lies in an unused block. -/
theorem trim_bytes {E nr bs : Nat} {bitmaps : List (List Bool)} (hE : 0 < E) (hbs : 0 < bs)
    (hlen : ∀ b ∈ bitmaps, b.length = E) (hne : bitmaps ≠ []) (hnr : nr ≤ bitmaps.length * E) :
    ∃ ds, trim E nr bs bitmaps = some (some ds) ∧
      ∀ x, (∃ d ∈ ds, d.1 ≤ x ∧ x < d.1 + d.2) ↔ x / bs < nr ∧ used E bitmaps (x / bs) = false := by
  obtain ⟨l, h1, h2⟩ := trim_exact hE hlen hne hnr bs
  refine ⟨_, h1, fun x => ?_⟩
  rw [h2.cover]
  constructor
  · rintro ⟨d, hd, h3, h4⟩
    obtain ⟨r, hr, rfl⟩ := List.mem_map.mp hd
    refine ⟨r, hr, (Nat.le_div_iff_mul_le hbs).mpr h3, (Nat.div_lt_iff_lt_mul hbs).mpr ?_⟩
    rw [Nat.add_mul]; exact h4
  · rintro ⟨r, hr, h3, h4⟩
    refine ⟨_, List.mem_map.mpr ⟨r, hr, rfl⟩, (Nat.le_div_iff_mul_le hbs).mp h3, ?_⟩
    have := (Nat.div_lt_iff_lt_mul hbs).mp h4
    rw [Nat.add_mul] at this
    exact this

/-- too few bitmaps are refused before anything is discarded -/
theorem trim_refuses (E nr bs : Nat) (bitmaps : List (List Bool)) (h : bitmaps = [] ∨ bitmaps.length * E < nr) :
    trim E nr bs bitmaps = some none := by
  unfold trim
  cases bitmaps with
  | nil => rfl
  | cons b bms =>
    rcases h with h | h
    · cases h
    · simp only
      rw [if_pos (by omega)]

example : trim 4 10 100 [[true, false, false, false], [false, false, true, true], [true, false, false, false]] =
    some (some [(100, 500), (900, 100)]) := by decide

end Verif.Trim
