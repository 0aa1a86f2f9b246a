import Verif.Model.Shrink
import Verif.Prop.ThinDump

/-!
# C29: `thin_shrink`
-/

namespace Verif.Shrink

open Verif.Dump (Run)
open Verif.Rst (Ev SbIR Val)
open Verif.BT (Blk)

/-! ## Ranges and their blocks -/

/-- the blocks of a range -/
def cells (r : R) : List Nat := List.range' r.1 (r.2 - r.1)

/-- none empty, in order, without overlap, from `lo` on -/
def Good : Nat → List R → Prop
  | _, [] => True
  | lo, r :: l => lo ≤ r.1 ∧ r.1 < r.2 ∧ Good r.2 l

theorem Good.mono {lo lo' : Nat} : ∀ {l : List R}, Good lo l → lo' ≤ lo → Good lo' l
  | [], _, _ => trivial
  | _ :: _, h, h' => ⟨Nat.le_trans h' h.1, h.2⟩

/-- in one of the ranges -/
def In (l : List R) (b : Nat) : Prop := ∃ r ∈ l, r.1 ≤ b ∧ b < r.2

theorem In_nil (b : Nat) : ¬ In [] b := by rintro ⟨r, h, _⟩; cases h

theorem In_cons (r : R) (l : List R) (b : Nat) : In (r :: l) b ↔ (r.1 ≤ b ∧ b < r.2) ∨ In l b := by
  constructor
  · rintro ⟨q, hq, h⟩
    rcases List.mem_cons.mp hq with rfl | hq
    · exact Or.inl h
    · exact Or.inr ⟨q, hq, h⟩
  · rintro (h | ⟨q, hq, h⟩)
    · exact ⟨r, by simp, h⟩
    · exact ⟨q, List.mem_cons_of_mem _ hq, h⟩

theorem mem_cells {r : R} {b : Nat} : b ∈ cells r ↔ r.1 ≤ b ∧ b < r.2 := by
  simp only [cells, List.mem_range'_1]
  omega

theorem mem_all {l : List R} {b : Nat} : b ∈ l.flatMap cells ↔ In l b := by
  simp only [List.mem_flatMap, mem_cells, In]

theorem In.lower : ∀ {l : List R} {lo b : Nat}, Good lo l → In l b → lo ≤ b := by
  intro l
  induction l with
  | nil => intro lo b _ h; exact absurd h (In_nil b)
  | cons r l ih =>
    intro lo b h hb
    obtain ⟨h1, h2, h3⟩ := h
    rcases (In_cons r l b).mp hb with h | h
    · omega
    · have := ih h3 h; omega

theorem all_sorted : ∀ {l : List R} {lo : Nat}, Good lo l → (l.flatMap cells).Pairwise (· < ·) := by
  intro l
  induction l with
  | nil => intro _ _; exact List.Pairwise.nil
  | cons r l ih =>
    intro lo h
    rw [List.flatMap_cons, List.pairwise_append]
    refine ⟨List.pairwise_lt_range', ih h.2.2, ?_⟩
    intro a ha b hb
    have h1 := mem_cells.mp ha
    have h2 := (mem_all.mp hb).lower h.2.2
    omega

/-- in order, without overlap and without touching, from `lo` on -/
def Apart : Nat → List R → Prop
  | _, [] => True
  | lo, r :: l => lo ≤ r.1 ∧ r.1 < r.2 ∧ Apart (r.2 + 1) l

theorem Apart.good : ∀ {l : List R} {lo : Nat}, Apart lo l → Good lo l := by
  intro l
  induction l with
  | nil => intro _ _; trivial
  | cons r l ih => intro lo h; exact ⟨h.1, h.2.1, (ih h.2.2).mono (by omega)⟩

theorem Apart.mono {lo lo' : Nat} : ∀ {l : List R}, Apart lo l → lo' ≤ lo → Apart lo' l
  | [], _, _ => trivial
  | _ :: _, h, h' => ⟨Nat.le_trans h' h.1, h.2⟩

theorem insertRange_spec : ∀ (l : List R) (s e lo : Nat), s < e → lo ≤ s → Apart lo l →
    Apart lo (insertRange s e l) ∧ ∀ b, In (insertRange s e l) b ↔ (s ≤ b ∧ b < e) ∨ In l b := by
  intro l
  induction l with
  | nil =>
    intro s e lo h hl _
    exact ⟨⟨hl, h, trivial⟩, fun b => by simp only [insertRange, In_cons]⟩
  | cons r l ih =>
    obtain ⟨a, c⟩ := r
    intro s e lo h hl ha
    obtain ⟨h1, h2, h3⟩ := ha
    simp only at h1 h2 h3
    unfold insertRange
    by_cases c1 : c < s
    · rw [if_pos c1]
      obtain ⟨i1, i2⟩ := ih s e (c + 1) h (by omega) h3
      refine ⟨⟨h1, h2, i1⟩, ?_⟩
      intro b
      rw [In_cons, In_cons, i2]
      constructor <;> rintro (h | h | h) <;> simp [h]
    · rw [if_neg c1]
      by_cases c2 : e < a
      · rw [if_pos c2]
        exact ⟨⟨hl, h, by simp only; omega, h2, h3⟩, fun b => In_cons _ _ _⟩
      · rw [if_neg c2]
        obtain ⟨i1, i2⟩ := ih (min s a) (max e c) lo (by omega) (by omega) (h3.mono (by omega))
        refine ⟨i1, ?_⟩
        intro b
        rw [i2, In_cons]
        simp only
        by_cases hb : In l b
        · simp [hb]
        · simp only [hb, or_false]; omega

theorem gaps_spec : ∀ (l : List R) (lo hi : Nat), Good lo l → (∀ r ∈ l, r.2 ≤ hi) →
    Good lo (gaps lo hi l) ∧ ∀ b, In (gaps lo hi l) b ↔ lo ≤ b ∧ b < hi ∧ ¬ In l b := by
  intro l
  induction l with
  | nil =>
    intro lo hi _ _
    unfold gaps
    by_cases h : lo < hi
    · rw [if_pos h]
      refine ⟨⟨Nat.le_refl _, h, trivial⟩, fun b => ?_⟩
      simp [In_cons, In_nil]
    · rw [if_neg h]
      refine ⟨trivial, fun b => ?_⟩
      simp only [In_nil, false_iff]
      omega
  | cons r l ih =>
    obtain ⟨a, c⟩ := r
    intro lo hi hg hh
    obtain ⟨h1, h2, h3⟩ := hg
    simp only at h1 h2 h3
    have hc := hh (a, c) (by simp)
    simp only at hc
    have e1 : max lo c = c := by omega
    obtain ⟨i1, i2⟩ := ih c hi h3 (fun r hr => hh r (List.mem_cons_of_mem _ hr))
    have hl : ∀ b, In l b → c ≤ b := fun b hb => hb.lower h3
    unfold gaps
    rw [e1]
    by_cases h : lo < a
    · rw [if_pos h]
      have e2 : min a hi = a := by omega
      rw [e2]
      refine ⟨⟨Nat.le_refl _, h, i1.mono (by simp only; omega)⟩, fun b => ?_⟩
      rw [List.singleton_append, In_cons, i2, In_cons]
      simp only
      constructor
      · rintro (h' | ⟨h4, h5, h6⟩)
        · refine ⟨h'.1, by omega, ?_⟩
          rintro (h'' | h'')
          · omega
          · have := hl b h''; omega
        · exact ⟨by omega, h5, by rintro (h | h); omega; exact h6 h⟩
      · rintro ⟨h4, h5, h6⟩
        by_cases hb : b < a
        · exact Or.inl ⟨h4, hb⟩
        · exact Or.inr ⟨by have := fun h => h6 (Or.inl h); omega, h5, fun h => h6 (Or.inr h)⟩
    · rw [if_neg h, List.nil_append]
      refine ⟨i1.mono (by omega), fun b => ?_⟩
      rw [i2, In_cons]
      simp only
      constructor
      · rintro ⟨h4, h5, h6⟩
        exact ⟨by omega, h5, by rintro (h | h); omega; exact h6 h⟩
      · rintro ⟨h4, h5, h6⟩
        exact ⟨by have := fun h => h6 (Or.inl h); omega, h5, fun h => h6 (Or.inr h)⟩

/-! ## Pairing the blocks to move with the free ones -/

/-- the blocks of a list of remaps are in order -/
def GoodM (lo : Nat) (l : List (R × Nat)) : Prop := Good lo (l.map (·.1))

theorem range'_split (s n m : Nat) : List.range' s (n + m) = List.range' s n ++ List.range' (s + n) m := by
  rw [← List.range'_append]; simp

theorem zip_range' : ∀ (n s t : Nat), (List.range' s n).zip (List.range' t n) = (List.range n).map fun i => (s + i, t + i) := by
  intro n s t
  rw [List.range'_eq_map_range, List.range'_eq_map_range, List.zip_map', ]

theorem copyOps_cons (m : R × Nat) (l : List (R × Nat)) : copyOps (m :: l) =
    (List.range' m.1.1 (m.1.2 - m.1.1)).zip (List.range' m.2 (m.1.2 - m.1.1)) ++ copyOps l := by
  rw [zip_range']; rfl

/-- The plan: the blocks to move, in order, go to the free blocks, in order; it fails exactly if there are not enough of them. -/
theorem buildLoop_spec : ∀ (fuel : Nat) (rs fs : List R) (lo lo' : Nat), rs.length + fs.length ≤ fuel → Good lo rs → Good lo' fs →
    match buildLoop fuel rs fs with
    | none => (fs.flatMap cells).length < (rs.flatMap cells).length
    | some l => (rs.flatMap cells).length ≤ (fs.flatMap cells).length ∧ copyOps l = (rs.flatMap cells).zip (fs.flatMap cells) ∧ GoodM lo l ∧
        l.flatMap (fun m => cells m.1) = rs.flatMap cells := by
  intro fuel
  induction fuel with
  | zero =>
    intro rs fs lo lo' hf hr _
    cases rs with
    | nil => exact ⟨by simp, rfl, trivial, rfl⟩
    | cons r rs => simp only [List.length_cons] at hf; omega
  | succ fuel ih =>
    intro rs fs lo lo' hf hr hfs
    cases rs with
    | nil =>
      show _ ∧ _
      exact ⟨by simp, rfl, trivial, rfl⟩
    | cons r rs =>
      cases fs with
      | nil =>
        show _ < _
        obtain ⟨-, h2, -⟩ := hr
        simp only [List.flatMap_nil, List.length_nil, List.flatMap_cons, List.length_append, cells, List.length_range']
        omega
      | cons f fs =>
        obtain ⟨h1, h2, h3⟩ := hr
        obtain ⟨g1, g2, g3⟩ := hfs
        simp only [List.length_cons] at hf
        have lr : (cells r).length = r.2 - r.1 := by simp [cells]
        have lf : (cells f).length = f.2 - f.1 := by simp [cells]
        unfold buildLoop
        rw [if_neg (by omega), if_neg (by omega)]
        by_cases c1 : r.2 - r.1 < f.2 - f.1
        · rw [if_pos c1]
          have hc : cells f = List.range' f.1 (r.2 - r.1) ++ cells (f.1 + (r.2 - r.1), f.2) := by
            simp only [cells]
            rw [← range'_split]
            congr 1
            omega
          have i := ih rs ((f.1 + (r.2 - r.1), f.2) :: fs) r.2 lo' (by simp only [List.length_cons]; omega) h3 ⟨by simp only; omega, by simp only; omega, g3⟩
          cases hb : buildLoop fuel rs ((f.1 + (r.2 - r.1), f.2) :: fs) with
          | none =>
            rw [hb] at i
            simp only [Option.map_none, List.flatMap_cons, List.length_append] at i ⊢
            rw [hc, List.length_append, List.length_range', lr]
            omega
          | some l =>
            rw [hb] at i
            simp only [Option.map_some, List.flatMap_cons, List.length_append] at i ⊢
            obtain ⟨i1, i2, i3, i4⟩ := i
            refine ⟨by rw [hc, List.length_append, List.length_range', lr]; omega, ?_, ⟨h1, h2, i3⟩, by rw [i4]⟩
            rw [copyOps_cons, i2, hc, List.append_assoc, List.zip_append (by simp [cells])]
            rfl
        · rw [if_neg c1]
          by_cases c2 : r.2 - r.1 = f.2 - f.1
          · rw [if_pos c2]
            have i := ih rs fs r.2 f.2 (by omega) h3 g3
            cases hb : buildLoop fuel rs fs with
            | none =>
              rw [hb] at i
              simp only [Option.map_none, List.flatMap_cons, List.length_append] at i ⊢
              omega
            | some l =>
              rw [hb] at i
              simp only [Option.map_some, List.flatMap_cons, List.length_append] at i ⊢
              obtain ⟨i1, i2, i3, i4⟩ := i
              refine ⟨by omega, ?_, ⟨h1, h2, i3⟩, by rw [i4]⟩
              rw [copyOps_cons, i2, List.zip_append (by omega), c2]
              simp only [cells, c2]
          · rw [if_neg c2]
            have hc : cells r = List.range' r.1 (f.2 - f.1) ++ cells (r.1 + (f.2 - f.1), r.2) := by
              simp only [cells]
              rw [← range'_split]
              congr 1
              omega
            have i := ih ((r.1 + (f.2 - f.1), r.2) :: rs) fs (r.1 + (f.2 - f.1)) f.2 (by simp only [List.length_cons]; omega)
              ⟨Nat.le_refl _, by simp only; omega, h3⟩ g3
            cases hb : buildLoop fuel ((r.1 + (f.2 - f.1), r.2) :: rs) fs with
            | none =>
              rw [hb] at i
              simp only [Option.map_none, List.flatMap_cons, List.length_append] at i ⊢
              rw [hc, List.length_append, List.length_range', lf]
              omega
            | some l =>
              rw [hb] at i
              simp only [Option.map_some, List.flatMap_cons, List.length_append] at i ⊢
              obtain ⟨i1, i2, i3, i4⟩ := i
              have e : r.1 + (f.2 - f.1) - r.1 = f.2 - f.1 := by omega
              refine ⟨by rw [hc, List.length_append, List.length_range', lf]; omega, ?_, ⟨h1, by simp only; omega, i3⟩, ?_⟩
              · rw [copyOps_cons, i2, hc, List.append_assoc]
                simp only [e]
                rw [List.zip_append (by simp [cells])]
                rfl
              · rw [i4, hc, List.append_assoc]
                simp only [cells, e]

/-! ## The remapping as a function -/

/-- where a block goes -/
def dest : List (R × Nat) → Nat → Nat
  | [], b => b
  | (r, to) :: l, b => if r.1 ≤ b ∧ b < r.2 then to + (b - r.1) else dest l b

theorem dest_cons (r : R) (to : Nat) (l : List (R × Nat)) (b : Nat) :
    dest ((r, to) :: l) b = if r.1 ≤ b ∧ b < r.2 then to + (b - r.1) else dest l b := rfl

theorem dest_out : ∀ {l : List (R × Nat)} {b : Nat}, ¬ In (l.map (·.1)) b → dest l b = b := by
  intro l
  induction l with
  | nil => intro b _; rfl
  | cons m l ih =>
    obtain ⟨r, to⟩ := m
    intro b h
    rw [List.map_cons, In_cons, not_or] at h
    unfold dest
    rw [if_neg h.1]
    exact ih h.2

theorem dest_ops : ∀ {l : List (R × Nat)} {lo : Nat}, GoodM lo l → ∀ a b, (a, b) ∈ copyOps l ↔ In (l.map (·.1)) a ∧ b = dest l a := by
  intro l
  induction l with
  | nil => intro lo _ a b; simp [copyOps, In_nil]
  | cons m l ih =>
    obtain ⟨r, to⟩ := m
    intro lo h a b
    obtain ⟨h1, h2, h3⟩ := h
    have i := ih h3 a b
    rw [show copyOps ((r, to) :: l) = (List.range (r.2 - r.1)).map (fun i => (r.1 + i, to + i)) ++ copyOps l from rfl, List.mem_append, i,
      List.map_cons, In_cons]
    simp only [List.mem_map, List.mem_range, Prod.mk.injEq]
    rw [dest_cons]
    by_cases hr : r.1 ≤ a ∧ a < r.2
    · rw [if_pos hr]
      have hn : ¬ In (l.map (·.1)) a := fun hi => by have := hi.lower h3; simp only at this; omega
      simp only [hn, false_and, or_false, hr, and_self, true_and]
      constructor
      · rintro ⟨i, hi, e1, e2⟩; omega
      · intro e; exact ⟨a - r.1, by omega, by omega, by omega⟩
    · rw [if_neg hr]
      have : ¬ ∃ i, i < r.2 - r.1 ∧ r.1 + i = a ∧ to + i = b := by rintro ⟨i, hi, e1, e2⟩; omega
      simp only [this, false_or, hr]

/-! ## Remapping a range -/

theorem goodM_mem : ∀ {l : List (R × Nat)} {lo : Nat}, GoodM lo l → ∀ m ∈ l, lo ≤ m.1.1 ∧ m.1.1 < m.1.2 := by
  intro l
  induction l with
  | nil => intro _ _ m hm; cases hm
  | cons x l ih =>
    intro lo h m hm
    obtain ⟨h1, h2, h3⟩ := h
    rcases List.mem_cons.mp hm with rfl | hm
    · exact ⟨h1, h2⟩
    · have := ih h3 m hm; omega

theorem goodM_append : ∀ {a b : List (R × Nat)} {lo : Nat}, GoodM lo (a ++ b) → (∃ lo', lo ≤ lo' ∧ GoodM lo' b ∧ ∀ m ∈ a, m.1.2 ≤ lo') := by
  intro a
  induction a with
  | nil => intro b lo h; exact ⟨lo, Nat.le_refl _, h, by simp⟩
  | cons x a ih =>
    intro b lo h
    obtain ⟨h1, h2, h3⟩ := h
    obtain ⟨lo', i1, i2, i3⟩ := ih h3
    simp only at h1 h2 i1
    refine ⟨lo', by omega, i2, ?_⟩
    intro m hm
    rcases List.mem_cons.mp hm with rfl | hm
    · exact i1
    · exact i3 m hm

theorem remapLoop_cons (r : R) (frm : R) (to : Nat) (l : List (R × Nat)) : remapLoop r ((frm, to) :: l) =
    if r.1 < frm.1 then
      (r.1, r.1 + min (r.2 - r.1) (frm.1 - r.1)) :: (if r.1 + min (r.2 - r.1) (frm.1 - r.1) = r.2 then []
        else remapHere (r.1 + min (r.2 - r.1) (frm.1 - r.1), r.2) frm to fun q => remapLoop q l)
    else remapHere r frm to fun q => remapLoop q l := rfl

/-- the blocks of a list of ranges are those of `r`, each at its destination -/
def Maps (f : Nat → Nat) (r : R) (out : List R) : Prop := out.flatMap cells = (cells r).map f ∧ ∀ q ∈ out, q.1 < q.2

theorem cells_split (r : R) (m : Nat) (h1 : r.1 ≤ m) (h2 : m ≤ r.2) : cells r = cells (r.1, m) ++ cells (m, r.2) := by
  simp only [cells]
  have e : r.2 - r.1 = (m - r.1) + (r.2 - m) := by omega
  rw [e, range'_split]
  congr 2
  omega

theorem Maps.cons {f : Nat → Nat} {r q : R} {m : Nat} {out : List R} (h1 : r.1 ≤ m) (h2 : m ≤ r.2) (hq : cells q = (cells (r.1, m)).map f) (hn : q.1 < q.2)
    (h : Maps f (m, r.2) out) : Maps f r (q :: out) := by
  refine ⟨?_, ?_⟩
  · rw [List.flatMap_cons, hq, h.1, cells_split r m h1 h2, List.map_append]
  · intro x hx
    rcases List.mem_cons.mp hx with rfl | hx
    · exact hn
    · exact h.2 x hx

theorem Maps.last {f : Nat → Nat} {r q : R} (hq : cells q = (cells r).map f) (hn : q.1 < q.2) : Maps f r [q] :=
  ⟨by rw [List.flatMap_cons, hq]; simp, by intro x hx; rw [List.mem_singleton.mp hx]; exact hn⟩

theorem cells_shift (r : R) (to : Nat) (f : Nat → Nat) (n a : Nat) (h : ∀ b, r.1 ≤ b → b < r.1 + n → f b = to + (b - a)) (ha : a ≤ r.1) :
    cells (to + (r.1 - a), to + (r.1 - a) + n) = (cells (r.1, r.1 + n)).map f := by
  simp only [cells]
  rw [show to + (r.1 - a) + n - (to + (r.1 - a)) = n by omega, show r.1 + n - r.1 = n by omega, List.range'_eq_map_range, List.range'_eq_map_range,
    List.map_map]
  refine List.map_congr_left ?_
  intro i hi
  have := List.mem_range.mp hi
  simp only [Function.comp]
  rw [h _ (by omega) (by omega)]
  omega

theorem cells_same (r : R) (f : Nat → Nat) (h : ∀ b, r.1 ≤ b → b < r.2 → f b = b) : cells r = (cells r).map f := by
  conv => lhs; rw [← List.map_id (cells r)]
  refine List.map_congr_left ?_
  intro b hb
  have := mem_cells.mp hb
  rw [h b this.1 this.2]; rfl

theorem remapLoop_spec : ∀ (l : List (R × Nat)) (lo : Nat) (r : R), GoodM lo l → r.1 < r.2 → (∀ m ∈ l.head?, r.1 < m.1.2) →
    Maps (dest l) r (remapLoop r l) := by
  intro l
  induction l with
  | nil =>
    intro lo r _ hr _
    exact Maps.last (cells_same r _ (fun b _ _ => rfl)) hr
  | cons m l ih =>
    obtain ⟨frm, to⟩ := m
    intro lo r hg hr hh
    obtain ⟨g1, g2, g3⟩ := hg
    simp only at g1 g2 g3
    have hh := hh (frm, to) rfl
    simp only at hh
    have hout : ∀ b, frm.2 ≤ b → dest ((frm, to) :: l) b = dest l b := by
      intro b hb; rw [dest_cons, if_neg (by omega)]
    -- from inside the range on
    have here : ∀ q : R, frm.1 ≤ q.1 → q.1 < q.2 → q.1 < frm.2 → Maps (dest ((frm, to) :: l)) q (remapHere q frm to fun q => remapLoop q l) := by
      intro q h1 h2 h3
      unfold remapHere
      simp only
      generalize hn : min (q.2 - q.1) (frm.2 - q.1) = n
      have hsh := cells_shift q to (dest ((frm, to) :: l)) n frm.1 (by
        intro b hb1 hb2
        rw [dest_cons, if_pos (by omega)]) h1
      by_cases c : q.1 + n = q.2
      · rw [if_pos c]
        refine Maps.last ?_ (by simp only; omega)
        rw [hsh, c]
      · rw [if_neg c]
        refine Maps.cons (m := q.1 + n) (by omega) (by omega) hsh (by simp only; omega) ?_
        have e : q.1 + n = frm.2 := by omega
        rw [e]
        have i := ih frm.2 (frm.2, q.2) g3 (by simp only; omega) (by
          intro m hm
          have hm : m ∈ l := List.mem_of_mem_head? hm
          have := goodM_mem (l := l) g3 m hm
          simp only at *
          omega)
        refine ⟨?_, i.2⟩
        rw [i.1]
        refine List.map_congr_left ?_
        intro b hb
        have := mem_cells.mp hb
        simp only at this
        rw [hout b this.1]
    rw [remapLoop_cons]
    by_cases c1 : r.1 < frm.1
    · rw [if_pos c1]
      generalize hn : min (r.2 - r.1) (frm.1 - r.1) = n
      have hlow : ∀ b, b < frm.1 → dest ((frm, to) :: l) b = b := by
        intro b hb
        rw [dest_out]
        rw [List.map_cons, In_cons]
        rintro (h | h)
        · simp only at h; omega
        · have := h.lower g3; omega
      have hs := cells_same (r.1, r.1 + n) (dest ((frm, to) :: l)) (fun b _ hb => hlow b (by simp only at hb; omega))
      by_cases c2 : r.1 + n = r.2
      · rw [if_pos c2]
        rw [c2] at hs ⊢
        exact Maps.last hs hr
      · rw [if_neg c2]
        exact Maps.cons (m := r.1 + n) (by omega) (by omega) hs (by simp only; omega) (here (r.1 + n, r.2) (by simp only; omega) (by simp only; omega) (by simp only; omega))
    · rw [if_neg c1]
      exact here r (by omega) hr hh

theorem bsearch_goodM : ∀ (l : List (R × Nat)) (lo key : Nat), GoodM lo l →
    ∃ pre post, l = pre ++ post ∧ (BT.bsearch (l.map fun m => m.1.1) key).2 = pre.length ∧ (∀ m ∈ pre, m.1.1 < key) ∧
      ((BT.bsearch (l.map fun m => m.1.1) key).1 = true → ∃ m post', post = m :: post' ∧ m.1.1 = key) ∧
      ((BT.bsearch (l.map fun m => m.1.1) key).1 = false → ∀ m ∈ post, key < m.1.1) := by
  intro l
  induction l with
  | nil => intro lo key _; exact ⟨[], [], rfl, rfl, by simp, by simp [BT.bsearch]⟩
  | cons x l ih =>
    intro lo key h
    obtain ⟨h1, h2, h3⟩ := h
    simp only at h1 h2 h3
    rw [List.map_cons]
    simp only [BT.bsearch]
    by_cases e : key = x.1.1
    · rw [if_pos e]
      exact ⟨[], x :: l, rfl, rfl, by simp, fun _ => ⟨x, l, rfl, e.symm⟩, fun h => by cases h⟩
    · rw [if_neg e]
      by_cases e2 : key < x.1.1
      · rw [if_pos e2]
        refine ⟨[], x :: l, rfl, rfl, by simp, (fun h => by cases h), ?_⟩
        intro _ m hm
        rcases List.mem_cons.mp hm with rfl | hm
        · exact e2
        · have := goodM_mem (l := l) h3 m hm; omega
      · rw [if_neg e2]
        obtain ⟨pre, post, i1, i2, i3, i4⟩ := ih x.1.2 key h3
        refine ⟨x :: pre, post, by rw [i1]; rfl, by simp only [i2, List.length_cons], ?_, i4⟩
        intro m hm
        rcases List.mem_cons.mp hm with rfl | hm
        · omega
        · exact i3 m hm

theorem findFirst_spec (l : List (R × Nat)) (lo : Nat) (r : R) (hg : GoodM lo l) (hr : r.1 < r.2) :
    match findFirst r l with
    | none => ∀ m ∈ l, ∀ b, r.1 ≤ b → b < r.2 → ¬ (m.1.1 ≤ b ∧ b < m.1.2)
    | some i => ∃ pre m post, l = pre ++ m :: post ∧ i = pre.length ∧ r.1 < m.1.2 ∧ ∀ m ∈ pre, m.1.2 ≤ r.1 := by
  unfold findFirst
  by_cases hl : l = []
  · rw [if_pos hl]; subst hl; simp
  rw [if_neg hl]
  simp only
  obtain ⟨pre, post, e1, e2, e3, e4⟩ := bsearch_goodM l lo r.1 hg
  rw [e2]
  -- the ranges before a given one
  have hpre : ∀ (a : List (R × Nat)) (m : R × Nat) (b : List (R × Nat)), l = a ++ m :: b → ∀ q ∈ a, q.1.2 ≤ m.1.1 := by
    intro a m b e q hq
    obtain ⟨lo', _, g2, g3⟩ := goodM_append (a := a) (b := m :: b) (by rw [← e]; exact hg)
    have := g3 q hq
    have := g2.1
    simp only at this
    omega
  by_cases hb : (BT.bsearch (l.map fun m => m.1.1) r.1).1 = true
  · rw [if_pos hb]
    obtain ⟨m, post', p1, p2⟩ := e4.1 hb
    subst p1
    have hm := (goodM_mem hg m (by rw [e1]; simp)).2
    refine ⟨pre, m, post', e1, rfl, by omega, ?_⟩
    intro q hq
    have := hpre pre m post' e1 q hq
    omega
  · rw [if_neg hb]
    replace e4 := e4.2 (by simpa using hb)
    -- the one found, if it is before
    have hlast : ∀ (a : List (R × Nat)) (x : R × Nat), pre = a ++ [x] → l[pre.length - 1]? = some x ∧ (overlaps r x.1 (pre.length - 1) =
        if r.1 ≥ x.1.2 then none else some (pre.length - 1)) ∧ (∀ q ∈ a, q.1.2 ≤ r.1) ∧ a.length = pre.length - 1 := by
      intro a x e
      have h1 := e3 x (by rw [e]; simp)
      refine ⟨?_, ?_, ?_, ?_⟩
      · rw [e1, e]; simp
      · unfold overlaps
        by_cases c : r.1 ≥ x.1.2
        · rw [if_pos c, if_pos c]
        · rw [if_neg c, if_neg c, if_neg (by omega)]
      · intro q hq
        have := hpre a x post (by rw [e1, e]; simp) q hq
        omega
      · rw [e]; simp
    have hnone : ∀ m ∈ pre, m.1.2 ≤ r.1 → ∀ b, r.1 ≤ b → b < r.2 → ¬ (m.1.1 ≤ b ∧ b < m.1.2) := by
      intro m _ h b hb1 hb2; omega
    by_cases h0 : pre.length = 0
    · rw [if_pos h0]
      have h0 : pre = [] := List.length_eq_zero_iff.mp h0
      subst h0
      rw [List.nil_append] at e1
      subst e1
      cases l with
      | nil => exact absurd rfl hl
      | cons x l =>
        simp only [List.getElem?_cons_zero, Option.bind_some]
        have hx := e4 x (by simp)
        obtain ⟨g1, g2, g3⟩ := hg
        unfold overlaps
        by_cases c1 : r.1 ≥ x.1.2
        · simp only at g2; omega
        · rw [if_neg c1]
          by_cases c2 : x.1.1 ≥ r.2
          · rw [if_pos c2]
            intro m hm b hb1 hb2
            rcases List.mem_cons.mp hm with rfl | hm
            · omega
            · have := (goodM_mem (l := l) g3 m hm).1
              simp only at g2 this
              omega
          · rw [if_neg c2]
            exact ⟨[], x, l, rfl, rfl, by omega, by simp⟩
    · rw [if_neg h0]
      obtain ⟨a, x, e⟩ : ∃ a x, pre = a ++ [x] := by
        refine ⟨pre.dropLast, pre.getLast (by intro h; rw [h] at h0; exact h0 rfl), ?_⟩
        rw [List.dropLast_concat_getLast]
      obtain ⟨f1, f2, f3, f4⟩ := hlast a x e
      rw [f1]
      simp only [Option.bind_some]
      rw [f2]
      by_cases c : r.1 ≥ x.1.2
      · rw [if_pos c]
        have hall : ∀ m ∈ pre, m.1.2 ≤ r.1 := by
          intro m hm
          rw [e] at hm
          rcases List.mem_append.mp hm with hm | hm
          · exact f3 m hm
          · rw [List.mem_singleton.mp hm]; exact c
        by_cases hp : pre.length = l.length
        · rw [if_pos hp]
          have hp : post = [] := by
            rw [e1, List.length_append] at hp
            exact List.length_eq_zero_iff.mp (by omega)
          subst hp
          intro m hm b
          rw [e1, List.append_nil] at hm
          exact hnone m hm (hall m hm) b
        · rw [if_neg hp]
          cases post with
          | nil => rw [e1, List.append_nil] at hp; exact absurd rfl hp
          | cons y post =>
            have hy : l[pre.length]? = some y := by rw [e1]; simp
            rw [hy]
            simp only [Option.bind_some, Option.none_or]
            have hy1 := e4 y (by simp)
            have hy2 := (goodM_mem hg y (by rw [e1]; simp)).2
            unfold overlaps
            rw [if_neg (by omega)]
            by_cases c2 : y.1.1 ≥ r.2
            · rw [if_pos c2]
              intro m hm b hb1 hb2
              rw [e1] at hm
              rcases List.mem_append.mp hm with hm | hm
              · exact hnone m hm (hall m hm) b hb1 hb2
              · rcases List.mem_cons.mp hm with rfl | hm
                · omega
                · obtain ⟨s1, s2, hs⟩ := List.append_of_mem hm
                  have := hpre (pre ++ y :: s1) m s2 (by rw [e1, hs]; simp) y (by simp)
                  omega
            · rw [if_neg c2]
              exact ⟨pre, y, post, e1, rfl, by omega, hall⟩
      · rw [if_neg c]
        have hres : ∃ pre' m post', l = pre' ++ m :: post' ∧ pre.length - 1 = pre'.length ∧ r.1 < m.1.2 ∧ ∀ m ∈ pre', m.1.2 ≤ r.1 :=
          ⟨a, x, post, by rw [e1, e]; simp, f4.symm, by omega, f3⟩
        by_cases hp : pre.length = l.length
        · rw [if_pos hp]; exact hres
        · rw [if_neg hp]; exact hres

theorem dest_skip {pre l : List (R × Nat)} {b : Nat} (h : ∀ m ∈ pre, m.1.2 ≤ b) : dest (pre ++ l) b = dest l b := by
  induction pre with
  | nil => rfl
  | cons x pre ih =>
    rw [List.cons_append, show x = (x.1, x.2) from rfl, dest_cons, if_neg (by have := h x (by simp); omega)]
    exact ih (fun m hm => h m (by simp [hm]))

/-- The ranges a range is split into hold its blocks at their new places, in order. -/
theorem remap_spec (l : List (R × Nat)) (lo : Nat) (r : R) (hg : GoodM lo l) (hr : r.1 < r.2) : Maps (dest l) r (remap r l) := by
  have h := findFirst_spec l lo r hg hr
  unfold remap
  cases hf : findFirst r l with
  | none =>
    rw [hf] at h
    simp only at h ⊢
    refine Maps.last (cells_same r _ ?_) hr
    intro b hb1 hb2
    refine dest_out ?_
    rintro ⟨q, hq, hb⟩
    obtain ⟨m, hm, rfl⟩ := List.mem_map.mp hq
    exact h m hm b hb1 hb2 hb
  | some i =>
    rw [hf] at h
    obtain ⟨pre, m, post, e1, e2, e3, e4⟩ := h
    simp only
    have hd : l.drop i = m :: post := by rw [e1, e2]; simp
    rw [hd]
    obtain ⟨lo', -, g2, -⟩ := goodM_append (a := pre) (b := m :: post) (by rw [← e1]; exact hg)
    have hs := remapLoop_spec (m :: post) lo' r g2 hr (by intro x hx; rw [List.head?_cons] at hx; rw [← Option.some.inj hx]; exact e3)
    refine ⟨?_, hs.2⟩
    rw [hs.1]
    refine List.map_congr_left ?_
    intro b hb
    have hb := mem_cells.mp hb
    rw [e1, dest_skip]
    intro m hm
    have := e4 m hm
    omega

/-! ## Specification -/

/-- the data block is used by a mapping of the metadata -/
def Used {N : Type} (evs : List (Ev N)) (b : Nat) : Prop := ∃ m, Ev.map m ∈ evs ∧ m.data ≤ b ∧ b < m.data + m.len

/-- A new place for every used block, such that a pool of `nr` data blocks is enough: blocks that fit stay where they are, the others go to blocks that
are not used, and different blocks go to different places. -/
structure Moved (nr : Nat) (used : Nat → Prop) (f : Nat → Nat) : Prop where
  keep : ∀ b, used b → b < nr → f b = b
  fits : ∀ b, used b → f b < nr
  fresh : ∀ b, used b → nr ≤ b → ¬ used (f b)
  inj : ∀ a b, used a → used b → f a = f b → a = b

/-- the same stream, but every mapping refers to the new place of its data block (maybe as several runs, none of them empty) -/
inductive Remapped {N : Type} (f : Nat → Nat) : List (Ev N) → List (Ev N) → Prop
  | nil : Remapped f [] []
  | other (e : Ev N) (l l' : List (Ev N)) : (∀ m, e ≠ .map m) → Remapped f l l' → Remapped f (e :: l) (e :: l')
  | map (m : Run) (ms : List Run) (l l' : List (Ev N)) : ms.flatMap Run.entries = m.entries.map (fun e => { e with data := f e.data }) → (∀ q ∈ ms, 1 ≤ q.len) →
      Remapped f l l' → Remapped f (.map m :: l) (ms.map .map ++ l')

/-! ## The collector -/

theorem used_cons_map {N : Type} (m : Run) (l : List (Ev N)) (b : Nat) : Used (.map m :: l) b ↔ (m.data ≤ b ∧ b < m.data + m.len) ∨ Used l b := by
  constructor
  · rintro ⟨q, hq, h⟩
    rcases List.mem_cons.mp hq with e | hq
    · cases e; exact Or.inl h
    · exact Or.inr ⟨q, hq, h⟩
  · rintro (h | ⟨q, hq, h⟩)
    · exact ⟨m, List.mem_cons_self, h⟩
    · exact ⟨q, List.mem_cons_of_mem _ hq, h⟩

theorem used_cons {N : Type} (e : Ev N) (he : ∀ m, e ≠ .map m) (l : List (Ev N)) (b : Nat) : Used (e :: l) b ↔ Used l b := by
  constructor
  · rintro ⟨q, hq, h⟩
    rcases List.mem_cons.mp hq with h' | hq
    · exact absurd h'.symm (he q)
    · exact ⟨q, hq, h⟩
  · rintro ⟨q, hq, h⟩
    exact ⟨q, List.mem_cons_of_mem _ hq, h⟩

theorem collectAll_spec {N : Type} (nr : Nat) : ∀ (evs : List (Ev N)) (c : Coll), (∀ m, Ev.map m ∈ evs → 1 ≤ m.len) → Apart 0 c.below → Apart nr c.above →
    ∃ c', collectAll nr c evs = some c' ∧ Apart 0 c'.below ∧ Apart nr c'.above ∧ (∀ b, In c'.below b ↔ In c.below b ∨ (Used evs b ∧ b < nr)) ∧
      ∀ b, In c'.above b ↔ In c.above b ∨ (Used evs b ∧ nr ≤ b) := by
  intro evs
  induction evs with
  | nil =>
    intro c _ h1 h2
    have hu : ∀ b, ¬ Used ([] : List (Ev N)) b := by rintro b ⟨m, hm, _⟩; cases hm
    exact ⟨c, rfl, h1, h2, by simp [hu], by simp [hu]⟩
  | cons e l ih =>
    intro c hl h1 h2
    by_cases he : ∃ m, e = .map m
    · obtain ⟨m, rfl⟩ := he
      have hm := hl m (by simp)
      have ih := fun c' => ih c' (fun q hq => hl q (List.mem_cons_of_mem _ hq))
      show ∃ c', ((collectMap nr c m).bind fun c => collectAll nr c l) = some c' ∧ _
      unfold collectMap
      by_cases c1 : m.data ≥ nr
      · rw [if_pos c1, if_neg (by omega)]
        simp only [Option.bind_some]
        obtain ⟨j1, j2⟩ := insertRange_spec c.above m.data (m.data + m.len) nr (by omega) c1 h2
        obtain ⟨c', i1, i2, i3, i4, i5⟩ := ih { c with above := insertRange m.data (m.data + m.len) c.above } h1 j1
        refine ⟨c', i1, i2, i3, ?_, ?_⟩
        · intro b; rw [i4, used_cons_map]; constructor
          · rintro (h | h)
            · exact Or.inl h
            · exact Or.inr ⟨Or.inr h.1, h.2⟩
          · rintro (h | ⟨h | h, h'⟩)
            · exact Or.inl h
            · omega
            · exact Or.inr ⟨h, h'⟩
        · intro b; rw [i5, used_cons_map]; simp only; rw [j2]; constructor
          · rintro ((h | h) | h)
            · exact Or.inr ⟨Or.inl h, by omega⟩
            · exact Or.inl h
            · exact Or.inr ⟨Or.inr h.1, h.2⟩
          · rintro (h | ⟨h | h, h'⟩)
            · exact Or.inl (Or.inr h)
            · exact Or.inl (Or.inl h)
            · exact Or.inr ⟨h, h'⟩
      · rw [if_neg c1]
        by_cases c2 : m.data + m.len ≤ nr
        · rw [if_pos c2, if_neg (by omega)]
          simp only [Option.bind_some]
          obtain ⟨j1, j2⟩ := insertRange_spec c.below m.data (m.data + m.len) 0 (by omega) (by omega) h1
          obtain ⟨c', i1, i2, i3, i4, i5⟩ := ih { c with below := insertRange m.data (m.data + m.len) c.below } j1 h2
          refine ⟨c', i1, i2, i3, ?_, ?_⟩
          · intro b; rw [i4, used_cons_map]; simp only; rw [j2]; constructor
            · rintro ((h | h) | h)
              · exact Or.inr ⟨Or.inl h, by omega⟩
              · exact Or.inl h
              · exact Or.inr ⟨Or.inr h.1, h.2⟩
            · rintro (h | ⟨h | h, h'⟩)
              · exact Or.inl (Or.inr h)
              · exact Or.inl (Or.inl h)
              · exact Or.inr ⟨h, h'⟩
          · intro b; rw [i5, used_cons_map]; constructor
            · rintro (h | h)
              · exact Or.inl h
              · exact Or.inr ⟨Or.inr h.1, h.2⟩
            · rintro (h | ⟨h | h, h'⟩)
              · exact Or.inl h
              · omega
              · exact Or.inr ⟨h, h'⟩
        · rw [if_neg c2]
          simp only [Option.bind_some]
          obtain ⟨j1, j2⟩ := insertRange_spec c.below m.data nr 0 (by omega) (by omega) h1
          obtain ⟨k1, k2⟩ := insertRange_spec c.above nr (m.data + m.len) nr (by omega) (by omega) h2
          obtain ⟨c', i1, i2, i3, i4, i5⟩ := ih { below := insertRange m.data nr c.below, above := insertRange nr (m.data + m.len) c.above } j1 k1
          refine ⟨c', i1, i2, i3, ?_, ?_⟩
          · intro b; rw [i4, used_cons_map]; simp only; rw [j2]; constructor
            · rintro ((h | h) | h)
              · exact Or.inr ⟨Or.inl (by omega), by omega⟩
              · exact Or.inl h
              · exact Or.inr ⟨Or.inr h.1, h.2⟩
            · rintro (h | ⟨h | h, h'⟩)
              · exact Or.inl (Or.inr h)
              · exact Or.inl (Or.inl (by omega))
              · exact Or.inr ⟨h, h'⟩
          · intro b; rw [i5, used_cons_map]; simp only; rw [k2]; constructor
            · rintro ((h | h) | h)
              · exact Or.inr ⟨Or.inl (by omega), by omega⟩
              · exact Or.inl h
              · exact Or.inr ⟨Or.inr h.1, h.2⟩
            · rintro (h | ⟨h | h, h'⟩)
              · exact Or.inl (Or.inr h)
              · exact Or.inl (Or.inl (by omega))
              · exact Or.inr ⟨h, h'⟩
    · have he : ∀ m, e ≠ .map m := fun m h => he ⟨m, h⟩
      obtain ⟨c', i1, i2, i3, i4, i5⟩ := ih c (fun q hq => hl q (List.mem_cons_of_mem _ hq)) h1 h2
      refine ⟨c', ?_, i2, i3, fun b => by rw [i4, used_cons e he], fun b => by rw [i5, used_cons e he]⟩
      cases e <;> first | exact i1 | exact absurd rfl (he _)

/-! ## The remapped stream -/

theorem writeRuns_spec (m : Run) (f : Nat → Nat) : ∀ (out : List R) (w : Nat) (r : R), Maps f r out →
    (writeRuns m w out).flatMap Run.entries = (List.range (r.2 - r.1)).map (fun i => ⟨m.thin + w + i, f (r.1 + i), m.time⟩) ∧
      ∀ q ∈ writeRuns m w out, 1 ≤ q.len := by
  intro out
  induction out with
  | nil =>
    intro w r h
    have h1 := congrArg List.length h.1
    simp only [List.flatMap_nil, List.length_nil, List.length_map, cells, List.length_range'] at h1
    rw [← h1]
    exact ⟨rfl, by intro q hq; cases hq⟩
  | cons x out ih =>
    intro w r h
    obtain ⟨h1, h2⟩ := h
    have hx := h2 x (by simp)
    rw [List.flatMap_cons] at h1
    have hl := congrArg List.length h1
    simp only [cells, List.length_append, List.length_map, List.length_range'] at hl
    have hle : x.2 - x.1 ≤ r.2 - r.1 := by omega
    rw [cells_split r (r.1 + (x.2 - x.1)) (by omega) (by omega), List.map_append] at h1
    obtain ⟨g1, g2⟩ := List.append_inj h1 (by simp [cells])
    obtain ⟨i1, i2⟩ := ih (w + (x.2 - x.1)) (r.1 + (x.2 - x.1), r.2) ⟨g2, fun q hq => h2 q (by simp [hq])⟩
    refine ⟨?_, ?_⟩
    · show (Run.entries ⟨m.thin + w, x.1, m.time, x.2 - x.1⟩ ++ (writeRuns m (w + (x.2 - x.1)) out).flatMap Run.entries) = _
      rw [i1]
      have e : r.2 - r.1 = (x.2 - x.1) + (r.2 - (r.1 + (x.2 - x.1))) := by omega
      rw [e, List.range_add, List.map_append, List.map_map]
      congr 1
      · refine List.map_congr_left ?_
        intro i hi
        have hi : i < x.2 - x.1 := List.mem_range.mp hi
        have := congrArg (fun l : List Nat => l[i]?) g1
        simp only [cells] at this
        rw [List.getElem?_range' (by omega), List.getElem?_map, List.getElem?_range' (by omega)] at this
        simp only [Option.map_some, Option.some.injEq, Nat.one_mul] at this
        rw [this]
      · refine List.map_congr_left ?_
        intro i hi
        simp only [Function.comp, Dump.Entry.mk.injEq, and_true]
        exact ⟨by omega, by congr 1; omega⟩
    · intro q hq
      rcases List.mem_cons.mp hq with rfl | hq
      · simp only; omega
      · exact i2 q hq

theorem remapRun_spec {nr lo : Nat} {l : List (R × Nat)} (hg : GoodM lo l) (hlo : nr ≤ lo) (m : Run) (hm : 1 ≤ m.len) :
    (remapRun nr l m).flatMap Run.entries = m.entries.map (fun e => { e with data := dest l e.data }) ∧ ∀ q ∈ remapRun nr l m, 1 ≤ q.len := by
  unfold remapRun
  by_cases c : m.data + m.len < nr
  · rw [if_pos c]
    refine ⟨?_, by intro q hq; rw [List.mem_singleton.mp hq]; exact hm⟩
    rw [List.flatMap_cons, List.flatMap_nil, List.append_nil]
    unfold Run.entries
    rw [List.map_map]
    refine List.map_congr_left ?_
    intro i hi
    have hi := List.mem_range.mp hi
    simp only [Function.comp, Dump.Entry.mk.injEq, and_true, true_and]
    rw [dest_out]
    intro h
    have := h.lower hg
    omega
  · rw [if_neg c]
    have h := remap_spec l lo (m.data, m.data + m.len) hg (by simp only; omega)
    obtain ⟨h1, h2⟩ := writeRuns_spec m (dest l) _ 0 _ h
    refine ⟨?_, h2⟩
    rw [h1]
    unfold Run.entries
    simp only
    rw [List.map_map, show m.data + m.len - m.data = m.len by omega]
    rfl

theorem remapped {N : Type} {nr lo : Nat} {l : List (R × Nat)} (hg : GoodM lo l) (hlo : nr ≤ lo) : ∀ (evs : List (Ev N)), (∀ m, Ev.map m ∈ evs → 1 ≤ m.len) →
    Remapped (dest l) evs (evs.flatMap (remapEv nr l)) := by
  intro evs
  induction evs with
  | nil => intro _; exact .nil
  | cons e es ih =>
    intro h
    have i := ih (fun m hm => h m (List.mem_cons_of_mem _ hm))
    rw [List.flatMap_cons]
    by_cases he : ∃ m, e = .map m
    · obtain ⟨m, rfl⟩ := he
      obtain ⟨h1, h2⟩ := remapRun_spec hg hlo m (h m (by simp))
      exact .map m _ _ _ h1 h2 i
    · have he : ∀ m, e ≠ .map m := fun m h => he ⟨m, h⟩
      have : remapEv nr l e = [e] := by cases e <;> first | rfl | exact absurd rfl (he _)
      rw [this]
      exact .other e _ _ he i

/-! ## C29: the plan -/

theorem range_end {l : List R} {lo nr : Nat} (h : Good lo l) (hb : ∀ b, In l b → b < nr) : ∀ r ∈ l, r.2 ≤ nr := by
  intro r hr
  have hne : r.1 < r.2 := by
    clear hb
    induction l generalizing lo with
    | nil => cases hr
    | cons x l ih =>
      rcases List.mem_cons.mp hr with rfl | hr
      · exact h.2.1
      · exact ih h.2.2 hr
  have := hb (r.2 - 1) ⟨r, hr, by omega, by omega⟩
  omega

/-- C29, the plan.  For every stream of metadata without empty runs `thin_shrink` finds new places for the blocks beyond the new end of the data device
if there are enough unused blocks, and gives up otherwise.  It copies exactly the blocks it moves to their new places, and the new metadata is the old one with every
mapping following its block. -/
theorem shrink_plan {N : Type} (nr : Nat) (evs : List (Ev N)) (hl : ∀ m, Ev.map m ∈ evs → 1 ≤ m.len) :
    match shrinkEvents nr evs with
    | none => ¬ ∃ f, Moved nr (Used evs) f
    | some (ops, evs') => ∃ f, Moved nr (Used evs) f ∧ (∀ a b, (a, b) ∈ ops ↔ Used evs a ∧ nr ≤ a ∧ b = f a) ∧ (ops.map (·.1)).Nodup ∧ (ops.map (·.2)).Nodup ∧
        Remapped f evs evs' := by
  obtain ⟨c, c1, c2, c3, c4, c5⟩ := collectAll_spec nr evs ⟨[], []⟩ hl trivial trivial
  have c4 : ∀ b, In c.below b ↔ Used evs b ∧ b < nr := fun b => by rw [c4]; simp [In_nil]
  have c5 : ∀ b, In c.above b ↔ Used evs b ∧ nr ≤ b := fun b => by rw [c5]; simp [In_nil]
  obtain ⟨g1, g2⟩ := gaps_spec c.below 0 nr c2.good (range_end c2.good (fun b hb => ((c4 b).mp hb).2))
  have g2 : ∀ b, In (gaps 0 nr c.below) b ↔ b < nr ∧ ¬ Used evs b := by
    intro b
    rw [g2, c4]
    constructor
    · rintro ⟨-, h1, h2⟩; exact ⟨h1, fun h => h2 ⟨h, h1⟩⟩
    · rintro ⟨h1, h2⟩; exact ⟨by omega, h1, fun h => h2 h.1⟩
  have hb := buildLoop_spec (c.above.length + (gaps 0 nr c.below).length) c.above (gaps 0 nr c.below) nr 0 (Nat.le_refl _) c3.good g1
  have hs1 := all_sorted c3.good
  have hs2 := all_sorted g1
  have nodup : ∀ {l : List Nat}, l.Pairwise (· < ·) → l.Nodup := fun h => h.imp (fun h e => by omega)
  unfold shrinkEvents
  rw [c1]
  show match ((getRemaps nr c).bind fun remaps => some (copyOps remaps, evs.flatMap (remapEv nr remaps))) with
    | none => _
    | some (ops, evs') => _
  unfold getRemaps buildRemaps
  cases hbl : buildLoop (c.above.length + (gaps 0 nr c.below).length) c.above (gaps 0 nr c.below) with
  | none =>
    rw [hbl] at hb
    simp only [Option.bind_none] at hb ⊢
    rintro ⟨f, hf⟩
    have hnd : ((c.above.flatMap cells).map f).Nodup := by
      unfold List.Nodup
      rw [List.pairwise_map]
      have := nodup hs1
      refine List.Pairwise.imp_of_mem ?_ this
      intro a b ha hb hne e
      exact hne (hf.inj a b ((c5 a).mp (mem_all.mp ha)).1 ((c5 b).mp (mem_all.mp hb)).1 e)
    have := hnd.length_le_of_subset (l₂ := (gaps 0 nr c.below).flatMap cells) (by
      intro x hx
      obtain ⟨b, hb, rfl⟩ := List.mem_map.mp hx
      obtain ⟨h1, h2⟩ := (c5 b).mp (mem_all.mp hb)
      exact mem_all.mpr ((g2 _).mpr ⟨hf.fits b h1, hf.fresh b h1 h2⟩))
    rw [List.length_map] at this
    omega
  | some l =>
    rw [hbl] at hb
    simp only [Option.bind_some] at hb ⊢
    obtain ⟨b1, b2, b3, b4⟩ := hb
    have hin : ∀ b, In (l.map (·.1)) b ↔ Used evs b ∧ nr ≤ b := by
      intro b
      rw [← c5, ← mem_all, ← mem_all, ← b4, List.flatMap_map]
    have hops : ∀ a b, (a, b) ∈ copyOps l ↔ Used evs a ∧ nr ≤ a ∧ b = dest l a := by
      intro a b
      rw [dest_ops b3, hin, and_assoc]
    have hn1 : ((copyOps l).map (·.1)).Nodup := by
      rw [b2, List.map_fst_zip b1]
      exact nodup hs1
    have hn2 : ((copyOps l).map (·.2)).Nodup := by
      rw [b2]
      refine List.Nodup.sublist ?_ (nodup hs2)
      clear b2 hs1 hs2 b4 c3 c5 g1 g2 b1
      generalize c.above.flatMap cells = x
      generalize (gaps 0 nr c.below).flatMap cells = y
      induction x generalizing y with
      | nil => simp
      | cons a x ih =>
        cases y with
        | nil => simp
        | cons b y => simpa using ih y
    have hfree : ∀ a, Used evs a → nr ≤ a → dest l a < nr ∧ ¬ Used evs (dest l a) := by
      intro a h1 h2
      have h := (hops a (dest l a)).mpr ⟨h1, h2, rfl⟩
      rw [b2] at h
      have := (List.of_mem_zip h).2
      exact (g2 _).mp (mem_all.mp this)
    have hkeep : ∀ b, b < nr → dest l b = b := by
      intro b h
      refine dest_out ?_
      rw [hin]
      omega
    refine ⟨dest l, ⟨?_, ?_, ?_, ?_⟩, hops, hn1, hn2, remapped b3 (Nat.le_refl _) evs hl⟩
    · intro b _ h; exact hkeep b h
    · intro b hu
      by_cases h : b < nr
      · rw [hkeep b h]; exact h
      · exact (hfree b hu (by omega)).1
    · intro b hu h; exact (hfree b hu h).2
    · intro a b ha hb e
      by_cases h1 : a < nr
      · rw [hkeep a h1] at e
        by_cases h2 : b < nr
        · rw [hkeep b h2] at e; exact e
        · exact absurd (e ▸ ha) (hfree b hb (by omega)).2
      · by_cases h2 : b < nr
        · rw [hkeep b h2] at e
          exact absurd (e ▸ hb) (hfree a ha (by omega)).2
        · have m1 := (hops a (dest l a)).mpr ⟨ha, by omega, rfl⟩
          have m2 := (hops b (dest l a)).mpr ⟨hb, by omega, e⟩
          -- two operations with one destination
          have hz : ∀ (ops : List (Nat × Nat)), (ops.map (·.2)).Nodup → ∀ a b x, (a, x) ∈ ops → (b, x) ∈ ops → a = b := by
            intro ops
            induction ops with
            | nil => intro _ a b x h; cases h
            | cons o ops ih =>
              intro hn a b x h1 h2
              rw [List.map_cons, List.nodup_cons] at hn
              rcases List.mem_cons.mp h1 with e1 | h1 <;> rcases List.mem_cons.mp h2 with e2 | h2
              · rw [← e1] at e2; cases e2; rfl
              · rw [← e1] at hn; exact absurd (List.mem_map.mpr ⟨_, h2, rfl⟩) hn.1
              · rw [← e2] at hn; exact absurd (List.mem_map.mpr ⟨_, h1, rfl⟩) hn.1
              · exact ih hn.2 a b x h1 h2
          exact hz _ hn2 a b _ m1 m2

end Verif.Shrink
