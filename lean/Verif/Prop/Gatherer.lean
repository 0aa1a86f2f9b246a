import Verif.Model.Gatherer

/-!
# C22: gathering shared runs of leaves
-/

namespace Verif.Gather

/-! ## Specification -/

/-- every occurrence of `x` in the sequences is immediately followed by `y` -/
def AlwaysFollowed (seqs : List (List Nat)) (x y : Nat) : Prop :=
  ∀ s ∈ seqs, ∀ pre post, s = pre ++ x :: post → post.head? = some y

/-- every occurrence of `y` in the sequences is immediately preceded by `x` -/
def AlwaysPreceded (seqs : List (List Nat)) (x y : Nat) : Prop :=
  ∀ s ∈ seqs, ∀ pre post, s = pre ++ y :: post → pre.getLast? = some x

/-- the sequences keep `x` and `y` together -/
def Together (seqs : List (List Nat)) (x y : Nat) : Prop := AlwaysFollowed seqs x y ∧ AlwaysPreceded seqs x y

/-! ## Records: a block with its predecessor in the sequence -/

/-- the elements of a sequence with their predecessors -/
def recs : Option Nat → List Nat → List (Option Nat × Nat)
  | _, [] => []
  | p, b :: bs => (p, b) :: recs (some b) bs

/-- all sequences -/
def allRecs (seqs : List (List Nat)) : List (Option Nat × Nat) := seqs.flatMap (recs none)

theorem recs_count (b : Nat) (s : List Nat) : ∀ p, (recs p s).countP (fun r => r.2 == b) = s.count b := by
  induction s with
  | nil => intro p; rfl
  | cons c s ih =>
    intro p
    simp only [recs, List.countP_cons, List.count_cons, ih]

theorem allRecs_count (b : Nat) (seqs : List (List Nat)) :
    (allRecs seqs).countP (fun r => r.2 == b) = seqs.flatten.count b := by
  induction seqs with
  | nil => rfl
  | cons s ss ih =>
    simp only [allRecs, List.flatMap_cons, List.countP_append, List.flatten_cons, List.count_append, recs_count] at *
    rw [ih]

theorem recs_some (a b : Nat) (s : List Nat) : ∀ p, (some a, b) ∈ recs p s ↔
    (p = some a ∧ s.head? = some b) ∨ ∃ pre post, s = pre ++ a :: b :: post := by
  induction s with
  | nil =>
    intro p
    simp [recs]
  | cons c s ih =>
    intro p
    simp only [recs, List.mem_cons, ih]
    constructor
    · rintro (h | ⟨h1, h2⟩ | ⟨pre, post, h⟩)
      · cases h; exact Or.inl ⟨rfl, rfl⟩
      · cases h1
        cases s with
        | nil => cases h2
        | cons d s => cases h2; exact Or.inr ⟨[], s, rfl⟩
      · exact Or.inr ⟨c :: pre, post, by rw [h]; rfl⟩
    · rintro (⟨rfl, h⟩ | ⟨pre, post, h⟩)
      · cases h; exact Or.inl rfl
      · cases pre with
        | nil => cases h; exact Or.inr (Or.inl ⟨rfl, rfl⟩)
        | cons d pre => cases h; exact Or.inr (Or.inr ⟨pre, post, rfl⟩)

theorem recs_none (b : Nat) (s : List Nat) : ∀ p, (none, b) ∈ recs p s ↔ p = none ∧ s.head? = some b := by
  induction s with
  | nil => intro p; simp [recs]
  | cons c s ih =>
    intro p
    simp only [recs, List.mem_cons, ih]
    constructor
    · rintro (h | ⟨h, -⟩)
      · cases h; exact ⟨rfl, rfl⟩
      · cases h
    · rintro ⟨rfl, h⟩
      cases h; exact Or.inl rfl

theorem recs_mem (b : Nat) (s : List Nat) : ∀ p, (∃ o, (o, b) ∈ recs p s) ↔ b ∈ s := by
  induction s with
  | nil => intro p; simp [recs]
  | cons c s ih =>
    intro p
    simp only [recs, List.mem_cons]
    constructor
    · rintro ⟨o, h | h⟩
      · cases h; exact Or.inl rfl
      · exact Or.inr ((ih _).mp ⟨o, h⟩)
    · rintro (rfl | h)
      · exact ⟨p, Or.inl rfl⟩
      · obtain ⟨o, h⟩ := (ih (some c)).mpr h
        exact ⟨o, Or.inr h⟩

/-- `a` is immediately followed by `b` somewhere -/
def Edge (seqs : List (List Nat)) (a b : Nat) : Prop := ∃ s ∈ seqs, ∃ pre post, s = pre ++ a :: b :: post

/-- `b` starts a sequence -/
def Starts (seqs : List (List Nat)) (b : Nat) : Prop := ∃ s ∈ seqs, s.head? = some b

/-- `b` ends a sequence -/
def Ends (seqs : List (List Nat)) (b : Nat) : Prop := ∃ s ∈ seqs, s.getLast? = some b

/-- `b` occurs -/
def Occurs (seqs : List (List Nat)) (b : Nat) : Prop := ∃ s ∈ seqs, b ∈ s

theorem allRecs_some (seqs : List (List Nat)) (a b : Nat) : (some a, b) ∈ allRecs seqs ↔ Edge seqs a b := by
  simp only [allRecs, List.mem_flatMap, recs_some, Edge]
  constructor
  · rintro ⟨s, hs, ⟨h, -⟩ | h⟩
    · cases h
    · exact ⟨s, hs, h⟩
  · rintro ⟨s, hs, h⟩
    exact ⟨s, hs, Or.inr h⟩

theorem allRecs_none (seqs : List (List Nat)) (b : Nat) : (none, b) ∈ allRecs seqs ↔ Starts seqs b := by
  simp only [allRecs, List.mem_flatMap, recs_none, Starts, true_and]

theorem allRecs_mem (seqs : List (List Nat)) (b : Nat) : (∃ o, (o, b) ∈ allRecs seqs) ↔ Occurs seqs b := by
  simp only [allRecs, List.mem_flatMap, Occurs]
  constructor
  · rintro ⟨o, s, hs, h⟩; exact ⟨s, hs, (recs_mem b s none).mp ⟨o, h⟩⟩
  · rintro ⟨s, hs, h⟩
    obtain ⟨o, h⟩ := (recs_mem b s none).mpr h
    exact ⟨o, s, hs, h⟩

/-! ## Ordered sets -/

/-- strictly increasing -/
def Inc : List Nat → Prop
  | [] => True
  | [_] => True
  | a :: b :: l => a < b ∧ Inc (b :: l)

theorem insertSorted_mem (b c : Nat) (l : List Nat) : c ∈ insertSorted b l ↔ c = b ∨ c ∈ l := by
  induction l with
  | nil => simp [insertSorted]
  | cons d l ih =>
    unfold insertSorted
    split
    · simp
    · split
      · next h => subst h; simp
      · simp only [List.mem_cons, ih]
        constructor
        · rintro (h | h | h) <;> simp [h]
        · rintro (h | h | h) <;> simp [h]

theorem Inc.tail {a : Nat} {l : List Nat} (h : Inc (a :: l)) : Inc l := by
  cases l with
  | nil => trivial
  | cons b l => exact h.2

theorem inc_cons {a : Nat} {l : List Nat} (h : Inc l) (hl : ∀ x, l.head? = some x → a < x) : Inc (a :: l) := by
  cases l with
  | nil => trivial
  | cons b l => exact ⟨hl b rfl, h⟩

theorem insertSorted_head (b : Nat) (l : List Nat) (x : Nat) (h : (insertSorted b l).head? = some x) :
    x = b ∨ l.head? = some x := by
  cases l with
  | nil => simp [insertSorted] at h; exact Or.inl h.symm
  | cons c l =>
    unfold insertSorted at h
    split at h
    · simp at h; exact Or.inl h.symm
    · split at h
      · exact Or.inr h
      · simp at h; exact Or.inr (by simp [h])

theorem insertSorted_inc (b : Nat) (l : List Nat) (h : Inc l) : Inc (insertSorted b l) := by
  induction l with
  | nil => trivial
  | cons c l ih =>
    unfold insertSorted
    split
    · next hlt => exact ⟨hlt, h⟩
    · split
      · exact h
      · next h1 h2 =>
        apply inc_cons (ih h.tail)
        intro x hx
        rcases insertSorted_head b l x hx with rfl | hx
        · omega
        · cases l with
          | nil => cases hx
          | cons d l => cases hx; exact h.1

theorem inc_lt {a : Nat} {l : List Nat} (h : Inc (a :: l)) : ∀ x ∈ l, a < x := by
  induction l generalizing a with
  | nil => intro x hx; cases hx
  | cons b l ih =>
    intro x hx
    rcases List.mem_cons.mp hx with rfl | hx
    · exact h.1
    · exact Nat.lt_trans h.1 (ih h.2 x hx)

theorem inc_nodup {l : List Nat} (h : Inc l) : l.Nodup := by
  induction l with
  | nil => exact List.nodup_nil
  | cons a l ih =>
    refine List.nodup_cons.mpr ⟨?_, ih h.tail⟩
    intro hm
    exact Nat.lt_irrefl _ (inc_lt h a hm)

/-! ## Feeding the sequences -/

/-- what the gatherer knows after the records `H` with finished sequences ending at `E` -/
structure Inv (g : G) (H : List (Option Nat × Nat)) (E : List Nat) : Prop where
  bound : ∀ o b, (o, b) ∈ H → b < g.cap
  heads : ∀ b, g.heads b = true ↔ (none, b) ∈ H ∨ ∃ p q, p ≠ q ∧ (some p, b) ∈ H ∧ (some q, b) ∈ H
  backNone : ∀ b, g.back b = none → ∀ p, (some p, b) ∉ H
  backSome : ∀ b q, g.back b = some q → (some q, b) ∈ H
  occ : ∀ b, (∃ ns, g.entries b = some ns) ↔ ∃ o, (o, b) ∈ H
  succ : ∀ b ns, g.entries b = some ns → Inc ns ∧ ∀ c, c ∈ ns ↔ (some b, c) ∈ H
  src : ∀ a b, (some a, b) ∈ H → ∃ o, (o, a) ∈ H
  tails : ∀ b, g.tails b = true ↔ b ∈ E
  shared1 : ∀ b, g.shared b = true → 2 ≤ H.countP (fun r => r.2 == b)
  shared2 : ∀ o b, 2 ≤ H.count (o, b) → g.shared b = true
  prev : ∀ p, g.prev = some p → ∃ o, (o, p) ∈ H

theorem ins_iff (f : Nat → Bool) (b x : Nat) : ins f b x = true ↔ x = b ∨ f x = true := by
  simp [ins]

theorem count_le_countP (H : List (Option Nat × Nat)) (o : Option Nat) (b : Nat) :
    H.count (o, b) ≤ H.countP (fun r => r.2 == b) := by
  unfold List.count
  apply List.countP_mono_left
  intro r _ h
  have : r = (o, b) := by simpa using h
  rw [this]; simp

theorem countP_pos_mem {H : List (Option Nat × Nat)} {o : Option Nat} {b : Nat} (h : (o, b) ∈ H) :
    1 ≤ H.countP (fun r => r.2 == b) := by
  exact List.countP_pos_iff (p := fun r : Option Nat × Nat => r.2 == b).mpr ⟨(o, b), h, by simp⟩

theorem newSeq_inv {g : G} {H : List (Option Nat × Nat)} {E : List Nat} (h : Inv g H E) :
    Inv g.newSeq H (E ++ g.prev.toList) ∧ g.newSeq.prev = none ∧ g.newSeq.cap = g.cap := by
  unfold G.newSeq
  cases hp : g.prev with
  | none =>
    refine ⟨?_, rfl, rfl⟩
    exact { bound := h.bound
            heads := h.heads
            backNone := h.backNone
            backSome := h.backSome
            occ := h.occ
            succ := h.succ
            src := h.src
            tails := by intro b; rw [h.tails]; simp
            shared1 := h.shared1
            shared2 := h.shared2
            prev := by intro p hp; cases hp }
  | some q =>
    refine ⟨?_, rfl, rfl⟩
    exact { bound := h.bound
            heads := h.heads
            backNone := h.backNone
            backSome := h.backSome
            occ := h.occ
            succ := h.succ
            src := h.src
            tails := by
              intro b
              simp only [ins_iff, h.tails]
              constructor
              · rintro (rfl | hb) <;> simp [*]
              · intro hb
                rcases List.mem_append.mp hb with hb | hb
                · exact Or.inr hb
                · exact Or.inl (by simpa using hb)
            shared1 := h.shared1
            shared2 := h.shared2
            prev := by intro p hp; cases hp }

theorem mem_snoc {α : Type} {x y : α} {l : List α} : x ∈ l ++ [y] ↔ x ∈ l ∨ x = y := by simp

/-- the part of the step that concerns `entries` and `prev` -/
theorem entries_step {g : G} {H : List (Option Nat × Nat)} {E : List Nat} (h : Inv g H E) (b : Nat)
    (ent : Nat → Option (List Nat))
    (hent : (g.prev = none ∧ ent = g.entries) ∨
      ∃ p ns, g.prev = some p ∧ g.entries p = some ns ∧ ent = upd g.entries p (insertSorted b ns)) :
    let ent' := (match ent b with | some _ => ent | none => upd ent b [])
    (∀ c, (∃ ns, ent' c = some ns) ↔ ∃ o, (o, c) ∈ H ++ [(g.prev, b)]) ∧
    (∀ c ns, ent' c = some ns → Inc ns ∧ ∀ d, d ∈ ns ↔ (some c, d) ∈ H ++ [(g.prev, b)]) := by
  -- first without the insertion of `b`
  have h1 : (∀ c, (∃ ns, ent c = some ns) ↔ ∃ o, (o, c) ∈ H) ∧
      (∀ c ns, ent c = some ns → Inc ns ∧ ∀ d, d ∈ ns ↔ (some c, d) ∈ H ++ [(g.prev, b)]) := by
    rcases hent with ⟨hp, rfl⟩ | ⟨p, ns, hp, hns, rfl⟩
    · refine ⟨h.occ, ?_⟩
      intro c ns hc
      obtain ⟨i1, i2⟩ := h.succ c ns hc
      refine ⟨i1, fun d => ?_⟩
      rw [i2, hp]; simp
    · refine ⟨?_, ?_⟩
      · intro c
        rw [← h.occ]
        unfold upd
        split
        · next hc => subst hc; simp [hns]
        · rfl
      · intro c ns' hc
        unfold upd at hc
        split at hc
        · next hcp =>
          subst hcp
          cases hc
          obtain ⟨i1, i2⟩ := h.succ _ _ hns
          refine ⟨insertSorted_inc _ _ i1, fun d => ?_⟩
          rw [insertSorted_mem, i2, hp, mem_snoc]
          constructor
          · rintro (rfl | hd)
            · exact Or.inr rfl
            · exact Or.inl hd
          · rintro (hd | hd)
            · exact Or.inr hd
            · cases hd; exact Or.inl rfl
        · next hcp =>
          obtain ⟨i1, i2⟩ := h.succ c ns' hc
          refine ⟨i1, fun d => ?_⟩
          rw [i2, hp, mem_snoc]
          constructor
          · exact Or.inl
          · rintro (hd | hd)
            · exact hd
            · cases hd; exact absurd rfl hcp
  obtain ⟨k1, k2⟩ := h1
  cases hb : ent b with
  | some nb =>
    simp only
    refine ⟨?_, k2⟩
    intro c
    rw [k1]
    constructor
    · rintro ⟨o, ho⟩; exact ⟨o, by simp [ho]⟩
    · rintro ⟨o, ho⟩
      rcases mem_snoc.mp ho with ho | ho
      · exact ⟨o, ho⟩
      · cases ho; exact (k1 b).mp ⟨nb, hb⟩
  | none =>
    simp only
    have hno : ∀ o, (o, b) ∉ H := by
      intro o ho
      obtain ⟨ns, hns⟩ := (k1 b).mpr ⟨o, ho⟩
      rw [hb] at hns; cases hns
    refine ⟨?_, ?_⟩
    · intro c
      unfold upd
      split
      · next hc => subst hc; simp
      · next hc =>
        rw [k1]
        constructor
        · rintro ⟨o, ho⟩; exact ⟨o, by simp [ho]⟩
        · rintro ⟨o, ho⟩
          rcases mem_snoc.mp ho with ho | ho
          · exact ⟨o, ho⟩
          · cases ho; exact absurd rfl hc
    · intro c ns hc
      unfold upd at hc
      split at hc
      · next hcb =>
        cases hc
        subst hcb
        refine ⟨trivial, fun d => ?_⟩
        simp only [List.not_mem_nil, false_iff]
        intro hd
        rcases mem_snoc.mp hd with hd | hd
        · obtain ⟨o, ho⟩ := h.src _ _ hd
          exact hno o ho
        · have hpc : g.prev = some c := by
            injection hd with h1 h2
            exact h1.symm
          obtain ⟨o, ho⟩ := h.prev c hpc
          exact hno o ho
      · exact k2 c ns hc

theorem countP_snoc (H : List (Option Nat × Nat)) (o : Option Nat) (b c : Nat) :
    (H ++ [(o, b)]).countP (fun r => r.2 == c) = H.countP (fun r => r.2 == c) + (if b = c then 1 else 0) := by
  simp [List.countP_append, List.countP_cons]

theorem count_snoc (H : List (Option Nat × Nat)) (o o' : Option Nat) (b c : Nat) :
    (H ++ [(o, b)]).count (o', c) = H.count (o', c) + (if (o, b) = (o', c) then 1 else 0) := by
  simp only [List.count_append, List.count_cons, List.count_nil, Nat.zero_add]
  congr 1
  by_cases h : (o, b) = (o', c) <;> simp [h]

theorem next_inv {g : G} {H : List (Option Nat × Nat)} {E : List Nat} (h : Inv g H E) (b : Nat) (hb : b < g.cap) :
    ∃ g', g.next b = some g' ∧ Inv g' (H ++ [(g.prev, b)]) E ∧ g'.prev = some b ∧ g'.cap = g.cap := by
  unfold G.next
  rw [if_neg (by omega)]
  cases hp : g.prev with
  | none =>
    refine ⟨_, rfl, ?_, rfl, rfl⟩
    have he := entries_step h b g.entries (Or.inl ⟨hp, rfl⟩)
    rw [hp] at he
    exact {
      bound := by
        intro o c hc
        rcases mem_snoc.mp hc with hc | hc
        · exact h.bound o c hc
        · cases hc; exact hb
      heads := by
        intro c
        show ins g.heads b c = true ↔ _
        rw [ins_iff, h.heads]
        simp only [mem_snoc]
        constructor
        · rintro (rfl | hc | ⟨p, q, h1, h2, h3⟩)
          · exact Or.inl (Or.inr rfl)
          · exact Or.inl (Or.inl hc)
          · exact Or.inr ⟨p, q, h1, Or.inl h2, Or.inl h3⟩
        · rintro ((hc | hc) | ⟨p, q, h1, h2 | h2, h3 | h3⟩)
          · exact Or.inr (Or.inl hc)
          · cases hc; exact Or.inl rfl
          · exact Or.inr (Or.inr ⟨p, q, h1, h2, h3⟩)
          · cases h3
          · cases h2
          · cases h2
      backNone := by
        intro c hc p hm
        rcases mem_snoc.mp hm with hm | hm
        · exact h.backNone c hc p hm
        · cases hm
      backSome := by
        intro c q hc
        exact mem_snoc.mpr (Or.inl (h.backSome c q hc))
      occ := he.1
      succ := he.2
      src := by
        intro a c hm
        rcases mem_snoc.mp hm with hm | hm
        · obtain ⟨o, ho⟩ := h.src a c hm
          exact ⟨o, mem_snoc.mpr (Or.inl ho)⟩
        · cases hm
      tails := h.tails
      shared1 := by
        intro c hc
        rw [countP_snoc]
        by_cases hh : g.heads b = true
        · have hc : ins g.shared b c = true := by simpa [G.visit, G.markHead, hh] using hc
          rcases (ins_iff _ _ _).mp hc with rfl | hc
          · rw [if_pos rfl]
            have : ∃ o, (o, c) ∈ H := by
              rcases (h.heads c).mp hh with h1 | ⟨p, q, -, h1, -⟩
              · exact ⟨_, h1⟩
              · exact ⟨_, h1⟩
            obtain ⟨o, ho⟩ := this
            have := countP_pos_mem ho
            omega
          · have := h.shared1 c hc; omega
        · have hc : g.shared c = true := by simpa [G.visit, G.markHead, hh] using hc
          have := h.shared1 c hc; omega
      shared2 := by
        intro o c hc
        rw [count_snoc] at hc
        by_cases he : ((none : Option Nat), b) = (o, c)
        · cases he
          rw [if_pos rfl] at hc
          have hm : (none, b) ∈ H := List.count_pos_iff.mp (by omega)
          have hh : g.heads b = true := (h.heads b).mpr (Or.inl hm)
          simp [G.visit, G.markHead, hh, ins]
        · rw [if_neg he] at hc
          have := h.shared2 o c (by omega)
          by_cases hh : g.heads b = true <;> simp [G.visit, G.markHead, hh, ins, this]
      prev := by
        intro p hp
        cases hp
        exact ⟨none, by simp⟩ }
  | some p =>
    obtain ⟨o, ho⟩ := h.prev p hp
    obtain ⟨ns, hns⟩ := (h.occ p).mpr ⟨o, ho⟩
    simp only [hns]
    refine ⟨_, rfl, ?_⟩
    have hS := h.succ p ns hns
    have hdup : ns.contains b = true ↔ (some p, b) ∈ H := by
      rw [List.contains_iff_mem]; exact hS.2 b
    have he := entries_step h b (upd g.entries p (insertSorted b ns)) (Or.inr ⟨p, ns, hp, hns, rfl⟩)
    rw [hp] at he
    -- the shared bit after the first update
    have hsh1 : ∀ c, (if ns.contains b then ins g.shared b else g.shared) c = true →
        2 ≤ (H ++ [(some p, b)]).countP (fun r => r.2 == c) := by
      intro c hc
      rw [countP_snoc]
      split at hc
      · next hd =>
        rcases (ins_iff _ _ _).mp hc with rfl | hc
        · rw [if_pos rfl]
          have := countP_pos_mem (hdup.mp hd)
          omega
        · have := h.shared1 c hc; omega
      · have := h.shared1 c hc; omega
    have hsh2 : ∀ o c, 2 ≤ (H ++ [(some p, b)]).count (o, c) →
        (if ns.contains b then ins g.shared b else g.shared) c = true := by
      intro o c hc
      rw [count_snoc] at hc
      by_cases he : ((some p : Option Nat), b) = (o, c)
      · cases he
        rw [if_pos rfl] at hc
        have hm : (some p, b) ∈ H := List.count_pos_iff.mp (by omega)
        rw [if_pos (hdup.mpr hm)]
        simp [ins]
      · rw [if_neg he] at hc
        have := h.shared2 o c (by omega)
        split <;> simp [ins, this]
    have hbound : ∀ o c, (o, c) ∈ H ++ [(some p, b)] → c < g.cap := by
      intro o c hc
      rcases mem_snoc.mp hc with hc | hc
      · exact h.bound o c hc
      · cases hc; exact hb
    have hsrc : ∀ a c, (some a, c) ∈ H ++ [(some p, b)] → ∃ o, (o, a) ∈ H ++ [(some p, b)] := by
      intro a c hm
      rcases mem_snoc.mp hm with hm | hm
      · obtain ⟨o, ho⟩ := h.src a c hm
        exact ⟨o, mem_snoc.mpr (Or.inl ho)⟩
      · cases hm; exact ⟨o, mem_snoc.mpr (Or.inl ho)⟩
    cases hbk : g.back b with
    | none =>
      refine ⟨?_, rfl, rfl⟩
      have hnob := h.backNone b hbk
      exact {
        bound := hbound
        heads := by
          intro c
          show g.heads c = true ↔ _
          rw [h.heads]
          simp only [mem_snoc]
          constructor
          · rintro (hc | ⟨x, y, h1, h2, h3⟩)
            · exact Or.inl (Or.inl hc)
            · exact Or.inr ⟨x, y, h1, Or.inl h2, Or.inl h3⟩
          · rintro ((hc | hc) | ⟨x, y, h1, h2 | h2, h3 | h3⟩)
            · exact Or.inl hc
            · cases hc
            · exact Or.inr ⟨x, y, h1, h2, h3⟩
            · cases h3; exact absurd h2 (hnob _)
            · cases h2; exact absurd h3 (hnob _)
            · cases h2; cases h3; exact absurd rfl h1
        backNone := by
          intro c hc x hm
          change upd g.back b p c = none at hc
          unfold upd at hc
          split at hc
          · cases hc
          · next hcb =>
            rcases mem_snoc.mp hm with hm | hm
            · exact h.backNone c hc x hm
            · cases hm; exact hcb rfl
        backSome := by
          intro c q hc
          change upd g.back b p c = some q at hc
          unfold upd at hc
          split at hc
          · next hcb => cases hc; subst hcb; simp
          · exact mem_snoc.mpr (Or.inl (h.backSome c q hc))
        occ := he.1
        succ := he.2
        src := hsrc
        tails := h.tails
        shared1 := hsh1
        shared2 := hsh2
        prev := by
          intro q hq
          cases hq
          exact ⟨some p, by simp⟩ }
    | some q =>
      have hqb := h.backSome b q hbk
      simp only
      split
      · next hqp =>
        subst hqp
        refine ⟨?_, rfl, rfl⟩
        exact {
          bound := hbound
          heads := by
            intro c
            show g.heads c = true ↔ _
            rw [h.heads]
            simp only [mem_snoc]
            constructor
            · rintro (hc | ⟨x, y, h1, h2, h3⟩)
              · exact Or.inl (Or.inl hc)
              · exact Or.inr ⟨x, y, h1, Or.inl h2, Or.inl h3⟩
            · rintro ((hc | hc) | ⟨x, y, h1, h2 | h2, h3 | h3⟩)
              · exact Or.inl hc
              · cases hc
              · exact Or.inr ⟨x, y, h1, h2, h3⟩
              · cases h3; exact Or.inr ⟨x, q, h1, h2, hqb⟩
              · cases h2; exact Or.inr ⟨q, y, h1, hqb, h3⟩
              · cases h2; cases h3; exact absurd rfl h1
          backNone := by
            intro c hc x hm
            rcases mem_snoc.mp hm with hm | hm
            · exact h.backNone c hc x hm
            · cases hm; exact h.backNone b hc q hqb
          backSome := by
            intro c x hc
            exact mem_snoc.mpr (Or.inl (h.backSome c x hc))
          occ := he.1
          succ := he.2
          src := hsrc
          tails := h.tails
          shared1 := hsh1
          shared2 := hsh2
          prev := by
            intro x hx
            cases hx
            exact ⟨some q, by simp⟩ }
      · next hqp =>
        refine ⟨?_, rfl, rfl⟩
        exact {
          bound := hbound
          heads := by
            intro c
            show ins g.heads b c = true ↔ _
            rw [ins_iff, h.heads]
            simp only [mem_snoc]
            constructor
            · rintro (rfl | hc | ⟨x, y, h1, h2, h3⟩)
              · exact Or.inr ⟨q, p, hqp, Or.inl hqb, Or.inr rfl⟩
              · exact Or.inl (Or.inl hc)
              · exact Or.inr ⟨x, y, h1, Or.inl h2, Or.inl h3⟩
            · rintro ((hc | hc) | ⟨x, y, h1, h2 | h2, h3 | h3⟩)
              · exact Or.inr (Or.inl hc)
              · cases hc
              · exact Or.inr (Or.inr ⟨x, y, h1, h2, h3⟩)
              · cases h3; exact Or.inl rfl
              · cases h2; exact Or.inl rfl
              · cases h2; cases h3; exact absurd rfl h1
          backNone := by
            intro c hc x hm
            rcases mem_snoc.mp hm with hm | hm
            · exact h.backNone c hc x hm
            · cases hm; exact h.backNone b hc q hqb
          backSome := by
            intro c x hc
            exact mem_snoc.mpr (Or.inl (h.backSome c x hc))
          occ := he.1
          succ := he.2
          src := hsrc
          tails := h.tails
          shared1 := by
            intro c hc
            by_cases hh : g.heads b = true
            · have hc : ins (if ns.contains b then ins g.shared b else g.shared) b c = true := by
                simpa [G.visit, G.markHead, hh] using hc
              rcases (ins_iff _ _ _).mp hc with rfl | hc
              · rw [countP_snoc, if_pos rfl]
                have := countP_pos_mem hqb
                omega
              · exact hsh1 c hc
            · have hc : (if ns.contains b then ins g.shared b else g.shared) c = true := by
                simpa [G.visit, G.markHead, hh] using hc
              exact hsh1 c hc
          shared2 := by
            intro o c hc
            have := hsh2 o c hc
            show (if g.heads b = true then ins (if ns.contains b then ins g.shared b else g.shared) b
              else (if ns.contains b then ins g.shared b else g.shared)) c = true
            by_cases hh : g.heads b = true
            · rw [if_pos hh]; exact (ins_iff _ _ _).mpr (Or.inr this)
            · rw [if_neg hh]; exact this
          prev := by
            intro x hx
            cases hx
            exact ⟨some p, by simp⟩ }

theorem nextAll_inv (s : List Nat) : ∀ {g : G} {H : List (Option Nat × Nat)} {E : List Nat}, Inv g H E →
    (∀ b ∈ s, b < g.cap) →
    ∃ g', g.nextAll s = some g' ∧ Inv g' (H ++ recs g.prev s) E ∧ g'.cap = g.cap ∧
      g'.prev = (match s.getLast? with | some x => some x | none => g.prev) := by
  induction s with
  | nil => intro g H E h _; exact ⟨g, rfl, by simpa [recs] using h, rfl, rfl⟩
  | cons b s ih =>
    intro g H E h hb
    obtain ⟨g1, e1, i1, p1, c1⟩ := next_inv h b (hb b (by simp))
    obtain ⟨g2, e2, i2, c2, p2⟩ := ih i1 (fun x hx => by rw [c1]; exact hb x (by simp [hx]))
    refine ⟨g2, by simp [G.nextAll, e1, e2], ?_, by rw [c2, c1], ?_⟩
    · rw [p1] at i2
      simpa [recs] using i2
    · rw [p2, p1]
      cases s with
      | nil => rfl
      | cons c s =>
        rw [List.getLast?_cons_cons, List.getLast?_eq_some_getLast (by simp)]

theorem feed_inv (ss : List (List Nat)) : ∀ {g : G} {H : List (Option Nat × Nat)} {E : List Nat}, Inv g H E →
    (∀ s ∈ ss, ∀ b ∈ s, b < g.cap) →
    ∃ g' E', g.feed ss = some g' ∧ Inv g' (H ++ allRecs ss) E' ∧ g'.cap = g.cap ∧
      E' ++ g'.prev.toList = E ++ g.prev.toList ++ ss.filterMap List.getLast? := by
  induction ss with
  | nil => intro g H E h _; exact ⟨g, E, rfl, by simpa [allRecs] using h, rfl, by simp⟩
  | cons s ss ih =>
    intro g H E h hb
    obtain ⟨i0, p0, c0⟩ := newSeq_inv h
    obtain ⟨g1, e1, i1, c1, p1⟩ := nextAll_inv s i0 (fun b hx => by rw [c0]; exact hb s (by simp) b hx)
    obtain ⟨g2, E', e2, i2, c2, p2⟩ := ih i1 (fun t ht b hx => by rw [c1, c0]; exact hb t (by simp [ht]) b hx)
    refine ⟨g2, E', by simp [G.feed, e1, e2], ?_, by rw [c2, c1, c0], ?_⟩
    · rw [p0] at i2
      simpa [allRecs] using i2
    · rw [p2, p1, p0]
      cases hs : s.getLast? with
      | none => simp [List.filterMap_cons, hs]
      | some x => simp [List.filterMap_cons, hs]

theorem new_inv (cap : Nat) : Inv (G.new cap) [] [] where
  bound := by intro o b h; cases h
  heads := by intro b; simp [G.new]
  backNone := by intro b _ p h; cases h
  backSome := by intro b q h; cases h
  occ := by intro b; simp [G.new]
  succ := by intro b ns h; cases h
  src := by intro a b h; cases h
  tails := by intro b; simp [G.new]
  shared1 := by intro b h; cases h
  shared2 := by intro o b h; simp at h
  prev := by intro p h; cases h

/-! ## Completing heads and tails -/

theorem putAll_spec (ns : List Nat) : ∀ (hs sh : Nat → Bool) (b : Nat),
    ((putAll ns (hs, sh)).1 b = true ↔ hs b = true ∨ b ∈ ns) ∧
    ((putAll ns (hs, sh)).2 b = true ↔ sh b = true ∨ (hs b = true ∧ b ∈ ns) ∨ 2 ≤ ns.count b) := by
  induction ns with
  | nil => intro hs sh b; simp [putAll]
  | cons n ns ih =>
    intro hs sh b
    obtain ⟨h1, h2⟩ := ih (ins hs n) (if hs n then ins sh n else sh) b
    simp only [putAll]
    rw [h1, h2, ins_iff]
    constructor
    · simp only [List.mem_cons]
      constructor
      · rintro ((h | h) | h) <;> simp [h]
      · rintro (h | h | h) <;> simp [h]
    · by_cases hbn : b = n
      · subst hbn
        simp only [List.count_cons_self, List.mem_cons, true_or, and_true]
        have hc : (b ∈ ns) ↔ 1 ≤ ns.count b := by
          rw [← List.count_pos_iff]; exact Iff.rfl
        by_cases hh : hs b = true
        · simp [hh, ins]
        · simp only [hh, Bool.false_eq_true, if_false, false_or, false_and, or_false, true_and]
          rw [hc]
          constructor
          · rintro (h | h | h)
            · exact Or.inl h
            · exact Or.inr (by omega)
            · exact Or.inr (by omega)
          · rintro (h | h)
            · exact Or.inl h
            · exact Or.inr (Or.inl (by omega))
      · have e1 : (if hs n = true then ins sh n else sh) b = sh b := by
          split <;> simp [ins, hbn]
        have e2 : (n :: ns).count b = ns.count b := by
          rw [List.count_cons]; simp [Ne.symm hbn]
        rw [e1, e2]
        simp [hbn]

/-- the gatherer after all sequences, before completion -/
structure Fed (g : G) (seqs : List (List Nat)) : Prop where
  inv : ∃ E, Inv g (allRecs seqs) E ∧ ∀ b, b ∈ E ↔ Ends seqs b

namespace Fed

variable {g : G} {seqs : List (List Nat)}

theorem heads (h : Fed g seqs) (b : Nat) :
    g.heads b = true ↔ Starts seqs b ∨ ∃ p q, p ≠ q ∧ Edge seqs p b ∧ Edge seqs q b := by
  obtain ⟨E, h, -⟩ := h.inv
  rw [h.heads]
  simp only [allRecs_none, allRecs_some]

theorem tails (h : Fed g seqs) (b : Nat) : g.tails b = true ↔ Ends seqs b := by
  obtain ⟨E, h, hE⟩ := h.inv
  rw [h.tails, hE]

theorem bound (h : Fed g seqs) (b : Nat) (ho : Occurs seqs b) : b < g.cap := by
  obtain ⟨E, h, -⟩ := h.inv
  obtain ⟨o, ho⟩ := (allRecs_mem seqs b).mpr ho
  exact h.bound o b ho

theorem entries (h : Fed g seqs) (b : Nat) (ho : Occurs seqs b) :
    ∃ ns, g.entries b = some ns ∧ Inc ns ∧ ∀ c, c ∈ ns ↔ Edge seqs b c := by
  obtain ⟨E, h, -⟩ := h.inv
  obtain ⟨ns, hn⟩ := (h.occ b).mpr ((allRecs_mem seqs b).mpr ho)
  obtain ⟨i1, i2⟩ := h.succ b ns hn
  exact ⟨ns, hn, i1, fun c => by rw [i2, allRecs_some]⟩

theorem entries' (h : Fed g seqs) (b : Nat) (ns : List Nat) (hn : g.entries b = some ns) :
    Occurs seqs b ∧ Inc ns ∧ ∀ c, c ∈ ns ↔ Edge seqs b c := by
  obtain ⟨E, h, -⟩ := h.inv
  obtain ⟨i1, i2⟩ := h.succ b ns hn
  exact ⟨(allRecs_mem seqs b).mp ((h.occ b).mp ⟨ns, hn⟩), i1, fun c => by rw [i2, allRecs_some]⟩

end Fed

theorem edge_occurs {seqs : List (List Nat)} {a b : Nat} (h : Edge seqs a b) : Occurs seqs a ∧ Occurs seqs b := by
  obtain ⟨s, hs, pre, post, rfl⟩ := h
  exact ⟨⟨_, hs, by simp⟩, ⟨_, hs, by simp⟩⟩

theorem starts_occurs {seqs : List (List Nat)} {b : Nat} (h : Starts seqs b) : Occurs seqs b := by
  obtain ⟨s, hs, h⟩ := h
  cases s with
  | nil => cases h
  | cons c s => cases h; exact ⟨_, hs, by simp⟩

theorem ends_occurs {seqs : List (List Nat)} {b : Nat} (h : Ends seqs b) : Occurs seqs b := by
  obtain ⟨s, hs, h⟩ := h
  exact ⟨s, hs, List.mem_of_getLast? h⟩

variable {g : G} {seqs : List (List Nat)}

/-- heads after completion -/
theorem complete_heads (h : Fed g seqs) (b : Nat) :
    g.complete.heads b = true ↔ g.heads b = true ∨ ∃ t, g.complete.tails t = true ∧ Edge seqs t b := by
  show (putAll g.targets (g.heads, g.shared)).1 b = true ↔ _
  rw [(putAll_spec _ _ _ _).1]
  refine or_congr Iff.rfl ?_
  simp only [G.targets, List.mem_flatMap, List.mem_filter, List.mem_range]
  constructor
  · rintro ⟨t, ⟨ht, htt⟩, hm⟩
    cases hn : g.entries t with
    | none => rw [hn] at hm; simp at hm
    | some ns =>
      rw [hn] at hm
      exact ⟨t, htt, ((h.entries' t ns hn).2.2 b).mp hm⟩
  · rintro ⟨t, htt, he⟩
    obtain ⟨ns, hn, -, h3⟩ := h.entries t (edge_occurs he).1
    exact ⟨t, ⟨h.bound t (edge_occurs he).1, htt⟩, by rw [hn]; exact (h3 b).mpr he⟩

theorem mem_targets (h : Fed g seqs) (b : Nat) :
    b ∈ g.targets ↔ ∃ t, g.complete.tails t = true ∧ Edge seqs t b := by
  simp only [G.targets, List.mem_flatMap, List.mem_filter, List.mem_range]
  constructor
  · rintro ⟨t, ⟨ht, htt⟩, hm⟩
    cases hn : g.entries t with
    | none => rw [hn] at hm; simp at hm
    | some ns =>
      rw [hn] at hm
      exact ⟨t, htt, ((h.entries' t ns hn).2.2 b).mp hm⟩
  · rintro ⟨t, htt, he⟩
    obtain ⟨ns, hn, -, h3⟩ := h.entries t (edge_occurs he).1
    exact ⟨t, ⟨h.bound t (edge_occurs he).1, htt⟩, by rw [hn]; exact (h3 b).mpr he⟩

theorem tail_of_head_succ (h : Fed g seqs) {a b : Nat} (he : Edge seqs a b) (hh : g.heads b = true) :
    g.complete.tails a = true := by
  obtain ⟨ns, hn, h1, h2⟩ := h.entries a (edge_occurs he).1
  show (g.tails a || g.extraTail a) = true
  unfold G.extraTail
  rw [hn]
  have hb := (h2 b).mpr he
  cases ns with
  | nil => cases hb
  | cons c ns =>
    cases ns with
    | nil =>
      rw [List.mem_singleton] at hb; subst hb
      simp [hh]
    | cons d ns => simp

/-- what is known of a block that is no tail: it has one successor, everywhere, which is no head -/
theorem link (h : Fed g seqs) {a : Nat} (ho : Occurs seqs a) (ht : g.complete.tails a = false) :
    ∃ c, g.entries a = some [c] ∧ (∀ d, Edge seqs a d ↔ d = c) ∧ ¬ Ends seqs a ∧ g.complete.heads c = false := by
  obtain ⟨ns, hn, h1, h2⟩ := h.entries a ho
  have ht' : (g.tails a || g.extraTail a) = false := ht
  rw [Bool.or_eq_false_iff] at ht'
  obtain ⟨t1, t2⟩ := ht'
  unfold G.extraTail at t2
  rw [hn] at t2
  simp only [Bool.or_eq_false_iff, decide_eq_false_iff_not, ne_eq, Decidable.not_not] at t2
  obtain ⟨t2, t3⟩ := t2
  obtain ⟨c, rfl⟩ := List.length_eq_one_iff.mp t2
  simp only [List.head?_cons] at t3
  have hsucc : ∀ d, Edge seqs a d ↔ d = c := by intro d; rw [← h2]; simp
  refine ⟨c, hn, hsucc, ?_, ?_⟩
  · intro he
    rw [(h.tails a).mpr he] at t1; cases t1
  · cases hc : g.complete.heads c with
    | false => rfl
    | true =>
      exfalso
      rcases (complete_heads h c).mp hc with hc | ⟨t, htt, hte⟩
      · rw [hc] at t3; cases t3
      · have hne : t ≠ a := by rintro rfl; rw [ht] at htt; cases htt
        have := (h.heads c).mpr (Or.inr ⟨t, a, hne, hte, (hsucc c).mpr rfl⟩)
        rw [this] at t3; cases t3

/-- what is known of a block that is no head: it has one predecessor, everywhere, which is no tail -/
theorem notHead (h : Fed g seqs) {b : Nat} (ho : Occurs seqs b) (hh : g.complete.heads b = false) :
    ¬ Starts seqs b ∧ ∃ p, (∀ q, Edge seqs q b ↔ q = p) ∧ g.complete.tails p = false := by
  have hn : g.heads b = false := by
    cases hb : g.heads b with
    | false => rfl
    | true => rw [(complete_heads h b).mpr (Or.inl hb)] at hh; cases hh
  have hns : ¬ Starts seqs b := by
    intro hs
    rw [(h.heads b).mpr (Or.inl hs)] at hn; cases hn
  refine ⟨hns, ?_⟩
  obtain ⟨o, ho⟩ := (allRecs_mem seqs b).mpr ho
  cases o with
  | none => exact absurd ((allRecs_none _ _).mp ho) hns
  | some p =>
    have hp := (allRecs_some _ _ _).mp ho
    refine ⟨p, ?_, ?_⟩
    · intro q
      constructor
      · intro hq
        apply Classical.byContradiction
        intro hne
        rw [(h.heads b).mpr (Or.inr ⟨q, p, hne, hq, hp⟩)] at hn; cases hn
      · rintro rfl; exact hp
    · cases ht : g.complete.tails p with
      | false => rfl
      | true => rw [(complete_heads h b).mpr (Or.inr ⟨p, ht, hp⟩)] at hh; cases hh

/-! ## Extraction -/

/-- consecutive elements are linked -/
def Linked (g : G) (seqs : List (List Nat)) : List Nat → Prop
  | [] => True
  | [_] => True
  | a :: b :: l => g.complete.tails a = false ∧ Edge seqs a b ∧ Linked g seqs (b :: l)

/-- a run that extraction returns for its first block -/
structure IsRun (g : G) (seqs : List (List Nat)) (b : Nat) (r : List Nat) : Prop where
  head : r.head? = some b
  linked : Linked g seqs r
  last : ∀ x, r.getLast? = some x → g.complete.tails x = true
  ext : ∀ fuel, r.length ≤ fuel → g.complete.extract fuel b = some r
  occ : ∀ x ∈ r, Occurs seqs x

theorem extract_along (h : Fed g seqs) {s : List Nat} (hs : s ∈ seqs) (rest : List Nat) : ∀ pre b, s = pre ++ b :: rest →
    ∃ r rest', b :: rest = r ++ rest' ∧ IsRun g seqs b r ∧ ∀ c, rest'.head? = some c → g.complete.heads c = true := by
  induction rest with
  | nil =>
    intro pre b e
    have he : Ends seqs b := ⟨s, hs, by rw [e]; simp⟩
    have ht : g.complete.tails b = true := by
      show (g.tails b || g.extraTail b) = true
      rw [(h.tails b).mpr he]; rfl
    refine ⟨[b], [], rfl, ⟨rfl, trivial, ?_, ?_, ?_⟩, by simp⟩
    · intro x hx; simp at hx; rw [← hx]; exact ht
    · intro fuel hf
      cases fuel with
      | zero => simp at hf
      | succ fuel => simp [G.extract, ht]
    · intro x hx; rw [List.mem_singleton] at hx; subst hx; exact ends_occurs he
  | cons c rest ih =>
    intro pre b e
    have he : Edge seqs b c := ⟨s, hs, pre, rest, e⟩
    have hob := (edge_occurs he).1
    cases ht : g.complete.tails b with
    | true =>
      refine ⟨[b], c :: rest, rfl, ⟨rfl, trivial, ?_, ?_, ?_⟩, ?_⟩
      · intro x hx; simp at hx; rw [← hx]; exact ht
      · intro fuel hf
        cases fuel with
        | zero => simp at hf
        | succ fuel => simp [G.extract, ht]
      · intro x hx; rw [List.mem_singleton] at hx; subst hx; exact hob
      · intro d hd
        cases hd
        exact (complete_heads h c).mpr (Or.inr ⟨b, ht, he⟩)
    | false =>
      obtain ⟨c', hn, hsucc, -, -⟩ := link h hob ht
      have : c = c' := (hsucc c).mp he
      subst this
      obtain ⟨r, rest', e1, hr, hh⟩ := ih (pre ++ [b]) c (by rw [e]; simp)
      have hhead := hr.head
      cases r with
      | nil => cases hhead
      | cons x r =>
        cases hhead
        refine ⟨b :: c :: r, rest', by rw [e1]; rfl, ⟨rfl, ⟨ht, he, hr.linked⟩, ?_, ?_, ?_⟩, hh⟩
        · intro x hx
          rw [List.getLast?_cons_cons] at hx
          exact hr.last x hx
        · intro fuel hf
          cases fuel with
          | zero => simp at hf
          | succ fuel =>
            have := hr.ext fuel (by simp at hf ⊢; omega)
            have hn' : g.complete.entries b = some [c] := hn
            simp [G.extract, ht, hn', this]
        · intro x hx
          rcases List.mem_cons.mp hx with rfl | hx
          · exact hob
          · exact hr.occ x hx

theorem decompose (h : Fed g seqs) {s : List Nat} (hs : s ∈ seqs) (n : Nat) : ∀ rest pre b, rest.length ≤ n →
    s = pre ++ b :: rest → g.complete.heads b = true →
    ∃ rs : List (List Nat), b :: rest = rs.flatten ∧ ∀ r ∈ rs, ∃ x, g.complete.heads x = true ∧ IsRun g seqs x r := by
  induction n with
  | zero =>
    intro rest pre b hl e hh
    obtain ⟨r, rest', e1, hr, -⟩ := extract_along h hs rest pre b e
    have h0 : rest = [] := List.length_eq_zero_iff.mp (by omega)
    subst h0
    have hhead := hr.head
    cases r with
    | nil => cases hhead
    | cons y r =>
      have hr0 : r = [] ∧ rest' = [] := by
        have := congrArg List.length e1
        simp only [List.length_cons, List.length_append, List.length_nil] at this
        exact ⟨List.length_eq_zero_iff.mp (by omega), List.length_eq_zero_iff.mp (by omega)⟩
      obtain ⟨rfl, rfl⟩ := hr0
      refine ⟨[[y]], by simpa using e1, ?_⟩
      intro q hq
      rw [List.mem_singleton] at hq; subst hq
      exact ⟨b, hh, hr⟩
  | succ n ih =>
    intro rest pre b hl e hh
    obtain ⟨r, rest', e1, hr, hnext⟩ := extract_along h hs rest pre b e
    cases rest' with
    | nil =>
      refine ⟨[r], by simpa using e1, ?_⟩
      intro q hq
      rw [List.mem_singleton] at hq; subst hq
      exact ⟨b, hh, hr⟩
    | cons c rest' =>
      have hhead := hr.head
      cases r with
      | nil => cases hhead
      | cons y r =>
        have hlen := congrArg List.length e1
        simp at hlen
        obtain ⟨rs, e2, hrs⟩ := ih rest' (pre ++ y :: r) c (by omega) (by rw [e, e1]; simp) (hnext c rfl)
        refine ⟨(y :: r) :: rs, by rw [e1, e2]; simp, ?_⟩
        intro q hq
        rcases List.mem_cons.mp hq with rfl | hq
        · exact ⟨b, hh, hr⟩
        · exact hrs q hq

/-- position of a block in a run -/
inductive Reach (g : G) (seqs : List (List Nat)) (b : Nat) : Nat → Nat → Prop where
  | zero : Reach g seqs b 0 b
  | succ {i a c} : Reach g seqs b i a → g.complete.tails a = false → Edge seqs a c → Reach g seqs b (i + 1) c

theorem reach_unique (h : Fed g seqs) {b b' : Nat} (hb : g.complete.heads b = true) (hb' : g.complete.heads b' = true)
    {i j x : Nat} (h1 : Reach g seqs b i x) (h2 : Reach g seqs b' j x) : i = j ∧ b = b' := by
  induction h1 generalizing j with
  | zero =>
    cases h2 with
    | zero => exact ⟨rfl, rfl⟩
    | succ _ ht he =>
      obtain ⟨c, -, h4, -, h5⟩ := link h (edge_occurs he).1 ht
      rw [← (h4 _).mp he, hb] at h5; cases h5
  | succ h1 ht he ih =>
    cases h2 with
    | zero =>
      obtain ⟨c, -, h4, -, h5⟩ := link h (edge_occurs he).1 ht
      rw [← (h4 _).mp he, hb'] at h5; cases h5
    | succ h2 ht' he' =>
      obtain ⟨c, -, h4, -, h5⟩ := link h (edge_occurs he).1 ht
      rw [← (h4 _).mp he] at h5
      obtain ⟨-, p, hp, -⟩ := notHead h (edge_occurs he).2 h5
      have e1 := (hp _).mp he
      have e2 := (hp _).mp he'
      obtain ⟨e3, e4⟩ := ih (by rw [e1, ← e2]; exact h2)
      exact ⟨by omega, e4⟩

theorem linked_reach {b : Nat} : ∀ (l : List Nat) (k : Nat) (y : Nat), Reach g seqs b k y → Linked g seqs (y :: l) →
    ∀ i (hi : i < (y :: l).length), Reach g seqs b (k + i) ((y :: l)[i]) := by
  intro l
  induction l with
  | nil =>
    intro k y hy _ i hi
    simp at hi; subst hi
    exact hy
  | cons c l ih =>
    intro k y hy hl i hi
    cases i with
    | zero => exact hy
    | succ i =>
      have := ih (k + 1) c (.succ hy hl.1 hl.2.1) hl.2.2 i (by simp at hi ⊢; omega)
      rw [show k + (i + 1) = k + 1 + i by omega]
      simpa using this

theorem run_reach {b : Nat} {r : List Nat} (hr : IsRun g seqs b r) (i : Nat) (hi : i < r.length) :
    Reach g seqs b i r[i] := by
  have hh := hr.head
  cases r with
  | nil => cases hh
  | cons y l =>
    cases hh
    have := linked_reach l 0 b .zero hr.linked i hi
    rw [Nat.zero_add] at this
    exact this

theorem run_nodup (h : Fed g seqs) {b : Nat} {r : List Nat} (hb : g.complete.heads b = true) (hr : IsRun g seqs b r) :
    r.Nodup := by
  refine List.pairwise_iff_getElem.mpr ?_
  intro i j hi hj hij he
  have h1 := run_reach hr i hi
  have h2 := run_reach hr j hj
  rw [he] at h1
  have := (reach_unique h hb hb h1 h2).1
  omega

theorem run_disjoint (h : Fed g seqs) {b b' : Nat} {r r' : List Nat} (hb : g.complete.heads b = true)
    (hb' : g.complete.heads b' = true) (hr : IsRun g seqs b r) (hr' : IsRun g seqs b' r') (x : Nat) (hx : x ∈ r)
    (hx' : x ∈ r') : b = b' := by
  obtain ⟨i, hi, ei⟩ := List.mem_iff_getElem.mp hx
  obtain ⟨j, hj, ej⟩ := List.mem_iff_getElem.mp hx'
  have h1 := run_reach hr i hi
  have h2 := run_reach hr' j hj
  rw [ei] at h1
  rw [ej] at h2
  exact (reach_unique h hb hb' h1 h2).2

theorem head_occurs (h : Fed g seqs) {b : Nat} (hb : g.complete.heads b = true) : Occurs seqs b := by
  rcases (complete_heads h b).mp hb with hb | ⟨t, -, he⟩
  · rcases (h.heads b).mp hb with hs | ⟨p, q, -, he, -⟩
    · exact starts_occurs hs
    · exact (edge_occurs he).2
  · exact (edge_occurs he).2

/-- every head has a run, found within `cap` rounds -/
theorem head_run (h : Fed g seqs) {b : Nat} (hb : g.complete.heads b = true) :
    ∃ r, IsRun g seqs b r ∧ g.complete.extract g.cap b = some r := by
  obtain ⟨s, hs, hm⟩ := head_occurs h hb
  obtain ⟨pre, post, e⟩ := List.append_of_mem hm
  obtain ⟨r, rest', -, hr, -⟩ := extract_along h hs post pre b e
  refine ⟨r, hr, hr.ext _ ?_⟩
  have hsub : r ⊆ List.range g.cap := by
    intro x hx
    exact List.mem_range.mpr (h.bound x (hr.occ x hx))
  have := (run_nodup h hb hr).length_le_of_subset hsub
  simpa using this

theorem run_unique {b : Nat} {r r' : List Nat} (hr : IsRun g seqs b r) (hr' : IsRun g seqs b r') : r = r' := by
  have h1 := hr.ext (max r.length r'.length) (by omega)
  have h2 := hr'.ext (max r.length r'.length) (by omega)
  rw [h1] at h2
  exact Option.some.inj h2

/-! ## Counting -/

theorem count_linked_list {a b : Nat} (s : List Nat) (hlast : s.getLast? ≠ some a)
    (hadj : ∀ pre x y post, s = pre ++ x :: y :: post → (x = a ↔ y = b)) :
    s.count b = s.count a + (if s.head? = some b then 1 else 0) := by
  induction s with
  | nil => simp
  | cons x s ih =>
    cases s with
    | nil =>
      have : x ≠ a := by simpa using hlast
      simp [List.count_cons, this]
    | cons y s =>
      have ih := ih (by simpa using hlast) (by
        intro pre u v post e
        exact hadj (x :: pre) u v post (by rw [e]; rfl))
      have hxy := hadj [] x y s rfl
      have hA : (x :: y :: s).count a = (y :: s).count a + if x = a then 1 else 0 := by
        rw [List.count_cons]; simp
      have hB : (x :: y :: s).count b = (y :: s).count b + if x = b then 1 else 0 := by
        rw [List.count_cons]; simp
      rw [hA, hB, ih]
      simp only [List.head?_cons, Option.some.injEq]
      by_cases h1 : x = a
      · have h2 := hxy.mp h1
        rw [if_pos h2, if_pos h1]
      · have h2 : y ≠ b := fun h => h1 (hxy.mpr h)
        rw [if_neg h2, if_neg h1]

theorem count_link (h : Fed g seqs) {a b : Nat} (he : Edge seqs a b) (ht : g.complete.tails a = false) :
    seqs.flatten.count a = seqs.flatten.count b := by
  obtain ⟨c, -, h4, h6, h5⟩ := link h (edge_occurs he).1 ht
  have hbc := (h4 b).mp he
  subst hbc
  obtain ⟨hns, p, hp, -⟩ := notHead h (edge_occurs he).2 h5
  have hpa := (hp a).mp he
  subst hpa
  have key : ∀ l : List (List Nat), (∀ s ∈ l, s ∈ seqs) → l.flatten.count a = l.flatten.count b := by
    intro l
    induction l with
    | nil => intro _; rfl
    | cons s l ih =>
      intro hl
      have ih := ih (fun x hx => hl x (by simp [hx]))
      have hs := hl s (by simp)
      have := count_linked_list (a := a) (b := b) s (fun e => h6 ⟨s, hs, e⟩) (by
        intro pre x y post e
        have hxy : Edge seqs x y := ⟨s, hs, pre, post, e⟩
        constructor
        · rintro rfl; exact (h4 y).mp hxy
        · rintro rfl; exact (hp x).mp hxy)
      rw [if_neg (fun e => hns ⟨s, hs, e⟩)] at this
      simp only [List.flatten_cons, List.count_append]
      omega
  exact key seqs (fun s hs => hs)

theorem count_reach (h : Fed g seqs) {b i x : Nat} (hr : Reach g seqs b i x) :
    seqs.flatten.count x = seqs.flatten.count b := by
  induction hr with
  | zero => rfl
  | succ _ ht he ih => rw [← ih, count_link h he ht]

theorem two_le_countP_iff (H : List (Option Nat × Nat)) (b : Nat) (h : 2 ≤ H.countP (fun r => r.2 == b)) :
    (∃ o, 2 ≤ H.count (o, b)) ∨ ∃ o o', o ≠ o' ∧ (o, b) ∈ H ∧ (o', b) ∈ H := by
  obtain ⟨⟨o, c⟩, hm, hc⟩ := List.countP_pos_iff (p := fun r : Option Nat × Nat => r.2 == b) (l := H).mp (by omega)
  have hc : c = b := by simpa using hc
  subst hc
  by_cases hall : ∀ o', (o', c) ∈ H → o' = o
  · left
    refine ⟨o, ?_⟩
    have : H.countP (fun r => r.2 == c) = H.count (o, c) := by
      unfold List.count
      apply List.countP_congr
      rintro ⟨o', d⟩ hx
      simp only [beq_iff_eq, Prod.mk.injEq]
      constructor
      · rintro rfl; exact ⟨hall o' hx, rfl⟩
      · rintro ⟨-, rfl⟩; rfl
    omega
  · right
    simp only [Classical.not_forall] at hall
    obtain ⟨o', h1, h2⟩ := hall
    exact ⟨o', o, h2, h1, hm⟩

theorem count_two {H : List (Option Nat × Nat)} {o o' : Option Nat} {b : Nat} (hne : o ≠ o') (h1 : (o, b) ∈ H)
    (h2 : (o', b) ∈ H) : 2 ≤ H.countP (fun r => r.2 == b) := by
  have key : H.count (o, b) + H.count (o', b) ≤ H.countP (fun r => r.2 == b) := by
    clear h1 h2
    induction H with
    | nil => simp
    | cons r H ih =>
      obtain ⟨p, c⟩ := r
      simp only [List.count_cons, List.countP_cons, beq_iff_eq, Prod.mk.injEq]
      by_cases hc : c = b
      · by_cases hp : p = o
        · have : ¬ p = o' := fun h => hne (hp.symm.trans h)
          simp only [hc, hp, hne, and_true, if_true, if_false]
          omega
        · simp only [hc, hp, and_true, if_true, if_false]
          split <;> omega
      · simp only [hc, and_false, if_false]
        omega
  have e1 := List.count_pos_iff.mpr h1
  have e2 := List.count_pos_iff.mpr h2
  omega

theorem count_flatMap_two {l : List Nat} {f : Nat → List Nat} {b : Nat} (hl : l.Nodup) (hf : ∀ t ∈ l, (f t).Nodup)
    (h : 2 ≤ (l.flatMap f).count b) : ∃ t ∈ l, ∃ u ∈ l, t ≠ u ∧ b ∈ f t ∧ b ∈ f u := by
  apply Classical.byContradiction
  intro hno
  have hnd : ∀ l' : List Nat, l'.Nodup → (∀ t ∈ l', t ∈ l) → (l'.flatMap f).count b ≤ 1 := by
    intro l'
    induction l' with
    | nil => intro _ _; simp
    | cons t l' ih =>
      intro hn hsub
      have ⟨hn1, hn2⟩ := List.nodup_cons.mp hn
      have ih := ih hn2 (fun x hx => hsub x (by simp [hx]))
      have ht := List.nodup_iff_count.mp (hf t (hsub t (by simp))) b
      simp only [List.flatMap_cons, List.count_append]
      by_cases hbt : b ∈ f t
      · have : b ∉ l'.flatMap f := by
          intro hm
          obtain ⟨u, hu, hbu⟩ := List.mem_flatMap.mp hm
          exact hno ⟨t, hsub t (by simp), u, hsub u (by simp [hu]), fun e => hn1 (e ▸ hu), hbt, hbu⟩
        rw [List.count_eq_zero.mpr this]; omega
      · rw [List.count_eq_zero.mpr hbt]; omega
  have := hnd l hl (fun t ht => ht)
  omega

/-- a head is marked shared exactly if it occurs at least twice -/
theorem shared_iff (h : Fed g seqs) {b : Nat} :
    g.complete.shared b = true ↔ 2 ≤ seqs.flatten.count b := by
  rw [← allRecs_count]
  show (putAll g.targets (g.heads, g.shared)).2 b = true ↔ _
  rw [(putAll_spec _ _ _ _).2]
  constructor
  · rintro (hs | ⟨hh, ht⟩ | hc)
    · obtain ⟨E, hi, -⟩ := h.inv
      exact hi.shared1 b hs
    · obtain ⟨t, htt, hte⟩ := (mem_targets h b).mp ht
      rcases (h.heads b).mp hh with hst | ⟨p, q, hne, hp, hq⟩
      · exact count_two (o := none) (o' := some t) (by simp) ((allRecs_none _ _).mpr hst) ((allRecs_some _ _ _).mpr hte)
      · exact count_two (o := some p) (o' := some q) (by simpa using hne) ((allRecs_some _ _ _).mpr hp)
          ((allRecs_some _ _ _).mpr hq)
    · have hmem : ∀ t, b ∈ (g.entries t).getD [] → Edge seqs t b := by
        intro t hm
        cases hn : g.entries t with
        | none => rw [hn] at hm; simp at hm
        | some ns => rw [hn] at hm; exact ((h.entries' t ns hn).2.2 b).mp hm
      obtain ⟨t, -, u, -, hne, h1, h2⟩ := count_flatMap_two (List.nodup_range.filter _) (by
        intro t _
        cases hn : g.entries t with
        | none => simp
        | some ns => exact inc_nodup (h.entries' t ns hn).2.1) hc
      exact count_two (o := some t) (o' := some u) (by simpa using hne) ((allRecs_some _ _ _).mpr (hmem t h1))
        ((allRecs_some _ _ _).mpr (hmem u h2))
  · intro hc
    obtain ⟨E, hi, -⟩ := h.inv
    rcases two_le_countP_iff _ _ hc with ⟨o, ho⟩ | ⟨o, o', hne, h1, h2⟩
    · exact Or.inl (hi.shared2 o b ho)
    · refine Or.inr (Or.inl ?_)
      -- one of the records is an edge
      have : g.heads b = true ∧ ∃ t, Edge seqs t b := by
        cases o with
        | none =>
          cases o' with
          | none => exact absurd rfl hne
          | some q => exact ⟨(h.heads b).mpr (Or.inl ((allRecs_none _ _).mp h1)), q, (allRecs_some _ _ _).mp h2⟩
        | some p =>
          cases o' with
          | none => exact ⟨(h.heads b).mpr (Or.inl ((allRecs_none _ _).mp h2)), p, (allRecs_some _ _ _).mp h1⟩
          | some q =>
            exact ⟨(h.heads b).mpr (Or.inr ⟨p, q, fun e => hne (by rw [e]), (allRecs_some _ _ _).mp h1,
              (allRecs_some _ _ _).mp h2⟩), p, (allRecs_some _ _ _).mp h1⟩
      obtain ⟨hh, t, he⟩ := this
      exact ⟨hh, (mem_targets h b).mpr ⟨t, tail_of_head_succ h he hh, he⟩⟩

/-! ## Together -/

theorem together_of_link (h : Fed g seqs) {a b : Nat} (he : Edge seqs a b) (ht : g.complete.tails a = false) :
    Together seqs a b := by
  obtain ⟨c, -, h4, h6, h5⟩ := link h (edge_occurs he).1 ht
  have hbc := (h4 b).mp he
  subst hbc
  obtain ⟨hns, p, hp, -⟩ := notHead h (edge_occurs he).2 h5
  have hpa := (hp a).mp he
  subst hpa
  constructor
  · intro s hs pre post e
    cases post with
    | nil => exact absurd ⟨s, hs, by rw [e]; simp⟩ h6
    | cons d post =>
      have := (h4 d).mp ⟨s, hs, pre, post, e⟩
      rw [this]; rfl
  · intro s hs pre post e
    rcases List.eq_nil_or_concat pre with rfl | ⟨pre', d, rfl⟩
    · exact absurd ⟨s, hs, by rw [e]; rfl⟩ hns
    · have := (hp d).mp ⟨s, hs, pre', post, by rw [e]; simp⟩
      rw [this]; simp

theorem not_together (h : Fed g seqs) {x y : Nat} (hx : Occurs seqs x) (ht : g.complete.tails x = true) :
    ¬ Together seqs x y := by
  rintro ⟨h1, h2⟩
  -- `x` ends no sequence and has the one successor `y`
  have hne : ¬ Ends seqs x := by
    rintro ⟨s, hs, hl⟩
    obtain ⟨pre, e⟩ := List.getLast?_eq_some_iff.mp hl
    have := h1 s hs pre [] e
    cases this
  have hsucc : ∀ d, Edge seqs x d → d = y := by
    rintro d ⟨s, hs, pre, post, e⟩
    have := h1 s hs pre (d :: post) e
    simpa using this
  have hpred : ∀ p, Edge seqs p y → p = x := by
    rintro p ⟨s, hs, pre, post, e⟩
    have := h2 s hs (pre ++ [p]) post (by rw [e]; simp)
    simpa using this
  have hex : Edge seqs x y := by
    obtain ⟨s, hs, hm⟩ := hx
    obtain ⟨pre, post, e⟩ := List.append_of_mem hm
    have := h1 s hs pre post e
    cases post with
    | nil => cases this
    | cons d post => cases this; exact ⟨s, hs, pre, post, e⟩
  have hnst : ¬ Starts seqs y := by
    rintro ⟨s, hs, hh⟩
    cases s with
    | nil => cases hh
    | cons c s =>
      cases hh
      have := h2 _ hs [] s rfl
      cases this
  have hnh : g.heads y = false := by
    cases hy : g.heads y with
    | false => rfl
    | true =>
      exfalso
      rcases (h.heads y).mp hy with hs | ⟨p, q, hpq, hp, hq⟩
      · exact hnst hs
      · exact hpq ((hpred p hp).trans (hpred q hq).symm)
  obtain ⟨ns, hn, hinc, hmem⟩ := h.entries x hx
  have hns : ns = [y] := by
    cases ns with
    | nil => exact absurd ((hmem y).mpr hex) (by simp)
    | cons c ns =>
      have hc := hsucc c ((hmem c).mp (by simp))
      subst hc
      cases ns with
      | nil => rfl
      | cons d ns =>
        have hd := hsucc d ((hmem d).mp (by simp))
        subst hd
        exact absurd hinc.1 (Nat.lt_irrefl _)
  have ht' : (g.tails x || g.extraTail x) = true := ht
  rw [Bool.or_eq_true] at ht'
  rcases ht' with ht' | ht'
  · exact hne ((h.tails x).mp ht')
  · unfold G.extraTail at ht'
    rw [hn, hns] at ht'
    simp [hnh] at ht'

/-! ## Main theorem -/

/-- two lists related element by element -/
inductive All2 {α β : Type} (P : α → β → Prop) : List α → List β → Prop where
  | nil : All2 P [] []
  | cons {a b l m} : P a b → All2 P l m → All2 P (a :: l) (b :: m)

theorem collect_spec {α β : Type} (f : α → Option β) (P : α → β → Prop) (l : List α)
    (h : ∀ a ∈ l, ∃ x, f a = some x ∧ P a x) :
    ∃ xs, collect f l = some xs ∧ All2 P l xs := by
  induction l with
  | nil => exact ⟨[], rfl, .nil⟩
  | cons a l ih =>
    obtain ⟨x, e1, hx⟩ := h a (by simp)
    obtain ⟨xs, e2, hxs⟩ := ih (fun b hb => h b (by simp [hb]))
    exact ⟨x :: xs, by simp [collect, e1, e2], .cons hx hxs⟩

theorem feed_fed (cap : Nat) (seqs : List (List Nat)) (hb : ∀ s ∈ seqs, ∀ b ∈ s, b < cap) :
    ∃ g, (G.new cap).feed seqs = some g ∧ Fed g.newSeq seqs ∧ g.newSeq.cap = cap := by
  obtain ⟨g, E, e, hi, hc, hE⟩ := feed_inv seqs (new_inv cap) hb
  obtain ⟨i0, -, c0⟩ := newSeq_inv hi
  refine ⟨g, e, ⟨⟨_, by simpa using i0, ?_⟩⟩, by rw [c0, hc]; rfl⟩
  intro b
  rw [hE]
  simp only [G.new, Option.toList, List.append_nil, List.nil_append, List.mem_filterMap, Ends]

/-- C22.  For any sequences of block numbers (with repetitions, in any order, shared or not) gathering succeeds, and the
runs it returns
* are not empty, are sorted by their first block, and contain each block at most once in total;
* give back every sequence by concatenation;
* keep together exactly what the sequences keep together: neighbours inside a run always occur next to each other, and
  no two runs could be joined;
* are marked shared exactly if their blocks occur more than once, and all blocks of a run occur equally often. -/
theorem gather_correct (cap : Nat) (seqs : List (List Nat)) (hb : ∀ s ∈ seqs, ∀ b ∈ s, b < cap) :
    ∃ out, gatherAll cap seqs = some out ∧
      (∀ r ∈ out, r.1 ≠ []) ∧
      (out.map Prod.fst).flatten.Nodup ∧
      (out.map fun r => r.1.head?).Pairwise (fun a b => ∀ x y, a = some x → b = some y → x < y) ∧
      (∀ s ∈ seqs, ∃ rs : List (List Nat), s = rs.flatten ∧ ∀ r ∈ rs, r ∈ out.map Prod.fst) ∧
      (∀ r ∈ out, ∀ pre x y post, r.1 = pre ++ x :: y :: post → Together seqs x y) ∧
      (∀ r ∈ out, ∀ r' ∈ out, ∀ x y, r.1.getLast? = some x → r'.1.head? = some y → ¬ Together seqs x y) ∧
      (∀ r ∈ out, ∀ b ∈ r.1, (r.2 = true ↔ 2 ≤ seqs.flatten.count b) ∧ 1 ≤ seqs.flatten.count b ∧
        ∀ c ∈ r.1, seqs.flatten.count b = seqs.flatten.count c) := by
  obtain ⟨g0, e0, hf, hcap⟩ := feed_fed cap seqs hb
  generalize hg : g0.newSeq = g at hf hcap
  have hcc : g.complete.cap = g.cap := rfl
  obtain ⟨out, e1, hout⟩ := collect_spec
    (fun b => (g.complete.extract g.cap b).map fun r => (r, g.complete.shared b))
    (fun b (x : List Nat × Bool) => g.complete.heads b = true ∧ IsRun g seqs b x.1 ∧ x.2 = g.complete.shared b)
    ((List.range g.cap).filter g.complete.heads) (by
      intro b hbm
      have hh := (List.mem_filter.mp hbm).2
      obtain ⟨r, hr, he⟩ := head_run hf hh
      exact ⟨(r, g.complete.shared b), by simp [he], hh, hr, rfl⟩)
  have hmem : ∀ r ∈ out, ∃ b, g.complete.heads b = true ∧ IsRun g seqs b r.1 ∧ r.2 = g.complete.shared b := by
    intro r hr
    have : ∀ (l : List Nat) (xs : List (List Nat × Bool)),
        All2 (fun b (x : List Nat × Bool) => g.complete.heads b = true ∧ IsRun g seqs b x.1 ∧
          x.2 = g.complete.shared b) l xs → r ∈ xs →
        ∃ b, g.complete.heads b = true ∧ IsRun g seqs b r.1 ∧ r.2 = g.complete.shared b := by
      intro l xs h2
      induction h2 with
      | nil => intro h; cases h
      | cons hx _ ih =>
        intro h
        rcases List.mem_cons.mp h with rfl | h
        · exact ⟨_, hx⟩
        · exact ih h
    exact this _ _ hout hr
  have hmem' : ∀ b, g.complete.heads b = true → ∃ r ∈ out, IsRun g seqs b r.1 := by
    intro b hh
    have hbl : b ∈ (List.range g.cap).filter g.complete.heads :=
      List.mem_filter.mpr ⟨List.mem_range.mpr (hf.bound b (head_occurs hf hh)), hh⟩
    have : ∀ (l : List Nat) (xs : List (List Nat × Bool)),
        All2 (fun b (x : List Nat × Bool) => g.complete.heads b = true ∧ IsRun g seqs b x.1 ∧
          x.2 = g.complete.shared b) l xs → b ∈ l → ∃ r ∈ xs, IsRun g seqs b r.1 := by
      intro l xs h2
      induction h2 with
      | nil => intro h; cases h
      | cons hx _ ih =>
        intro h
        rcases List.mem_cons.mp h with rfl | h
        · exact ⟨_, by simp, hx.2.1⟩
        · obtain ⟨r, hr, h⟩ := ih h
          exact ⟨r, by simp [hr], h⟩
    exact this _ _ hout hbl
  have hpair : out.Pairwise (fun r r' => ∀ x y, r.1.head? = some x → r'.1.head? = some y → x < y) := by
    have hsorted : ((List.range g.cap).filter g.complete.heads).Pairwise (· < ·) :=
      List.Pairwise.filter _ List.pairwise_lt_range
    revert hsorted hout
    generalize (List.range g.cap).filter g.complete.heads = l
    intro hout hsorted
    clear e1 hmem hmem'
    induction hout with
    | nil => exact List.Pairwise.nil
    | cons hx hxs ih =>
      rename_i a x l xs
      have ⟨s1, s2⟩ := List.pairwise_cons.mp hsorted
      refine List.Pairwise.cons ?_ (ih s2)
      intro r hr u v hu hv
      rw [hx.2.1.head] at hu
      cases hu
      have : ∀ (l : List Nat) (xs : List (List Nat × Bool)),
          All2 (fun b (x : List Nat × Bool) => g.complete.heads b = true ∧ IsRun g seqs b x.1 ∧
            x.2 = g.complete.shared b) l xs → r ∈ xs → v ∈ l := by
        intro l xs h2
        induction h2 with
        | nil => intro h; cases h
        | cons hx _ ih =>
          intro h
          rcases List.mem_cons.mp h with rfl | h
          · rw [hx.2.1.head] at hv; cases hv; simp
          · simp [ih h]
      exact s1 v (this _ _ hxs hr)
  refine ⟨out, ?_, ?_, ?_, ?_, ?_, ?_, ?_, ?_⟩
  · unfold gatherAll
    rw [e0]
    show g0.gather = some out
    unfold G.gather
    simp only [hg]
    exact e1
  · intro r hr he
    obtain ⟨b, -, h2, -⟩ := hmem r hr
    have := h2.head
    rw [he] at this; cases this
  · refine List.pairwise_flatten.mpr ⟨?_, ?_⟩
    · intro l hl
      obtain ⟨r, hr, rfl⟩ := List.mem_map.mp hl
      obtain ⟨b, h1, h2, -⟩ := hmem r hr
      exact run_nodup hf h1 h2
    · rw [List.pairwise_map]
      refine List.Pairwise.imp_of_mem ?_ hpair
      intro r r' hr hr' hlt x hx y hy hxy
      subst hxy
      obtain ⟨b, h1, h2, -⟩ := hmem r hr
      obtain ⟨b', h1', h2', -⟩ := hmem r' hr'
      have he := run_disjoint hf h1 h1' h2 h2' x hx hy
      have := hlt b b' h2.head h2'.head
      omega
  · rw [List.pairwise_map]
    exact hpair
  · intro s hs
    cases s with
    | nil => exact ⟨[], rfl, by simp⟩
    | cons b rest =>
      have hst : Starts seqs b := ⟨_, hs, rfl⟩
      have hh : g.complete.heads b = true :=
        (complete_heads hf b).mpr (Or.inl ((hf.heads b).mpr (Or.inl hst)))
      obtain ⟨rs, e2, hrs⟩ := decompose hf hs rest.length rest [] b (Nat.le_refl _) rfl hh
      refine ⟨rs, e2, ?_⟩
      intro r hr
      obtain ⟨x, h1, h2⟩ := hrs r hr
      obtain ⟨r', hr', h3⟩ := hmem' x h1
      rw [run_unique h2 h3]
      exact List.mem_map.mpr ⟨r', hr', rfl⟩
  · intro r hr pre x y post e
    obtain ⟨b, -, h2, -⟩ := hmem r hr
    have hl := h2.linked
    rw [e] at hl
    have : ∀ pre, Linked g seqs (pre ++ x :: y :: post) → g.complete.tails x = false ∧ Edge seqs x y := by
      intro pre
      induction pre with
      | nil => intro h; exact ⟨h.1, h.2.1⟩
      | cons c pre ih =>
        intro h
        cases pre with
        | nil => exact ih h.2.2
        | cons d pre => exact ih h.2.2
    obtain ⟨t1, t2⟩ := this pre hl
    exact together_of_link hf t2 t1
  · intro r hr r' hr' x y hx hy
    obtain ⟨b, -, h2, -⟩ := hmem r hr
    exact not_together hf (h2.occ x (List.mem_of_getLast? hx)) (h2.last x hx)
  · intro r hr b hbr
    obtain ⟨a, h1, h2, h3⟩ := hmem r hr
    have hcount : ∀ x ∈ r.1, seqs.flatten.count x = seqs.flatten.count a := by
      intro x hx
      obtain ⟨i, hi, ei⟩ := List.mem_iff_getElem.mp hx
      have := run_reach h2 i hi
      rw [ei] at this
      exact count_reach hf this
    refine ⟨?_, ?_, ?_⟩
    · rw [h3, shared_iff hf, hcount b hbr]
    · obtain ⟨s, hs, hm⟩ := h2.occ b hbr
      exact List.count_pos_iff.mpr (List.mem_flatten.mpr ⟨s, hs, hm⟩)
    · intro c hc
      rw [hcount b hbr, hcount c hc]

/-- blocks outside the capacity are refused -/
example : gatherAll 3 [[1, 5]] = none := by decide

example : gatherAll 10 [[1, 2, 3, 4], [2, 3, 4, 5, 6], [3, 4], [5, 6]] =
    some [([1], false), ([2], true), ([3, 4], true), ([5, 6], true)] := by decide

example : gatherAll 10 [[1, 2, 1, 2], [3]] = some [([1, 2], true), ([3], false)] := by decide

end Verif.Gather
