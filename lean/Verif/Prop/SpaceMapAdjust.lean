import Verif.Prop.SpaceMapMeta

/-!
# C19 for the metadata space map: the correction of the bitmaps, and the result
-/

namespace Verif.SMD

open Verif.Bld (St Err NB NIO NodeRec Post Inv Sorted Result RootFilled Summary)
open Verif.BT (Blk Tree)
open Verif.Arr (divUp)

/-! ## One bitmap -/

theorem setOnes_length (n : Nat) : ∀ (a : Nat) (es : List BE), (setOnes n a es).length = es.length := by
  induction n with
  | zero => intro a es; rfl
  | succ n ih => intro a es; rw [setOnes, ih]; simp

theorem setOnes_get (n : Nat) : ∀ (a : Nat) (es : List BE) (i : Nat), i < es.length →
    (setOnes n a es)[i]? = if a ≤ i ∧ i < a + n then some (.small 1) else es[i]? := by
  induction n with
  | zero => intro a es i _; rw [if_neg (by omega)]; rfl
  | succ n ih =>
    intro a es i hi
    rw [setOnes, ih (a + 1) _ i (by simpa using hi)]
    by_cases h1 : i = a
    · subst h1
      rw [if_neg (by omega), if_pos (by omega), List.getElem?_set_self hi]
    · rw [List.getElem?_set_ne (Ne.symm h1)]
      by_cases h2 : a + 1 ≤ i ∧ i < a + 1 + n
      · rw [if_pos h2, if_pos (by omega)]
      · rw [if_neg h2, if_neg (by omega)]

theorem setOnes_free (n : Nat) : ∀ (a : Nat) (es : List BE), (∀ i, a ≤ i → i < a + n → es[i]? = some (.small 0)) →
    free (setOnes n a es) = free es - n ∧ n ≤ free es := by
  induction n with
  | zero => intro a es _; exact ⟨rfl, Nat.zero_le _⟩
  | succ n ih =>
    intro a es h
    have hz := h a (by omega) (by omega)
    have := ih (a + 1) (es.set a (.small 1)) (by
      intro i h1 h2
      rw [List.getElem?_set_ne (by omega)]
      exact h i (by omega) (by omega))
    rw [free_set_used hz (by simp)] at this
    have := free_pos hz
    rw [setOnes]
    omega

theorem bumpFree_eq (n : Nat) : ∀ (a f : Nat), bumpFree n a f = if a ≤ f ∧ f < a + n then a + n else f := by
  induction n with
  | zero => intro a f; rw [if_neg (by omega)]; rfl
  | succ n ih =>
    intro a f
    rw [bumpFree, ih]
    by_cases h : f = a
    · subst h
      rw [if_pos rfl, if_pos (show f ≤ f ∧ f < f + (n + 1) by omega)]
      split <;> omega
    · rw [if_neg h]
      by_cases h2 : a + 1 ≤ f ∧ f < a + 1 + n
      · rw [if_pos h2, if_pos (by omega)]; omega
      · rw [if_neg h2, if_neg (by omega)]

/-- an index entry and its bitmap -/
abbrev V := IndexEntry × List BE

/-- the bitmap `j` changes to `v'`: the blocks in `X` are used now -/
structure AdjRow (epb : Nat) (X : Nat → Bool) (j : Nat) (v v' : V) : Prop where
  blk : v'.1.blocknr = v.1.blocknr
  len : v'.2.length = v.2.length
  ent : ∀ i, i < epb → v'.2[i]? = if X (j * epb + i) then some (.small 1) else v.2[i]?
  first : (∀ i, i < v.1.none_free_before → v.2[i]? ≠ some (.small 0)) → ∀ i, i < v'.1.none_free_before → v'.2[i]? ≠ some (.small 0)
  nr : (∀ i, i < epb → X (j * epb + i) → v.2[i]? = some (.small 0)) → v.1.nr_free = free v.2 → v'.1.nr_free = free v'.2

theorem le_window {epb s j i : Nat} (hi : i < epb) : s ≤ j * epb + i ↔ s / epb < j ∨ (s / epb = j ∧ s % epb ≤ i) := by
  have he : 0 < epb := by omega
  have h1 := Nat.div_add_mod s epb
  have h2 := Nat.mod_lt s he
  rw [Nat.mul_comm] at h1
  rcases Nat.lt_trichotomy (s / epb) j with h | h | h
  · have : (s / epb + 1) * epb ≤ j * epb := Nat.mul_le_mul_right _ h
    rw [Nat.succ_mul] at this
    constructor
    · intro _; exact .inl h
    · intro _; omega
  · constructor
    · intro h3; right; refine ⟨h, ?_⟩; rw [h] at h1; omega
    · rintro (h3 | ⟨-, h3⟩)
      · omega
      · rw [h] at h1; omega
  · have : (j + 1) * epb ≤ s / epb * epb := Nat.mul_le_mul_right _ h
    rw [Nat.succ_mul] at this
    constructor
    · intro _; omega
    · rintro (h3 | ⟨h3, -⟩) <;> omega

/-- the blocks of a range, as `write_metadata_sm` cuts it at bitmap boundaries -/
def inRange (r : Nat × Nat) (x : Nat) : Bool := decide (r.1 ≤ x ∧ x < r.2)

/-- the state after some bitmaps are rewritten -/
structure Same (S S' : SSt) : Prop where
  sm : S'.bt.sm = S.bt.sm
  mem : S'.bt.mem = S.bt.mem
  log : S'.bt.log = S.bt.log

theorem Same.refl (S : SSt) : Same S S := ⟨rfl, rfl, rfl⟩

theorem Same.trans {S T U : SSt} (h : Same S T) (k : Same T U) : Same S U :=
  ⟨k.sm.trans h.sm, k.mem.trans h.mem, k.log.trans h.log⟩

theorem adjustCounts_post {epb j : Nat} (he : 0 < epb) (hE : epb < 2 ^ 32) {r : Nat × Nat} (hr : r.1 ≤ r.2) {v : V} {S : SSt} (hv : S.readBm v.1.blocknr = some v.2)
    (hl : v.2.length = epb) (h1 : r.1 / epb ≤ j) (h2 : j < r.2 / epb + 1) :
    Post (adjustCounts epb v.1 (if j = r.1 / epb then r.1 % epb else 0) (if j = r.2 / epb + 1 - 1 then r.2 % epb else epb) S)
      (fun x => ∃ v' : V, v'.1 = x.1 ∧ x.2.readBm x.1.blocknr = some v'.2 ∧ AdjRow epb (inRange r) j v v' ∧ Same S x.2 ∧
        ∀ b, b ≠ v.1.blocknr → x.2.readBm b = S.readBm b ∧ x.2.bm b = S.bm b) := by
  generalize hb : (if j = r.1 / epb then r.1 % epb else 0) = b0
  generalize hf : (if j = r.2 / epb + 1 - 1 then r.2 % epb else epb) = e0
  have hnone : S.bt.mem v.1.blocknr = none := by
    unfold SSt.readBm at hv
    split at hv
    · assumption
    · cases hv
  have hw : ∀ i, i < epb → (inRange r (j * epb + i) = true ↔ b0 ≤ i ∧ i < b0 + (e0 - b0)) := by
    intro i hi
    have a1 := le_window (s := r.1) (j := j) hi
    have a2 := le_window (s := r.2) (j := j) hi
    have m1 : j = r.2 / epb + 1 - 1 ↔ r.2 / epb = j := by omega
    unfold inRange
    rw [decide_eq_true_iff]
    by_cases c1 : j = r.1 / epb
    · rw [if_pos c1] at hb
      by_cases c2 : j = r.2 / epb + 1 - 1
      · rw [if_pos c2] at hf; omega
      · rw [if_neg c2] at hf; omega
    · rw [if_neg c1] at hb
      by_cases c2 : j = r.2 / epb + 1 - 1
      · rw [if_pos c2] at hf; omega
      · rw [if_neg c2] at hf; omega
  have he0 : e0 ≤ epb := by
    have := Nat.mod_lt r.2 he
    rw [← hf]; split <;> omega
  unfold adjustCounts
  rw [hv]
  refine ⟨(⟨v.1.blocknr, (v.1.nr_free + (2 ^ 32 - (e0 - b0))) % 2 ^ 32, bumpFree (e0 - b0) b0 v.1.none_free_before⟩, setOnes (e0 - b0) b0 v.2), rfl, ?_, ?_, ?_, ?_⟩
  · simp only [SSt.readBm, putBitmap, if_true]
    rw [setOnes_length, hl]
    simp
  · refine ⟨rfl, setOnes_length _ _ _, ?_, ?_, ?_⟩
    · intro i hi
      rw [setOnes_get _ _ _ _ (by omega)]
      by_cases c : b0 ≤ i ∧ i < b0 + (e0 - b0)
      · rw [if_pos c, if_pos ((hw i hi).mpr c)]
      · rw [if_neg c, if_neg (fun h => c ((hw i hi).mp h))]
    · intro hfirst i hi
      simp only at hi ⊢
      by_cases hie : i < v.2.length
      · rw [setOnes_get _ _ _ _ hie]
        by_cases c : b0 ≤ i ∧ i < b0 + (e0 - b0)
        · rw [if_pos c]; simp
        · rw [if_neg c]
          rw [bumpFree_eq] at hi
          apply hfirst
          split at hi <;> omega
      · rw [List.getElem?_eq_none (by rw [setOnes_length]; omega)]; simp
    · intro hfree hnr
      simp only
      obtain ⟨k1, k2⟩ := setOnes_free (e0 - b0) b0 v.2 (by
        intro i hi1 hi2
        exact hfree i (by omega) ((hw i (by omega)).mpr ⟨hi1, hi2⟩))
      have k3 : free v.2 ≤ epb := by rw [← hl]; exact List.length_filter_le _ _
      rw [k1, hnr]
      omega
  · refine ⟨rfl, ?_, rfl⟩
    funext x
    simp only [putBitmap]
    by_cases c : x = v.1.blocknr
    · rw [if_pos c, c, hnone]
    · rw [if_neg c]
  · intro b hne
    simp only [SSt.readBm, putBitmap, if_neg hne]
    exact ⟨trivial, trivial⟩

theorem adjRow_none {epb j : Nat} {X : Nat → Bool} {v : V} (h : ∀ i, i < epb → X (j * epb + i) = false) : AdjRow epb X j v v :=
  ⟨rfl, rfl, fun i hi => by rw [h i hi]; rfl, fun h => h, fun _ h => h⟩

theorem adjRow_trans {epb j : Nat} {X Y : Nat → Bool} {u v w : V} (h : AdjRow epb X j u v) (k : AdjRow epb Y j v w)
    (hd : ∀ x, X x = true → Y x = true → False) : AdjRow epb (fun x => X x || Y x) j u w where
  blk := k.blk.trans h.blk
  len := k.len.trans h.len
  ent := by
    intro i hi
    rw [k.ent i hi, h.ent i hi]
    cases X (j * epb + i) <;> cases Y (j * epb + i) <;> rfl
  first := fun a => k.first (h.first a)
  nr := by
    intro a b
    refine k.nr ?_ (h.nr ?_ b)
    · intro i hi hy
      have hx : X (j * epb + i) = false := by
        cases hx : X (j * epb + i) with
        | false => rfl
        | true => exact absurd (hd _ hx hy) (by simp)
      rw [h.ent i hi, hx]
      exact a i hi (by simp [hy])
    · intro i hi hx
      exact a i hi (by simp [hx])

/-! ## All bitmaps -/

/-- row by row -/
def AdjRows (epb : Nat) (X : Nat → Bool) : Nat → List V → List V → Prop
  | _, [], [] => True
  | j, v :: vs, v' :: vs' => AdjRow epb X j v v' ∧ AdjRows epb X (j + 1) vs vs'
  | _, _, _ => False

theorem adjRows_none {epb : Nat} {X : Nat → Bool} (h : ∀ x, X x = false) : ∀ (j : Nat) (vs : List V), AdjRows epb X j vs vs := by
  intro j vs
  induction vs generalizing j with
  | nil => trivial
  | cons v vs ih => exact ⟨adjRow_none (fun _ _ => h _), ih _⟩

theorem adjRows_trans {epb : Nat} {X Y : Nat → Bool} (hd : ∀ x, X x = true → Y x = true → False) : ∀ {j : Nat} {us vs ws : List V},
    AdjRows epb X j us vs → AdjRows epb Y j vs ws → AdjRows epb (fun x => X x || Y x) j us ws := by
  intro j us
  induction us generalizing j with
  | nil =>
    intro vs ws h k
    match vs, ws, h, k with
    | [], [], _, _ => trivial
  | cons u us ih =>
    intro vs ws h k
    match vs, ws, h, k with
    | v :: vs, w :: ws, h, k => exact ⟨adjRow_trans h.1 k.1 hd, ih h.2 k.2⟩

theorem adjRows_get {epb : Nat} {X : Nat → Bool} : ∀ {j : Nat} {vs vs' : List V}, AdjRows epb X j vs vs' → vs'.length = vs.length ∧
    ∀ i v, vs[i]? = some v → ∃ v', vs'[i]? = some v' ∧ AdjRow epb X (j + i) v v' := by
  intro j vs
  induction vs generalizing j with
  | nil =>
    intro vs' h
    match vs', h with
    | [], _ => exact ⟨rfl, by intro i v h; simp at h⟩
  | cons v vs ih =>
    intro vs' h
    match vs', h with
    | v' :: vs', h =>
      obtain ⟨h1, h2⟩ := ih h.2
      refine ⟨by simp [h1], ?_⟩
      intro i w hw
      cases i with
      | zero => simp at hw; subst hw; exact ⟨v', by simp, h.1⟩
      | succ i =>
        obtain ⟨w', g1, g2⟩ := h2 i w (by simpa using hw)
        exact ⟨w', by simpa using g1, by rw [show j + (i + 1) = j + 1 + i by omega]; exact g2⟩

theorem adjRows_blk {epb : Nat} {X : Nat → Bool} : ∀ {j : Nat} {vs vs' : List V}, AdjRows epb X j vs vs' →
    vs'.map (·.1.blocknr) = vs.map (·.1.blocknr) := by
  intro j vs
  induction vs generalizing j with
  | nil =>
    intro vs' h
    match vs', h with
    | [], _ => rfl
  | cons v vs ih =>
    intro vs' h
    match vs', h with
    | v' :: vs', h => simp only [List.map_cons, h.1.blk, ih h.2]

/-- the bitmaps can be read -/
def Reads (epb : Nat) (S : SSt) (vs : List V) : Prop := ∀ v ∈ vs, S.readBm v.1.blocknr = some v.2 ∧ v.2.length = epb

theorem adjustRange_post {epb : Nat} (he : 0 < epb) (hE : epb < 2 ^ 32) {r : Nat × Nat} (hr : r.1 ≤ r.2) : ∀ (vs : List V) (j : Nat) (S : SSt), Reads epb S vs →
    (vs.map (·.1.blocknr)).Nodup →
    Post (adjustRange epb r j (vs.map (·.1)) S) (fun x => ∃ vs' : List V, x.1 = vs'.map (·.1) ∧ Reads epb x.2 vs' ∧
      AdjRows epb (inRange r) j vs vs' ∧ Same S x.2 ∧ ∀ b, b ∉ vs.map (·.1.blocknr) → x.2.readBm b = S.readBm b ∧ x.2.bm b = S.bm b) := by
  intro vs
  induction vs with
  | nil => intro j S _ _; exact ⟨[], rfl, (by intro v hv; cases hv), trivial, .refl S, fun _ _ => ⟨rfl, rfl⟩⟩
  | cons v vs ih =>
    intro j S hv hn
    rw [List.map_cons, List.nodup_cons] at hn
    obtain ⟨hv1, hl⟩ := hv v (by simp)
    rw [List.map_cons]
    unfold adjustRange
    simp only
    have step : Post (if r.1 / epb ≤ j ∧ j < r.2 / epb + 1 then
          adjustCounts epb v.1 (if j = r.1 / epb then r.1 % epb else 0) (if j = r.2 / epb + 1 - 1 then r.2 % epb else epb) S
        else .ok (v.1, S)) (fun x => ∃ v' : V, v'.1 = x.1 ∧ x.2.readBm x.1.blocknr = some v'.2 ∧ AdjRow epb (inRange r) j v v' ∧ Same S x.2 ∧
        ∀ b, b ≠ v.1.blocknr → x.2.readBm b = S.readBm b ∧ x.2.bm b = S.bm b) := by
      by_cases c : r.1 / epb ≤ j ∧ j < r.2 / epb + 1
      · rw [if_pos c]
        exact adjustCounts_post he hE hr hv1 hl c.1 c.2
      · rw [if_neg c]
        refine ⟨v, rfl, hv1, adjRow_none ?_, .refl S, fun _ _ => ⟨rfl, rfl⟩⟩
        intro i hi
        have a1 := le_window (s := r.1) (j := j) hi
        have a2 := le_window (s := r.2) (j := j) hi
        unfold inRange
        rw [decide_eq_false_iff_not]
        omega
    refine step.bind ?_
    rintro ⟨ie, S1⟩ ⟨v', rfl, g2, g3, g4, g5⟩
    simp only at g2 g4 g5 ⊢
    have hne : ∀ w ∈ vs, w.1.blocknr ≠ v.1.blocknr := by
      intro w hw e
      exact hn.1 (e ▸ List.mem_map.mpr ⟨w, hw, rfl⟩)
    have hv' : Reads epb S1 vs := by
      intro w hw
      obtain ⟨k1, k2⟩ := hv w (List.mem_cons_of_mem _ hw)
      exact ⟨by rw [(g5 _ (hne w hw)).1]; exact k1, k2⟩
    refine (ih (j + 1) S1 hv' hn.2).bind ?_
    rintro ⟨ies, S2⟩ ⟨vs', q1, q2, q3, q4, q5⟩
    simp only at q1 q2 q4 q5 ⊢
    refine ⟨v' :: vs', by rw [q1]; rfl, ?_, ⟨g3, q3⟩, g4.trans q4, ?_⟩
    · intro w hw
      rcases List.mem_cons.mp hw with rfl | hw
      · refine ⟨?_, by rw [g3.len]; exact hl⟩
        rw [(q5 _ (by rw [g3.blk]; exact hn.1)).1]
        exact g2
      · exact q2 w hw
    · intro b hb
      rw [List.map_cons, List.mem_cons, not_or] at hb
      have h1 := q5 b hb.2
      have h2 := g5 b hb.1
      exact ⟨h1.1.trans h2.1, h1.2.trans h2.2⟩

/-- the blocks of some ranges -/
def inRanges (rs : List (Nat × Nat)) (x : Nat) : Bool := rs.any fun r => inRange r x

theorem adjustAll_post {epb : Nat} (he : 0 < epb) (hE : epb < 2 ^ 32) : ∀ (rs : List (Nat × Nat)) (vs : List V) (S : SSt), (∀ r ∈ rs, r.1 ≤ r.2) →
    rs.Pairwise (fun a b => a.2 ≤ b.1) → Reads epb S vs → (vs.map (·.1.blocknr)).Nodup →
    Post (adjustAll epb rs (vs.map (·.1)) S) (fun x => ∃ vs' : List V, x.1 = vs'.map (·.1) ∧ Reads epb x.2 vs' ∧
      AdjRows epb (inRanges rs) 0 vs vs' ∧ Same S x.2 ∧ ∀ b, b ∉ vs.map (·.1.blocknr) → x.2.bm b = S.bm b) := by
  intro rs
  induction rs with
  | nil =>
    intro vs S _ _ hv _
    exact ⟨vs, rfl, hv, adjRows_none (fun _ => rfl) 0 vs, .refl S, fun _ _ => rfl⟩
  | cons r rs ih =>
    intro vs S hle hpw hv hn
    obtain ⟨p1, p2⟩ := List.pairwise_cons.mp hpw
    unfold adjustAll
    refine (adjustRange_post he hE (hle r (by simp)) vs 0 S hv hn).bind ?_
    rintro ⟨ies, S1⟩ ⟨vs1, rfl, g2, g3, g4, g5⟩
    simp only at g2 g4 g5 ⊢
    have hb := adjRows_blk g3
    refine (ih vs1 S1 (fun a ha => hle a (List.mem_cons_of_mem _ ha)) p2 g2 (by rw [hb]; exact hn)).mono ?_
    rintro ⟨ies2, S2⟩ ⟨vs2, q1, q2, q3, q4, q5⟩
    refine ⟨vs2, q1, q2, ?_, g4.trans q4, ?_⟩
    · have := adjRows_trans ?_ g3 q3
      · exact this
      · intro x hx hy
        unfold inRanges at hy
        rw [List.any_eq_true] at hy
        obtain ⟨r', h1, h2⟩ := hy
        have h3 := p1 r' h1
        have h4 := hle r' (List.mem_cons_of_mem _ h1)
        simp only [inRange, decide_eq_true_eq] at hx h2
        omega
    · intro b hb'
      rw [q5 b (by rw [hb]; exact hb')]
      exact (g5 b hb').2

/-- `ranges` of an increasing list: the ranges are apart from each other and contain exactly the members -/
theorem ranges_spec : ∀ (l : List Nat), l.Pairwise (· < ·) → (∀ r ∈ ranges l, r.1 < r.2) ∧ (ranges l).Pairwise (fun a b => a.2 ≤ b.1) ∧
    (∀ x, inRanges (ranges l) x = true ↔ x ∈ l) ∧ ∀ r ∈ ranges l, r.1 ∈ l := by
  intro l
  induction l with
  | nil => intro _; exact ⟨by simp [ranges], by simp [ranges], by simp [ranges, inRanges], by simp [ranges]⟩
  | cons b bs ih =>
    intro h
    obtain ⟨h1, h2⟩ := List.pairwise_cons.mp h
    obtain ⟨i1, i2, i3, i4⟩ := ih h2
    cases hr : ranges bs with
    | nil =>
      have e : ranges (b :: bs) = [(b, b + 1)] := by simp only [ranges, hr]
      have hbs : ∀ x, x ∉ bs := by
        intro x hx
        have := (i3 x).mpr hx
        rw [hr] at this
        simp [inRanges] at this
      rw [e]
      refine ⟨by simp, by simp, ?_, by simp⟩
      intro x
      simp only [inRanges, List.any_cons, List.any_nil, Bool.or_false, inRange, decide_eq_true_eq, List.mem_cons]
      constructor
      · intro hx; left; omega
      · rintro (rfl | hx)
        · omega
        · exact absurd hx (hbs x)
    | cons r rs =>
      obtain ⟨s, e⟩ := r
      rw [hr] at i1 i2 i3 i4
      have hs : b < s := h1 s (i4 (s, e) (by simp))
      have hse := i1 (s, e) (by simp)
      simp only at hse
      obtain ⟨p1, p2⟩ := List.pairwise_cons.mp i2
      by_cases c : s = b + 1
      · have er : ranges (b :: bs) = (b, e) :: rs := by simp only [ranges, hr, c, if_true]
        rw [er]
        refine ⟨?_, ?_, ?_, ?_⟩
        · intro r hrm
          rcases List.mem_cons.mp hrm with rfl | hrm
          · simp only; omega
          · exact i1 r (List.mem_cons_of_mem _ hrm)
        · exact List.Pairwise.cons (fun a ha => p1 a ha) p2
        · intro x
          rw [List.mem_cons, ← i3 x]
          simp only [inRanges, List.any_cons, Bool.or_eq_true, inRange, decide_eq_true_eq]
          constructor
          · rintro (hx | hx)
            · by_cases hxb : x = b
              · exact .inl hxb
              · right; left; omega
            · exact .inr (.inr hx)
          · rintro (rfl | hx | hx)
            · left; omega
            · left; omega
            · exact .inr hx
        · intro r hrm
          rcases List.mem_cons.mp hrm with rfl | hrm
          · simp
          · exact List.mem_cons_of_mem _ (i4 r (List.mem_cons_of_mem _ hrm))
      · have er : ranges (b :: bs) = (b, b + 1) :: (s, e) :: rs := by simp only [ranges, hr, c, if_false]
        rw [er]
        refine ⟨?_, ?_, ?_, ?_⟩
        · intro r hrm
          rcases List.mem_cons.mp hrm with rfl | hrm
          · simp
          · exact i1 r hrm
        · refine List.Pairwise.cons ?_ i2
          intro a ha
          rcases List.mem_cons.mp ha with rfl | ha
          · simp only; omega
          · have := p1 a ha
            have := h1 _ (i4 a (List.mem_cons_of_mem _ ha))
            simp only; omega
        · intro x
          rw [List.mem_cons, ← i3 x]
          simp only [inRanges, List.any_cons, Bool.or_eq_true, inRange, decide_eq_true_eq]
          constructor
          · rintro (hx | hx)
            · left; omega
            · exact .inr hx
          · rintro (rfl | hx)
            · left; omega
            · exact .inr hx
        · intro r hrm
          rcases List.mem_cons.mp hrm with rfl | hrm
          · simp
          · exact List.mem_cons_of_mem _ (i4 r hrm)

theorem sortedSet_sorted (n : Nat) (l : List Nat) : (sortedSet n l).Pairwise (· < ·) :=
  List.Pairwise.filter _ List.pairwise_lt_range

theorem mem_sortedSet {n : Nat} {l : List Nat} {x : Nat} : x ∈ sortedSet n l ↔ x < n ∧ x ∈ l := by
  simp [sortedSet]

end Verif.SMD
