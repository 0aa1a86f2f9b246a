import Verif.Model.Repair

/-!
# C46: which roots `thin_repair` pairs, in which order

The comparator of ages, the binary searches and the pairs.
-/

namespace Verif.Rep

/-! ## Ages -/

/-- number of mappings with time `t` -/
def cnt (m : TC) (t : Nat) : Nat := ((m.filter fun e => e.1 = t).map (·.2)).sum

/-- a `BTreeMap` of counts: increasing times, no zero counts -/
structure TC.Ok (m : TC) : Prop where
  sorted : (m.map (·.1)).Pairwise (· < ·)
  pos : ∀ e ∈ m, 0 < e.2

/-- `l` is younger than `r`: at the latest time at which they differ it has more mappings -/
def Newer (l r : TC) : Prop := ∃ t, cnt r t < cnt l t ∧ ∀ t', t < t' → cnt l t' = cnt r t'

theorem cnt_cons (x : Nat × Nat) (m : TC) (t : Nat) : cnt (x :: m) t = (if x.1 = t then x.2 else 0) + cnt m t := by
  unfold cnt
  by_cases h : x.1 = t
  · simp [List.filter_cons, h]
  · simp [List.filter_cons, h]

theorem cnt_reverse (m : TC) (t : Nat) : cnt m.reverse t = cnt m t := by
  unfold cnt
  rw [List.filter_reverse, List.map_reverse]
  exact (List.reverse_perm _).sum_nat

theorem cnt_zero {m : TC} {t : Nat} (h : ∀ e ∈ m, e.1 ≠ t) : cnt m t = 0 := by
  unfold cnt
  rw [List.filter_eq_nil_iff.mpr (fun e he => by simp [h e he])]
  rfl

theorem compareRev_newer : ∀ (l r : List (Nat × Nat)), (l.map (·.1)).Pairwise (· > ·) → (r.map (·.1)).Pairwise (· > ·) → (∀ e ∈ l, 0 < e.2) → (∀ e ∈ r, 0 < e.2) →
    (compareRev l r = .lt ↔ ∃ t, cnt r t < cnt l t ∧ ∀ t', t < t' → cnt l t' = cnt r t')
  | [], [], _, _, _, _ => by
    simp only [compareRev]
    constructor
    · intro h; cases h
    · rintro ⟨t, h, -⟩; exact absurd h (Nat.lt_irrefl _)
  | [], y :: r, _, _, _, _ => by
    simp only [compareRev]
    constructor
    · intro h; cases h
    · rintro ⟨t, h, -⟩
      simp [cnt] at h
  | x :: l, [], hl, _, pl, _ => by
    simp only [compareRev, true_iff]
    obtain ⟨h1, h2⟩ := List.pairwise_cons.mp hl
    refine ⟨x.1, ?_, ?_⟩
    · rw [cnt_cons, if_pos rfl]
      have := pl x (by simp)
      have : cnt [] x.1 = 0 := rfl
      omega
    · intro t' ht
      rw [cnt_cons, if_neg (by omega), cnt_zero]
      · rfl
      · intro e he
        have : x.1 > e.1 := h1 e.1 (List.mem_map.mpr ⟨e, he, rfl⟩)
        omega
  | x :: l, y :: r, hl, hr, pl, pr => by
    obtain ⟨h1, h2⟩ := List.pairwise_cons.mp hl
    obtain ⟨g1, g2⟩ := List.pairwise_cons.mp hr
    have zl : ∀ t, x.1 ≤ t → cnt l t = 0 := fun t ht => cnt_zero fun e he => by
      have : x.1 > e.1 := h1 e.1 (List.mem_map.mpr ⟨e, he, rfl⟩)
      omega
    have zr : ∀ t, y.1 ≤ t → cnt r t = 0 := fun t ht => cnt_zero fun e he => by
      have : y.1 > e.1 := g1 e.1 (List.mem_map.mpr ⟨e, he, rfl⟩)
      omega
    have px := pl x (by simp)
    have py := pr y (by simp)
    simp only [compareRev]
    by_cases c1 : x.1 > y.1
    · rw [if_pos c1]
      refine ⟨fun _ => ⟨x.1, ?_, ?_⟩, fun _ => rfl⟩
      · rw [cnt_cons, cnt_cons, if_pos rfl, if_neg (by omega), zr x.1 (by omega)]
        omega
      · intro t' ht
        rw [cnt_cons, cnt_cons, if_neg (by omega), if_neg (by omega), zl t' (by omega), zr t' (by omega)]
    · rw [if_neg c1]
      by_cases c2 : y.1 > x.1
      · rw [if_pos c2]
        refine ⟨fun h => (by cases h), ?_⟩
        rintro ⟨t, h, hh⟩
        exfalso
        by_cases ht : t < y.1
        · have := hh y.1 ht
          rw [cnt_cons, cnt_cons, if_pos rfl, if_neg (by omega), zl y.1 (by omega)] at this
          omega
        · rw [cnt_cons, cnt_cons, if_neg (by omega : ¬ x.1 = t), zl t (by omega)] at h
          omega
      · rw [if_neg c2]
        have e : x.1 = y.1 := by omega
        by_cases c3 : x.2 > y.2
        · rw [if_pos c3]
          refine ⟨fun _ => ⟨x.1, ?_, ?_⟩, fun _ => rfl⟩
          · rw [cnt_cons, cnt_cons, if_pos rfl, if_pos e.symm, zr x.1 (by omega)]
            omega
          · intro t' ht
            rw [cnt_cons, cnt_cons, if_neg (by omega), if_neg (by omega), zl t' (by omega), zr t' (by omega)]
        · rw [if_neg c3]
          by_cases c4 : y.2 > x.2
          · rw [if_pos c4]
            refine ⟨fun h => (by cases h), ?_⟩
            rintro ⟨t, h, hh⟩
            exfalso
            by_cases ht : t < y.1
            · have := hh y.1 ht
              rw [cnt_cons, cnt_cons, if_pos rfl, if_pos e, zl y.1 (by omega), zr y.1 (Nat.le_refl _)] at this
              omega
            · rw [cnt_cons, cnt_cons, zl t (by omega), zr t (by omega)] at h
              by_cases ht' : t = y.1
              · rw [if_pos (by omega), if_pos (by omega)] at h; omega
              · rw [if_neg (by omega), if_neg (by omega)] at h; omega
          · rw [if_neg c4, compareRev_newer l r h2 g2 (fun e he => pl e (by simp [he])) (fun e he => pr e (by simp [he]))]
            have e2 : x.2 = y.2 := by omega
            have ee : ∀ t, cnt (x :: l) t = (if y.1 = t then y.2 else 0) + cnt l t := fun t => by rw [cnt_cons, e, e2]
            constructor
            · rintro ⟨t, h, hh⟩
              refine ⟨t, by rw [ee, cnt_cons]; omega, fun t' ht => by rw [ee, cnt_cons, hh t' ht]⟩
            · rintro ⟨t, h, hh⟩
              rw [ee, cnt_cons] at h
              refine ⟨t, by omega, fun t' ht => ?_⟩
              have := hh t' ht
              rw [ee, cnt_cons] at this
              omega

/-- C46: the comparison puts the younger tree first -/
theorem compareTC_newer {l r : TC} (hl : l.Ok) (hr : r.Ok) : compareTC l r = .lt ↔ Newer l r := by
  unfold compareTC Newer
  rw [compareRev_newer l.reverse r.reverse (by rw [List.map_reverse]; exact List.pairwise_reverse.mpr hl.sorted)
    (by rw [List.map_reverse]; exact List.pairwise_reverse.mpr hr.sorted) (fun e he => hl.pos e (List.mem_reverse.mp he)) (fun e he => hr.pos e (List.mem_reverse.mp he))]
  simp only [cnt_reverse]

theorem compareRev_swap : ∀ (l r : List (Nat × Nat)), compareRev l r = (compareRev r l).swap
  | [], [] => rfl
  | [], _ :: _ => rfl
  | _ :: _, [] => rfl
  | x :: l, y :: r => by
    simp only [compareRev]
    by_cases c1 : x.1 > y.1
    · rw [if_pos c1, if_neg (by omega), if_pos c1]; rfl
    · rw [if_neg c1]
      by_cases c2 : y.1 > x.1
      · rw [if_pos c2, if_pos c2]; rfl
      · rw [if_neg c2, if_neg c2, if_neg c1]
        by_cases c3 : x.2 > y.2
        · rw [if_pos c3, if_neg (by omega), if_pos c3]; rfl
        · rw [if_neg c3]
          by_cases c4 : y.2 > x.2
          · rw [if_pos c4, if_pos c4]; rfl
          · rw [if_neg c4, if_neg c4, if_neg c3]
            exact compareRev_swap l r

theorem compareRev_eq : ∀ (l r : List (Nat × Nat)), compareRev l r = .eq → l = r
  | [], [], _ => rfl
  | [], _ :: _, h => by cases h
  | _ :: _, [], h => by cases h
  | x :: l, y :: r, h => by
    simp only [compareRev] at h
    by_cases c1 : x.1 > y.1
    · rw [if_pos c1] at h; cases h
    · rw [if_neg c1] at h
      by_cases c2 : y.1 > x.1
      · rw [if_pos c2] at h; cases h
      · rw [if_neg c2] at h
        by_cases c3 : x.2 > y.2
        · rw [if_pos c3] at h; cases h
        · rw [if_neg c3] at h
          by_cases c4 : y.2 > x.2
          · rw [if_pos c4] at h; cases h
          · rw [if_neg c4] at h
            rw [compareRev_eq l r h, show x = y from Prod.ext (by omega) (by omega)]

theorem compareRev_trans : ∀ (l r s : List (Nat × Nat)), compareRev l r ≠ .gt → compareRev r s ≠ .gt → compareRev l s ≠ .gt
  | [], [], _, _, h2 => h2
  | [], _ :: _, _, h1, _ => absurd rfl h1
  | _ :: _, _, [], _, _ => by simp [compareRev]
  | _ :: _, [], _ :: _, _, h2 => absurd rfl h2
  | x :: l, y :: r, z :: s, h1, h2 => by
    simp only [compareRev] at *
    have a1 : ¬ y.1 > x.1 := fun c => h1 (by rw [if_neg (by omega), if_pos c])
    have a2 : ¬ z.1 > y.1 := fun c => h2 (by rw [if_neg (by omega), if_pos c])
    by_cases c1 : x.1 > z.1
    · rw [if_pos c1]; simp
    · rw [if_neg c1, if_neg (by omega)]
      rw [if_neg (by omega), if_neg a1] at h1
      rw [if_neg (by omega), if_neg a2] at h2
      have b1 : ¬ y.2 > x.2 := fun c => h1 (by rw [if_neg (by omega), if_pos c])
      have b2 : ¬ z.2 > y.2 := fun c => h2 (by rw [if_neg (by omega), if_pos c])
      by_cases c2 : x.2 > z.2
      · rw [if_pos c2]; simp
      · rw [if_neg c2, if_neg (by omega)]
        rw [if_neg (by omega), if_neg b1] at h1
        rw [if_neg (by omega), if_neg b2] at h2
        exact compareRev_trans l r s h1 h2

/-- C46: the comparison of ages is a total order, as the sort of the standard library requires. -/
theorem compareTC_total (a b c : TC) : compareTC a b = (compareTC b a).swap ∧ (compareTC a b = .eq ↔ a = b) ∧
    (compareTC a b ≠ .gt → compareTC b c ≠ .gt → compareTC a c ≠ .gt) := by
  refine ⟨compareRev_swap _ _, ⟨fun h => List.reverse_inj.mp (compareRev_eq _ _ h), ?_⟩, compareRev_trans _ _ _⟩
  rintro rfl
  have h := compareRev_swap a.reverse a.reverse
  unfold compareTC
  revert h
  cases compareRev a.reverse a.reverse <;> intro h <;> first | rfl | cases h

/-! ## Binary search -/

theorem boundLoop_spec {below : DetInfo → Bool} {infos : List DetInfo} (hm : infos.Pairwise fun x y => below y = true → below x = true) :
    ∀ (fuel start stop : Nat), stop - start ≤ fuel → start ≤ stop → stop ≤ infos.length →
      (∀ i x, i < start → infos[i]? = some x → below x = true) → (∀ i x, stop ≤ i → infos[i]? = some x → below x = false) →
      ∃ p, boundLoop below infos fuel start stop = some p ∧ start ≤ p ∧ p ≤ stop ∧
        (∀ i x, i < p → infos[i]? = some x → below x = true) ∧ ∀ i x, p ≤ i → infos[i]? = some x → below x = false := by
  intro fuel
  induction fuel with
  | zero =>
    intro start stop hf hle hlen h1 h2
    unfold boundLoop
    rw [if_neg (by omega)]
    exact ⟨start, rfl, Nat.le_refl _, hle, h1, fun i x hi => h2 i x (by omega)⟩
  | succ fuel ih =>
    intro start stop hf hle hlen h1 h2
    unfold boundLoop
    by_cases hlt : start < stop
    · rw [if_pos hlt]
      have hmid : start + (stop - start) / 2 < infos.length := by omega
      simp only [List.getElem?_eq_getElem hmid]
      rw [List.pairwise_iff_getElem] at hm
      by_cases hb : below infos[start + (stop - start) / 2] = true
      · rw [if_pos hb]
        obtain ⟨p, p1, p2, p3, p4, p5⟩ := ih (start + (stop - start) / 2 + 1) stop (by omega) (by omega) hlen (by
          intro i x hi hx
          obtain ⟨hil, rfl⟩ := List.getElem?_eq_some_iff.mp hx
          by_cases he : i = start + (stop - start) / 2
          · subst he; exact hb
          · exact hm i _ hil hmid (by omega) hb) h2
        exact ⟨p, p1, by omega, p3, p4, p5⟩
      · rw [if_neg hb]
        obtain ⟨p, p1, p2, p3, p4, p5⟩ := ih start (start + (stop - start) / 2) (by omega) (by omega) (by omega) h1 (by
          intro i x hi hx
          obtain ⟨hil, rfl⟩ := List.getElem?_eq_some_iff.mp hx
          by_cases he : i = start + (stop - start) / 2
          · subst he; simpa using hb
          · cases hbi : below infos[i]
            · rfl
            · exact absurd (hm _ i hmid hil (by omega) hbi) hb)
        exact ⟨p, p1, p2, by omega, p4, p5⟩
    · rw [if_neg hlt]
      exact ⟨start, rfl, Nat.le_refl _, hle, h1, fun i x hi => h2 i x (by omega)⟩

/-- the elements between the two bounds are those with the key -/
theorem bounds_slice {infos : List DetInfo} (hs : infos.Pairwise fun x y => x.nrMappings ≤ y.nrMappings) (key : Nat) :
    ∃ lo hi, lowerBound infos key = some lo ∧ upperBound infos key = some hi ∧ lo ≤ hi ∧ hi ≤ infos.length ∧
      (infos.drop lo).take (hi - lo) = infos.filter fun t => t.nrMappings = key := by
  obtain ⟨lo, l1, l2, l3, l4, l5⟩ := boundLoop_spec (below := fun i => decide (i.nrMappings < key)) (infos := infos)
    (hs.imp (by intro x y h; simp only [decide_eq_true_eq]; omega)) infos.length 0 infos.length (by omega) (by omega) (Nat.le_refl _)
    (by intro i x h; omega) (by intro i x h hx; have := (List.getElem?_eq_some_iff.mp hx).1; omega)
  obtain ⟨hi, u1, u2, u3, u4, u5⟩ := boundLoop_spec (below := fun i => decide (i.nrMappings ≤ key)) (infos := infos)
    (hs.imp (by intro x y h; simp only [decide_eq_true_eq]; omega)) infos.length 0 infos.length (by omega) (by omega) (Nat.le_refl _)
    (by intro i x h; omega) (by intro i x h hx; have := (List.getElem?_eq_some_iff.mp hx).1; omega)
  simp only [decide_eq_true_eq, decide_eq_false_iff_not] at l4 l5 u4 u5
  have hle : lo ≤ hi := by
    by_cases h : lo ≤ hi
    · exact h
    · exfalso
      have hh : hi < infos.length := by omega
      have a := l4 hi _ (by omega) (List.getElem?_eq_getElem hh)
      have b := u5 hi _ (Nat.le_refl _) (List.getElem?_eq_getElem hh)
      omega
  refine ⟨lo, hi, l1, u1, hle, u3, ?_⟩
  have split : infos = infos.take lo ++ ((infos.drop lo).take (hi - lo) ++ infos.drop hi) := by
    conv => lhs; rw [← List.take_append_drop lo infos]
    congr 1
    conv => lhs; rw [← List.take_append_drop (hi - lo) (infos.drop lo)]
    rw [List.drop_drop, show lo + (hi - lo) = hi from by omega]
  have e1 : (infos.take lo).filter (fun t => decide (t.nrMappings = key)) = [] := List.filter_eq_nil_iff.mpr (by
    intro x hx
    obtain ⟨i, hi', rfl⟩ := List.mem_iff_getElem.mp hx
    rw [List.length_take] at hi'
    rw [List.getElem_take]
    have hb : i < infos.length := by omega
    have a := l4 i _ (by omega) (List.getElem?_eq_getElem hb)
    simp only [decide_eq_true_eq]
    omega)
  have e2 : ((infos.drop lo).take (hi - lo)).filter (fun t => decide (t.nrMappings = key)) = (infos.drop lo).take (hi - lo) := List.filter_eq_self.mpr (by
    intro x hx
    obtain ⟨i, hi', rfl⟩ := List.mem_iff_getElem.mp hx
    rw [List.length_take, List.length_drop] at hi'
    rw [List.getElem_take, List.getElem_drop]
    have hb : lo + i < infos.length := by omega
    have a := l5 (lo + i) _ (by omega) (List.getElem?_eq_getElem hb)
    have b := u4 (lo + i) _ (by omega) (List.getElem?_eq_getElem hb)
    simp only [decide_eq_true_eq]
    omega)
  have e3 : (infos.drop hi).filter (fun t => decide (t.nrMappings = key)) = [] := List.filter_eq_nil_iff.mpr (by
    intro x hx
    obtain ⟨i, hi', rfl⟩ := List.mem_iff_getElem.mp hx
    rw [List.length_drop] at hi'
    rw [List.getElem_drop]
    have hb : hi + i < infos.length := by omega
    have b := u5 (hi + i) _ (by omega) (List.getElem?_eq_getElem hb)
    simp only [decide_eq_true_eq]
    omega)
  conv => rhs; rw [split, List.filter_append, List.filter_append]
  rw [e1, e2, e3]
  simp

/-! ## Pairs -/

theorem mem_distinctNr : ∀ (ds : List DevInfo) (acc : List Nat) (n : Nat), n ∈ distinctNr ds acc ↔ n ∈ acc ∨ ∃ d ∈ ds, d.nrDevices = n := by
  intro ds
  induction ds with
  | nil => intro acc n; simp [distinctNr]
  | cons d ds ih =>
    intro acc n
    unfold distinctNr
    rw [ih]
    by_cases h : acc.contains d.nrDevices = true
    · rw [if_pos h]
      have h' : d.nrDevices ∈ acc := by simpa using h
      constructor
      · rintro (h1 | ⟨x, h1, h2⟩)
        · exact Or.inl h1
        · exact Or.inr ⟨x, by simp [h1], h2⟩
      · rintro (h1 | ⟨x, h1, h2⟩)
        · exact Or.inl h1
        · rcases List.mem_cons.mp h1 with rfl | h1
          · exact Or.inl (h2 ▸ h')
          · exact Or.inr ⟨x, h1, h2⟩
    · rw [if_neg h]
      constructor
      · rintro (h1 | ⟨x, h1, h2⟩)
        · rcases List.mem_append.mp h1 with h1 | h1
          · exact Or.inl h1
          · exact Or.inr ⟨d, by simp, (List.mem_singleton.mp h1).symm⟩
        · exact Or.inr ⟨x, by simp [h1], h2⟩
      · rintro (h1 | ⟨x, h1, h2⟩)
        · exact Or.inl (by simp [h1])
        · rcases List.mem_cons.mp h1 with rfl | h1
          · exact Or.inl (by simp [h2])
          · exact Or.inr ⟨x, h1, h2⟩

theorem pairLoop_spec {ident : DevInfo → DetInfo → Bool} {dets : List DetInfo} (hs : dets.Pairwise fun x y => x.nrMappings ≤ y.nrMappings) : ∀ (devs : List DevInfo),
    pairLoop ident dets devs = some (devs.flatMap fun d => (dets.filter fun t => t.nrMappings = d.nrMappings ∧ ident d t = true).map fun t => (d, t)) := by
  intro devs
  induction devs with
  | nil => rfl
  | cons d devs ih =>
    obtain ⟨lo, hi, h1, h2, h3, h4, h5⟩ := bounds_slice hs d.nrMappings
    unfold pairLoop
    simp only [h1, h2]
    rw [if_pos ⟨h3, h4⟩, ih, h5]
    simp only [Option.map_some, List.flatMap_cons]
    congr 2
    clear h1 h2 h3 h4 h5 ih hs
    induction dets with
    | nil => rfl
    | cons t dets ih =>
      by_cases c1 : t.nrMappings = d.nrMappings
      · by_cases c2 : ident d t = true
        · simp [List.filter_cons, c1, c2, ih]
        · simp [List.filter_cons, c1, c2, ih]
      · simp [List.filter_cons, c1, ih]

theorem flatMap_perm_both {α β : Type} {f g : α → List β} : ∀ {l l' : List α}, l'.Perm l → (∀ a ∈ l, (f a).Perm (g a)) → (l'.flatMap f).Perm (l.flatMap g) := by
  intro l l' h hfg
  refine (h.flatMap_right f).trans ?_
  clear h l'
  induction l with
  | nil => exact List.Perm.nil
  | cons a l ih =>
    simp only [List.flatMap_cons]
    exact (hfg a (by simp)).append (ih fun x hx => hfg x (by simp [hx]))

/-- C46: pairing never panics; the pairs are exactly those of a mapping root and a details root with the same number of mappings and the same devices, each as often as
the roots occur; they come with the youngest mapping trees first.  `hnr`: roots with the same devices have the same number of them (`identical_nr`). -/
theorem findPairs_exact {rd : Nat → Option Raw} {nr : Nat} {devs devs' : List DevInfo} {dets : List DetInfo} {r : Option (List (DevInfo × DetInfo))}
    (h : FindPairs rd nr devs dets devs' r) (hnr : ∀ d ∈ devs, ∀ t ∈ dets, identical rd nr d.b t.b = true → d.nrDevices = t.nrDevices) :
    ∃ pairs, r = some pairs ∧
      pairs.Perm (devs.flatMap fun d => (dets.filter fun t => t.nrMappings = d.nrMappings ∧ identical rd nr d.b t.b = true).map fun t => (d, t)) ∧
      (∀ d t, (d, t) ∈ pairs ↔ d ∈ devs ∧ t ∈ dets ∧ d.nrMappings = t.nrMappings ∧ identical rd nr d.b t.b = true) ∧
      ((∀ d ∈ devs, d.tc.Ok) → pairs.Pairwise fun p q => ¬ Newer q.1.tc p.1.tc) := by
  obtain ⟨⟨pd, sd⟩, dets', ⟨pt, st⟩, hr⟩ := h
  rw [pairLoop_spec (st.imp (by intro x y h; omega))] at hr
  have hperm : ∀ d ∈ devs, ((dets'.filter fun t => t.nrMappings = d.nrMappings ∧ identical rd nr d.b t.b = true).map fun t => (d, t)).Perm
      ((dets.filter fun t => t.nrMappings = d.nrMappings ∧ identical rd nr d.b t.b = true).map fun t => (d, t)) := by
    intro d hd
    refine ((pt.filter _).map _).trans ?_
    unfold filterDet
    rw [List.filter_filter]
    refine List.Perm.of_eq ?_
    congr 1
    refine List.filter_congr ?_
    intro t ht
    by_cases hc : t.nrMappings = d.nrMappings ∧ identical rd nr d.b t.b = true
    · have : (distinctNr devs' []).contains t.nrDevices = true := by
        rw [List.contains_iff_mem, mem_distinctNr]
        exact Or.inr ⟨d, pd.mem_iff.mpr hd, hnr d hd t ht hc.2⟩
      simp only [this, Bool.and_true]
    · simp [hc]
  have key := flatMap_perm_both pd hperm
  refine ⟨_, hr, key, ?_, ?_⟩
  · intro d t
    rw [key.mem_iff]
    simp only [List.mem_flatMap, List.mem_map, List.mem_filter, decide_eq_true_eq]
    constructor
    · rintro ⟨d', h1, t', ⟨h2, h3, h4⟩, h5⟩
      cases h5
      exact ⟨h1, h2, h3.symm, h4⟩
    · rintro ⟨h1, h2, h3, h4⟩
      exact ⟨d, h1, t, ⟨h2, h3.symm, h4⟩, rfl⟩
  · intro hok
    have hok' : ∀ d ∈ devs', d.tc.Ok := fun d hd => hok d (pd.mem_iff.mp hd)
    clear hr key hperm hnr pd pt st
    have hirr : ∀ m : TC, ¬ Newer m m := by rintro m ⟨t, h, -⟩; exact Nat.lt_irrefl _ h
    induction devs' with
    | nil => exact List.Pairwise.nil
    | cons d ds ih =>
      rw [List.pairwise_cons] at sd
      rw [List.flatMap_cons, List.pairwise_append]
      refine ⟨?_, ih sd.2 (fun x hx => hok' x (by simp [hx])), ?_⟩
      · rw [List.pairwise_map]
        exact List.pairwise_of_forall (fun _ _ => hirr _)
      · intro p hp q hq
        simp only [List.mem_map, List.mem_flatMap] at hp hq
        obtain ⟨t, -, rfl⟩ := hp
        obtain ⟨d', hd', t', -, rfl⟩ := hq
        have h1 : ¬ compareTC d.tc d'.tc = .gt := sd.1 d' hd'
        intro hn
        have h2 := (compareTC_newer (hok' d' (by simp [hd'])) (hok' d (by simp))).mpr hn
        rw [(compareTC_total d.tc d'.tc []).1, h2] at h1
        exact h1 rfl

end Verif.Rep
