import Verif.Model.Damage
import Verif.Prop.GenCache
import Verif.Prop.SpaceMapCheck

/-!
# C73: damage is done as asked for, is noticed and is repaired; and the blocks in use are found
-/

namespace Verif.Dmg

open Verif.SMC (Entries EntryAt Leaked checkLow)

/-! ## Specification -/

/-- what `create-metadata-leaks` should have done: `nr` blocks with the expected count were chosen, and have the other count now; nothing else has changed. -/
structure Damaged (epb dev : Nat) (rd : Nat → Option (Bool × List BE)) (locs : List Nat) (nr expected actual : Nat) (rd' : Nat → Option (Bool × List BE))
    (chosen : List Nat) : Prop where
  number : chosen.length = nr
  nodup : chosen.Nodup
  old : ∀ b ∈ chosen, b < dev ∧ EntryAt epb rd locs b (.small expected)
  new : ∀ b ∈ chosen, EntryAt epb rd' locs b (.small actual)
  rest : ∀ b e, b ∉ chosen → (EntryAt epb rd' locs b e ↔ EntryAt epb rd locs b e)
  other : ∀ loc, loc ∉ locs → rd' loc = rd loc
  readable : ∀ loc t es, rd loc = some (t, es) → ∃ t' es', rd' loc = some (t', es') ∧ es'.length = es.length ∧ (t = true → t' = true)

/-! ## Finding blocks -/

theorem mem_findEntries (rc : Nat) : ∀ (es : List BE) (b0 b : Nat), b ∈ findEntries rc es b0 ↔ ∃ i, b = b0 + i ∧ es[i]? = some (.small rc) := by
  intro es
  induction es with
  | nil => intro b0 b; simp [findEntries]
  | cons e es ih =>
    intro b0 b
    have tail : b ∈ findEntries rc es (b0 + 1) ↔ ∃ i, b = b0 + (i + 1) ∧ (e :: es)[i + 1]? = some (.small rc) := by
      rw [ih (b0 + 1) b]
      constructor
      · rintro ⟨i, rfl, h⟩; exact ⟨i, by omega, h⟩
      · rintro ⟨i, rfl, h⟩; exact ⟨i, by omega, h⟩
    unfold findEntries
    by_cases c : e = .small rc
    · rw [if_pos c, List.mem_cons, tail]
      constructor
      · rintro (rfl | ⟨i, h⟩)
        · exact ⟨0, rfl, by rw [c]; rfl⟩
        · exact ⟨i + 1, h⟩
      · rintro ⟨i, h1, h2⟩
        cases i with
        | zero => exact .inl h1
        | succ i => exact .inr ⟨i, h1, h2⟩
    · rw [if_neg c, tail]
      constructor
      · rintro ⟨i, h⟩; exact ⟨i + 1, h⟩
      · rintro ⟨i, h1, h2⟩
        cases i with
        | zero => exact absurd (Option.some.inj h2) c
        | succ i => exact ⟨i, h1, h2⟩

theorem findEntries_sorted (rc : Nat) : ∀ (es : List BE) (b0 : Nat), (findEntries rc es b0).Pairwise (· < ·) := by
  intro es
  induction es with
  | nil => intro b0; exact List.Pairwise.nil
  | cons e es ih =>
    intro b0
    unfold findEntries
    by_cases c : e = .small rc
    · rw [if_pos c]
      refine List.pairwise_cons.mpr ⟨fun b hb => ?_, ih _⟩
      obtain ⟨i, h, _⟩ := (mem_findEntries rc es (b0 + 1) b).mp hb
      omega
    · rw [if_neg c]; exact ih _

theorem findLoop_spec {rd : Nat → Option (Bool × List BE)} {epb dev : Nat} (rc : Nat) (hlen : ∀ loc t es, rd loc = some (t, es) → es.length = epb) (he : 0 < epb) :
    ∀ (locs : List Nat) (b0 : Nat), (∀ loc ∈ locs, ∃ t es, rd loc = some (t, es)) → ∃ found, findLoop rd epb dev rc locs b0 = some found ∧ found.Pairwise (· < ·) ∧
      ∀ b, b ∈ found ↔ ∃ j i loc t es, locs[j]? = some loc ∧ rd loc = some (t, es) ∧ es[i]? = some (.small rc) ∧ (j + 1 = locs.length → i < dev % epb) ∧ b = b0 + j * epb + i := by
  intro locs
  induction locs with
  | nil =>
    intro b0 _
    refine ⟨[], rfl, List.Pairwise.nil, fun b => ⟨fun h => (by cases h), ?_⟩⟩
    rintro ⟨j, i, loc, t, es, h, _⟩
    cases h
  | cons loc locs ih =>
    intro b0 hr
    obtain ⟨t, es, h1⟩ := hr loc (List.mem_cons_self ..)
    have hl := hlen _ _ _ h1
    have hm := Nat.mod_lt dev he
    obtain ⟨more, m1, m2, m3⟩ := ih (b0 + if locs = [] then dev % epb else epb) (fun x hx => hr x (List.mem_cons_of_mem _ hx))
    have hge : ∀ b ∈ more, b0 + (if locs = [] then dev % epb else epb) ≤ b := by
      intro b hb
      obtain ⟨j, i, _, _, _, _, _, _, _, rfl⟩ := (m3 b).mp hb
      omega
    have hfst : ∀ b, b ∈ findEntries rc (es.take (if locs = [] then dev % epb else epb)) b0 ↔
        ∃ i, b = b0 + i ∧ i < (if locs = [] then dev % epb else epb) ∧ es[i]? = some (.small rc) := by
      intro b
      rw [mem_findEntries]
      constructor
      · rintro ⟨i, rfl, h⟩
        rw [List.getElem?_take] at h
        by_cases c : i < (if locs = [] then dev % epb else epb)
        · rw [if_pos c] at h; exact ⟨i, rfl, c, h⟩
        · rw [if_neg c] at h; cases h
      · rintro ⟨i, rfl, c, h⟩
        exact ⟨i, rfl, by rw [List.getElem?_take, if_pos c]; exact h⟩
    refine ⟨findEntries rc (es.take (if locs = [] then dev % epb else epb)) b0 ++ more, ?_, ?_, fun b => ?_⟩
    · unfold findLoop
      rw [h1]
      simp only
      rw [m1]
    · refine List.pairwise_append.mpr ⟨findEntries_sorted _ _ _, m2, fun a ha b hb => ?_⟩
      obtain ⟨i, rfl, h, _⟩ := (hfst a).mp ha
      have := hge b hb
      omega
    · rw [List.mem_append, hfst, m3]
      constructor
      · rintro (⟨i, rfl, c, h⟩ | ⟨j, i, loc', t', es', g1, g2, g3, g4, rfl⟩)
        · refine ⟨0, i, loc, t, es, rfl, h1, h, fun hx => ?_, by omega⟩
          have : locs = [] := by
            cases locs with
            | nil => rfl
            | cons _ _ => simp at hx
          rw [if_pos this] at c
          exact c
        · have hne : locs ≠ [] := by rintro rfl; cases g1
          refine ⟨j + 1, i, loc', t', es', g1, g2, g3, fun hx => g4 (by simpa using hx), ?_⟩
          rw [if_neg hne, Nat.add_mul]
          omega
      · rintro ⟨j, i, loc', t', es', g1, g2, g3, g4, rfl⟩
        cases j with
        | zero =>
          left
          cases g1
          rw [h1] at g2
          cases g2
          refine ⟨i, by omega, ?_, g3⟩
          by_cases c : locs = []
          · rw [if_pos c]; exact g4 (by rw [c]; rfl)
          · rw [if_neg c]
            have := (List.getElem?_eq_some_iff.mp g3).1
            omega
        | succ j =>
          right
          have hne : locs ≠ [] := by rintro rfl; cases g1
          refine ⟨j, i, loc', t', es', g1, g2, g3, fun hx => g4 (by simpa using hx), ?_⟩
          rw [if_neg hne, Nat.add_mul]
          omega

/-- the blocks found are those with the count, if the device is as large as the space map and not a whole number of bitmaps -/
theorem findSmall_spec {rd : Nat → Option (Bool × List BE)} {epb dev : Nat} (rc : Nat) (hrd : Entries epb rd) (he : 0 < epb) {ies : List IndexEntry}
    (hr : ∀ ie ∈ ies, ∃ t es, rd ie.blocknr = some (t, es)) (hn : ies.length = Arr.divUp dev epb) (hm : dev % epb ≠ 0) :
    ∃ found, findSmall rd epb dev rc ies = some found ∧ found.Pairwise (· < ·) ∧ ∀ b, b ∈ found ↔ b < dev ∧ EntryAt epb rd (ies.map (·.blocknr)) b (.small rc) := by
  obtain ⟨found, f1, f2, f3⟩ := findLoop_spec (dev := dev) rc hrd.len he (ies.map (·.blocknr)) 0 (fun loc hl => by
    obtain ⟨ie, h, rfl⟩ := List.mem_map.mp hl
    exact hr ie h)
  have hdm := Nat.div_add_mod dev epb
  have hcount : ies.length = dev / epb + 1 := by
    rw [hn]
    unfold Arr.divUp
    have : (dev + (epb - 1)) / epb = dev / epb + 1 := by
      have h3 : dev + (epb - 1) = (dev % epb - 1) + epb * (dev / epb + 1) := by rw [Nat.mul_add]; omega
      rw [h3, Nat.add_mul_div_left _ _ he, Nat.div_eq_of_lt (by have := Nat.mod_lt dev he; omega)]
      omega
    first | exact this | (rw [← this]; congr 1; omega)
  refine ⟨found, f1, f2, fun b => ?_⟩
  rw [f3]
  constructor
  · rintro ⟨j, i, loc, t, es, g1, g2, g3, g4, rfl⟩
    have hi := (List.getElem?_eq_some_iff.mp g3).1
    rw [hrd.len _ _ _ g2] at hi
    have hj := (List.getElem?_eq_some_iff.mp g1).1
    rw [List.length_map] at g4 hj
    have hdiv : (0 + j * epb + i) / epb = j := by
      rw [Nat.zero_add, Nat.mul_comm, Nat.mul_add_div he, Nat.div_eq_of_lt hi, Nat.add_zero]
    have hmod : (0 + j * epb + i) % epb = i := by
      rw [Nat.zero_add, Nat.mul_comm, Nat.mul_add_mod, Nat.mod_eq_of_lt hi]
    refine ⟨?_, loc, t, es, by rw [hdiv]; exact g1, g2, by rw [hmod]; exact g3⟩
    by_cases c : j + 1 = ies.length
    · have := g4 c
      have hj2 : j = dev / epb := by omega
      rw [hj2, Nat.mul_comm]
      omega
    · have : (j + 1) * epb ≤ dev / epb * epb := Nat.mul_le_mul_right _ (by omega)
      rw [Nat.add_mul, Nat.mul_comm (dev / epb)] at this
      omega
  · rintro ⟨hb, loc, t, es, g1, g2, g3⟩
    refine ⟨b / epb, b % epb, loc, t, es, g1, g2, g3, fun hj => ?_, ?_⟩
    · rw [List.length_map, hcount] at hj
      have h1 := Nat.div_add_mod b epb
      rw [show b / epb = dev / epb by omega] at h1
      omega
    · have := Nat.div_add_mod b epb
      rw [Nat.mul_comm] at this
      omega

/-! ## Changing them -/

theorem setBelow_rest (epb high : Nat) (entry : BE) : ∀ (bs : List Nat) (es : List BE), (setBelow epb high entry bs es).2 = bs.dropWhile (fun b => decide (b < high)) := by
  intro bs
  induction bs with
  | nil => intro es; rfl
  | cons b bs ih =>
    intro es
    unfold setBelow
    by_cases c : b < high
    · rw [if_pos c, ih, List.dropWhile_cons_of_pos (by simpa using c)]
    · rw [if_neg c, List.dropWhile_cons_of_neg (by simpa using c)]

theorem setBelow_length (epb high : Nat) (entry : BE) : ∀ (bs : List Nat) (es : List BE), (setBelow epb high entry bs es).1.length = es.length := by
  intro bs
  induction bs with
  | nil => intro es; rfl
  | cons b bs ih =>
    intro es
    unfold setBelow
    by_cases c : b < high
    · rw [if_pos c, ih, List.length_set]
    · rw [if_neg c]

theorem setBelow_get {epb idx : Nat} (he : 0 < epb) (entry : BE) : ∀ (bs : List Nat) (es : List BE), bs.Pairwise (· < ·) → (∀ b ∈ bs, epb * idx ≤ b) → es.length = epb →
    ∀ i, i < epb → (setBelow epb (epb * (idx + 1)) entry bs es).1[i]? = if epb * idx + i ∈ bs then some entry else es[i]? := by
  intro bs
  induction bs with
  | nil => intro es _ _ _ i _; simp [setBelow]
  | cons b bs ih =>
    intro es hs hge hl i hi
    have hb := List.pairwise_cons.mp hs
    have hb0 := hge b (List.mem_cons_self ..)
    unfold setBelow
    by_cases c : b < epb * (idx + 1)
    · rw [if_pos c, ih _ hb.2 (fun x hx => hge x (List.mem_cons_of_mem _ hx)) (by rw [List.length_set, hl]) i hi]
      have hmod : b % epb = b - epb * idx := by
        obtain ⟨d, rfl⟩ : ∃ d, b = epb * idx + d := ⟨b - epb * idx, by omega⟩
        rw [Nat.mul_add_mod, Nat.mod_eq_of_lt (by rw [Nat.mul_add] at c; omega)]
        omega
      by_cases c2 : epb * idx + i ∈ bs
      · rw [if_pos c2, if_pos (List.mem_cons_of_mem _ c2)]
      · rw [if_neg c2]
        by_cases c3 : epb * idx + i = b
        · rw [if_pos (by rw [c3]; exact List.mem_cons_self ..), hmod, ← c3, Nat.add_sub_cancel_left, List.getElem?_set_self (by omega)]
        · rw [if_neg (by rw [List.mem_cons, not_or]; exact ⟨c3, c2⟩), hmod, List.getElem?_set_ne (by omega)]
    · rw [if_neg c, if_neg]
      intro hx
      rw [Nat.mul_add] at c
      rcases List.mem_cons.mp hx with hx | hx
      · omega
      · have := hb.1 _ hx
        omega

/-- blocks of the last bitmap are skipped -/
theorem bitmaps_drop {epb idx : Nat} (he : 0 < epb) (hi : idx < MAX_METADATA_BITMAPS) : ∀ (bs : List Nat), (∀ b ∈ bs, epb * idx ≤ b) →
    blocksToBitmaps epb bs idx = blocksToBitmaps epb (bs.dropWhile fun b => decide (b < epb * (idx + 1))) idx := by
  intro bs
  induction bs with
  | nil => intro _; rfl
  | cons b bs ih =>
    intro hge
    by_cases c : b < epb * (idx + 1)
    · rw [List.dropWhile_cons_of_pos (by simpa using c), ← ih (fun x hx => hge x (List.mem_cons_of_mem _ hx))]
      have hd : b / epb = idx := by
        have h1 := hge b (List.mem_cons_self ..)
        refine Nat.div_eq_of_lt_le (by rw [Nat.mul_comm]; exact h1) (by rw [Nat.mul_comm]; exact c)
      rw [blocksToBitmaps, hd, if_pos hi]
      cases blocksToBitmaps epb bs idx with
      | none => rfl
      | some r => simp
    · rw [List.dropWhile_cons_of_neg (by simpa using c)]

/-- what the plan says about one bitmap -/
def PlanAt (rd : Nat → Option (Bool × List BE)) (epb : Nat) (entry : BE) (locs blocks : List Nat) (idx : Nat) (w : Nat × List BE) : Prop :=
  locs[idx]? = some w.1 ∧ w.2.length = epb ∧ ∃ t es, rd w.1 = some (t, es) ∧ ∀ i, i < epb → w.2[i]? = if epb * idx + i ∈ blocks then some entry else es[i]?

theorem adjustLoop_spec {rd : Nat → Option (Bool × List BE)} {epb : Nat} (he : 0 < epb) (hlen : ∀ loc t es, rd loc = some (t, es) → es.length = epb) (entry : BE) (locs : List Nat)
    (hr : ∀ loc ∈ locs, ∃ t es, rd loc = some (t, es)) (hmax : locs.length ≤ MAX_METADATA_BITMAPS) :
    ∀ (n : Nat) (blocks : List Nat) (last : Nat), blocks.length ≤ n → blocks.Pairwise (· < ·) → (∀ b ∈ blocks, b / epb ≠ last) → (∀ b ∈ blocks, b / epb < locs.length) →
    ∃ bi plan, blocksToBitmaps epb blocks last = some bi ∧ adjustLoop rd epb entry locs bi blocks = some plan ∧ bi.Pairwise (· < ·) ∧ plan.length = bi.length ∧
      (∀ idx, idx ∈ bi ↔ ∃ b ∈ blocks, b / epb = idx) ∧ ∀ p ∈ bi.zip plan, PlanAt rd epb entry locs blocks p.1 p.2 := by
  intro n
  induction n with
  | zero =>
    intro blocks last hn _ _ _
    cases blocks with
    | nil => exact ⟨[], [], rfl, rfl, List.Pairwise.nil, rfl, fun idx => ⟨fun h => (by cases h), fun ⟨b, h, _⟩ => (by cases h)⟩, fun p h => (by cases h)⟩
    | cons b bs => simp at hn
  | succ n ih =>
    intro blocks last hn hs hne hlt
    cases blocks with
    | nil => exact ⟨[], [], rfl, rfl, List.Pairwise.nil, rfl, fun idx => ⟨fun h => (by cases h), fun ⟨b, h, _⟩ => (by cases h)⟩, fun p h => (by cases h)⟩
    | cons b bs =>
      have hb := List.pairwise_cons.mp hs
      have hbl := hlt b (List.mem_cons_self ..)
      have hdm := Nat.div_add_mod b epb
      have hge : ∀ x ∈ b :: bs, epb * (b / epb) ≤ x := by
        intro x hx
        rcases List.mem_cons.mp hx with rfl | hx
        · omega
        · have := hb.1 x hx; omega
      have hge' : ∀ x ∈ bs, epb * (b / epb) ≤ x := fun x hx => hge x (List.mem_cons_of_mem _ hx)
      have hdrop : (b :: bs).dropWhile (fun x => decide (x < epb * (b / epb + 1))) = bs.dropWhile (fun x => decide (x < epb * (b / epb + 1))) := by
        rw [List.dropWhile_cons_of_pos]
        have := Nat.mod_lt b he
        rw [Nat.mul_add]
        simp only [decide_eq_true_eq]
        omega
      generalize hrest : bs.dropWhile (fun x => decide (x < epb * (b / epb + 1))) = rest at hdrop
      have hsub : rest.Sublist bs := by rw [← hrest]; exact List.dropWhile_sublist _
      have hrs : rest.Pairwise (· < ·) := hb.2.sublist hsub
      have hfar : ∀ x ∈ rest, epb * (b / epb + 1) ≤ x := by
        intro x hx
        cases hrx : rest with
        | nil => rw [hrx] at hx; cases hx
        | cons y ys =>
          have hy : ¬ y < epb * (b / epb + 1) := by
            have := List.head?_dropWhile_not (fun x => decide (x < epb * (b / epb + 1))) bs
            rw [hrest, hrx] at this
            simpa using this
          rw [hrx] at hx hrs
          rcases List.mem_cons.mp hx with rfl | hx
          · omega
          · have := (List.pairwise_cons.mp hrs).1 x hx; omega
      have hnear : ∀ x ∈ bs, x ∉ rest → x < epb * (b / epb + 1) := by
        intro x hx hnx
        have : bs = bs.takeWhile (fun x => decide (x < epb * (b / epb + 1))) ++ rest := by rw [← hrest, List.takeWhile_append_dropWhile]
        rw [this] at hx
        rcases List.mem_append.mp hx with h | h
        · have := List.all_eq_true.mp (List.all_takeWhile (p := fun x => decide (x < epb * (b / epb + 1))) (l := bs)) x h
          simpa using this
        · exact absurd h hnx
      have hdiv : ∀ x ∈ rest, b / epb < x / epb := by
        intro x hx
        have h1 := hfar x hx
        rw [Nat.mul_comm] at h1
        exact (Nat.le_div_iff_mul_le he).mpr h1
      obtain ⟨bi, plan, p1, p2, p3, p4, p5, p6⟩ := ih rest (b / epb) (by have := hsub.length_le; simp at hn; omega) hrs
        (fun x hx => by have := hdiv x hx; omega) (fun x hx => hlt x (List.mem_cons_of_mem _ (hsub.subset hx)))
      obtain ⟨loc, hloc⟩ : ∃ loc, locs[b / epb]? = some loc := ⟨_, List.getElem?_eq_getElem hbl⟩
      obtain ⟨t, es, hes⟩ := hr loc (List.mem_of_getElem? hloc)
      have hel := hlen _ _ _ hes
      refine ⟨b / epb :: bi, (loc, (setBelow epb (epb * (b / epb + 1)) entry (b :: bs) es).1) :: plan, ?_, ?_, ?_, ?_, ?_, ?_⟩
      · rw [blocksToBitmaps, if_pos (by omega), bitmaps_drop he (by omega) bs hge', hrest, p1]
        simp only
        rw [if_pos (hne b (List.mem_cons_self ..))]
      · rw [adjustLoop, hloc]
        simp only
        rw [hes]
        simp only
        rw [setBelow_rest, hdrop, p2]
      · refine List.pairwise_cons.mpr ⟨fun x hx => ?_, p3⟩
        obtain ⟨y, hy, rfl⟩ := (p5 x).mp hx
        exact hdiv y hy
      · rw [List.length_cons, List.length_cons, p4]
      · intro idx
        rw [List.mem_cons, p5]
        constructor
        · rintro (rfl | ⟨x, hx, rfl⟩)
          · exact ⟨b, List.mem_cons_self .., rfl⟩
          · exact ⟨x, List.mem_cons_of_mem _ (hsub.subset hx), rfl⟩
        · rintro ⟨x, hx, rfl⟩
          by_cases c : x ∈ rest
          · exact .inr ⟨x, c, rfl⟩
          · left
            rcases List.mem_cons.mp hx with rfl | hx
            · rfl
            · have h1 := hge' x hx
              have h2 := hnear x hx c
              exact Nat.div_eq_of_lt_le (by rw [Nat.mul_comm]; exact h1) (by rw [Nat.mul_comm]; exact h2)
      · intro p hp
        rw [List.zip_cons_cons] at hp
        rcases List.mem_cons.mp hp with rfl | hp
        · refine ⟨hloc, by rw [setBelow_length]; exact hel, t, es, hes, fun i hi => ?_⟩
          exact setBelow_get he entry (b :: bs) es hs hge hel i hi
        · obtain ⟨q1, q2, t', es', q3, q4⟩ := p6 p hp
          refine ⟨q1, q2, t', es', q3, fun i hi => ?_⟩
          rw [q4 i hi]
          have hidx : b / epb < p.1 := by
            obtain ⟨y, hy, e⟩ := (p5 p.1).mp (List.of_mem_zip hp).1
            have := hdiv y hy
            omega
          have hbig : epb * (b / epb + 1) ≤ epb * p.1 := Nat.mul_le_mul_left _ hidx
          have : epb * p.1 + i ∈ rest ↔ epb * p.1 + i ∈ b :: bs := by
            constructor
            · intro h; exact List.mem_cons_of_mem _ (hsub.subset h)
            · intro h
              refine Classical.byContradiction fun c => ?_
              rcases List.mem_cons.mp h with h | h
              · have := Nat.mod_lt b he
                rw [Nat.mul_add] at hbig
                omega
              · have := hnear _ h c
                omega
          by_cases c : epb * p.1 + i ∈ rest
          · rw [if_pos c, if_pos (this.mp c)]
          · rw [if_neg c, if_neg (fun h => c (this.mpr h))]

/-- `adjust_bitmap_entries`: the entries of the blocks, and no others, are changed; whichever writes happen, an entry is the old or the new one -/
theorem adjust_spec {rd : Nat → Option (Bool × List BE)} {epb : Nat} (he : 0 < epb) (hrd : Entries epb rd) {ies : List IndexEntry}
    (hr : ∀ ie ∈ ies, ∃ t es, rd ie.blocknr = some (t, es)) (hmax : ies.length ≤ MAX_METADATA_BITMAPS) (hnd : (ies.map (·.blocknr)).Nodup) (wr : Nat → Bool) (rc : Nat)
    {blocks : List Nat} (hs : blocks.Pairwise (· < ·)) (hlt : ∀ b ∈ blocks, b / epb < ies.length) :
    ∃ rd', adjust wr rd epb ies blocks rc = some rd' ∧ (∀ loc, loc ∉ ies.map (·.blocknr) → rd' loc = rd loc) ∧
      (∀ loc t es, rd loc = some (t, es) → ∃ t' es', rd' loc = some (t', es') ∧ es'.length = es.length ∧ (t = true → t' = true)) ∧
      (∀ b e, EntryAt epb rd' (ies.map (·.blocknr)) b e → EntryAt epb rd (ies.map (·.blocknr)) b e ∨ (b ∈ blocks ∧ e = .small rc)) ∧
      ((∀ i, wr i = true) → (∀ b ∈ blocks, EntryAt epb rd' (ies.map (·.blocknr)) b (.small rc)) ∧
        ∀ b e, b ∉ blocks → (EntryAt epb rd' (ies.map (·.blocknr)) b e ↔ EntryAt epb rd (ies.map (·.blocknr)) b e)) := by
  have hr' : ∀ loc ∈ ies.map (·.blocknr), ∃ t es, rd loc = some (t, es) := by
    intro loc hl
    obtain ⟨ie, h, rfl⟩ := List.mem_map.mp hl
    exact hr ie h
  obtain ⟨bi, plan, p1, p2, p3, p4, p5, p6⟩ := adjustLoop_spec he hrd.len (.small rc) (ies.map (·.blocknr)) hr' (by rw [List.length_map]; exact hmax) blocks.length blocks
    MAX_METADATA_BITMAPS (Nat.le_refl _) hs (fun b hb => by have := hlt b hb; omega) (fun b hb => by rw [List.length_map]; exact hlt b hb)
  have hat : ∀ (k idx : Nat) (w : Nat × List BE), bi[k]? = some idx → plan[k]? = some w → PlanAt rd epb (.small rc) (ies.map (·.blocknr)) blocks idx w := by
    intro k idx w h1 h2
    exact p6 (idx, w) (List.mem_of_getElem? (i := k) (by show (bi.zip plan)[k]? = some (idx, w); rw [List.getElem?_zip_eq_some]; exact ⟨h1, h2⟩))
  have hplan : ∀ (k : Nat) (w : Nat × List BE), plan[k]? = some w → ∃ idx, bi[k]? = some idx := by
    intro k w h
    have := (List.getElem?_eq_some_iff.mp h).1
    exact ⟨_, List.getElem?_eq_getElem (by omega)⟩
  -- no place is written twice
  have hfst : (plan.map (·.1)).Nodup := by
    refine List.pairwise_iff_getElem.mpr fun i j hi hj hij heq => ?_
    rw [List.length_map] at hi hj
    obtain ⟨x, hx⟩ := hplan i _ (List.getElem?_eq_getElem hi)
    obtain ⟨y, hy⟩ := hplan j _ (List.getElem?_eq_getElem hj)
    have a1 := (hat i x _ hx (List.getElem?_eq_getElem hi)).1
    have a2 := (hat j y _ hy (List.getElem?_eq_getElem hj)).1
    rw [List.getElem_map, List.getElem_map] at heq
    rw [heq] at a1
    have hxy : x = y := by
      have b1 := (List.getElem?_eq_some_iff.mp a1).1
      exact (List.getElem?_inj b1 hnd).mp (a1.trans a2.symm)
    have := List.pairwise_iff_getElem.mp p3 i j (by omega) (by omega) hij
    rw [List.getElem?_eq_some_iff] at hx hy
    obtain ⟨_, rfl⟩ := hx
    obtain ⟨_, hy⟩ := hy
    rw [hy] at this
    omega
  refine ⟨SMC.writeMany wr plan 0 rd, by unfold adjust; rw [p1]; simp only; rw [p2]; rfl, ?_, ?_, ?_, ?_⟩
  · intro loc hl
    refine SMC.writeMany_out _ _ _ _ _ (fun hx => hl ?_)
    obtain ⟨w, hw, rfl⟩ := List.mem_map.mp hx
    obtain ⟨k, hk⟩ := List.mem_iff_getElem?.mp hw
    obtain ⟨idx, hi⟩ := hplan k w hk
    exact List.mem_of_getElem? (hat k idx w hi hk).1
  · intro loc t es h
    by_cases c : loc ∈ plan.map (·.1)
    · obtain ⟨w, hw, rfl⟩ := List.mem_map.mp c
      obtain ⟨k, hk⟩ := List.mem_iff_getElem?.mp hw
      obtain ⟨idx, hi⟩ := hplan k w hk
      obtain ⟨_, a2, _⟩ := hat k idx w hi hk
      rw [SMC.writeMany_in wr plan 0 rd k w.1 w.2 hfst hk]
      by_cases cw : wr (0 + k) = true
      · rw [if_pos cw]; exact ⟨true, w.2, rfl, by rw [a2, hrd.len _ _ _ h], fun _ => rfl⟩
      · rw [if_neg cw]; exact ⟨t, es, h, rfl, id⟩
    · rw [SMC.writeMany_out _ _ _ _ _ c]; exact ⟨t, es, h, rfl, id⟩
  · rintro b e ⟨loc, t, es, g1, g2, g3⟩
    by_cases c : loc ∈ plan.map (·.1)
    · obtain ⟨w, hw, rfl⟩ := List.mem_map.mp c
      obtain ⟨k, hk⟩ := List.mem_iff_getElem?.mp hw
      obtain ⟨idx, hi⟩ := hplan k w hk
      obtain ⟨a1, a2, t0, es0, a3, a4⟩ := hat k idx w hi hk
      rw [SMC.writeMany_in wr plan 0 rd k w.1 w.2 hfst hk] at g2
      by_cases cw : wr (0 + k) = true
      · rw [if_pos cw] at g2
        cases g2
        have hidx : idx = b / epb := (List.getElem?_inj (List.getElem?_eq_some_iff.mp a1).1 hnd).mp (a1.trans g1.symm)
        rw [a4 _ (Nat.mod_lt b he), hidx, Nat.div_add_mod] at g3
        by_cases cb : b ∈ blocks
        · rw [if_pos cb] at g3
          exact .inr ⟨cb, (Option.some.inj g3).symm⟩
        · rw [if_neg cb] at g3
          exact .inl ⟨w.1, t0, es0, g1, a3, g3⟩
      · rw [if_neg cw] at g2
        exact .inl ⟨w.1, t, es, g1, g2, g3⟩
    · rw [SMC.writeMany_out _ _ _ _ _ c] at g2
      exact .inl ⟨loc, t, es, g1, g2, g3⟩
  · intro hw
    have key : ∀ b loc, (ies.map (·.blocknr))[b / epb]? = some loc → ∃ t es, rd loc = some (t, es) ∧ ∃ t' es', SMC.writeMany wr plan 0 rd loc = some (t', es') ∧
        es'[b % epb]? = if b ∈ blocks then some (.small rc) else es[b % epb]? := by
      intro b loc hb
      obtain ⟨t, es, h⟩ := hr' loc (List.mem_of_getElem? hb)
      refine ⟨t, es, h, ?_⟩
      by_cases c : loc ∈ plan.map (·.1)
      · obtain ⟨w, hw', rfl⟩ := List.mem_map.mp c
        obtain ⟨k, hk⟩ := List.mem_iff_getElem?.mp hw'
        obtain ⟨idx, hi⟩ := hplan k w hk
        obtain ⟨a1, a2, t0, es0, a3, a4⟩ := hat k idx w hi hk
        have hidx : idx = b / epb := (List.getElem?_inj (List.getElem?_eq_some_iff.mp a1).1 hnd).mp (a1.trans hb.symm)
        rw [h] at a3
        cases a3
        refine ⟨true, w.2, by rw [SMC.writeMany_in wr plan 0 rd k w.1 w.2 hfst hk, if_pos (hw _)], ?_⟩
        rw [a4 _ (Nat.mod_lt b he), hidx, Nat.div_add_mod]
      · refine ⟨t, es, by rw [SMC.writeMany_out _ _ _ _ _ c]; exact h, ?_⟩
        rw [if_neg]
        intro hbb
        obtain ⟨k, hk⟩ := List.mem_iff_getElem?.mp ((p5 (b / epb)).mpr ⟨b, hbb, rfl⟩)
        have hkl := (List.getElem?_eq_some_iff.mp hk).1
        have hpk : plan[k]? = some plan[k] := List.getElem?_eq_getElem (by omega)
        have := (hat k _ _ hk hpk).1
        rw [hb] at this
        exact c (List.mem_map.mpr ⟨_, List.mem_of_getElem? hpk, (Option.some.inj this).symm⟩)
    refine ⟨fun b hb => ?_, fun b e hb => ?_⟩
    · obtain ⟨loc, hloc⟩ : ∃ loc, (ies.map (·.blocknr))[b / epb]? = some loc := ⟨_, List.getElem?_eq_getElem (by rw [List.length_map]; exact hlt b hb)⟩
      obtain ⟨t, es, h1, t', es', h2, h3⟩ := key b loc hloc
      rw [if_pos hb] at h3
      exact ⟨loc, t', es', hloc, h2, h3⟩
    · constructor
      · rintro ⟨loc, t, es, g1, g2, g3⟩
        obtain ⟨t0, es0, h1, t', es', h2, h3⟩ := key b loc g1
        rw [if_neg hb] at h3
        rw [h2] at g2
        cases g2
        exact ⟨loc, t0, es0, g1, h1, h3 ▸ g3⟩
      · rintro ⟨loc, t, es, g1, g2, g3⟩
        obtain ⟨t0, es0, h1, t', es', h2, h3⟩ := key b loc g1
        rw [if_neg hb] at h3
        rw [h1] at g2
        cases g2
        exact ⟨loc, t', es', g1, h2, h3.trans g3⟩

/-! ## The command -/

/-- **C73**: on a device of the size of its space map that is not a whole number of bitmaps, `create-metadata-leaks` for counts below three fails, without
a change, if there are not enough blocks with the expected count, and otherwise does what was asked for. -/
theorem createLeaks_exact_partial {rd : Nat → Option (Bool × List BE)} {epb dev : Nat} (he : 0 < epb) (hrd : Entries epb rd) {ies : List IndexEntry}
    (hr : ∀ ie ∈ ies, ∃ t es, rd ie.blocknr = some (t, es)) (hn : ies.length = Arr.divUp dev epb) (hmax : ies.length ≤ MAX_METADATA_BITMAPS) (hm : dev % epb ≠ 0)
    (hnd : (ies.map (·.blocknr)).Nodup) (wr : Nat → Bool) (hw : ∀ i, wr i = true) (nr expected actual : Nat) (h1 : expected ≤ 2) (h2 : actual ≤ 2)
    (shuffle : List Nat → List Nat) (hsh : ∀ l, (shuffle l).Perm l) :
    ∃ found : List Nat, found.Nodup ∧ (∀ b, b ∈ found ↔ b < dev ∧ EntryAt epb rd (ies.map (·.blocknr)) b (.small expected)) ∧
      (found.length < nr → createLeaks wr rd epb dev ies nr expected actual shuffle = none) ∧
      (nr ≤ found.length → ∃ rd' chosen, createLeaks wr rd epb dev ies nr expected actual shuffle = some rd' ∧
        Damaged epb dev rd (ies.map (·.blocknr)) nr expected actual rd' chosen) := by
  obtain ⟨found, f1, f2, f3⟩ := findSmall_spec expected hrd he hr hn hm
  have fnd : found.Nodup := f2.imp (fun h => by omega)
  refine ⟨found, fnd, f3, fun h => ?_, fun h => ?_⟩
  · unfold createLeaks
    rw [if_neg (by omega), f1]
    simp only
    rw [if_pos h]
  · have hperm : (Gen.sortBy id ((shuffle found).take nr)).Perm ((shuffle found).take nr) := Gen.sortBy_perm _ _
    have hcn : ((shuffle found).take nr).Nodup := ((hsh found).nodup_iff.mpr fnd).sublist (List.take_sublist _ _)
    have hmem : ∀ b ∈ Gen.sortBy id ((shuffle found).take nr), b ∈ found := fun b hb => (hsh found).mem_iff.mp (List.mem_of_mem_take (hperm.mem_iff.mp hb))
    have hsorted : (Gen.sortBy id ((shuffle found).take nr)).Pairwise (· < ·) := Gen.sort_strict id (by rw [List.map_id]; exact hcn)
    obtain ⟨rd', r1, r2, r3, r4, r5⟩ := adjust_spec he hrd hr hmax hnd wr actual hsorted (fun b hb => by
      obtain ⟨_, loc, t, es, g1, _⟩ := (f3 b).mp (hmem b hb)
      have := (List.getElem?_eq_some_iff.mp g1).1
      rwa [List.length_map] at this)
    refine ⟨rd', Gen.sortBy id ((shuffle found).take nr), ?_, ?_, ?_, ?_, ?_, ?_, r2, r3⟩
    · unfold createLeaks
      rw [if_neg (by omega), f1]
      simp only
      rw [if_neg (by omega), if_neg (by omega)]
      exact r1
    · rw [hperm.length_eq, List.length_take, (hsh found).length_eq]
      omega
    · exact hperm.nodup_iff.mpr hcn
    · exact fun b hb => (f3 b).mp (hmem b hb)
    · exact (r5 hw).1
    · exact (r5 hw).2

end Verif.Dmg
