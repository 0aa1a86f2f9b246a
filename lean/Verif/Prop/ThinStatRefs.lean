import Verif.Model.ThinStat
import Verif.Prop.SpaceMapCheck
import Verif.Prop.ThinCheckPoolDemo

/-!
# C68: the histogram of reference counts that `thin_stat` prints is right
-/

namespace Verif.Stat

open Verif.BT (Blk WSt Event Tree)
open Verif.SMD (SVal)
open Verif.TChk (TDev)

/-! ## Specification -/

/-- `h` is the histogram of `l`: keys in increasing order, exactly those in `l`, each with the number of times it is there -/
structure HistOf (l : List Nat) (h : Hist) : Prop where
  sorted : (h.map (·.1)).Pairwise (· < ·)
  counts : ∀ e ∈ h, 0 < e.2 ∧ e.2 = l.count e.1
  all : ∀ k ∈ l, ∃ e ∈ h, e.1 = k

/-- The space map on disk has exactly these counts for the blocks below `nr`: the entries of the bitmaps, zero beyond `nr`, and a value in the overflow tree for every count above 2. -/
structure OnDisk (epb : Nat) (bm : Nat → Option (Bool × List BE)) (ies : List IndexEntry) (ov : List (Nat × SVal)) (nr : Nat) (refs : Nat → Nat) : Prop where
  read : ∀ ie ∈ ies, ∃ es, bm ie.blocknr = some (true, es)
  small : ∀ b, b < nr → refs b < 3 → SMC.EntryAt epb bm (ies.map (·.blocknr)) b (.small (refs b))
  big : ∀ b, b < nr → 3 ≤ refs b → SMC.EntryAt epb bm (ies.map (·.blocknr)) b .overflow
  beyond : ∀ b e, nr ≤ b → SMC.EntryAt epb bm (ies.map (·.blocknr)) b e → e = .small 0
  ov : ∀ e, e ∈ ov ↔ e.1 < nr ∧ 3 ≤ refs e.1 ∧ e.2 = .rc (refs e.1)

/-! ## Histograms -/

theorem bump_keys (k : Nat) : ∀ (h : Hist) (x : Nat), x ∈ (bump k h).map (·.1) ↔ x = k ∨ x ∈ h.map (·.1) := by
  intro h
  induction h with
  | nil => intro x; simp [bump]
  | cons e h ih =>
    intro x
    unfold bump
    by_cases h1 : k < e.1
    · rw [if_pos h1]; simp
    · rw [if_neg h1]
      by_cases h2 : k = e.1
      · rw [if_pos h2]; simp [h2]
      · rw [if_neg h2, List.map_cons, List.mem_cons, ih, List.map_cons, List.mem_cons]
        constructor <;> (intro h; rcases h with h | h | h <;> simp [h])

theorem bump_hist {l : List Nat} {h : Hist} (hh : HistOf l h) (k : Nat) : HistOf (l ++ [k]) (bump k h) := by
  have key : ∀ (h : Hist), (h.map (·.1)).Pairwise (· < ·) → (∀ e ∈ h, 0 < e.2 ∧ e.2 = l.count e.1) → (k ∈ l → k ∈ h.map (·.1)) →
      ((bump k h).map (·.1)).Pairwise (· < ·) ∧ ∀ e ∈ bump k h, 0 < e.2 ∧ e.2 = (l ++ [k]).count e.1 := by
    intro h
    induction h with
    | nil =>
      intro _ _ hk
      refine ⟨by simp [bump], fun e he => ?_⟩
      simp only [bump, List.mem_singleton] at he
      subst he
      have : l.count k = 0 := List.count_eq_zero.mpr (fun h => by simpa using hk h)
      simp [List.count_append, this]
    | cons e h ih =>
      intro hs hc hk
      obtain ⟨hs1, hs2⟩ := List.pairwise_cons.mp (by simpa using hs : ((e.1 :: h.map (·.1)).Pairwise (· < ·)))
      have other : ∀ x, x ≠ k → (l ++ [k]).count x = l.count x := by
        intro x hx
        rw [List.count_append, List.count_singleton]
        have : (k == x) = false := by simpa using fun h => hx h.symm
        rw [this]; simp
      unfold bump
      by_cases h1 : k < e.1
      · rw [if_pos h1]
        have hnot : k ∉ (e :: h).map (·.1) := by
          intro hm
          rw [List.map_cons] at hm
          rcases List.mem_cons.mp hm with rfl | hm
          · omega
          · have := hs1 k hm; omega
        refine ⟨?_, ?_⟩
        · rw [List.map_cons]
          refine List.pairwise_cons.mpr ⟨fun x hx => ?_, hs⟩
          rw [List.map_cons] at hx
          rcases List.mem_cons.mp hx with rfl | hx
          · exact h1
          · have := hs1 x hx; show k < x; omega
        · intro x hx
          rcases List.mem_cons.mp hx with rfl | hx
          · have : l.count k = 0 := List.count_eq_zero.mpr fun h => hnot (hk h)
            simp [List.count_append, this]
          · have hne : x.1 ≠ k := fun h => hnot (h ▸ List.mem_map.mpr ⟨x, hx, rfl⟩)
            rw [other _ hne]
            exact hc x hx
      · rw [if_neg h1]
        by_cases h2 : k = e.1
        · rw [if_pos h2]
          refine ⟨by simpa using hs, ?_⟩
          intro x hx
          rcases List.mem_cons.mp hx with rfl | hx
          · have := hc e (by simp)
            rw [List.count_append]
            simp only [h2, List.count_singleton_self]
            omega
          · have hne : x.1 ≠ k := by
              have := hs1 x.1 (List.mem_map.mpr ⟨x, hx, rfl⟩)
              omega
            rw [other _ hne]
            exact hc x (List.mem_cons_of_mem _ hx)
        · rw [if_neg h2]
          obtain ⟨i1, i2⟩ := ih hs2 (fun x hx => hc x (List.mem_cons_of_mem _ hx)) (fun hm => by
            have := hk hm
            rw [List.map_cons] at this
            rcases List.mem_cons.mp this with h | h
            · exact absurd h h2
            · exact h)
          refine ⟨?_, ?_⟩
          · rw [List.map_cons]
            refine List.pairwise_cons.mpr ⟨fun x hx => ?_, i1⟩
            rcases (bump_keys k h x).mp hx with rfl | hx
            · omega
            · exact hs1 x hx
          · intro x hx
            rcases List.mem_cons.mp hx with rfl | hx
            · rw [other _ (fun h => h2 h.symm)]
              exact hc x (by simp)
            · exact i2 x hx
  obtain ⟨k1, k2⟩ := key h hh.sorted hh.counts (fun hk => by
    obtain ⟨e, he, h⟩ := hh.all k hk
    exact List.mem_map.mpr ⟨e, he, h⟩)
  refine ⟨k1, k2, fun x hx => ?_⟩
  have : x ∈ (bump k h).map (·.1) := by
    rw [bump_keys]
    rcases List.mem_append.mp hx with h | h
    · obtain ⟨e, he, h⟩ := hh.all x h
      exact Or.inr (List.mem_map.mpr ⟨e, he, h⟩)
    · exact Or.inl (List.mem_singleton.mp h)
  obtain ⟨e, he, h⟩ := List.mem_map.mp this
  exact ⟨e, he, h⟩

theorem hist_nil : HistOf [] [] := ⟨by simp, by simp, by simp⟩

theorem HistOf.perm {l l' : List Nat} {h : Hist} (hh : HistOf l h) (hp : ∀ k, l.count k = l'.count k) : HistOf l' h := by
  refine ⟨hh.sorted, fun e he => ⟨(hh.counts e he).1, by rw [← hp]; exact (hh.counts e he).2⟩, fun k hk => hh.all k ?_⟩
  have := List.count_pos_iff.mpr hk
  rw [← hp] at this
  exact List.count_pos_iff.mp this

/-- a histogram says how long the list is -/
theorem hist_total {l : List Nat} {h : Hist} (hh : HistOf l h) : total h = l.length := by
  have key : ∀ (h : Hist) (l : List Nat), (h.map (·.1)).Pairwise (· < ·) → (∀ e ∈ h, e.2 = l.count e.1) → (∀ k ∈ l, ∃ e ∈ h, e.1 = k) → (h.map (·.2)).sum = l.length := by
    intro h
    induction h with
    | nil =>
      intro l _ _ ha
      cases l with
      | nil => rfl
      | cons a l => obtain ⟨e, he, -⟩ := ha a (by simp); cases he
    | cons e h ih =>
      intro l hs hc ha
      obtain ⟨hs1, hs2⟩ := List.pairwise_cons.mp (by simpa using hs : ((e.1 :: h.map (·.1)).Pairwise (· < ·)))
      have h1 := ih (l.filter fun x => !(x == e.1)) hs2 (fun x hx => by
        rw [hc x (List.mem_cons_of_mem _ hx), List.count_filter]
        have := hs1 x.1 (List.mem_map.mpr ⟨x, hx, rfl⟩)
        simp; omega) (fun k hk => by
        obtain ⟨hk1, hk2⟩ := List.mem_filter.mp hk
        obtain ⟨x, hx, hxk⟩ := ha k hk1
        rcases List.mem_cons.mp hx with rfl | hx
        · simp [hxk] at hk2
        · exact ⟨x, hx, hxk⟩)
      rw [List.map_cons, List.sum_cons, h1, hc e (by simp)]
      have := List.length_eq_countP_add_countP (fun x => x == e.1) (l := l)
      rw [this, List.count, ← List.countP_eq_length_filter]
      congr 1
      apply List.countP_congr
      intro x _
      simp
  exact key h l hh.sorted (fun e he => (hh.counts e he).2) hh.all

/-! ## What is counted -/

/-- the counts that a bitmap holds itself -/
def lows (es : List BE) : List Nat := es.filterMap fun e => match e with | .small c => if c > 0 ∧ c ≤ 2 then some c else none | .overflow => none

theorem statBitmap_hist : ∀ (es : List BE) (l : List Nat) (h : Hist), HistOf l h → HistOf (l ++ lows es) (statBitmap es h) := by
  intro es
  induction es with
  | nil => intro l h hh; simpa [lows, statBitmap] using hh
  | cons e es ih =>
    intro l h hh
    cases e with
    | small c =>
      unfold statBitmap
      by_cases hc : c > 0 ∧ c ≤ 2
      · rw [if_pos hc]
        have := ih _ _ (bump_hist hh c)
        simpa [lows, hc] using this
      · rw [if_neg hc]
        have := ih _ _ hh
        unfold lows at this ⊢
        rw [List.filterMap_cons]
        simp only [if_neg hc]
        exact this
    | overflow =>
      have := ih _ _ hh
      unfold statBitmap lows
      rw [List.filterMap_cons]
      exact this

/-- all entries of the bitmaps -/
def allEntries (bm : Nat → Option (Bool × List BE)) (locs : List Nat) : List BE := locs.flatMap fun loc => match bm loc with | some (_, es) => es | none => []

theorem lows_append (a b : List BE) : lows (a ++ b) = lows a ++ lows b := by unfold lows; rw [List.filterMap_append]

theorem statLow_hist {bm : Nat → Option (Bool × List BE)} : ∀ (locs : List Nat) (l : List Nat) (h : Hist), HistOf l h → (∀ loc ∈ locs, ∃ es, bm loc = some (true, es)) →
    ∃ h', statLow bm locs h = some h' ∧ HistOf (l ++ lows (allEntries bm locs)) h' := by
  intro locs
  induction locs with
  | nil => intro l h hh _; exact ⟨h, rfl, by simpa [allEntries, lows] using hh⟩
  | cons loc locs ih =>
    intro l h hh hr
    obtain ⟨es, he⟩ := hr loc (by simp)
    obtain ⟨h', h1, h2⟩ := ih _ _ (statBitmap_hist es l h hh) fun x hx => hr x (by simp [hx])
    refine ⟨h', ?_, ?_⟩
    · unfold statLow
      rw [he]
      simpa using h1
    · unfold allEntries at h2 ⊢
      rw [List.flatMap_cons, he, lows_append, ← List.append_assoc]
      exact h2

/-- the values of an overflow tree -/
def rcs (es : List (Nat × SVal)) : List Nat := es.filterMap fun e => match e.2 with | .rc v => some v | .ie _ => none

theorem visitRefs : ∀ (es : List (Nat × SVal)) (l : List Nat) (h : Hist), HistOf l h →
    HistOf (l ++ rcs es) (es.foldl (fun h e => match e.2 with | .rc v => bump v h | .ie _ => h) h) := by
  intro es
  induction es with
  | nil => intro l h hh; simpa [rcs] using hh
  | cons e es ih =>
    intro l h hh
    obtain ⟨k, v⟩ := e
    cases v with
    | rc v =>
      have := ih _ _ (bump_hist hh v)
      unfold rcs at this ⊢
      rw [List.filterMap_cons]
      simpa using this
    | ie i =>
      have := ih _ _ hh
      unfold rcs at this ⊢
      rw [List.filterMap_cons]
      simpa using this

theorem rcs_append (a b : List (Nat × SVal)) : rcs (a ++ b) = rcs a ++ rcs b := by unfold rcs; rw [List.filterMap_append]

theorem countRefs_leaves : ∀ (h : Nat) (path : List Nat) (kr : BT.KeyRange) (t : Tree SVal h) (rest : List (Event SVal)) (l : List Nat) (g : Hist), HistOf l g →
    ∃ g', HistOf (l ++ rcs (t.contents h)) g' ∧ countRefs (BT.leafEvents h path kr t ++ rest) g = countRefs rest g' := by
  intro h
  induction h with
  | zero => intro path kr t rest l g hg; exact ⟨_, visitRefs t.2 l g hg, rfl⟩
  | succ h ih =>
    intro path kr t rest l g hg
    have : ∀ (cs : List (Nat × Tree SVal h)) (l : List Nat) (g : Hist), HistOf l g → ∃ g', HistOf (l ++ rcs (cs.flatMap fun c => c.2.contents h)) g' ∧
        countRefs (BT.eachRange (BT.leafEvents h (path ++ [t.1])) kr.fin cs ++ rest) g = countRefs rest g' := by
      intro cs
      induction cs with
      | nil => intro l g hg; exact ⟨g, by simpa [rcs] using hg, rfl⟩
      | cons p cs ihl =>
        intro l g hg
        obtain ⟨k, c⟩ := p
        simp only [BT.eachRange, List.append_assoc, List.flatMap_cons, rcs_append]
        obtain ⟨g1, a1, a2⟩ := ih (path ++ [t.1]) ⟨some k, BT.nextKey kr.fin cs⟩ c (BT.eachRange (BT.leafEvents h (path ++ [t.1])) kr.fin cs ++ rest) l g hg
        obtain ⟨g2, b1, b2⟩ := ihl _ _ a1
        refine ⟨g2, by rw [← List.append_assoc]; exact b1, ?_⟩
        rw [a2, b2]
    exact this t.2 l g hg

theorem statOverflow_hist {d : TDev} {mem : Nat → Option (Blk SVal)} {h : Nat} {t : Tree SVal h} (hm : d.rdn = fun _ b => mem b) (hc : LW.Clean mem d.nr h t) {l : List Nat} {g : Hist} (hg : HistOf l g) :
    ∃ g', statOverflow d (t.blk h) g = some g' ∧ HistOf (l ++ rcs (t.contents h)) g' := by
  have hroot : t.blk h < d.nr := hc.bound _ (by cases h <;> simp [BT.Tree.blk, BT.Tree.blocks])
  obtain ⟨h1, h2⟩ := BT.walk_clean (fun b => decide (b < d.nr)) (fun _ b => mem b) (fun _ _ => true) (fun _ _ => rfl) h t d.nr 1 (by omega) true
    (d.nr + 1) (by have := hc.height; omega) [0] (by simpa using hroot) hc.stored hc.ordered hc.noEmpty hc.nodup hc.bound
  unfold statOverflow
  rw [hm]
  simp only [h1, h2, if_true]
  obtain ⟨g', a1, a2⟩ := countRefs_leaves h [0] ⟨none, none⟩ t [.endWalk] l g hg
  exact ⟨g', by rw [a2]; rfl, a1⟩

theorem entries_get {epb : Nat} (he : 0 < epb) {bm : Nat → Option (Bool × List BE)} (hlen : ∀ loc t es, bm loc = some (t, es) → es.length = epb) : ∀ (locs : List Nat),
    (∀ loc ∈ locs, ∃ es, bm loc = some (true, es)) → ∀ (b : Nat) (e : BE), SMC.EntryAt epb bm locs b e ↔ (allEntries bm locs)[b]? = some e := by
  intro locs
  induction locs with
  | nil => intro _ b e; simp [SMC.EntryAt, allEntries]
  | cons loc locs ih =>
    intro hr b e
    obtain ⟨es, hes⟩ := hr loc (by simp)
    have hl := hlen _ _ _ hes
    have hE : allEntries bm (loc :: locs) = es ++ allEntries bm locs := by unfold allEntries; rw [List.flatMap_cons, hes]
    rw [hE, List.getElem?_append, hl]
    by_cases hb : b < epb
    · rw [if_pos hb]
      unfold SMC.EntryAt
      rw [Nat.div_eq_of_lt hb, Nat.mod_eq_of_lt hb]
      constructor
      · rintro ⟨l, t, es', h1, h2, h3⟩
        simp only [List.getElem?_cons_zero, Option.some.injEq] at h1
        subst h1
        rw [hes] at h2
        cases h2
        exact h3
      · intro h; exact ⟨loc, true, es, rfl, hes, h⟩
    · rw [if_neg hb, ← ih (fun l hl => hr l (by simp [hl])) (b - epb) e]
      unfold SMC.EntryAt
      obtain ⟨c, rfl⟩ : ∃ c, b = c + epb := ⟨b - epb, by omega⟩
      rw [Nat.add_sub_cancel, Nat.add_div_right _ he, Nat.add_mod_right, List.getElem?_cons_succ]

theorem lows_count (k : Nat) : ∀ es : List BE, (lows es).count k = if 0 < k ∧ k ≤ 2 then es.count (.small k) else 0 := by
  intro es
  induction es with
  | nil => simp [lows]
  | cons e es ih =>
    have hcons : lows (e :: es) = lows [e] ++ lows es := lows_append [e] es
    rw [hcons, List.count_append, ih]
    cases e with
    | small c =>
      by_cases hc : c > 0 ∧ c ≤ 2
      · have : lows [.small c] = [c] := by simp [lows, hc]
        rw [this, List.count_singleton, List.count_cons]
        by_cases hk : c = k
        · subst hk
          rw [if_pos hc, if_pos hc]
          simp; omega
        · have h1 : (c == k) = false := by simpa using hk
          have h2 : (BE.small c == BE.small k) = false := by simpa using hk
          rw [h1, h2]
          simp
      · have : lows [.small c] = [] := by simp [lows]; omega
        rw [this]
        by_cases hk : 0 < k ∧ k ≤ 2
        · have h2 : (BE.small c == BE.small k) = false := by
            simp only [beq_eq_false_iff_ne, ne_eq, BE.small.injEq]
            rintro rfl; exact hc hk
          rw [if_pos hk, if_pos hk, List.count_cons, h2]
          simp
        · rw [if_neg hk, if_neg hk]; simp
    | overflow =>
      have : lows [.overflow] = [] := rfl
      rw [this, List.count_cons]
      have h2 : (BE.overflow == BE.small k) = false := rfl
      rw [h2]
      simp

/-- what is counted are the counts of all blocks that are in use -/
theorem on_disk_counts {epb : Nat} (he : 0 < epb) {bm : Nat → Option (Bool × List BE)} (hlen : ∀ loc t es, bm loc = some (t, es) → es.length = epb) {ies : List IndexEntry} {ov : List (Nat × SVal)}
    {nr : Nat} {refs : Nat → Nat} (h : OnDisk epb bm ies ov nr refs) (hov : (ov.map (·.1)).Nodup) (k : Nat) :
    (lows (allEntries bm (ies.map (·.blocknr))) ++ rcs ov).count k = (((List.range nr).map refs).filter fun c => decide (0 < c)).count k := by
  have hread : ∀ loc ∈ ies.map (·.blocknr), ∃ es, bm loc = some (true, es) := by
    intro loc hl
    obtain ⟨ie, hie, rfl⟩ := List.mem_map.mp hl
    exact h.read ie hie
  have hget := entries_get he hlen _ hread
  generalize hE : allEntries bm (ies.map (·.blocknr)) = E at hget ⊢
  have hat : ∀ b, b < nr → E[b]? = some (if refs b < 3 then BE.small (refs b) else .overflow) := by
    intro b hb
    by_cases hr : refs b < 3
    · rw [if_pos hr]; exact (hget b _).mp (h.small b hb hr)
    · rw [if_neg hr]; exact (hget b _).mp (h.big b hb (by omega))
  have hle : nr ≤ E.length := by
    apply Nat.le_of_not_lt
    intro hlt
    have := hat _ hlt
    simp at this
  have htake : E.take nr = (List.range nr).map fun b => if refs b < 3 then BE.small (refs b) else .overflow := by
    apply List.ext_getElem?
    intro b
    by_cases hb : b < nr
    · rw [List.getElem?_take, if_pos hb, hat b hb, List.getElem?_map, List.getElem?_range hb]
      rfl
    · rw [List.getElem?_take, if_neg hb, List.getElem?_eq_none (by simpa using hb)]
  have hdrop : ∀ k, 0 < k → (E.drop nr).count (.small k) = 0 := by
    intro k hk
    apply List.count_eq_zero.mpr
    intro hm
    obtain ⟨i, hi⟩ := List.mem_iff_getElem?.mp hm
    rw [List.getElem?_drop] at hi
    have := h.beyond (nr + i) _ (by omega) ((hget _ _).mpr hi)
    cases this
    omega
  have hov2 : rcs ov = (ov.map (·.1)).map refs := by
    have : ∀ l : List (Nat × SVal), (∀ e ∈ l, e.2 = .rc (refs e.1)) → rcs l = (l.map (·.1)).map refs := by
      intro l
      induction l with
      | nil => intro _; rfl
      | cons e l ih =>
        intro hl
        have h1 := hl e (by simp)
        have h2 := ih fun x hx => hl x (by simp [hx])
        unfold rcs at h2 ⊢
        rw [List.filterMap_cons, h1]
        simp only [List.map_cons]
        rw [h2]
    exact this ov fun e hm => ((h.ov e).mp hm).2.2
  have hperm : (ov.map (·.1)).Perm ((List.range nr).filter fun b => decide (3 ≤ refs b)) := by
    refine (List.perm_ext_iff_of_nodup hov (List.nodup_range.sublist List.filter_sublist)).mpr fun b => ?_
    rw [List.mem_filter, List.mem_range, decide_eq_true_eq, List.mem_map]
    constructor
    · rintro ⟨e, hm, rfl⟩
      have := (h.ov e).mp hm
      exact ⟨this.1, this.2.1⟩
    · rintro ⟨h1, h2⟩
      exact ⟨(b, .rc (refs b)), (h.ov _).mpr ⟨h1, h2, rfl⟩, rfl⟩
  have hbig : (rcs ov).count k = if 3 ≤ k then (List.range nr).countP (fun b => refs b == k) else 0 := by
    rw [hov2, (hperm.map refs).count_eq, List.count, List.countP_map, List.countP_filter]
    by_cases hk : 3 ≤ k
    · rw [if_pos hk]
      apply List.countP_congr
      intro b _
      simp only [Function.comp, Bool.and_eq_true, beq_iff_eq, decide_eq_true_eq]
      constructor
      · exact fun h => h.1
      · rintro rfl; exact ⟨rfl, hk⟩
    · rw [if_neg hk]
      apply List.countP_eq_zero.mpr
      intro b _
      simp only [Function.comp, Bool.and_eq_true, beq_iff_eq, decide_eq_true_eq]
      rintro ⟨rfl, h⟩
      exact hk h
  have hright : (((List.range nr).map refs).filter fun c => decide (0 < c)).count k = if 0 < k then (List.range nr).countP (fun b => refs b == k) else 0 := by
    rw [List.count, List.countP_filter, List.countP_map]
    by_cases hk : 0 < k
    · rw [if_pos hk]
      apply List.countP_congr
      intro b _
      simp only [Function.comp, Bool.and_eq_true, beq_iff_eq, decide_eq_true_eq]
      constructor
      · exact fun h => h.1
      · rintro rfl; exact ⟨rfl, hk⟩
    · rw [if_neg hk]
      apply List.countP_eq_zero.mpr
      intro b _
      simp only [Function.comp, Bool.and_eq_true, beq_iff_eq, decide_eq_true_eq]
      rintro ⟨rfl, h⟩
      exact hk h
  rw [List.count_append, lows_count, hbig, hright]
  by_cases hk : 0 < k ∧ k ≤ 2
  · rw [if_pos hk, if_neg (by omega), if_pos hk.1, ← List.take_append_drop nr E, List.count_append, hdrop k hk.1, htake, List.count, List.countP_map]
    rw [Nat.add_zero]
    apply List.countP_congr
    intro b _
    simp only [Function.comp, beq_iff_eq]
    by_cases hr : refs b < 3
    · rw [if_pos hr]; simp
    · rw [if_neg hr]
      constructor
      · intro h; cases h
      · intro h; omega
  · rw [if_neg hk, Nat.zero_add]
    by_cases h3 : 3 ≤ k
    · rw [if_pos h3, if_pos (by omega)]
    · rw [if_neg h3, if_neg (by omega)]

/-- the reference counts of the blocks that are in use -/
def usedCounts (nr : Nat) (refs : Nat → Nat) : List Nat := ((List.range nr).map refs).filter fun c => decide (0 < c)

/-- **C68, data blocks.**  If the space map on disk has the counts `refs`, `thin_stat` prints the histogram of the counts of all blocks in use, and how many these are. -/
theorem data_blocks_exact {unpackRoot : Bytes → Option SMRoot} {d : TDev} {sb : Thin.Superblock} {root : SMRoot} (hsb : d.sb = some sb) (hroot : unpackRoot sb.data_sm_root = some root)
    {epb : Nat} (he : 0 < epb) (hlen : ∀ loc t es, d.bm loc = some (t, es) → es.length = epb) {mem : Nat → Option (Blk SVal)} (hm : d.rdn = fun _ b => mem b)
    {hX : Nat} {tX : Tree SVal hX} {ies : List IndexEntry} (hX : SMC.IndexTree mem d.nr root.bitmap_root ies hX tX)
    {hO : Nat} {tO : Tree SVal hO} (hO : LW.Clean mem d.nr hO tO) (hOb : tO.blk _ = root.ref_count_root) {refs : Nat → Nat}
    (hdisk : OnDisk epb d.bm ies (tO.contents _) root.nr_blocks refs) :
    ∃ h, dataBlocks unpackRoot d = some (h, (usedCounts root.nr_blocks refs).length) ∧ HistOf (usedCounts root.nr_blocks refs) h := by
  have hread : ∀ loc ∈ ies.map (·.blocknr), ∃ es, d.bm loc = some (true, es) := by
    intro loc hl
    obtain ⟨ie, hie, rfl⟩ := List.mem_map.mp hl
    exact hdisk.read ie hie
  obtain ⟨h1, a1, a2⟩ := statLow_hist (bm := d.bm) (ies.map (·.blocknr)) [] [] hist_nil hread
  obtain ⟨h2, b1, b2⟩ := statOverflow_hist hm hO a2
  rw [hOb] at b1
  have hh : HistOf (usedCounts root.nr_blocks refs) h2 := by
    refine b2.perm fun k => ?_
    rw [List.nil_append]
    exact on_disk_counts he hlen hdisk (by
      have := LW.ordered_sorted _ tO 0 none hO.ordered
      exact (List.pairwise_map.mpr this : (tO.contents _ |>.map (·.1)).Pairwise (· < ·)).imp fun h => Nat.ne_of_lt h) k
  refine ⟨h2, ?_, hh⟩
  unfold dataBlocks
  rw [hsb]
  simp only [hroot]
  unfold statData
  rw [hm, ← hX.blk, LW.btreeToMap_contents hX.clean, hX.contents]
  simp only [SMC.indexValues_contents, a1, b1, Option.map_some]
  rw [hist_total hh]

/-- **C68, metadata blocks.** -/
theorem metadata_blocks_exact {unpackRoot : Bytes → Option SMRoot} {d : TDev} {sb : Thin.Superblock} {root : SMRoot} (hsb : d.sb = some sb) (hroot : unpackRoot sb.metadata_sm_root = some root)
    {epb : Nat} (he : 0 < epb) (hlen : ∀ loc t es, d.bm loc = some (t, es) → es.length = epb) {mem : Nat → Option (Blk SVal)} (hm : d.rdn = fun _ b => mem b)
    {ies : List IndexEntry} (hX : d.index root.bitmap_root = some ies)
    {hO : Nat} {tO : Tree SVal hO} (hO : LW.Clean mem d.nr hO tO) (hOb : tO.blk _ = root.ref_count_root) {refs : Nat → Nat}
    (hdisk : OnDisk epb d.bm ies (tO.contents _) root.nr_blocks refs) :
    ∃ h, metadataBlocks unpackRoot d = some (h, (usedCounts root.nr_blocks refs).length) ∧ HistOf (usedCounts root.nr_blocks refs) h := by
  have hread : ∀ loc ∈ ies.map (·.blocknr), ∃ es, d.bm loc = some (true, es) := by
    intro loc hl
    obtain ⟨ie, hie, rfl⟩ := List.mem_map.mp hl
    exact hdisk.read ie hie
  obtain ⟨h1, a1, a2⟩ := statLow_hist (bm := d.bm) (ies.map (·.blocknr)) [] [] hist_nil hread
  obtain ⟨h2, b1, b2⟩ := statOverflow_hist hm hO a2
  rw [hOb] at b1
  have hh : HistOf (usedCounts root.nr_blocks refs) h2 := by
    refine b2.perm fun k => ?_
    rw [List.nil_append]
    exact on_disk_counts he hlen hdisk (by
      have := LW.ordered_sorted _ tO 0 none hO.ordered
      exact (List.pairwise_map.mpr this : (tO.contents _ |>.map (·.1)).Pairwise (· < ·)).imp fun h => Nat.ne_of_lt h) k
  refine ⟨h2, ?_, hh⟩
  unfold metadataBlocks
  rw [hsb]
  simp only [hroot]
  unfold statMeta
  rw [hX]
  simp only [a1, b1, Option.map_some]
  rw [hist_total hh]

end Verif.Stat
