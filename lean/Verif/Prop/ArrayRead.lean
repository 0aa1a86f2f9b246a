import Verif.Prop.ArrayMulti
import Verif.Prop.Bitset
import Verif.Prop.LeafWalker
import Verif.Prop.Delta
import Verif.Model.CacheDump

/-!
# Reading back an array that was built

The walkers of `cache_dump` accept every array that `ArrayBuilder` writes, except the empty one (on which
`collect_array_blocks_with_path` panics), and find its blocks in order.
-/

namespace Verif.CacheM

open Verif.BT (Tree KeyRange Event leafEvents eachRange nextKey WSt)
open Verif.Bits (ABlock goodLeaf goodLeaf_iff readChecked LeafKeys)
open Verif.Arr (Stored ASt chunk divUp)

theorem goodLeaf_consec {kr : KeyRange} {es : List (Nat × Nat)} {a : Nat} (h : es.map (·.1) = List.range' a es.length)
    (hf : ∀ f, kr.fin = some f → f = a + es.length) : goodLeaf kr es = true := by
  rw [goodLeaf_iff]
  · exact ⟨a, h, fun _ e he => (hf e he).symm⟩
  · have : (es.map (·.1)).Pairwise (· < ·) := by rw [h]; exact List.pairwise_lt_range'
    exact List.pairwise_map.mp this

/-- every leaf of an index with consecutive keys passes the contiguity checks -/
theorem leafEvents_good : ∀ (h : Nat) (path : List Nat) (kr : KeyRange) (t : Tree Nat h), Bld.KeysFirst h t → t.NoEmpty h →
    ∀ a, (t.contents h).map (·.1) = List.range' a (t.contents h).length →
    (∀ f, kr.fin = some f → f = a + (t.contents h).length) →
    ∀ e ∈ leafEvents h path kr t, ∃ p k es, e = .visit p k es ∧ es ≠ [] ∧ goodLeaf k es = true := by
  intro h
  induction h with
  | zero =>
    intro path kr t _ hne a hc hf e he
    rw [List.mem_singleton.mp he]
    exact ⟨_, _, _, rfl, hne, goodLeaf_consec hc hf⟩
  | succ h ih =>
    intro path kr t hk hne a hc hf
    have : ∀ (l : List (Nat × Tree Nat h)) (a : Nat), (∀ c ∈ l, c.1 = Bld.firstKey (c.2.contents h) ∧ Bld.KeysFirst h c.2) →
        (∀ c ∈ l, c.2.NoEmpty h) →
        (l.flatMap fun c => c.2.contents h).map (·.1) = List.range' a (l.flatMap fun c => c.2.contents h).length →
        (∀ f, kr.fin = some f → f = a + (l.flatMap fun c => c.2.contents h).length) →
        ∀ e ∈ eachRange (leafEvents h (path ++ [t.1])) kr.fin l, ∃ p k es, e = .visit p k es ∧ es ≠ [] ∧ goodLeaf k es = true := by
      intro l
      induction l with
      | nil => intro a _ _ _ _ e he; cases he
      | cons c l ihl =>
        intro a hk hne hc hf e he
        obtain ⟨k, c⟩ := c
        rw [List.flatMap_cons, List.map_append, List.length_append, ← List.range'_append_1] at hc
        obtain ⟨hc1, hc2⟩ := List.append_inj hc (by simp)
        simp only [List.flatMap_cons, List.length_append] at hf
        rcases List.mem_append.mp he with he | he
        · refine ih _ _ c (hk (k, c) (by simp)).2 (hne (k, c) (by simp)) a hc1 ?_ e he
          intro f hfin
          cases l with
          | nil =>
            have : f = _ := hf f hfin
            simpa using this
          | cons c2 l =>
            obtain ⟨k2, c2⟩ := c2
            have e1 : k2 = f := by simpa [nextKey] using hfin
            have e2 := (hk (k2, c2) (by simp)).1
            have hne2 := LW.noEmpty_contents h c2 (hne (k2, c2) (by simp))
            obtain ⟨x, xs, hx⟩ := List.exists_cons_of_ne_nil hne2
            simp only at e2
            rw [List.flatMap_cons] at hc2
            simp only [hx, List.cons_append, List.map_cons, List.length_cons, List.range'_succ] at hc2
            have := (List.cons.inj hc2).1
            rw [hx] at e2
            simp only [Bld.firstKey, List.head?_cons, Option.map_some, Option.getD_some] at e2
            omega
        · exact ihl _ (fun c hc => hk c (by simp [hc])) (fun c hc => hne c (by simp [hc])) hc2
            (fun f hfin => by have := hf f hfin; simp only at this ⊢; omega) e he
    exact this t.2 a hk hne.2 hc hf

theorem zip_keys (blocks : List Nat) : ((List.range blocks.length).zip blocks).map (·.1) =
    List.range' 0 ((List.range blocks.length).zip blocks).length := by
  rw [List.map_fst_zip (by simp)]
  simp [List.range_eq_range']

theorem leavesOf_append (a b : List (Event Nat)) : leavesOf (a ++ b) = leavesOf a ++ leavesOf b := by
  induction a with
  | nil => rfl
  | cons e a ih => cases e <;> simp [leavesOf, ih]

theorem leavesOf_flat (l : List (Event Nat)) : (leavesOf l).flatMap (·.2) = l.flatMap Delta.visited := by
  induction l with
  | nil => rfl
  | cons e l ih => cases e <;> simp [leavesOf, Delta.visited, ih]

/-- what a walk of a stored array's index shows -/
structure Walked (d : Dev) (root : Nat) (blocks : List Nat) : Prop where
  ok : (walkIndex d root).2 = .ok
  flat : (leavesOf (walkIndex d root).1.log).flatMap (·.2) = (List.range blocks.length).zip blocks
  good : ∀ l ∈ leavesOf (walkIndex d root).1.log, goodLeaf l.1 l.2 = true
  empty : (leavesOf (walkIndex d root).1.log).any (fun l => l.2.isEmpty) = decide (blocks = [])
  coll : LW.collected (walkIndex d root).1.log [] = (List.range blocks.length).zip blocks

theorem Stored.clean {V : Type} {epb nr n : Nat} {a : Nat → V} {root : Nat} {s : ASt V} {h : Nat} {t : Tree Nat h} {blocks : List Nat}
    (hs : Stored epb nr n a root s h t blocks) : LW.Clean s.bt.mem n h t := by
  obtain ⟨max, hsm⟩ := hs.sm
  exact ⟨hs.tree, hs.ordered, hs.noEmpty, fun b hb => SMC.lt_of_pos hsm (hs.liveT b hb)⟩

theorem stored_good {V : Type} {epb nr n : Nat} {a : Nat → V} {root : Nat} {s : ASt V} {h : Nat} {t : Tree Nat h} {blocks : List Nat}
    (hs : Stored epb nr n a root s h t blocks) :
    ∀ e ∈ leafEvents h [0] ⟨none, none⟩ t, ∃ p k es, e = .visit p k es ∧ goodLeaf k es = true ∧ (es = [] ↔ blocks = []) := by
  rcases hs.noEmpty with h0 | hne
  · subst h0
    intro e he
    rw [List.mem_singleton.mp he]
    have hcont : t.2 = (List.range blocks.length).zip blocks := hs.contents
    refine ⟨_, _, _, rfl, goodLeaf_consec (a := 0) ?_ (fun f hf => by cases hf), ?_⟩
    · rw [hcont]; exact zip_keys blocks
    · rw [hcont]
      cases blocks <;> simp [List.range_succ_eq_map]
  · intro e he
    obtain ⟨p, k, es, h1, h2, h3⟩ := leafEvents_good h [0] ⟨none, none⟩ t hs.keys hne 0 (by rw [hs.contents]; exact zip_keys blocks)
      (fun f hf => by cases hf) e he
    refine ⟨p, k, es, h1, h3, fun e => absurd e h2, fun e => ?_⟩
    have := LW.noEmpty_contents h t hne
    rw [hs.contents, e] at this
    exact absurd rfl this

/-- the leaves of a stored index -/
theorem stored_leaves {V : Type} {epb nr n : Nat} {a : Nat → V} {root : Nat} {s : ASt V} {h : Nat} {t : Tree Nat h} {blocks : List Nat}
    (hs : Stored epb nr n a root s h t blocks) :
    (∀ l ∈ leavesOf (leafEvents h [0] ⟨none, none⟩ t), goodLeaf l.1 l.2 = true ∧ (l.2 = [] ↔ blocks = [])) ∧
    (leavesOf (leafEvents h [0] ⟨none, none⟩ t)).flatMap (·.2) = (List.range blocks.length).zip blocks := by
  constructor
  · have hgood := stored_good hs
    generalize leafEvents h [0] ⟨none, none⟩ t = evs at hgood
    induction evs with
    | nil => intro l hl; cases hl
    | cons e evs ih =>
      obtain ⟨p, k, es, rfl, h5, h6⟩ := hgood e (by simp)
      intro l hl
      rcases List.mem_cons.mp hl with rfl | hl
      · exact ⟨h5, h6⟩
      · exact ih (fun e he => hgood e (by simp [he])) l hl
  · rw [leavesOf_flat, Delta.leafEvents_flat, hs.contents]

theorem walk_stored {V : Type} {epb nr n : Nat} {a : Nat → V} {root : Nat} {s : ASt V} {h : Nat} {t : Tree Nat h} {blocks : List Nat}
    (hs : Stored epb nr n a root s h t blocks) (d : Dev) (hn : d.nr = n) (hrd : d.rd = fun _ b => s.bt.mem b) :
    Walked d root blocks := by
  have hc := Stored.clean hs
  have hroot : t.blk h < n := hc.bound _ (by cases h <;> simp [Tree.blk, Tree.blocks])
  have hgood := stored_good hs
  obtain ⟨h1, h2, -⟩ := BT.walk_clean_from (fun b => decide (b < d.nr)) d.rd arrayVis h t (WSt.fresh d.nr 1 true) Nat.one_pos (d.nr + 1)
    (by rw [hn]; have := hc.height; omega) [0]
    (fun l e he => by obtain ⟨p, k, es, h1, h2, -⟩ := hgood e he; rw [h1]; exact h2)
    (by rw [hn]; simpa using hroot) (by rw [hrd]; exact hs.tree) hs.ordered hs.noEmpty hc.nodup
    (fun x hx => ⟨by show x < d.nr; rw [hn]; exact hc.bound x hx, rfl⟩)
  rw [hs.blk] at h1 h2
  have h2 : (walkIndex d root).1.log = leafEvents h [0] ⟨none, none⟩ t ++ [.endWalk] := h2
  have hl : leavesOf (walkIndex d root).1.log = leavesOf (leafEvents h [0] ⟨none, none⟩ t) := by
    rw [h2, leavesOf_append]; simp [leavesOf]
  obtain ⟨hmem, hflat⟩ := stored_leaves hs
  refine ⟨h1, by rw [hl, hflat], fun l hl' => (hmem l (by rw [← hl]; exact hl')).1, ?_, ?_⟩
  · rw [hl]
    by_cases hb : blocks = []
    · have h0 : h = 0 := by
        rcases hs.noEmpty with h0 | hne
        · exact h0
        · have := LW.noEmpty_contents h t hne
          rw [hs.contents, hb] at this
          exact absurd rfl this
      subst h0
      have : t.2 = [] := by have := hs.contents; rw [hb] at this; exact this
      simp [leafEvents, leavesOf, this, hb]
    · rw [decide_eq_false hb, List.any_eq_false]
      intro l hl'
      have := (hmem l hl').2
      simp only [List.isEmpty_iff]
      exact fun e => hb (this.mp e)
  · rw [h2, LW.collected_leaves h _ _ t _ [] (by rw [List.nil_append]; exact LW.ordered_sorted h t 0 none hs.ordered)]
    show [] ++ _ = _
    rw [List.nil_append, hs.contents]

/-- the blocks of a stored array, in order -/
theorem collect_stored {V : Type} {epb nr n : Nat} {a : Nat → V} {root : Nat} {s : ASt V} {h : Nat} {t : Tree Nat h} {blocks : List Nat}
    (hs : Stored epb nr n a root s h t blocks) (d : Dev) (hn : d.nr = n) (hrd : d.rd = fun _ b => s.bt.mem b) (h0 : blocks ≠ []) :
    collectBlocks d root = .ok ((List.range blocks.length).zip blocks) := by
  have w := walk_stored hs d hn hrd
  unfold collectBlocks
  simp only [w.empty, decide_eq_false h0, w.ok, w.coll, if_true, Bool.false_eq_true, if_false]

/-- C33: dumping an array without entries panics. -/
theorem collect_empty_panics {V : Type} {epb nr n : Nat} {a : Nat → V} {root : Nat} {s : ASt V} {h : Nat} {t : Tree Nat h}
    (hs : Stored epb nr n a root s h t []) (d : Dev) (hn : d.nr = n) (hrd : d.rd = fun _ b => s.bt.mem b) :
    collectBlocks d root = .error .panic := by
  have w := walk_stored hs d hn hrd
  unfold collectBlocks
  simp only [w.empty, decide_true, if_true]

/-- no error while reading: every entry is readable and every visit succeeds -/
theorem visitEntries_ok {read : Nat → Option ABlock} {S : Type} {visit : Nat → ABlock → S → Bool × S} (es : List (Nat × Nat)) :
    ∀ (n : Nat) (s : S), (∀ e ∈ es, ∃ b, read e.2 = some b ∧ ∀ s, (visit e.1 b s).1 = true) →
    (Bits.visitEntries read visit es (n, s)).1 = n := by
  induction es with
  | nil => intro n s _; rfl
  | cons e es ih =>
    intro n s h
    obtain ⟨k, v⟩ := e
    obtain ⟨b, hb, hv⟩ := h (k, v) (by simp)
    simp only at hb hv
    unfold Bits.visitEntries
    simp only [hb, hv, if_true]
    exact ih _ _ (fun e he => h e (by simp [he]))

theorem walkLeaves_ok {read : Nat → Option ABlock} {S : Type} {visit : Nat → ABlock → S → Bool × S} (ls : List (KeyRange × List (Nat × Nat))) :
    ∀ (n : Nat) (s : S), (∀ l ∈ ls, goodLeaf l.1 l.2 = true) →
    (∀ e ∈ ls.flatMap (·.2), ∃ b, read e.2 = some b ∧ ∀ s, (visit e.1 b s).1 = true) →
    (Bits.walkLeaves read visit ls (n, s)).1 = n := by
  induction ls with
  | nil => intro n s _ _; rfl
  | cons l ls ih =>
    intro n s hg h
    obtain ⟨kr, es⟩ := l
    have g : goodLeaf kr es = true := hg (kr, es) (by simp)
    unfold Bits.walkLeaves
    rw [if_pos g]
    have h1 := visitEntries_ok (read := read) (visit := visit) es n s (fun e he => h e (by simp [he]))
    generalize Bits.visitEntries read visit es (n, s) = r at h1
    obtain ⟨m, s'⟩ := r
    simp only at h1
    subst h1
    exact ih _ _ (fun l hl => hg l (by simp [hl])) (fun e he => h e (by rw [List.flatMap_cons, List.mem_append]; exact Or.inr he))

/-- the blocks of a bitset that was built, read leaf by leaf -/
theorem readChecked_leaves {epb nrBits n : Nat} (he : 0 < epb) {a : Nat → Nat} {root : Nat} {s : ASt Nat} {h : Nat} {t : Tree Nat h}
    {blocks : List Nat} (hs : Stored epb (divUp nrBits 64) n a root s h t blocks) {words : Nat → Option ABlock}
    (hw : words = fun b => (s.readArr b).map (ABlock.mk epb)) {ls : List (KeyRange × List (Nat × Nat))}
    (wgood : ∀ l ∈ ls, goodLeaf l.1 l.2 = true) (wflat : ls.flatMap (·.2) = (List.range blocks.length).zip blocks) :
    (readChecked words nrBits ls).1 = 0 ∧
    ∀ i, i < nrBits → (readChecked words nrBits ls).2 i = some ((a (i / 64)).testBit (i % 64)) := by
  have hread : ∀ k (hk : k < blocks.length), words blocks[k] = some ⟨epb, chunk epb (divUp nrBits 64) a k⟩ := by
    intro k hk
    rw [hw]
    show (s.readArr _).map _ = _
    rw [hs.values k hk]; rfl
  have hmem : ∀ e ∈ (List.range blocks.length).zip blocks, ∃ hk : e.1 < blocks.length, e.2 = blocks[e.1] := by
    intro e he
    obtain ⟨k, hk, rfl⟩ := List.mem_iff_getElem.mp he
    simp only [List.length_zip, List.length_range, Nat.min_self] at hk
    exact ⟨by simpa using hk, by simp⟩
  have hstart : ∀ k, k < blocks.length → (k * epb) <<< 6 < nrBits := by
    intro k hk
    rw [hs.count] at hk
    have h1 := (Arr.lt_divUp he).mp hk
    have h2 := (Arr.lt_divUp (d := 64) (nr := nrBits) (by omega)).mp h1
    rw [Nat.shiftLeft_eq]
    exact h2
  have hacc : Bits.accepted ls = (List.range blocks.length).zip blocks := by
    unfold Bits.accepted
    rw [List.filter_eq_self.mpr wgood, wflat]
  have herr : (readChecked words nrBits ls).1 = 0 := by
    unfold readChecked
    refine walkLeaves_ok _ 0 _ wgood ?_
    rw [wflat]
    intro e he'
    obtain ⟨hk, e2⟩ := hmem e he'
    refine ⟨_, by rw [e2]; exact hread _ hk, fun c => ?_⟩
    unfold Bits.visitChecked
    simp only
    rw [if_neg (by have := hstart e.1 hk; omega)]
  refine ⟨herr, fun i hi => ?_⟩
  · rw [Bits.readChecked_exact words nrBits epb he _ ?_ ?_ i hi]
    · rw [hacc]
      have hk : i / (64 * epb) < blocks.length := by
        rw [hs.count, Arr.lt_divUp he, Arr.lt_divUp (by omega)]
        have := Nat.div_mul_le_self i (64 * epb)
        have e : i / (64 * epb) * epb * 64 = i / (64 * epb) * (64 * epb) := by rw [Nat.mul_assoc, Nat.mul_comm epb 64]
        omega
      unfold Bits.stored
      have hf : ((List.range blocks.length).zip blocks).find? (fun e => e.1 == i / (64 * epb)) = some (i / (64 * epb), blocks[i / (64 * epb)]) := by
        cases hfe : ((List.range blocks.length).zip blocks).find? (fun e => e.1 == i / (64 * epb)) with
        | none =>
          have := List.find?_eq_none.mp hfe (i / (64 * epb), blocks[i / (64 * epb)]) (by
            rw [List.mem_iff_getElem]
            exact ⟨i / (64 * epb), by simpa using hk, by simp⟩)
          simp at this
        | some e =>
          have h1 := List.find?_some hfe
          have h2 := List.mem_of_find?_eq_some hfe
          obtain ⟨hk', e2⟩ := hmem e h2
          have h1 : e.1 = i / (64 * epb) := by simpa using h1
          obtain ⟨x, y⟩ := e
          simp only at h1 e2 hk'
          subst h1
          rw [e2]
      rw [hf]
      simp only [hread _ hk]
      have hdiv : i / (64 * epb) = i / 64 / epb := by rw [Nat.div_div_eq_div_mul]
      rw [hdiv, Arr.chunk_get a (by rw [Arr.lt_divUp (by omega)]; have := Nat.div_mul_le_self i 64; omega) he]
      rfl
    · rw [hacc]
      intro e he' b hb
      obtain ⟨hk, e2⟩ := hmem e he'
      rw [e2, hread _ hk] at hb
      cases hb
      refine ⟨rfl, ?_⟩
      rw [Arr.chunk_length]
      omega
    · rw [hacc, zip_keys]
      exact List.nodup_range'

/-- C18, C33: a bitset that was built reads back without errors, bit for bit. -/
theorem readDirty_stored {epb nrBits n : Nat} (he : 0 < epb) {a : Nat → Nat} {root : Nat} {s : ASt Nat} {h : Nat} {t : Tree Nat h}
    {blocks : List Nat} (hs : Stored epb (divUp nrBits 64) n a root s h t blocks) (d : Dev) (hn : d.nr = n)
    (hrd : d.rd = fun _ b => s.bt.mem b) (hw : d.words = fun b => (s.readArr b).map (ABlock.mk epb)) :
    (readDirty d root nrBits).1 = false ∧
    ∀ i, i < nrBits → (readDirty d root nrBits).2 i = some ((a (i / 64)).testBit (i % 64)) := by
  have w := walk_stored hs d hn hrd
  obtain ⟨h1, h2⟩ := readChecked_leaves he hs hw w.good w.flat
  unfold readDirty
  simp only [w.ok, h1]
  exact ⟨by simp, h2⟩

end Verif.CacheM
