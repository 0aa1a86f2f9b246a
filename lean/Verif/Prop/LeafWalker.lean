import Verif.Model.LeafWalker
import Verif.Prop.TreeLeaves

/-!
# Leaf blocks and whole maps of clean trees

A tree in memory has distinct blocks (so it is finite in the device); the leaf walker returns its leaves in order, `btree_to_map` its
contents.
-/

namespace Verif.LW

open Verif.BT
open Verif.Bld (leavesOf leafBlocks Sorted)

variable {V : Type}

/-! ## Trees in memory -/

/-- a clean search tree in memory: only the root may be empty, and only if it is a leaf -/
structure Clean (mem : Nat → Option (Blk V)) (nr : Nat) (h : Nat) (t : Tree V h) : Prop where
  stored : t.Stored (fun _ b => mem b) true h
  ordered : t.Ordered h 0 none
  noEmpty : h = 0 ∨ t.NoEmpty h
  bound : ∀ b ∈ t.blocks h, b < nr

theorem stored_any {mem : Nat → Option (Blk V)} {r r' : Bool} : ∀ {h : Nat} {t : Tree V h},
    t.Stored (fun _ b => mem b) r h → t.Stored (fun _ b => mem b) r' h := by
  intro h t hs
  cases h with
  | zero => exact hs
  | succ h => exact hs

theorem stored_unique {mem : Nat → Option (Blk V)} : ∀ (h : Nat) (h' : Nat) (t : Tree V h) (t' : Tree V h') (r r' : Bool),
    t.Stored (fun _ b => mem b) r h → t'.Stored (fun _ b => mem b) r' h' → (h = 0 ∨ t.NoEmpty h) → (h' = 0 ∨ t'.NoEmpty h') →
    t.blk h = t'.blk h' → h = h' ∧ t.contents h = t'.contents h' := by
  intro h
  induction h with
  | zero =>
    intro h' t t' r r' hs hs' _ _ e
    cases h' with
    | zero =>
      have e : t.1 = t'.1 := e
      simp only [Tree.Stored] at hs hs'
      rw [e, hs'] at hs
      have := Option.some.inj hs
      exact ⟨rfl, (Blk.leaf.inj this).symm⟩
    | succ h' =>
      have e : t.1 = t'.1 := e
      have h1 := hs'.1
      simp only [Tree.Stored] at hs h1
      rw [e, h1] at hs
      cases hs
  | succ h ih =>
    intro h' t t' r r' hs hs' hn hn' e
    cases h' with
    | zero =>
      have e : t.1 = t'.1 := e
      have h1 := hs.1
      simp only [Tree.Stored] at h1 hs'
      rw [e, hs'] at h1
      cases h1
    | succ h' =>
      have e : t.1 = t'.1 := e
      have hn : t.NoEmpty (h + 1) := by
        rcases hn with h0 | h0
        · omega
        · exact h0
      have hn' : t'.NoEmpty (h' + 1) := by
        rcases hn' with h0 | h0
        · omega
        · exact h0
      obtain ⟨a1, a2⟩ := hs
      obtain ⟨b1, b2⟩ := hs'
      simp only at a1 b1
      rw [e, b1] at a1
      have hl := Blk.internal.inj (Option.some.inj a1)
      have key : ∀ (l : List (Nat × Tree V h)) (l' : List (Nat × Tree V h')), (∀ c ∈ l, c ∈ t.2) → (∀ c ∈ l', c ∈ t'.2) →
          (l'.map fun c => (c.1, Tree.blk h' c.2)) = (l.map fun c => (c.1, Tree.blk h c.2)) →
          (l ≠ [] → h = h') ∧ (l.flatMap fun c => c.2.contents h) = l'.flatMap fun c => c.2.contents h' := by
        intro l
        induction l with
        | nil =>
          intro l' _ _ e
          have : l' = [] := by simpa using e
          subst this
          exact ⟨fun h => absurd rfl h, rfl⟩
        | cons c l ihl =>
          intro l' h1 h2 e
          cases l' with
          | nil => simp at e
          | cons c' l' =>
            simp only [List.map_cons, List.cons.injEq, Prod.mk.injEq] at e
            obtain ⟨i1, i2⟩ := ih h' c.2 c'.2 false false (a2 c (h1 c (by simp))) (b2 c' (h2 c' (by simp)))
              (Or.inr (hn.2 c (h1 c (by simp)))) (Or.inr (hn'.2 c' (h2 c' (by simp)))) e.1.2.symm
            obtain ⟨-, j2⟩ := ihl l' (fun q hq => h1 q (by simp [hq])) (fun q hq => h2 q (by simp [hq])) e.2
            exact ⟨fun _ => i1, by rw [List.flatMap_cons, List.flatMap_cons, i2, j2]⟩
      obtain ⟨k1, k2⟩ := key t.2 t'.2 (fun _ h => h) (fun _ h => h) hl
      exact ⟨by rw [k1 hn.1], k2⟩

theorem noEmpty_contents : ∀ (h : Nat) (t : Tree V h), t.NoEmpty h → t.contents h ≠ [] := by
  intro h
  induction h with
  | zero => intro t hn; exact hn
  | succ h ih =>
    intro t hn he
    obtain ⟨c, hc⟩ := List.exists_mem_of_ne_nil _ hn.1
    have := ih c.2 (hn.2 c hc)
    obtain ⟨e, he'⟩ := List.exists_mem_of_ne_nil _ this
    have : e ∈ t.contents (h + 1) := List.mem_flatMap.mpr ⟨c, hc, he'⟩
    rw [he] at this
    cases this

/-- every block of a tree is the root of a sub tree -/
theorem block_subtree {mem : Nat → Option (Blk V)} : ∀ (h : Nat) (t : Tree V h) (r : Bool), t.Stored (fun _ b => mem b) r h → t.NoEmpty h →
    ∀ b ∈ t.blocks h, ∃ (h' : Nat) (t' : Tree V h'), h' ≤ h ∧ t'.Stored (fun _ b => mem b) false h' ∧ t'.NoEmpty h' ∧ t'.blk h' = b ∧
      ∀ e ∈ t'.contents h', e ∈ t.contents h := by
  intro h
  induction h with
  | zero =>
    intro t r hs hn b hb
    simp only [Tree.blocks, List.mem_singleton] at hb
    exact ⟨0, t, Nat.le_refl _, stored_any hs, hn, hb.symm, fun _ h => h⟩
  | succ h ih =>
    intro t r hs hn b hb
    have hb : b ∈ t.1 :: t.2.flatMap fun c => c.2.blocks h := hb
    rcases List.mem_cons.mp hb with e | hb
    · exact ⟨h + 1, t, Nat.le_refl _, stored_any hs, hn, e.symm, fun _ h => h⟩
    · obtain ⟨c, hc, hb⟩ := List.mem_flatMap.mp hb
      obtain ⟨h', t', i1, i2, i3, i4, i5⟩ := ih c.2 false (hs.2 c hc) (hn.2 c hc) b hb
      exact ⟨h', t', by omega, i2, i3, i4, fun e he => List.mem_flatMap.mpr ⟨c, hc, i5 e he⟩⟩

/-- a search tree never uses a block twice -/
theorem blocks_nodup {mem : Nat → Option (Blk V)} : ∀ (h : Nat) (t : Tree V h) (r : Bool) (lo : Nat) (hi : Option Nat),
    t.Stored (fun _ b => mem b) r h → t.Ordered h lo hi → (h = 0 ∨ t.NoEmpty h) → (t.blocks h).Nodup := by
  intro h
  induction h with
  | zero => intro t r lo hi _ _ _; simp [Tree.blocks]
  | succ h ih =>
    intro t r lo hi hs ho hn
    have hn : t.NoEmpty (h + 1) := by
      rcases hn with h0 | h0
      · omega
      · exact h0
    show (t.1 :: t.2.flatMap fun c => c.2.blocks h).Nodup
    rw [List.nodup_cons]
    constructor
    · intro hb
      obtain ⟨c, hc, hb⟩ := List.mem_flatMap.mp hb
      obtain ⟨h', t', i1, i2, i3, i4, -⟩ := block_subtree h c.2 false (hs.2 c hc) (hn.2 c hc) _ hb
      have := (stored_unique h' (h + 1) t' t false r i2 hs (Or.inr i3) (Or.inr hn) i4).1
      omega
    · unfold List.Nodup
      rw [List.pairwise_flatMap]
      have hch : ∀ (l : List (Nat × Tree V h)) (lo : Nat), Chain (Tree.Ordered h) lo hi l → (∀ c ∈ l, c ∈ t.2) →
          (∀ c ∈ l, (c.2.blocks h).Pairwise (· ≠ ·)) ∧
          l.Pairwise fun a b => ∀ x ∈ a.2.blocks h, ∀ y ∈ b.2.blocks h, x ≠ y := by
        intro l
        induction l with
        | nil => intro lo _ _; exact ⟨by simp, List.Pairwise.nil⟩
        | cons p l ihl =>
          intro lo hch hsub
          obtain ⟨k, c⟩ := p
          obtain ⟨a1, a2, a3, a4⟩ := hch
          obtain ⟨i1, i2⟩ := ihl _ a4 (fun q hq => hsub q (by simp [hq]))
          have hc := hsub (k, c) (by simp)
          refine ⟨?_, ?_⟩
          · intro q hq
            rcases List.mem_cons.mp hq with rfl | hq
            · exact ih c false k _ (hs.2 _ hc) a3 (Or.inr (hn.2 _ hc))
            · exact i1 q hq
          · rw [List.pairwise_cons]
            refine ⟨?_, i2⟩
            intro q hq x hx y hy e
            subst e
            have hqm := hsub q (by simp [hq])
            obtain ⟨h1, t1, -, u2, u3, u4, u5⟩ := block_subtree h c false (hs.2 _ hc) (hn.2 _ hc) x hx
            obtain ⟨h2, t2, -, v2, v3, v4, v5⟩ := block_subtree h q.2 false (hs.2 _ hqm) (hn.2 _ hqm) x hy
            have hcont := (stored_unique h1 h2 t1 t2 false false u2 v2 (Or.inr u3) (Or.inr v3) (u4.trans v4.symm)).2
            obtain ⟨e, he⟩ := List.exists_mem_of_ne_nil _ (noEmpty_contents h1 t1 u3)
            have e1 := ordered_mem h k _ c a3 e (u5 e he)
            have e2 : q.1 ≤ e.1 := by
              have hmem : e ∈ q.2.contents h := v5 e (by rw [← hcont]; exact he)
              -- the keys below `q` are not below the key of `q`
              have : ∀ (l : List (Nat × Tree V h)) (lo : Nat), Chain (Tree.Ordered h) lo hi l → q ∈ l → q.1 ≤ e.1 := by
                intro l
                induction l with
                | nil => intro _ _ hq; cases hq
                | cons p l ihq =>
                  intro lo hch hq
                  obtain ⟨k', c'⟩ := p
                  obtain ⟨b1, b2, b3, b4⟩ := hch
                  rcases List.mem_cons.mp hq with rfl | hq
                  · exact (ordered_mem h k' _ c' b3 e hmem).1
                  · exact ihq _ b4 hq
              exact this l _ a4 hq
            cases l with
            | nil => cases hq
            | cons p' l' =>
              obtain ⟨k', c'⟩ := p'
              have e3 : e.1 < k' := e1.2
              have e4 : k' ≤ q.1 := by
                rcases List.mem_cons.mp hq with rfl | hq
                · exact Nat.le_refl _
                · have := (chain_mem a4.2.2.2 q hq).1
                  omega
              omega
      obtain ⟨c1, c2⟩ := hch t.2 lo ho (fun _ h => h)
      exact ⟨c1, c2⟩

theorem height_lt_blocks : ∀ (h : Nat) (t : Tree V h), (h = 0 ∨ t.NoEmpty h) → h < (t.blocks h).length := by
  intro h
  induction h with
  | zero => intro t _; simp [Tree.blocks]
  | succ h ih =>
    intro t hn
    have hn : t.NoEmpty (h + 1) := by
      rcases hn with h0 | h0
      · omega
      · exact h0
    obtain ⟨c, hc⟩ := List.exists_mem_of_ne_nil _ hn.1
    have h1 := ih c.2 (Or.inr (hn.2 c hc))
    have h2 : (c.2.blocks h).length ≤ (t.2.flatMap fun c => c.2.blocks h).length := by
      obtain ⟨a, b, e⟩ := List.append_of_mem hc
      rw [e, List.flatMap_append, List.flatMap_cons]
      simp only [List.length_append]
      omega
    show h + 1 < (t.1 :: t.2.flatMap fun c => c.2.blocks h).length
    rw [List.length_cons]
    omega

theorem Clean.nodup {mem : Nat → Option (Blk V)} {nr h : Nat} {t : Tree V h} (hc : Clean mem nr h t) : (t.blocks h).Nodup :=
  blocks_nodup h t true 0 none hc.stored hc.ordered hc.noEmpty

theorem Clean.height {mem : Nat → Option (Blk V)} {nr h : Nat} {t : Tree V h} (hc : Clean mem nr h t) : h < nr := by
  have h1 := height_lt_blocks h t hc.noEmpty
  have h2 := hc.nodup.length_le_of_subset (l₂ := List.range nr) (fun b hb => List.mem_range.mpr (hc.bound b hb))
  rw [List.length_range] at h2
  omega

/-! ## The leaf walker -/

/-- every leaf block in order, with the key range its ancestors imply -/
def leafRanges : (h : Nat) → KeyRange → Tree V h → List (KeyRange × Nat)
  | 0, kr, t => [(kr, t.1)]
  | h + 1, kr, t => eachRange (leafRanges h) kr.fin t.2

theorem leafRanges_blocks : ∀ (h : Nat) (kr : KeyRange) (t : Tree V h), (leafRanges h kr t).map (·.2) = leafBlocks h t := by
  intro h
  induction h with
  | zero => intro kr t; rfl
  | succ h ih =>
    intro kr t
    have : ∀ l : List (Nat × Tree V h), (eachRange (leafRanges h) kr.fin l).map (·.2) = l.flatMap fun c => leafBlocks h c.2 := by
      intro l
      induction l with
      | nil => rfl
      | cons p l ihl => simp only [eachRange, List.map_append, List.flatMap_cons, ih, ihl]
    show (eachRange (leafRanges h) kr.fin t.2).map (·.2) = _
    rw [this]
    unfold leafBlocks
    rw [leavesOf, List.map_flatMap]

theorem getDepth_tree {rd : Bool → Nat → Option (Blk V)} : ∀ (h : Nat) (t : Tree V h) (r : Bool) (fuel : Nat), t.Stored rd r h →
    (h = 0 ∨ t.NoEmpty h) → h < fuel → getDepth rd fuel r (t.blk h) = some h := by
  intro h
  induction h with
  | zero =>
    intro t r fuel hs _ hf
    obtain ⟨fuel, rfl⟩ : ∃ f, fuel = f + 1 := ⟨fuel - 1, by omega⟩
    have hs : rd r (t.blk 0) = some (.leaf t.2) := hs
    simp only [getDepth, hs]
  | succ h ih =>
    intro t r fuel hs hn hf
    obtain ⟨fuel, rfl⟩ : ∃ f, fuel = f + 1 := ⟨fuel - 1, by omega⟩
    have hn : t.NoEmpty (h + 1) := by
      rcases hn with h0 | h0
      · omega
      · exact h0
    obtain ⟨b, ch⟩ := t
    obtain ⟨h1, h2⟩ := hs
    cases ch with
    | nil => exact absurd rfl hn.1
    | cons c ch =>
      have h1 : rd r (Tree.blk (V := V) (h + 1) ((b, c :: ch) : Nat × List (Nat × Tree V h))) =
        some (.internal ((c.1, Tree.blk h c.2) :: ch.map fun c => (c.1, Tree.blk h c.2))) := h1
      simp only [getDepth, h1]
      rw [ih c.2 false fuel (h2 c (by simp)) (Or.inr (hn.2 c (by simp))) (by omega)]
      rfl

theorem walkAll_chain {T : Type} {f : KeyRange → Nat → Option (List (KeyRange × Nat))} {g : KeyRange → T → List (KeyRange × Nat)}
    {blk : T → Nat} (hi : Option Nat) : ∀ (l : List (Nat × T)) (P : Nat → Option Nat → T → Prop) (lo : Nat), Chain P lo hi l →
    (∀ c ∈ l, ∀ kr : KeyRange, P c.1 kr.fin c.2 → f kr (blk c.2) = some (g kr c.2)) →
    walkAll f (eachRange (fun kr c => [(kr, blk c)]) hi l) = some (eachRange g hi l) := by
  intro l
  induction l with
  | nil => intro _ _ _ _; rfl
  | cons p l ih =>
    intro P lo hch hf
    obtain ⟨k, c⟩ := p
    obtain ⟨-, -, a3, a4⟩ := hch
    simp only [eachRange, List.singleton_append, walkAll]
    rw [hf (k, c) (by simp) ⟨some k, nextKey hi l⟩ a3, ih P (k + 1) a4 (fun q hq => hf q (by simp [hq]))]

theorem walkNode_tree {rd : Bool → Nat → Option (Blk V)} {nr : Nat} : ∀ (h : Nat) (t : Tree V (h + 1)) (r : Bool) (kr : KeyRange) (lo : Nat),
    t.Stored rd r (h + 1) → t.Ordered (h + 1) lo kr.fin → t.NoEmpty (h + 1) → (∀ b ∈ t.blocks (h + 1), b < nr) →
    walkNode rd nr h r kr (t.blk (h + 1)) = some (leafRanges (h + 1) kr t) := by
  intro h
  induction h with
  | zero =>
    intro t r kr lo hs ho hn hb
    have h1 : rd r (t.blk 1) = some (.internal (t.2.map fun c => (c.1, Tree.blk 0 c.2))) := hs.1
    have ho : Chain (Tree.Ordered 0) lo kr.fin t.2 := ho
    have hb : ∀ b ∈ t.1 :: t.2.flatMap (fun c => c.2.blocks 0), b < nr := hb
    unfold walkNode
    rw [h1]
    simp only
    rw [show (t.2.map fun c => (c.1, Tree.blk 0 c.2)).map (·.1) = t.2.map (·.1) by simp [List.map_map], split_chain ho hn.1]
    simp only
    rw [if_pos (by
      simp only [List.all_map, List.all_eq_true, Function.comp_apply, decide_eq_true_eq]
      intro c hc
      exact hb _ (List.mem_cons_of_mem _ (List.mem_flatMap.mpr ⟨c, hc, by simp [Tree.blocks, Tree.blk]⟩)))]
    rw [show (t.2.map fun c => (c.1, Tree.blk 0 c.2)).map (·.2) = t.2.map (fun c => Tree.blk 0 c.2) by simp [List.map_map], rangesOf_zip]
    rfl
  | succ h ih =>
    intro t r kr lo hs ho hn hb
    have h1 : rd r (t.blk (h + 1 + 1)) = some (.internal (t.2.map fun c => (c.1, Tree.blk (h + 1) c.2))) := hs.1
    have ho : Chain (Tree.Ordered (h + 1)) lo kr.fin t.2 := ho
    have hb : ∀ b ∈ t.1 :: t.2.flatMap (fun c => c.2.blocks (h + 1)), b < nr := hb
    unfold walkNode
    rw [h1]
    simp only
    rw [show (t.2.map fun c => (c.1, Tree.blk (h + 1) c.2)).map (·.1) = t.2.map (·.1) by simp [List.map_map], split_chain ho hn.1]
    simp only
    rw [if_pos (by
      simp only [List.all_map, List.all_eq_true, Function.comp_apply, decide_eq_true_eq]
      intro c hc
      exact hb _ (List.mem_cons_of_mem _ (List.mem_flatMap.mpr ⟨c, hc, by simp [Tree.blocks, Tree.blk]⟩)))]
    rw [show (t.2.map fun c => (c.1, Tree.blk (h + 1) c.2)).map (·.2) = t.2.map (fun c => Tree.blk (h + 1) c.2) by
      simp [List.map_map], rangesOf_zip]
    refine walkAll_chain (blk := Tree.blk (h + 1)) kr.fin t.2 _ lo ho ?_
    intro c hc kr' hP
    exact ih c.2 false kr' c.1 (hs.2 c hc) hP (hn.2 c hc)
      (fun b hb' => hb b (List.mem_cons_of_mem _ (List.mem_flatMap.mpr ⟨c, hc, hb'⟩)))

/-- The leaf walker visits exactly the leaves of a clean tree, in key order, each with the key range its ancestors imply. -/
theorem walk_leaves {mem : Nat → Option (Blk V)} {nr h : Nat} {t : Tree V h} (hc : Clean mem nr h t) :
    walk (fun _ b => mem b) nr (t.blk h) = some (leafRanges h ⟨none, none⟩ t) ∧
      (leafRanges h ⟨none, none⟩ t).map (·.2) = leafBlocks h t := by
  refine ⟨?_, leafRanges_blocks h _ t⟩
  have hroot : t.blk h < nr := hc.bound _ (by cases h <;> simp [Tree.blk, Tree.blocks])
  unfold walk
  rw [getDepth_tree h t true (nr + 1) hc.stored hc.noEmpty (by have := hc.height; omega)]
  simp only
  rw [if_pos hroot]
  cases h with
  | zero => rfl
  | succ h =>
    refine walkNode_tree h t true ⟨none, none⟩ 0 hc.stored hc.ordered ?_ hc.bound
    rcases hc.noEmpty with h0 | h0
    · omega
    · exact h0

/-! ## `btree_to_map` -/

theorem insertId_last {α : Type} (k : Nat) (v : α) : ∀ (l : List (Nat × α)), (∀ p ∈ l, p.1 < k) → Rst.insertId k v l = l ++ [(k, v)] := by
  intro l
  induction l with
  | nil => intro _; rfl
  | cons p l ih =>
    intro h
    have h1 := h p (by simp)
    rw [Rst.insertId, if_neg (by omega), if_neg (by omega), ih (fun q hq => h q (by simp [hq]))]
    rfl

theorem foldl_insert {α : Type} : ∀ (es m : List (Nat × α)), Sorted (m ++ es) →
    es.foldl (fun m e => Rst.insertId e.1 e.2 m) m = m ++ es := by
  intro es
  induction es with
  | nil => intro m _; simp
  | cons e es ih =>
    intro m hs
    rw [List.foldl_cons, insertId_last e.1 e.2 m (by
      intro p hp
      exact (List.pairwise_append.mp hs).2.2 p hp e (by simp))]
    have : m ++ e :: es = m ++ [(e.1, e.2)] ++ es := by simp
    rw [this] at hs
    rw [ih _ hs, this]

theorem collected_leaves : ∀ (h : Nat) (path : List Nat) (kr : KeyRange) (t : Tree V h) (rest : List (Event V)) (m : List (Nat × V)),
    Sorted (m ++ t.contents h) → collected (leafEvents h path kr t ++ rest) m = collected rest (m ++ t.contents h) := by
  intro h
  induction h with
  | zero =>
    intro path kr t rest m hs
    show collected rest ((t.contents 0).foldl _ m) = _
    rw [foldl_insert _ _ hs]
  | succ h ih =>
    intro path kr t rest m hs
    have : ∀ (l : List (Nat × Tree V h)) (m : List (Nat × V)), Sorted (m ++ l.flatMap fun c => c.2.contents h) →
        collected (eachRange (leafEvents h (path ++ [t.1])) kr.fin l ++ rest) m =
          collected rest (m ++ l.flatMap fun c => c.2.contents h) := by
      intro l
      induction l with
      | nil => intro m _; simp [eachRange]
      | cons p l ihl =>
        intro m hs
        obtain ⟨k, c⟩ := p
        rw [List.flatMap_cons, ← List.append_assoc] at hs
        simp only [eachRange, List.append_assoc, List.flatMap_cons]
        rw [ih _ _ c _ m (List.pairwise_append.mp hs).1, ihl _ hs, List.append_assoc]
    exact this t.2 m hs

theorem ordered_sorted : ∀ (h : Nat) (t : Tree V h) (lo : Nat) (hi : Option Nat), t.Ordered h lo hi → Sorted (t.contents h) := by
  intro h
  induction h with
  | zero =>
    intro t lo hi ho
    have := (chain_keys (show Chain (fun _ _ _ => True) lo hi t.2 from ho)).1
    rw [List.pairwise_map] at this
    exact this
  | succ h ih =>
    intro t lo hi ho
    have : ∀ (l : List (Nat × Tree V h)) (lo : Nat), Chain (Tree.Ordered h) lo hi l → Sorted (l.flatMap fun c => c.2.contents h) ∧
        ∀ e ∈ l.flatMap (fun c => c.2.contents h), ∀ k ∈ (l.head?.map (·.1)), k ≤ e.1 := by
      intro l
      induction l with
      | nil => intro lo _; exact ⟨List.Pairwise.nil, by simp⟩
      | cons p l ihl =>
        intro lo hch
        obtain ⟨k, c⟩ := p
        obtain ⟨-, -, a3, a4⟩ := hch
        obtain ⟨i1, i2⟩ := ihl _ a4
        have hc := ordered_mem h k _ c a3
        rw [List.flatMap_cons]
        have hnext : ∀ e ∈ c.contents h, ∀ e' ∈ l.flatMap (fun c => c.2.contents h), e.1 < e'.1 := by
          intro e he e' he'
          have h1 := (hc e he).2
          cases l with
          | nil => simp at he'
          | cons q l =>
            have := i2 e' he' q.1 (by simp)
            have h1 : e.1 < q.1 := h1
            omega
        refine ⟨List.pairwise_append.mpr ⟨ih c k _ a3, i1, hnext⟩, ?_⟩
        intro e he x hx
        simp only [List.head?_cons, Option.map_some, Option.mem_some_iff] at hx
        subst hx
        rcases List.mem_append.mp he with he | he
        · exact (hc e he).1
        · cases l with
          | nil => simp at he
          | cons q l =>
            have := i2 e he q.1 (by simp)
            have h4 : k + 1 ≤ q.1 := a4.1
            omega
    exact (this t.2 lo ho).1

/-- `btree_to_map` of a clean tree returns its contents. -/
theorem btreeToMap_contents {mem : Nat → Option (Blk V)} {nr h : Nat} {t : Tree V h} (hc : Clean mem nr h t) :
    btreeToMap (fun _ b => mem b) nr (t.blk h) = some (t.contents h) := by
  have hroot : t.blk h < nr := hc.bound _ (by cases h <;> simp [Tree.blk, Tree.blocks])
  obtain ⟨h1, h2⟩ := walk_clean (fun b => decide (b < nr)) (fun _ b => mem b) (fun _ _ => true) (fun _ _ => rfl) h t nr 1 (by omega) true
    (nr + 1) (by have := hc.height; omega) [0] (by simpa using hroot) hc.stored hc.ordered hc.noEmpty hc.nodup hc.bound
  unfold btreeToMap
  simp only [h1, h2, if_true]
  rw [collected_leaves h _ _ t _ [] (by rw [List.nil_append]; exact ordered_sorted h t 0 none hc.ordered)]
  rfl

end Verif.LW
