import Verif.Prop.Builder

/-!
# The leaves of a stored tree
-/

namespace Verif.Bld

open Verif.BT (Tree Blk)

variable {V : Type}

/-- the leaves of a tree from left to right: block and entries -/
def leavesOf : (h : Nat) → Tree V h → List (Nat × List (Nat × V))
  | 0, t => [(t.1, t.2)]
  | h + 1, t => t.2.flatMap fun c => leavesOf h c.2

/-- the blocks of the leaves -/
def leafBlocks (h : Nat) (t : Tree V h) : List Nat := (leavesOf h t).map (·.1)

theorem flatMap_congr' {α β : Type} {f g : α → List β} {l : List α} (h : ∀ a ∈ l, f a = g a) : l.flatMap f = l.flatMap g := by
  induction l with
  | nil => rfl
  | cons a l ih => rw [List.flatMap_cons, List.flatMap_cons, h a (by simp), ih (fun b hb => h b (by simp [hb]))]

theorem contents_leaves : ∀ (h : Nat) (t : Tree V h), t.contents h = (leavesOf h t).flatMap (·.2) := by
  intro h
  induction h with
  | zero => intro t; simp [leavesOf, Tree.contents]
  | succ h ih =>
    intro t
    simp only [leavesOf, Tree.contents, List.flatMap_assoc]
    exact flatMap_congr' fun c _ => ih c.2

theorem entriesIn_leaves (p : Nat → Bool) : ∀ (h : Nat) (t : Tree V h),
    entriesIn p h t = ((leavesOf h t).filter fun l => p l.1).flatMap (·.2) := by
  intro h
  induction h with
  | zero =>
    intro t
    simp only [leavesOf, entriesIn]
    cases e : p t.1 <;> simp [e]
  | succ h ih =>
    intro t
    simp only [leavesOf, entriesIn, List.filter_flatMap, List.flatMap_assoc]
    exact flatMap_congr' fun c _ => ih c.2

theorem stored_leaves {mem : Nat → Option (Blk V)} : ∀ (h : Nat) (t : Tree V h) (r : Bool), t.Stored (fun _ b => mem b) r h →
    ∀ l ∈ leavesOf h t, mem l.1 = some (.leaf l.2) := by
  intro h
  induction h with
  | zero =>
    intro t r hs l hl
    rw [leavesOf, List.mem_singleton] at hl
    subst hl
    exact hs
  | succ h ih =>
    intro t r hs l hl
    obtain ⟨c, hc, hl⟩ := List.mem_flatMap.mp hl
    exact ih c.2 false (hs.2 c hc) l hl

theorem leaf_mem_blocks : ∀ (h : Nat) (t : Tree V h), ∀ b ∈ leafBlocks h t, b ∈ t.blocks h := by
  intro h
  induction h with
  | zero =>
    intro t b hb
    simp only [leafBlocks, leavesOf, List.map_cons, List.map_nil, List.mem_singleton] at hb
    subst hb
    exact blk_mem_blocks 0 t
  | succ h ih =>
    intro t b hb
    obtain ⟨l, hl, rfl⟩ := List.mem_map.mp hb
    obtain ⟨c, hc, hl⟩ := List.mem_flatMap.mp hl
    have := ih c.2 l.1 (List.mem_map.mpr ⟨l, hl, rfl⟩)
    show l.1 ∈ t.1 :: _
    exact List.mem_cons_of_mem _ (List.mem_flatMap.mpr ⟨c, hc, this⟩)

theorem filled_leaves {capL capI : Nat} (hL : 2 ≤ capL) : ∀ (h : Nat) (t : Tree V h), Filled capL capI h t →
    ∀ l ∈ leavesOf h t, l.2 ≠ [] := by
  intro h
  induction h with
  | zero =>
    intro t hf l hl
    rw [leavesOf, List.mem_singleton] at hl
    subst hl
    intro e
    have := hf.1
    rw [e] at this
    simp at this
    omega
  | succ h ih =>
    intro t hf l hl
    obtain ⟨c, hc, hl⟩ := List.mem_flatMap.mp hl
    exact ih c.2 (hf.2.2 c hc) l hl

theorem rootFilled_leaves {capL capI : Nat} (hL : 2 ≤ capL) (h : Nat) (t : Tree V h) (hf : RootFilled capL capI h t) :
    (∀ l ∈ leavesOf h t, l.2 ≠ []) ∨ (leavesOf h t).length = 1 := by
  cases h with
  | zero => exact Or.inr rfl
  | succ h =>
    refine Or.inl fun l hl => ?_
    obtain ⟨c, hc, hl⟩ := List.mem_flatMap.mp hl
    exact filled_leaves hL h c.2 (hf.2.2 c hc) l hl

/-- leaves with entries in increasing order are in different blocks -/
theorem leaves_nodup {mem : Nat → Option (Blk V)} (ls : List (Nat × List (Nat × V))) (hm : ∀ l ∈ ls, mem l.1 = some (.leaf l.2))
    (hn : (∀ l ∈ ls, l.2 ≠ []) ∨ ls.length = 1) (hs : Sorted (ls.flatMap (·.2))) : (ls.map (·.1)).Nodup := by
  rcases hn with hn | hn
  · induction ls with
    | nil => simp
    | cons l ls ih =>
      rw [List.flatMap_cons] at hs
      rw [List.map_cons, List.nodup_cons]
      refine ⟨?_, ih (fun x hx => hm x (by simp [hx])) hs.right (fun x hx => hn x (by simp [hx]))⟩
      intro hmem
      obtain ⟨q, hq, e⟩ := List.mem_map.mp hmem
      have h1 := hm q (by simp [hq])
      rw [e, hm l (by simp)] at h1
      have h2 : l.2 = q.2 := by
        have := Option.some.inj h1
        injection this
      obtain ⟨x, hx⟩ := List.exists_mem_of_ne_nil _ (hn l (by simp))
      have h3 := (List.pairwise_append.mp hs).2.2 x hx x (List.mem_flatMap.mpr ⟨q, hq, by rw [← h2]; exact hx⟩)
      omega
  · obtain ⟨l, rfl⟩ := List.length_eq_one_iff.mp hn
    simp

theorem perm_of_nodup {α : Type} [DecidableEq α] {a b : List α} (ha : a.Nodup) (hb : b.Nodup) (h : ∀ x, x ∈ a ↔ x ∈ b) : a.Perm b := by
  rw [List.perm_iff_count]
  intro x
  rw [ha.count, hb.count]
  by_cases hx : x ∈ a
  · rw [if_pos hx, if_pos ((h x).mp hx)]
  · rw [if_neg hx, if_neg (fun e => hx ((h x).mpr e))]

end Verif.Bld
