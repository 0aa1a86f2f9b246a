import Verif.Prop.LeafWalker

/-!
# The same tree with other values

What one reader sees as mappings another sees as 64-bit words: relations between trees whose values are images of each other.
-/

namespace Verif.BT

variable {V W : Type}

/-- the entries of a leaf, with their values replaced -/
def Blk.map (f : V → W) : Blk V → Blk W
  | .leaf es => .leaf (es.map fun e => (e.1, f e.2))
  | .internal ch => .internal ch

/-- all values of a leaf have a property -/
def Blk.All (p : V → Prop) : Blk V → Prop
  | .leaf es => ∀ e ∈ es, p e.2
  | .internal _ => True

/-- the tree with its values replaced -/
def Tree.map (f : V → W) : (h : Nat) → Tree V h → Tree W h
  | 0, t => (t.1, t.2.map fun e => (e.1, f e.2))
  | h + 1, t => (t.1, t.2.map fun c => (c.1, Tree.map f h c.2))

theorem Tree.map_zero (f : V → W) (t : Tree V 0) : Tree.map f 0 t = (t.1, t.2.map fun e => (e.1, f e.2)) := rfl

theorem Tree.map_succ (f : V → W) (h : Nat) (t : Tree V (h + 1)) : Tree.map f (h + 1) t = (t.1, t.2.map fun c => (c.1, Tree.map f h c.2)) := rfl

theorem Tree.map_blk (f : V → W) : ∀ (h : Nat) (t : Tree V h), (Tree.map f h t).blk h = t.blk h
  | 0, _ => rfl
  | _ + 1, _ => rfl

theorem Tree.map_blocks (f : V → W) : ∀ (h : Nat) (t : Tree V h), (Tree.map f h t).blocks h = t.blocks h
  | 0, _ => rfl
  | h + 1, t => by
    show t.1 :: (t.2.map fun c => (c.1, Tree.map f h c.2)).flatMap (fun c => c.2.blocks h) = t.1 :: t.2.flatMap fun c => c.2.blocks h
    rw [List.flatMap_map]
    congr 1
    exact Bld.flatMap_congr' fun c _ => map_blocks f h c.2

theorem Tree.map_contents (f : V → W) : ∀ (h : Nat) (t : Tree V h), (Tree.map f h t).contents h = (t.contents h).map fun e => (e.1, f e.2)
  | 0, _ => rfl
  | h + 1, t => by
    show (t.2.map fun c => (c.1, Tree.map f h c.2)).flatMap (fun c => c.2.contents h) = (t.2.flatMap fun c => c.2.contents h).map _
    rw [List.flatMap_map, List.map_flatMap]
    exact Bld.flatMap_congr' fun c _ => map_contents f h c.2

theorem nextKey_map {T U : Type} (g : T → U) (hi : Option Nat) (l : List (Nat × T)) : nextKey hi (l.map fun c => (c.1, g c.2)) = nextKey hi l := by
  cases l with
  | nil => rfl
  | cons c l => rfl

theorem chain_map {T U : Type} {P : Nat → Option Nat → T → Prop} {Q : Nat → Option Nat → U → Prop} (g : T → U) (hi : Option Nat) : ∀ (l : List (Nat × T)) (lo : Nat),
    (∀ c ∈ l, ∀ lo hi, P lo hi c.2 → Q lo hi (g c.2)) → Chain P lo hi l → Chain Q lo hi (l.map fun c => (c.1, g c.2)) := by
  intro l
  induction l with
  | nil => intro lo _ h; exact h
  | cons c l ih =>
    intro lo hg h
    obtain ⟨k, x⟩ := c
    simp only [List.map_cons, Chain] at h ⊢
    rw [nextKey_map]
    refine ⟨h.1, h.2.1, hg (k, x) (by simp) _ _ h.2.2.1, ih _ (fun c hc => hg c (by simp [hc])) h.2.2.2⟩

theorem Tree.map_ordered (f : V → W) : ∀ (h : Nat) (t : Tree V h) (lo : Nat) (hi : Option Nat), t.Ordered h lo hi → (Tree.map f h t).Ordered h lo hi
  | 0, t, lo, hi, ho => chain_map f hi t.2 lo (fun _ _ _ _ _ => trivial) ho
  | h + 1, t, lo, hi, ho => chain_map (Tree.map f h) hi t.2 lo (fun c _ lo hi hc => map_ordered f h c.2 lo hi hc) ho

theorem Tree.map_noEmpty (f : V → W) : ∀ (h : Nat) (t : Tree V h), t.NoEmpty h → (Tree.map f h t).NoEmpty h
  | 0, t, hn => by
    intro e
    exact hn (List.map_eq_nil_iff.mp e)
  | h + 1, t, hn => by
    refine ⟨fun e => hn.1 (List.map_eq_nil_iff.mp e), ?_⟩
    intro c hc
    obtain ⟨c', hc', rfl⟩ := List.mem_map.mp hc
    exact map_noEmpty f h c'.2 (hn.2 c' hc')

theorem Tree.map_stored (f : V → W) {p : V → Prop} {mem : Nat → Option (Blk V)} {mem' : Nat → Option (Blk W)} : ∀ (h : Nat) (t : Tree V h) (r r' : Bool),
    (∀ b ∈ t.blocks h, ∀ nd, mem b = some nd → nd.All p → mem' b = some (nd.map f)) → (∀ e ∈ t.contents h, p e.2) →
    t.Stored (fun _ b => mem b) r h → (Tree.map f h t).Stored (fun _ b => mem' b) r' h
  | 0, t, r, r', hm, hp, hs => hm t.1 (by simp [Tree.blocks]) (.leaf t.2) hs hp
  | h + 1, t, r, r', hm, hp, hs => by
    refine ⟨?_, ?_⟩
    · have := hm t.1 (by simp [Tree.blocks]) _ hs.1 trivial
      show mem' t.1 = some (.internal ((t.2.map fun c => (c.1, Tree.map f h c.2)).map fun c => (c.1, Tree.blk h c.2)))
      rw [this, List.map_map]
      simp only [Blk.map, Function.comp_def, Tree.map_blk]
    · intro c hc
      obtain ⟨c', hc', rfl⟩ := List.mem_map.mp hc
      exact map_stored f h c'.2 false false (fun b hb => hm b (by
        simp only [Tree.blocks, List.mem_cons]
        exact Or.inr (List.mem_flatMap.mpr ⟨c', hc', hb⟩))) (fun e he => hp e (by
        simp only [Tree.contents]
        exact List.mem_flatMap.mpr ⟨c', hc', he⟩)) (hs.2 c' hc')

theorem Tree.map_clean (f : V → W) {p : V → Prop} {mem : Nat → Option (Blk V)} {mem' : Nat → Option (Blk W)} {nr h : Nat} {t : Tree V h} (hc : LW.Clean mem nr h t)
    (hm : ∀ b ∈ t.blocks h, ∀ nd, mem b = some nd → nd.All p → mem' b = some (nd.map f)) (hp : ∀ e ∈ t.contents h, p e.2) :
    LW.Clean mem' nr h (Tree.map f h t) :=
  ⟨Tree.map_stored f h t true true hm hp hc.stored, Tree.map_ordered f h t 0 none hc.ordered, hc.noEmpty.imp id (Tree.map_noEmpty f h t),
    by rw [Tree.map_blocks]; exact hc.bound⟩

theorem Tree.map_filled (f : V → W) {capL capI : Nat} : ∀ (h : Nat) (t : Tree V h), Bld.Filled capL capI h t → Bld.Filled capL capI h (Tree.map f h t)
  | 0, t, hf => by
    show capL / 2 ≤ (t.2.map _).length ∧ (t.2.map _).length ≤ capL
    rw [List.length_map]
    exact hf
  | h + 1, t, hf => by
    refine ⟨?_, ?_, ?_⟩
    · show capI / 2 ≤ (t.2.map _).length
      rw [List.length_map]
      exact hf.1
    · show (t.2.map _).length ≤ capI
      rw [List.length_map]
      exact hf.2.1
    · intro c hc
      obtain ⟨c', hc', rfl⟩ := List.mem_map.mp hc
      exact map_filled f h c'.2 (hf.2.2 c' hc')

theorem Tree.map_rootFilled (f : V → W) {capL capI : Nat} : ∀ (h : Nat) (t : Tree V h), Bld.RootFilled capL capI h t → Bld.RootFilled capL capI h (Tree.map f h t)
  | 0, t, hf => by
    show (t.2.map _).length ≤ capL
    rw [List.length_map]
    exact hf
  | h + 1, t, hf => by
    refine ⟨?_, ?_, ?_⟩
    · show 2 ≤ (t.2.map _).length
      rw [List.length_map]
      exact hf.1
    · show (t.2.map _).length ≤ capI
      rw [List.length_map]
      exact hf.2.1
    · intro c hc
      obtain ⟨c', hc', rfl⟩ := List.mem_map.mp hc
      exact Tree.map_filled f h c'.2 (hf.2.2 c' hc')

end Verif.BT
