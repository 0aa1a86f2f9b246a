import Verif.Prop.ThinRestoreSm
import Verif.Prop.TreeMap
import Verif.Prop.ThinCheckPool

/-!
# C57: what `thin_restore` writes, `thin_check` accepts

For every consistent document the restored metadata passes a full check exactly if every device has as many mappings as its `mapped_blocks` says
(and no device maps a data block twice).  In particular both space maps that `thin_restore` writes are exact.
-/

namespace Verif.Rst

open Verif.BT (Blk Tree)
open Verif.SMD (SSt SVal DiskSM MetaSM)
open Verif.TChk (TDev Pool Reach kids nEnt dataOf)

/-! ## Specification: the device as `thin_check` reads it -/

/-- the 64-bit word of a mapping (`src/thin/block_time.rs:36-41`) or of a root -/
def word : Val → Nat
  | .bt b t => ((b <<< 24) % 2 ^ 64) ||| t
  | .root b => b
  | .det _ => 0

/-- the record of a device -/
def detailOf : Val → DeviceDetail
  | .det d => ⟨d.mapped, d.transaction, d.creation, d.snap⟩
  | _ => ⟨0, 0, 0, 0⟩

/-- 40 bits of block and 24 bits of time in a mapping -/
def WordFits : Val → Prop
  | .bt b t => b < 2 ^ 40 ∧ t < 2 ^ 24
  | .root b => b < 2 ^ 64
  | .det _ => False

/-- the fields have room in the record -/
def DetailFits : Val → Prop
  | .det d => (detailOf (.det d)).Fits
  | _ => False

/-- what the node reader guarantees of any node of 64-bit values (increasing keys, at most 255 entries), with pointers and keys that `thin_check` can represent -/
def NodeSane {V : Type} : Blk V → Prop
  | .leaf es => (es.map (·.1)).Pairwise (· < ·) ∧ (∀ e ∈ es, e.1 < 2 ^ 64 - 1) ∧ es.length ≤ 255
  | .internal ch => (∀ c ∈ ch, c.2 < 2 ^ 32) ∧ ch.length ≤ 255

/-- `d` is a device with the contents `img`: every block in use reads as what was written, by the reader for its kind; all other blocks are arbitrary -/
structure Shows (epb : Nat) (d : TDev) (img : Image) : Prop where
  nr : d.nr = img.nr
  lowNr : d.low.nr = img.nr
  sb : d.sb = some img.sb
  tops : ∃ mem : Nat → Option (Blk Nat), d.tops = (fun _ b => mem b) ∧ ∀ b nd, img.nodes b = some nd → nd.All WordFits → mem b = some (nd.map word)
  dets : ∃ mem : Nat → Option (Blk DeviceDetail), d.dets = (fun _ b => mem b) ∧ ∀ b nd, img.nodes b = some nd → nd.All DetailFits → mem b = some (nd.map detailOf)
  low : ∀ b nd, img.nodes b = some nd → nd.All WordFits → d.low.rd b = some (nd.map word)
  readAll : (∀ b n, d.low.rd b = some n → d.low.rdl b = some n) ∧ (∀ l i, d.low.many l i = true) ∧ ∀ l, d.low.chunkOk l = true
  rest : ∀ b nd, d.low.rd b = some nd → (∃ nd', img.nodes b = some nd' ∧ nd'.All WordFits) ∨ (b < img.nr ∧ NodeSane nd)
  sms : ∃ mem : Nat → Option (Blk SVal), d.rdn = (fun _ b => mem b) ∧ ∀ b nd, img.smNodes b = some nd → mem b = some nd
  bitmaps : ∀ b es, img.bitmaps b = some es → es.length = epb → d.bm b = some (true, es)
  rows : ∀ b tag es, d.bm b = some (tag, es) → es.length = epb
  index : ∀ b ies, img.index b = some ies → d.index b = some ies

/-- the values of the document have room in the metadata, and there are not too many devices -/
structure Fits (devices : List (DevIR × List (Nat × Val))) : Prop where
  id : ∀ p ∈ devices, p.1.id < 2 ^ 32
  detail : ∀ p ∈ devices, DetailFits (.det p.1.detail)
  key : ∀ p ∈ devices, ∀ e ∈ p.2, e.1 < 2 ^ 64 - 1
  val : ∀ p ∈ devices, ∀ e ∈ p.2, ∃ b t, e.2 = .bt b t ∧ b < 2 ^ 40 ∧ t < 2 ^ 24
  few : devices.length < 2 ^ 32

/-! ## Words -/

theorem word_block {b t : Nat} (hb : b < 2 ^ 40) (ht : t < 2 ^ 24) : word (.bt b t) >>> 24 = b := by
  have h1 : (b <<< 24) % 2 ^ 64 = b <<< 24 := by
    rw [Nat.shiftLeft_eq]
    exact Nat.mod_eq_of_lt (by omega)
  unfold word
  simp only
  rw [h1, Nat.shiftRight_or_distrib, Nat.shiftLeft_shiftRight]
  have h2 : t >>> 24 = 0 := by rw [Nat.shiftRight_eq_div_pow]; exact Nat.div_eq_of_lt ht
  rw [h2, Nat.or_zero]

/-! ## Nodes of filled trees -/

section

theorem ordered_keys {V : Type} {l : List (Nat × V)} {lo : Nat} {hi : Option Nat} {P : Nat → Option Nat → V → Prop} (h : BT.Chain P lo hi l) :
    (l.map (·.1)).Pairwise (· < ·) := by
  induction l generalizing lo with
  | nil => simp
  | cons c l ih =>
    obtain ⟨k, v⟩ := c
    simp only [BT.Chain] at h
    rw [List.map_cons, List.pairwise_cons]
    refine ⟨?_, ih h.2.2.2⟩
    intro x hx
    obtain ⟨c, hc, rfl⟩ := List.mem_map.mp hx
    have := (BT.chain_mem h.2.2.2 c hc).1
    show k < c.1
    omega

theorem chain_each {V : Type} {l : List (Nat × V)} {lo : Nat} {hi : Option Nat} {P : Nat → Option Nat → V → Prop} (h : BT.Chain P lo hi l) :
    ∀ c ∈ l, ∃ lo' hi', P lo' hi' c.2 := by
  induction l generalizing lo with
  | nil => intro c hc; cases hc
  | cons c l ih =>
    obtain ⟨k, v⟩ := c
    simp only [BT.Chain] at h
    intro c hc
    rcases List.mem_cons.mp hc with rfl | hc
    · exact ⟨_, _, h.2.2.1⟩
    · exact ih h.2.2.2 c hc

/-- no node is too big -/
def Small {V : Type} : (h : Nat) → Tree V h → Prop
  | 0, t => t.2.length ≤ 255
  | h + 1, t => t.2.length ≤ 255 ∧ ∀ c ∈ t.2, Small h c.2

theorem filled_small {V : Type} {capL : Nat} (hL : capL ≤ 255) : ∀ (h : Nat) (t : Tree V h), Bld.Filled capL capI h t → Small h t
  | 0, _, hf => Nat.le_trans hf.2 hL
  | h + 1, _, hf => ⟨Nat.le_trans hf.2.1 (by decide), fun c hc => filled_small hL h c.2 (hf.2.2 c hc)⟩

theorem rootFilled_small {V : Type} {capL : Nat} (hL : capL ≤ 255) : ∀ (h : Nat) (t : Tree V h), Bld.RootFilled capL capI h t → Small h t
  | 0, _, hf => Nat.le_trans hf hL
  | h + 1, _, hf => ⟨Nat.le_trans hf.2.1 (by decide), fun c hc => filled_small hL h c.2 (hf.2.2 c hc)⟩

theorem tree_sane {V : Type} {mem : Nat → Option (Blk V)} {n : Nat} (hn : n ≤ 2 ^ 32) : ∀ (h : Nat) (t : Tree V h) (r : Bool) (lo : Nat) (hi : Option Nat),
    t.Stored (fun _ b => mem b) r h → t.Ordered h lo hi → Small h t → (∀ b ∈ t.blocks h, b < n) → (∀ e ∈ t.contents h, e.1 < 2 ^ 64 - 1) →
    ∀ b ∈ t.blocks h, ∀ nd, mem b = some nd → NodeSane nd
  | 0, t, r, lo, hi, hs, ho, hsm, hb, hk, b, hbm, nd, hnd => by
    simp only [Tree.blocks, List.mem_singleton] at hbm
    rw [hbm, show mem t.1 = some (.leaf t.2) from hs] at hnd
    cases hnd
    exact ⟨ordered_keys ho, hk, hsm⟩
  | h + 1, t, r, lo, hi, hs, ho, hsm, hb, hk, b, hbm, nd, hnd => by
    simp only [Tree.blocks, List.mem_cons] at hbm
    rcases hbm with rfl | hbm
    · rw [show mem t.1 = _ from hs.1] at hnd
      cases hnd
      refine ⟨?_, by rw [List.length_map]; exact hsm.1⟩
      intro c hc
      obtain ⟨c', hc', rfl⟩ := List.mem_map.mp hc
      have := hb (c'.2.blk h) (by
        simp only [Tree.blocks, List.mem_cons]
        exact Or.inr (List.mem_flatMap.mpr ⟨c', hc', TChk.blk_mem_blocks c'.2⟩))
      show c'.2.blk h < 2 ^ 32
      omega
    · obtain ⟨c, hc, hbc⟩ := List.mem_flatMap.mp hbm
      obtain ⟨lo', hi', hoc⟩ := chain_each ho c hc
      exact tree_sane hn h c.2 false lo' hi' (hs.2 c hc) hoc (hsm.2 c hc) (fun x hx => hb x (by
        simp only [Tree.blocks, List.mem_cons]
        exact Or.inr (List.mem_flatMap.mpr ⟨c, hc, hx⟩))) (fun e he => hk e (by
        simp only [Tree.contents]
        exact List.mem_flatMap.mpr ⟨c, hc, he⟩)) b hbc nd hnd

theorem sane_map {V W : Type} (f : V → W) {nd : Blk V} (h : NodeSane nd) : NodeSane (nd.map f) := by
  cases nd with
  | leaf es =>
    obtain ⟨h1, h2, h3⟩ := h
    refine ⟨?_, ?_, ?_⟩
    · rw [List.map_map]; exact h1
    · intro e he
      obtain ⟨e', he', rfl⟩ := List.mem_map.mp he
      exact h2 e' he'
    · rw [List.length_map]; exact h3
  | internal ch => exact h

variable {d : TChk.Dev}

theorem filled_entries : ∀ (h : Nat) (t : Tree Nat h) (r : Bool), t.Stored (fun _ b => d.rd b) r h → Bld.Filled capBt capI h t → 84 ≤ nEnt d (t.blk h)
  | 0, t, r, hs, hf => by
    have h1 := hf.1
    unfold nEnt
    rw [show d.rd (Tree.blk 0 t) = some (.leaf t.2) from hs]
    simp only [capBt] at h1
    simp only
    omega
  | h + 1, t, r, hs, hf => by
    have h1 := hf.1
    unfold nEnt
    rw [show d.rd (Tree.blk (h + 1) t) = _ from hs.1]
    simp only [capI] at h1
    simp only [List.length_map]
    omega

theorem filled_kids : ∀ (h : Nat) (t : Tree Nat h) (r : Bool), t.Stored (fun _ b => d.rd b) r h →
    Bld.RootFilled capBt capI h t ∨ Bld.Filled capBt capI h t → ∀ y ∈ t.blocks h, ∀ c ∈ kids d y, 84 ≤ nEnt d c
  | 0, t, r, hs, _, y, hy, c, hc => by
    simp only [Tree.blocks, List.mem_singleton] at hy
    rw [hy, TChk.kids_leaf hs] at hc
    cases hc
  | h + 1, t, r, hs, hf, y, hy, c, hc => by
    have hfc : ∀ c ∈ t.2, Bld.Filled capBt capI h c.2 := by
      rcases hf with hf | hf
      · exact hf.2.2
      · exact hf.2.2
    simp only [Tree.blocks, List.mem_cons] at hy
    rcases hy with rfl | hy
    · rw [TChk.kids_node hs.1, List.map_map] at hc
      obtain ⟨q, hq, rfl⟩ := List.mem_map.mp hc
      exact filled_entries h q.2 false (hs.2 q hq) (hfc q hq)
    · obtain ⟨q, hq, hyq⟩ := List.mem_flatMap.mp hy
      exact filled_kids h q.2 false (hs.2 q hq) (Or.inr (hfc q hq)) y hyq c hc

theorem blocks_reach {roots : List Nat} : ∀ (h : Nat) (t : Tree Nat h) (r : Bool), t.Stored (fun _ b => d.rd b) r h → Reach d roots (t.blk h) → ∀ y ∈ t.blocks h, Reach d roots y
  | 0, t, r, _, hr, y, hy => by
    simp only [Tree.blocks, List.mem_singleton] at hy
    rw [hy]
    exact hr
  | h + 1, t, r, hs, hr, y, hy => by
    simp only [Tree.blocks, List.mem_cons] at hy
    rcases hy with rfl | hy
    · exact hr
    · obtain ⟨q, hq, hyq⟩ := List.mem_flatMap.mp hy
      refine blocks_reach h q.2 false (hs.2 q hq) (.kid t.1 _ hr ?_) y hyq
      rw [TChk.kids_node hs.1, List.map_map]
      exact List.mem_map.mpr ⟨q, hq, rfl⟩

/-! ## References of trees that share leaves only -/

theorem block_kind {V : Type} : ∀ (h : Nat) (t : Tree V h), ∀ b ∈ t.blocks h, b ∈ innerBlocks h t ∨ b ∈ Bld.leafBlocks h t
  | 0, t, b, hb => by
    right
    simpa [Tree.blocks, Bld.leafBlocks, Bld.leavesOf] using hb
  | h + 1, t, b, hb => by
    simp only [Tree.blocks, List.mem_cons] at hb
    rcases hb with rfl | hb
    · exact Or.inl (by simp [innerBlocks])
    · obtain ⟨c, hc, hbc⟩ := List.mem_flatMap.mp hb
      rcases block_kind h c.2 b hbc with h1 | h1
      · exact Or.inl (by simp only [innerBlocks, List.mem_cons]; exact Or.inr (List.mem_flatMap.mpr ⟨c, hc, h1⟩))
      · right
        simp only [Bld.leafBlocks, Bld.leavesOf, List.map_flatMap] at h1 ⊢
        exact List.mem_flatMap.mpr ⟨c, hc, h1⟩

theorem inner_map {V W : Type} (f : V → W) : ∀ (h : Nat) (t : Tree V h), innerBlocks h (Tree.map f h t) = innerBlocks h t
  | 0, _ => rfl
  | h + 1, t => by
    show t.1 :: (t.2.map fun c => (c.1, Tree.map f h c.2)).flatMap (fun c => innerBlocks h c.2) = t.1 :: t.2.flatMap fun c => innerBlocks h c.2
    rw [List.flatMap_map]
    congr 1
    exact Bld.flatMap_congr' fun c _ => inner_map f h c.2

theorem leafBlocks_map {V W : Type} (f : V → W) : ∀ (h : Nat) (t : Tree V h), Bld.leafBlocks h (Tree.map f h t) = Bld.leafBlocks h t
  | 0, _ => rfl
  | h + 1, t => by
    show ((t.2.map fun c => (c.1, Tree.map f h c.2)).flatMap fun c => Bld.leavesOf h c.2).map (·.1) = (t.2.flatMap fun c => Bld.leavesOf h c.2).map (·.1)
    rw [List.map_flatMap, List.map_flatMap, List.flatMap_map]
    exact Bld.flatMap_congr' fun c _ => leafBlocks_map f h c.2

/-- only internal nodes have references to nodes -/
theorem refs_inner (k : Nat → Nat) : ∀ (h : Nat) (t : Tree Nat h) (r : Bool), t.Stored (fun _ b => d.rd b) r h → (∀ b es, d.rd b = some (.leaf es) → k b = 0) →
    ((t.blocks h).map k).sum = ((innerBlocks h t).map k).sum
  | 0, t, r, hs, hk => by
    simp [Tree.blocks, innerBlocks, hk t.1 t.2 hs]
  | h + 1, t, r, hs, hk => by
    show (((t.1 :: t.2.flatMap fun c => c.2.blocks h)).map k).sum = ((t.1 :: t.2.flatMap fun c => innerBlocks h c.2).map k).sum
    rw [List.map_cons, List.map_cons, List.sum_cons, List.sum_cons, List.map_flatMap, List.map_flatMap]
    congr 1
    have : ∀ l : List (Nat × Tree Nat h), (∀ c ∈ l, c ∈ t.2) → (l.flatMap fun c => (c.2.blocks h).map k).sum = (l.flatMap fun c => (innerBlocks h c.2).map k).sum := by
      intro l
      induction l with
      | nil => intro _; rfl
      | cons c l ih =>
        intro hl
        rw [List.flatMap_cons, List.flatMap_cons, List.sum_append_nat, List.sum_append_nat, ih fun x hx => hl x (by simp [hx]),
          refs_inner k h c.2 false (hs.2 c (hl c (by simp))) hk]
    exact this t.2 fun _ h => h

theorem sum_sub (k : Nat → Nat) {I N : List Nat} (hI : I.Nodup) (hN : N.Nodup) (hsub : ∀ y ∈ I, y ∈ N) (hz : ∀ y ∈ N, y ∉ I → k y = 0) :
    (N.map k).sum = (I.map k).sum := by
  have hp : N.Perm (I ++ N.filter fun y => decide (y ∉ I)) := by
    refine Bld.perm_of_nodup hN (List.nodup_append.mpr ⟨hI, hN.filter _, ?_⟩) ?_
    · intro a ha b hb e
      subst e
      have := (List.mem_filter.mp hb).2
      simp [ha] at this
    · intro y
      rw [List.mem_append, List.mem_filter]
      constructor
      · intro hy
        by_cases h : y ∈ I
        · exact Or.inl h
        · exact Or.inr ⟨hy, by simpa using h⟩
      · rintro (h | h)
        · exact hsub y h
        · exact h.1
  rw [(hp.map k).sum_nat, List.map_append, List.sum_append_nat]
  have : ∀ l : List Nat, (∀ y ∈ l, k y = 0) → (l.map k).sum = 0 := by
    intro l
    induction l with
    | nil => intro _; rfl
    | cons y l ih => intro h; rw [List.map_cons, List.sum_cons, h y (by simp), ih fun y hy => h y (by simp [hy])]
  rw [this _ fun y hy => hz y (List.mem_filter.mp hy).1 (by simpa using (List.mem_filter.mp hy).2), Nat.add_zero]

theorem exists_set (l : List Nat) : ∃ N : List Nat, N.Nodup ∧ ∀ y, y ∈ N ↔ y ∈ l := by
  induction l with
  | nil => exact ⟨[], by simp, by simp⟩
  | cons a l ih =>
    obtain ⟨N, h1, h2⟩ := ih
    by_cases h : a ∈ N
    · refine ⟨N, h1, fun y => ?_⟩
      rw [List.mem_cons, ← h2]
      constructor
      · exact Or.inr
      · rintro (rfl | h')
        · exact h
        · exact h'
    · exact ⟨a :: N, List.nodup_cons.mpr ⟨h, h1⟩, fun y => by rw [List.mem_cons, List.mem_cons, h2]⟩

/-- the number of references to a node, if trees share leaves only: one for every occurrence in a tree -/
theorem shared_refs {ts : List ((h : Nat) × Tree Nat h)} (hs : ∀ t ∈ ts, t.2.Stored (fun _ b => d.rd b) true t.1) (hin : (ts.flatMap fun t => innerBlocks t.1 t.2).Nodup)
    {N : List Nat} (hN : N.Nodup) (hmem : ∀ y, y ∈ N ↔ y ∈ ts.flatMap fun t => t.2.blocks t.1) (x : Nat) :
    (ts.map fun t => t.2.blk t.1).count x + (N.map fun y => (kids d y).count x).sum = (ts.flatMap fun t => t.2.blocks t.1).count x := by
  have hleaf : ∀ b es, d.rd b = some (.leaf es) → (kids d b).count x = 0 := fun b es hb => by rw [TChk.kids_leaf hb]; rfl
  rw [sum_sub (fun y => (kids d y).count x) hin hN]
  · have : ∀ l : List ((h : Nat) × Tree Nat h), (∀ t ∈ l, t ∈ ts) →
        (l.map fun t => t.2.blk t.1).count x + ((l.flatMap fun t => innerBlocks t.1 t.2).map fun y => (kids d y).count x).sum = (l.flatMap fun t => t.2.blocks t.1).count x := by
      intro l
      induction l with
      | nil => intro _; rfl
      | cons t l ih =>
        intro hl
        have h1 := ih fun t ht => hl t (by simp [ht])
        have h2 := TChk.tree_refs (d := d) x t.1 t.2 true (hs t (hl t (by simp)))
        rw [refs_inner (fun y => (kids d y).count x) t.1 t.2 true (hs t (hl t (by simp))) hleaf] at h2
        simp only [List.map_cons, List.flatMap_cons, List.map_append, List.sum_append_nat, List.count_append, List.count_cons, List.count_nil] at h1 h2 ⊢
        omega
    exact this ts fun _ h => h
  · intro y hy
    obtain ⟨t, ht, hy⟩ := List.mem_flatMap.mp hy
    exact (hmem y).mpr (List.mem_flatMap.mpr ⟨t, ht, inner_mem t.1 t.2 y hy⟩)
  · intro y hy hni
    obtain ⟨t, ht, hy⟩ := List.mem_flatMap.mp ((hmem y).mp hy)
    rcases block_kind t.1 t.2 y hy with h | h
    · exact absurd (List.mem_flatMap.mpr ⟨t, ht, h⟩) hni
    · obtain ⟨l, hl, rfl⟩ := List.mem_map.mp h
      exact hleaf _ _ (Bld.stored_leaves t.1 t.2 true (hs t ht) l hl)

end

/-! ## The space maps on the device -/

theorem diskRight_of {epb nr : Nat} {bm : Nat → Option (Bool × List BE)} {rb : Nat → Option (List BE)} {ies : List IndexEntry} {ov : List (Nat × SVal)} {refs : Nat → Nat}
    (hbm : ∀ ie ∈ ies, ∃ es, rb ie.blocknr = some es ∧ es.length = epb ∧ ∀ n, BE.small n ∈ es → n ≤ 2)
    (hshow : ∀ ie ∈ ies, ∀ es, rb ie.blocknr = some es → es.length = epb → bm ie.blocknr = some (true, es))
    (hcount : ∀ b, b < nr → SMD.DiskCount epb rb ies ov b (refs b)) (honly : ∀ e ∈ ov, e.1 < nr ∧ 3 ≤ refs e.1 ∧ e.2 = .rc (refs e.1)) :
    TChk.DiskRight epb bm ies ov nr refs := by
  have hlen : ∀ ie ∈ ies, ∀ es, rb ie.blocknr = some es → bm ie.blocknr = some (true, es) := by
    intro ie hie es hes
    obtain ⟨es', h1, h2, -⟩ := hbm ie hie
    rw [hes] at h1
    cases h1
    exact hshow ie hie es hes h2
  refine ⟨?_, ?_, ?_, fun e he => ⟨(honly e he).1, (honly e he).2.2⟩⟩
  · intro ie hie
    obtain ⟨es, h1, h2, -⟩ := hbm ie hie
    exact ⟨es, hshow ie hie es h1 h2⟩
  · intro b hb h3
    have hc := hcount b hb
    generalize hx : refs b = c at hc h3
    cases hc with
    | small ie es h1 h2 h4 =>
      exact ⟨ie.blocknr, true, es, by rw [List.getElem?_map, h1]; rfl, hlen ie (List.mem_of_getElem? h1) es h2, h4⟩
    | overflow ie es h1 h2 h4 h5 =>
      have := (honly _ h5).2.1
      simp only at this
      omega
  · intro b hb h3
    have hc := hcount b hb
    generalize hx : refs b = c at hc h3
    cases hc with
    | small ie es h1 h2 h4 =>
      obtain ⟨es', g1, -, g3⟩ := hbm ie (List.mem_of_getElem? h1)
      rw [h2] at g1
      cases g1
      have := g3 c (List.mem_of_getElem? h4)
      omega
    | overflow ie es h1 h2 h4 h5 =>
      exact ⟨ie.blocknr, true, es, by rw [List.getElem?_map, h1]; rfl, hlen ie (List.mem_of_getElem? h1) es h2, h4⟩

/-! ## The pieces -/

/-- everything a restore has made -/
structure Parts (N : Type) where
  r : R N
  out : SbOut
  img : Image
  k : Nat
  droot : SMRoot
  S1 : SSt
  hx : Nat
  ho : Nat
  tx : Tree SVal hx
  to : Tree SVal ho
  ies : List IndexEntry
  mroot : SMRoot
  mies : List IndexEntry
  S : SSt
  hM : Nat
  tM : Tree SVal hM
  db : Bytes
  mb : Bytes
  devs : List DevT
  hm : Nat
  tm : Tree Val hm
  hd : Nat
  td : Tree Val hd
  nodes : List Nat
  leaves : List Nat

variable {N : Type}

/-- what is known of it, and of a device that shows it -/
structure Parts.Ok (p : Parts N) (epb n max : Nat) (d : TDev) : Prop where
  hz : CacheM.SmSize epb n
  hn : n ≤ 2 ^ 32
  w : SmsWritten epb n max p.r p.out p.img p.k p.droot p.S1 p.hx p.ho p.tx p.to p.ies p.mroot p.mies p.S p.hM p.tM p.db p.mb
  hnr : p.r.nrData < 2 ^ 64
  shows : Shows epb d p.img
  mapRoot : p.out.mappingRoot = p.tm.blk p.hm
  detRoot : p.out.detailsRoot = p.td.blk p.hd
  tmS : p.tm.Stored (fun _ b => p.r.st.mem b) true p.hm
  tmO : p.tm.Ordered p.hm 0 none
  tmF : Bld.RootFilled capBt capI p.hm p.tm
  tmC : p.tm.contents p.hm = p.devs.map fun d => (d.id, .root (d.t.blk d.h))
  tdS : p.td.Stored (fun _ b => p.r.st.mem b) true p.hd
  tdO : p.td.Ordered p.hd 0 none
  tdF : Bld.RootFilled capDet capI p.hd p.td
  tdC : p.td.contents p.hd = p.devs.map fun d => (d.id, .det d.det)
  dev : ∀ e ∈ p.devs, e.t.Stored (fun _ b => p.r.st.mem b) true e.h ∧ e.t.Ordered e.h 0 none ∧ Bld.RootFilled capBt capI e.h e.t
  rc : ∀ b, p.r.st.sm.abs b = (if b = 0 then 1 else 0) + (p.devs.flatMap fun d => d.t.blocks d.h).count b + (p.tm.blocks p.hm).count b + (p.td.blocks p.hd).count b
  out0 : ∀ b, n ≤ b → p.r.st.sm.abs b = 0
  inner : (p.devs.flatMap fun d => innerBlocks d.h d.t).Nodup
  topNd : (0 :: (p.td.blocks p.hd ++ p.tm.blocks p.hm)).Nodup
  topApart : ∀ b ∈ 0 :: (p.td.blocks p.hd ++ p.tm.blocks p.hm), b ∉ p.devs.flatMap fun d => d.t.blocks d.h
  leavesNd : p.leaves.Nodup
  leavesIs : ∀ b, b ∈ p.leaves ↔ ∃ d ∈ p.devs, b ∈ Bld.leafBlocks d.h d.t
  log : p.r.st.log.Perm (p.leaves.flatMap (leafRefs p.r.st.mem))
  nodesNd : p.nodes.Nodup
  nodesIs : ∀ b, b ∈ p.nodes ↔ b ∈ p.devs.flatMap fun d => d.t.blocks d.h
  fid : ∀ e ∈ p.devs, e.id < 2 ^ 32
  fdet : ∀ e ∈ p.devs, DetailFits (.det e.det)
  fkey : ∀ e ∈ p.devs, ∀ x ∈ e.t.contents e.h, x.1 < 2 ^ 64 - 1
  fval : ∀ e ∈ p.devs, ∀ x ∈ e.t.contents e.h, ∃ b t, x.2 = .bt b t ∧ b < 2 ^ 40 ∧ t < 2 ^ 24
  few : p.devs.length < 2 ^ 32

namespace Parts

/-- the pool that `thin_check` sees -/
def pool (p : Parts N) : Pool where
  hT := p.hm
  tT := Tree.map word p.hm p.tm
  hD := p.hd
  tD := Tree.map detailOf p.hd p.td
  N := p.nodes
  L := p.leaves
  droot := p.droot
  hX := p.hx
  tX := p.tx
  ies := p.ies
  hO := p.ho
  tO := p.to
  mroot := p.mroot
  hM := p.hM
  tM := p.tM
  mies := p.mies

variable {p : Parts N} {epb n max : Nat} {d : TDev}

theorem Ok.nr (H : p.Ok epb n max d) : p.img.nr = n := by
  rw [H.w.img]
  exact H.w.metad.sm.len

theorem Ok.dnr (H : p.Ok epb n max d) : d.nr = n := by rw [H.shows.nr, H.nr]

theorem Ok.lnr (H : p.Ok epb n max d) : d.low.nr = n := by rw [H.shows.lowNr, H.nr]

theorem Ok.pos_lt (H : p.Ok epb n max d) {b : Nat} (h : 0 < p.r.st.sm.abs b) : b < n := by
  by_cases hb : b < n
  · exact hb
  · have := H.out0 b (by omega)
    omega

/-- the blocks of the trees are in use -/
theorem Ok.pos (H : p.Ok epb n max d) {b : Nat} (h : b ∈ 0 :: (p.td.blocks p.hd ++ p.tm.blocks p.hm) ∨ b ∈ p.devs.flatMap fun d => d.t.blocks d.h) : 0 < p.r.st.sm.abs b := by
  rw [H.rc b]
  rcases h with h | h
  · rw [List.mem_cons, List.mem_append] at h
    rcases h with h | h | h
    · rw [if_pos h]; omega
    · have := List.count_pos_iff.mpr h; omega
    · have := List.count_pos_iff.mpr h; omega
  · have := List.count_pos_iff.mpr h; omega

theorem Ok.ne0 (H : p.Ok epb n max d) {b : Nat} (h : b ∈ p.td.blocks p.hd ++ p.tm.blocks p.hm ∨ b ∈ p.devs.flatMap fun d => d.t.blocks d.h) : b ≠ 0 := by
  rintro rfl
  rcases h with h | h
  · exact (List.nodup_cons.mp H.topNd).1 h
  · exact H.topApart 0 (by simp) h

theorem Ok.node (H : p.Ok epb n max d) {b : Nat} (h : b ∈ p.td.blocks p.hd ++ p.tm.blocks p.hm ∨ b ∈ p.devs.flatMap fun d => d.t.blocks d.h) :
    p.img.nodes b = p.r.st.mem b := by
  rw [H.w.img]
  show (if 0 < p.r.st.sm.abs b ∧ b ≠ 0 then p.r.st.mem b else none) = _
  rw [if_pos ⟨H.pos (h.imp (fun h => List.mem_cons_of_mem _ h) id), H.ne0 h⟩]

theorem Ok.nodeOf (H : p.Ok epb n max d) {b : Nat} {nd : Blk Val} (h : p.img.nodes b = some nd) :
    p.r.st.mem b = some nd ∧ (b ∈ p.td.blocks p.hd ++ p.tm.blocks p.hm ∨ b ∈ p.devs.flatMap fun d => d.t.blocks d.h) := by
  rw [H.w.img] at h
  have h : (if 0 < p.r.st.sm.abs b ∧ b ≠ 0 then p.r.st.mem b else none) = some nd := h
  by_cases hc : 0 < p.r.st.sm.abs b ∧ b ≠ 0
  · rw [if_pos hc] at h
    refine ⟨h, ?_⟩
    have := H.rc b
    rw [if_neg hc.2] at this
    by_cases h1 : b ∈ p.devs.flatMap fun d => d.t.blocks d.h
    · exact Or.inr h1
    · left
      rw [List.mem_append]
      by_cases h2 : b ∈ p.td.blocks p.hd
      · exact Or.inl h2
      · right
        apply List.count_pos_iff.mp
        rw [List.count_eq_zero.mpr h1, List.count_eq_zero.mpr h2] at this
        omega
  · rw [if_neg hc] at h
    cases h

/-- the trees the restorer made, with the words of the device -/
theorem Ok.tmClean (H : p.Ok epb n max d) : LW.Clean p.r.st.mem n p.hm p.tm :=
  ⟨H.tmS, H.tmO, SMC.rootFilled_noEmpty (by decide) (by decide) p.hm p.tm H.tmF, fun b hb => H.pos_lt (H.pos (Or.inl (by simp [hb])))⟩

theorem Ok.tdClean (H : p.Ok epb n max d) : LW.Clean p.r.st.mem n p.hd p.td :=
  ⟨H.tdS, H.tdO, SMC.rootFilled_noEmpty (by decide) (by decide) p.hd p.td H.tdF, fun b hb => H.pos_lt (H.pos (Or.inl (by simp [hb])))⟩

theorem Ok.inDevs {e : DevT} (he : e ∈ p.devs) {b : Nat} (hb : b ∈ e.t.blocks e.h) : b ∈ p.devs.flatMap fun d => d.t.blocks d.h :=
  List.mem_flatMap.mpr ⟨e, he, hb⟩

theorem Ok.devClean (H : p.Ok epb n max d) {e : DevT} (he : e ∈ p.devs) : LW.Clean p.r.st.mem n e.h e.t := by
  obtain ⟨h1, h2, h3⟩ := H.dev e he
  exact ⟨h1, h2, SMC.rootFilled_noEmpty (by decide) (by decide) e.h e.t h3, fun b hb => H.pos_lt (H.pos (Or.inr (Ok.inDevs he hb)))⟩

theorem Ok.top (H : p.Ok epb n max d) : ∃ mem, d.tops = (fun _ b => mem b) ∧ LW.Clean mem n p.hm (Tree.map word p.hm p.tm) := by
  obtain ⟨mem, h1, h2⟩ := H.shows.tops
  refine ⟨mem, h1, BT.Tree.map_clean word (p := WordFits) H.tmClean (fun b hb nd hnd hall => h2 b nd (by rw [H.node (Or.inl (by simp [hb]))]; exact hnd) hall) ?_⟩
  intro e he
  rw [H.tmC] at he
  obtain ⟨x, hx, rfl⟩ := List.mem_map.mp he
  have := H.pos_lt (H.pos (Or.inr (Ok.inDevs hx (TChk.blk_mem_blocks x.t))))
  have := H.hn
  show x.t.blk x.h < 2 ^ 64
  omega

theorem Ok.det (H : p.Ok epb n max d) : ∃ mem, d.dets = (fun _ b => mem b) ∧ LW.Clean mem n p.hd (Tree.map detailOf p.hd p.td) := by
  obtain ⟨mem, h1, h2⟩ := H.shows.dets
  refine ⟨mem, h1, BT.Tree.map_clean detailOf (p := DetailFits) H.tdClean (fun b hb nd hnd hall => h2 b nd (by rw [H.node (Or.inl (by simp [hb]))]; exact hnd) hall) ?_⟩
  intro e he
  rw [H.tdC] at he
  obtain ⟨x, hx, rfl⟩ := List.mem_map.mp he
  exact H.fdet x hx

theorem Ok.low (H : p.Ok epb n max d) {e : DevT} (he : e ∈ p.devs) : LW.Clean d.low.rd n e.h (Tree.map word e.h e.t) := by
  refine BT.Tree.map_clean word (p := WordFits) (H.devClean he) (fun b hb nd hnd hall => H.shows.low b nd (by rw [H.node (Or.inr (Ok.inDevs he hb))]; exact hnd) hall) ?_
  intro x hx
  obtain ⟨b, t, h1, h2, h3⟩ := H.fval e he x hx
  rw [h1]
  exact ⟨h2, h3⟩

theorem Ok.devs_eq (H : p.Ok epb n max d) : p.pool.devs = p.devs.map fun e => (e.id, e.t.blk e.h) := by
  show (Tree.map word p.hm p.tm).contents p.hm = _
  rw [BT.Tree.map_contents, H.tmC, List.map_map]
  rfl

theorem Ok.roots_eq (H : p.Ok epb n max d) : p.pool.roots = p.devs.map fun e => e.t.blk e.h := by
  unfold Pool.roots
  rw [H.devs_eq, List.map_map]
  rfl

theorem Ok.details_eq (H : p.Ok epb n max d) : p.pool.details = p.devs.map fun e => (e.id, detailOf (.det e.det)) := by
  show (Tree.map detailOf p.hd p.td).contents p.hd = _
  rw [BT.Tree.map_contents, H.tdC, List.map_map]
  rfl

theorem Ok.sane (H : p.Ok epb n max d) : (∀ b nd, d.low.rd b = some nd → b < n ∧ NodeSane nd) := by
  intro b nd hnd
  rcases H.shows.rest b nd hnd with ⟨nd', h1, h2⟩ | ⟨h1, h2⟩
  · have h3 := H.shows.low b nd' h1 h2
    rw [hnd] at h3
    cases h3
    obtain ⟨h4, h5⟩ := H.nodeOf h1
    refine ⟨H.pos_lt (H.pos (h5.imp (fun h => List.mem_cons_of_mem _ h) id)), sane_map word ?_⟩
    rcases h5 with h5 | h5
    · rw [List.mem_append] at h5
      rcases h5 with h5 | h5
      · refine tree_sane H.hn p.hd p.td true 0 none H.tdS H.tdO (rootFilled_small (by decide) _ _ H.tdF) H.tdClean.bound ?_ b h5 nd' h4
        intro e he
        rw [H.tdC] at he
        obtain ⟨x, hx, rfl⟩ := List.mem_map.mp he
        have := H.fid x hx
        show x.id < _
        omega
      · refine tree_sane H.hn p.hm p.tm true 0 none H.tmS H.tmO (rootFilled_small (by decide) _ _ H.tmF) H.tmClean.bound ?_ b h5 nd' h4
        intro e he
        rw [H.tmC] at he
        obtain ⟨x, hx, rfl⟩ := List.mem_map.mp he
        have := H.fid x hx
        show x.id < _
        omega
    · obtain ⟨e, he, hb⟩ := List.mem_flatMap.mp h5
      obtain ⟨g1, g2, g3⟩ := H.dev e he
      exact tree_sane H.hn e.h e.t true 0 none g1 g2 (rootFilled_small (by decide) _ _ g3) (H.devClean he).bound (H.fkey e he) b hb nd' h4
  · rw [H.nr] at h1
    exact ⟨h1, h2⟩

theorem Ok.saneLow (H : p.Ok epb n max d) : TChk.Sane d.low := by
  refine ⟨fun b nd h => ?_, ?_, fun b es h => ?_, fun b ch h => ?_⟩
  · rw [H.lnr]; exact (H.sane b nd h).1
  · rw [H.lnr]; exact H.hn
  · obtain ⟨h1, h2, -⟩ := (H.sane b _ h).2
    exact ⟨h1, h2⟩
  · exact ((H.sane b _ h).2 : (∀ c ∈ ch, c.2 < 2 ^ 32) ∧ ch.length ≤ 255).1

theorem Ok.small (H : p.Ok epb n max d) (b : Nat) : nEnt d.low b ≤ 255 := by
  unfold nEnt
  cases h : d.low.rd b with
  | none => exact Nat.zero_le _
  | some nd =>
    have := (H.sane b nd h).2
    cases nd with
    | leaf es => exact this.2.2
    | internal ch => exact this.2

theorem Ok.allClean (H : p.Ok epb n max d) : TChk.AllClean d.low p.pool.roots := by
  intro r hr
  rw [H.roots_eq] at hr
  obtain ⟨e, he, rfl⟩ := List.mem_map.mp hr
  exact ⟨e.h, Tree.map word e.h e.t, by rw [H.lnr]; exact H.low he, BT.Tree.map_blk word e.h e.t⟩

theorem Ok.reach (H : p.Ok epb n max d) (y : Nat) : y ∈ p.nodes ↔ Reach d.low p.pool.roots y := by
  rw [H.nodesIs]
  constructor
  · intro hy
    obtain ⟨e, he, hy⟩ := List.mem_flatMap.mp hy
    refine blocks_reach e.h (Tree.map word e.h e.t) true (H.low he).stored (.root _ ?_) y (by rw [BT.Tree.map_blocks]; exact hy)
    rw [H.roots_eq, BT.Tree.map_blk]
    exact List.mem_map.mpr ⟨e, he, rfl⟩
  · intro hy
    obtain ⟨r, hr, h, t, h1, h2, h3⟩ := TChk.reach_tree_of H.allClean hy
    rw [H.roots_eq] at hr
    obtain ⟨e, he, rfl⟩ := List.mem_map.mp hr
    have := TChk.blocks_same h1.stored (H.low he).stored (by rw [h2, BT.Tree.map_blk]) y h3
    rw [BT.Tree.map_blocks] at this
    exact Ok.inDevs he this

theorem Ok.leaf (H : p.Ok epb n max d) {b : Nat} (hb : b ∈ p.leaves) : ∃ e ∈ p.devs, ∃ es, (b, es) ∈ Bld.leavesOf e.h e.t ∧ p.r.st.mem b = some (.leaf es) ∧
    d.low.rd b = some (.leaf (es.map fun x => (x.1, word x.2))) ∧ ∀ x ∈ es, x ∈ e.t.contents e.h := by
  obtain ⟨e, he, hb⟩ := (H.leavesIs b).mp hb
  obtain ⟨l, hl, rfl⟩ := List.mem_map.mp hb
  have h1 := Bld.stored_leaves e.h e.t true (H.dev e he).1 l hl
  have h2 : ∀ x ∈ l.2, x ∈ e.t.contents e.h := by
    intro x hx
    rw [Bld.contents_leaves]
    exact List.mem_flatMap.mpr ⟨l, hl, hx⟩
  refine ⟨e, he, l.2, hl, h1, ?_, h2⟩
  refine H.shows.low l.1 (.leaf l.2) ?_ ?_
  · rw [H.node (Or.inr (Ok.inDevs he (Bld.leaf_mem_blocks e.h e.t l.1 hb)))]
    exact h1
  · intro x hx
    obtain ⟨b, t, g1, g2, g3⟩ := H.fval e he x (h2 x hx)
    rw [g1]
    exact ⟨g2, g3⟩

theorem Ok.leavesOk (H : p.Ok epb n max d) (y : Nat) : y ∈ p.leaves ↔ y ∈ p.nodes ∧ ∃ es, d.low.rd y = some (.leaf es) := by
  constructor
  · intro hy
    obtain ⟨e, he, es, h1, -, h2, -⟩ := H.leaf hy
    refine ⟨(H.nodesIs y).mpr (Ok.inDevs he (Bld.leaf_mem_blocks e.h e.t y (List.mem_map.mpr ⟨(y, es), h1, rfl⟩))), _, h2⟩
  · rintro ⟨hy, es, hes⟩
    obtain ⟨e, he, hy⟩ := List.mem_flatMap.mp ((H.nodesIs y).mp hy)
    refine (H.leavesIs y).mpr ⟨e, he, ?_⟩
    rcases block_kind e.h e.t y hy with h | h
    · obtain ⟨ch, hch⟩ := inner_stored e.h e.t true (H.dev e he).1 y h
      have := H.shows.low y (.internal ch) (by rw [H.node (Or.inr (Ok.inDevs he hy))]; exact hch) trivial
      rw [hes] at this
      cases this
    · exact h

/-! ## The space maps -/

theorem Ok.s1_pos (H : p.Ok epb n max d) {b : Nat} (h : 0 < p.r.st.sm.abs b ∨ b ∈ p.pool.dataSm) : 0 < p.S1.bt.sm.abs b := by
  have h1 := H.w.disk.rc b
  rw [show (smStart p.r.st).bt.sm.abs b = p.r.st.sm.abs b from rfl] at h1
  rcases h with h | h
  · omega
  · have : b ∈ p.tx.blocks p.hx ++ p.to.blocks p.ho ++ p.ies.map (·.blocknr) := by
      have h : b ∈ p.tx.blocks p.hx ++ (p.ies.map (·.blocknr) ++ p.to.blocks p.ho) := h
      simp only [List.mem_append] at h ⊢
      rcases h with h | h | h
      · exact Or.inl (Or.inl h)
      · exact Or.inr h
      · exact Or.inl (Or.inr h)
    have := List.count_pos_iff.mpr this
    omega

theorem Ok.disk_fresh (H : p.Ok epb n max d) {b : Nat} (h : b ∈ p.pool.dataSm) : p.r.st.sm.abs b = 0 := by
  refine H.w.disk.fresh b ?_
  have h : b ∈ p.tx.blocks p.hx ++ (p.ies.map (·.blocknr) ++ p.to.blocks p.ho) := h
  simp only [List.mem_append] at h ⊢
  rcases h with h | h | h
  · exact Or.inl (Or.inl h)
  · exact Or.inr h
  · exact Or.inl (Or.inr h)

theorem metaSm_mem {b : Nat} : b ∈ p.pool.metaSm ↔ b ∈ p.mroot.bitmap_root :: (p.tM.blocks p.hM ++ p.mies.map (·.blocknr)) := by
  show b ∈ p.tM.blocks p.hM ++ (p.mroot.bitmap_root :: p.mies.map (·.blocknr)) ↔ _
  simp only [List.mem_append, List.mem_cons]
  constructor
  · rintro (h | h | h)
    · exact Or.inr (Or.inl h)
    · exact Or.inl h
    · exact Or.inr (Or.inr h)
  · rintro (h | h | h)
    · exact Or.inr (Or.inl h)
    · exact Or.inl h
    · exact Or.inr (Or.inr h)

theorem Ok.meta_fresh (H : p.Ok epb n max d) {b : Nat} (h : b ∈ p.pool.metaSm) : p.S1.bt.sm.abs b = 0 :=
  H.w.metad.fresh b (metaSm_mem.mp h)

theorem Ok.meta_fresh0 (H : p.Ok epb n max d) {b : Nat} (h : b ∈ p.pool.metaSm) : p.r.st.sm.abs b = 0 := by
  have h1 := H.meta_fresh h
  by_cases h2 : 0 < p.r.st.sm.abs b
  · have := H.s1_pos (Or.inl h2); omega
  · omega

theorem Ok.disk_meta (H : p.Ok epb n max d) {b : Nat} (h : b ∈ p.pool.dataSm) : b ∉ p.pool.metaSm := by
  intro h'
  have h1 := H.s1_pos (Or.inr h)
  have h2 := H.meta_fresh h'
  omega

/-- blocks of the space maps other than the index read as they were written -/
theorem Ok.smBlock (H : p.Ok epb n max d) {b : Nat} (h0 : p.r.st.sm.abs b = 0) (hix : b ≠ p.mroot.bitmap_root) :
    p.img.smNodes b = p.S.bt.mem b ∧ p.img.bitmaps b = p.S.readBm b := by
  rw [H.w.img]
  have : ¬ (0 < p.r.st.sm.counts.getD b 0 ∨ b = p.mroot.bitmap_root) := by
    rintro (h | h)
    · have h : 0 < p.r.st.sm.abs b := h
      omega
    · exact hix h
  exact ⟨if_neg this, if_neg this⟩

theorem Ok.disk_ne_ix (H : p.Ok epb n max d) {b : Nat} (h : b ∈ p.pool.dataSm) : b ≠ p.mroot.bitmap_root := by
  rintro rfl
  exact H.disk_meta h (metaSm_mem.mpr (by simp))

theorem Ok.keep (H : p.Ok epb n max d) {b : Nat} (h : b ∈ p.pool.dataSm) : p.S.bt.mem b = p.S1.bt.mem b ∧ p.S.readBm b = p.S1.readBm b := by
  obtain ⟨h1, h2⟩ := H.w.metad.mem b (H.s1_pos (Or.inr h))
  refine ⟨h1, ?_⟩
  unfold SSt.readBm
  rw [h1, h2]

theorem Ok.disk_lt (H : p.Ok epb n max d) {b : Nat} (h : b ∈ p.pool.dataSm) : b < n :=
  SMC.lt_of_pos H.w.disk.sm (H.s1_pos (Or.inr h))

theorem Ok.meta_lt (H : p.Ok epb n max d) {b : Nat} (h : b ∈ p.pool.metaSm) : b < n :=
  CacheM.bound_of H.w.metad (metaSm_mem.mp h)

theorem stored_mono {V : Type} {mem mem' : Nat → Option (Blk V)} : ∀ (h : Nat) (t : Tree V h) (r : Bool), (∀ b ∈ t.blocks h, ∀ nd, mem b = some nd → mem' b = some nd) →
    t.Stored (fun _ b => mem b) r h → t.Stored (fun _ b => mem' b) r h
  | 0, t, _, hm, hs => hm t.1 (by simp [Tree.blocks]) _ hs
  | h + 1, t, r, hm, hs => by
    refine ⟨hm t.1 (by simp [Tree.blocks]) _ hs.1, fun c hc => stored_mono h c.2 false (fun b hb => hm b ?_) (hs.2 c hc)⟩
    simp only [Tree.blocks, List.mem_cons]
    exact Or.inr (List.mem_flatMap.mpr ⟨c, hc, hb⟩)

theorem x_in {b : Nat} (h : b ∈ p.tx.blocks p.hx) : b ∈ p.pool.dataSm := by
  show b ∈ p.tx.blocks p.hx ++ _
  simp [h]

theorem o_in {b : Nat} (h : b ∈ p.to.blocks p.ho) : b ∈ p.pool.dataSm := by
  show b ∈ p.tx.blocks p.hx ++ (p.ies.map (·.blocknr) ++ p.to.blocks p.ho)
  simp [h]

theorem i_in {b : Nat} (h : b ∈ p.ies.map (·.blocknr)) : b ∈ p.pool.dataSm := by
  show b ∈ p.tx.blocks p.hx ++ (p.ies.map (·.blocknr) ++ p.to.blocks p.ho)
  rw [List.mem_append, List.mem_append]
  exact Or.inr (Or.inl h)

theorem m_in {b : Nat} (h : b ∈ p.tM.blocks p.hM) : b ∈ p.pool.metaSm := by
  show b ∈ p.tM.blocks p.hM ++ _
  simp [h]

theorem Ok.sms (H : p.Ok epb n max d) : ∃ mem, d.rdn = (fun _ b => mem b) ∧ SMC.IndexTree mem n p.droot.bitmap_root p.ies p.hx p.tx ∧ LW.Clean mem n p.ho p.to ∧
    LW.Clean mem n p.hM p.tM := by
  obtain ⟨mem, h1, h2⟩ := H.shows.sms
  have hD := H.w.disk
  have hM := H.w.metad
  have hd : ∀ b ∈ p.pool.dataSm, ∀ nd, p.S1.bt.mem b = some nd → mem b = some nd := by
    intro b hb nd hnd
    refine h2 b nd ?_
    rw [(H.smBlock (H.disk_fresh hb) (H.disk_ne_ix hb)).1, (H.keep hb).1]
    exact hnd
  refine ⟨mem, h1, ⟨⟨?_, hD.xordered, SMC.rootFilled_noEmpty (by decide) (by decide) _ _ hD.xfilled, fun b hb => H.disk_lt (x_in hb)⟩, hD.xblk, hD.xcontents⟩,
    ⟨?_, hD.oordered, SMC.rootFilled_noEmpty (by decide) (by decide) _ _ hD.ofilled, fun b hb => H.disk_lt (o_in hb)⟩,
    ⟨?_, hM.oordered, SMC.rootFilled_noEmpty (by decide) (by decide) _ _ hM.ofilled, fun b hb => H.meta_lt (m_in hb)⟩⟩
  · exact stored_mono _ _ _ (fun b hb => hd b (x_in hb)) hD.xstored
  · exact stored_mono _ _ _ (fun b hb => hd b (o_in hb)) hD.ostored
  · refine stored_mono _ _ _ (fun b hb nd hnd => h2 b nd ?_) hM.ostored
    rw [(H.smBlock (H.meta_fresh0 (m_in hb)) ?_).1]
    · exact hnd
    · rintro rfl
      exact (List.nodup_cons.mp hM.nodup).1 (by simp [hb])

theorem Ok.dataNodup (H : p.Ok epb n max d) : p.pool.dataSm.Nodup := by
  obtain ⟨mem, -, hx, ho, -⟩ := H.sms
  have hD := H.w.disk
  show (p.tx.blocks p.hx ++ (p.ies.map (·.blocknr) ++ p.to.blocks p.ho)).Nodup
  rw [List.nodup_append, List.nodup_append]
  refine ⟨hx.clean.nodup, ⟨hD.nodup, ho.nodup, ?_⟩, ?_⟩
  · intro a ha b hb e
    subst e
    obtain ⟨ie, hie, rfl⟩ := List.mem_map.mp ha
    obtain ⟨es, h1, -⟩ := hD.bitmaps ie hie
    obtain ⟨nd, hnd⟩ := SMC.stored_mem p.ho p.to true hD.ostored _ hb
    unfold SSt.readBm at h1
    rw [hnd] at h1
    cases h1
  · intro a ha b hb e
    subst e
    rw [List.mem_append] at hb
    rcases hb with hb | hb
    · exact (hD.apart a ha).2 hb
    · exact (hD.apart a ha).1 hb

theorem Ok.metaNodup (H : p.Ok epb n max d) : p.pool.metaSm.Nodup := by
  rw [List.nodup_iff_count]
  intro x
  have := List.nodup_iff_count.mp H.w.metad.nodup x
  show (p.tM.blocks p.hM ++ (p.mroot.bitmap_root :: p.mies.map (·.blocknr))).count x ≤ 1
  simp only [List.count_append, List.count_cons] at this ⊢
  omega

theorem Ok.drootFits (H : p.Ok epb n max d) : p.droot.Fits := by
  have hD := H.w.disk
  have h1 : p.droot.bitmap_root < n := by
    rw [← hD.xblk]
    exact H.disk_lt (x_in (TChk.blk_mem_blocks p.tx))
  have h2 : p.droot.ref_count_root < n := by
    rw [← hD.oblk]
    exact H.disk_lt (o_in (TChk.blk_mem_blocks p.to))
  have h3 : p.droot.nr_allocated ≤ p.r.nrData := by
    rw [H.w.used]
    exact Nat.le_trans (List.length_filter_le _ _) (by simp)
  have h4 : p.droot.nr_blocks = p.r.nrData := by rw [hD.nr]; simp [dataCounts]
  have := H.hnr
  have := H.hn
  exact ⟨by omega, by omega, by omega, by omega⟩

theorem unpacks {r : SMRoot} (hf : r.Fits) {b : Bytes} (h : packRoot r 128 = some b) : CacheM.rootIn b = some r := by
  obtain ⟨-, rest, h⟩ := packRoot_roundtrip r hf 128 _ h
  unfold CacheM.rootIn
  rw [show SMRoot.unpack b = some (r, rest) from h]
  rfl

/-- the pool is on the device, undamaged -/
theorem Ok.intact (H : p.Ok epb n max d) : p.pool.Intact d p.img.sb CacheM.rootIn where
  sbIs := H.shows.sb
  snap := by rw [H.w.img]; rfl
  top := by rw [H.dnr]; exact H.top
  topBlk := by
    rw [H.w.img]
    show (Tree.map word p.hm p.tm).blk p.hm = p.out.mappingRoot
    rw [BT.Tree.map_blk, H.mapRoot]
  det := by rw [H.dnr]; exact H.det
  detBlk := by
    rw [H.w.img]
    show (Tree.map detailOf p.hd p.td).blk p.hd = p.out.detailsRoot
    rw [BT.Tree.map_blk, H.detRoot]
  lowNr := by rw [H.lnr, H.dnr]
  sane := H.saneLow
  readAll := H.shows.readAll
  low := H.allClean
  nodes := ⟨H.nodesNd, H.reach⟩
  leaves := ⟨H.leavesNd, H.leavesOk⟩
  small := H.small
  few := by rw [H.roots_eq, List.length_map]; exact H.few
  sms := by rw [H.dnr]; exact H.sms
  droot := by rw [H.w.img]; exact unpacks H.drootFits H.w.packD
  ovBlk := H.w.disk.oblk
  mroot := by rw [H.w.img]; exact unpacks (CacheM.root_fits H.hz.n64 H.w.metad) H.w.packM
  movBlk := H.w.metad.oblk
  index := by
    refine H.shows.index _ _ ?_
    rw [H.w.img]
    exact if_pos rfl
  nodup := by
    have htop : p.pool.top = 0 :: (p.td.blocks p.hd ++ p.tm.blocks p.hm) := by
      show 0 :: ((Tree.map detailOf p.hd p.td).blocks p.hd ++ (Tree.map word p.hm p.tm).blocks p.hm) = _
      rw [BT.Tree.map_blocks, BT.Tree.map_blocks]
    rw [htop, show p.pool.N = p.nodes from rfl, List.nodup_append, List.nodup_append, List.nodup_append]
    refine ⟨H.topNd, ⟨H.nodesNd, ⟨H.dataNodup, H.metaNodup, ?_⟩, ?_⟩, ?_⟩
    · intro a ha b hb e
      subst e
      exact H.disk_meta ha hb
    · intro a ha b hb e
      subst e
      have h1 := H.pos (Or.inr ((H.nodesIs a).mp ha))
      rw [List.mem_append] at hb
      rcases hb with hb | hb
      · have := H.disk_fresh hb; omega
      · have := H.meta_fresh0 hb; omega
    · intro a ha b hb e
      subst e
      have h1 := H.pos (Or.inl ha)
      rw [List.mem_append, List.mem_append] at hb
      rcases hb with hb | hb | hb
      · exact H.topApart a ha ((H.nodesIs a).mp hb)
      · have := H.disk_fresh hb; omega
      · have := H.meta_fresh0 hb; omega
  bound := by
    intro x hx
    rw [H.dnr]
    rw [List.mem_append, List.mem_append] at hx
    rcases hx with hx | hx | hx
    · refine H.pos_lt (H.pos (Or.inl ?_))
      have hx : x ∈ 0 :: ((Tree.map detailOf p.hd p.td).blocks p.hd ++ (Tree.map word p.hm p.tm).blocks p.hm) := hx
      rw [BT.Tree.map_blocks, BT.Tree.map_blocks] at hx
      exact hx
    · exact H.disk_lt hx
    · exact H.meta_lt hx

/-! ## The counts -/

theorem Ok.metaRefs (H : p.Ok epb n max d) (x : Nat) : p.pool.metaRefs d x = p.S.bt.sm.abs x := by
  have h1 := shared_refs (d := d.low) (ts := p.devs.map fun e => ⟨e.h, Tree.map word e.h e.t⟩) (N := p.nodes) (by
    intro t ht
    obtain ⟨e, he, rfl⟩ := List.mem_map.mp ht
    exact (H.low he).stored) (by
    rw [List.flatMap_map]
    simp only [inner_map]
    exact H.inner) H.nodesNd (by
    intro y
    rw [H.nodesIs, List.flatMap_map]
    simp only [BT.Tree.map_blocks]) x
  rw [List.map_map, List.flatMap_map] at h1
  simp only [BT.Tree.map_blocks, Function.comp_def, BT.Tree.map_blk] at h1
  have h2 := H.w.metad.rc x
  have h3 := H.w.disk.rc x
  rw [show (smStart p.r.st).bt.sm.abs x = p.r.st.sm.abs x from rfl, H.rc x] at h3
  have h4 : p.pool.metaRefs d x = (0 :: ((Tree.map detailOf p.hd p.td).blocks p.hd ++ (Tree.map word p.hm p.tm).blocks p.hm)).count x + p.pool.roots.count x +
    (p.nodes.map fun y => (kids d.low y).count x).sum + (p.tx.blocks p.hx ++ (p.ies.map (·.blocknr) ++ p.to.blocks p.ho)).count x +
    (p.tM.blocks p.hM ++ (p.mroot.bitmap_root :: p.mies.map (·.blocknr))).count x := rfl
  rw [BT.Tree.map_blocks, BT.Tree.map_blocks, H.roots_eq] at h4
  have h5 : ∀ l : List Nat, (0 :: l).count x = (if x = 0 then 1 else 0) + l.count x := by
    intro l
    rw [List.count_cons]
    by_cases e : x = 0
    · subst e; simp; omega
    · rw [if_neg e, if_neg (by simpa using fun h => e h.symm)]; omega
  rw [h5] at h4
  simp only [List.count_append, List.count_cons] at h1 h2 h3 h4
  omega

theorem Ok.dataRefs (H : p.Ok epb n max d) (x : Nat) : p.pool.dataRefs d x = p.r.st.log.count x := by
  rw [H.log.count_eq]
  show (p.leaves.map fun b => (dataOf d.low b).count x).sum = _
  have : ∀ l : List Nat, (∀ b ∈ l, b ∈ p.leaves) → (l.map fun b => (dataOf d.low b).count x).sum = (l.flatMap (leafRefs p.r.st.mem)).count x := by
    intro l
    induction l with
    | nil => intro _; rfl
    | cons b l ih =>
      intro hl
      rw [List.map_cons, List.sum_cons, List.flatMap_cons, List.count_append, ih fun b hb => hl b (by simp [hb])]
      congr 2
      obtain ⟨e, he, es, -, h2, h3, h4⟩ := H.leaf (hl b (by simp))
      unfold dataOf leafRefs Bld.leafEntries
      rw [h2, h3]
      simp only [List.map_map]
      have : ∀ es : List (Nat × Val), (∀ y ∈ es, y ∈ e.t.contents e.h) → es.map ((fun e : Nat × Nat => e.2 >>> 24) ∘ fun y => (y.1, word y.2)) = es.flatMap fun y => refs y.2 := by
        intro es
        induction es with
        | nil => intro _; rfl
        | cons y es ih =>
          intro hes
          obtain ⟨b', t', g1, g2, g3⟩ := H.fval e he y (hes y (by simp))
          rw [List.map_cons, List.flatMap_cons, ih fun y hy => hes y (by simp [hy]), g1]
          simp only [Function.comp_apply, g1]
          rw [word_block g2 g3]
          rfl
      exact this es h4
  exact this p.leaves fun _ h => h

theorem Ok.metaRight (H : p.Ok epb n max d) : TChk.DiskRight epb d.bm p.pool.mies (p.pool.tM.contents p.pool.hM) d.nr (p.pool.metaRefs d) := by
  have hM := H.w.metad
  rw [H.dnr]
  have e : p.pool.metaRefs d = p.S.bt.sm.abs := funext H.metaRefs
  rw [e]
  refine diskRight_of (rb := p.S.readBm) hM.bitmaps ?_ (fun b hb => (hM.count b hb _).mpr rfl) hM.only
  intro ie hie es hes hl
  have hin : ie.blocknr ∈ p.pool.metaSm := metaSm_mem.mpr (by
    rw [List.mem_cons, List.mem_append]
    exact Or.inr (Or.inr (List.mem_map_of_mem (f := (·.blocknr)) hie)))
  refine H.shows.bitmaps _ _ ?_ hl
  rw [(H.smBlock (H.meta_fresh0 hin) ?_).2]
  · exact hes
  · intro e
    refine (List.nodup_cons.mp hM.nodup).1 ?_
    rw [← e, List.mem_append]
    exact Or.inr (List.mem_map_of_mem (f := (·.blocknr)) hie)

theorem Ok.dataRight (H : p.Ok epb n max d) : TChk.DiskRight epb d.bm p.pool.ies (p.pool.tO.contents p.pool.hO) p.pool.droot.nr_blocks (p.pool.dataRefs d) := by
  have hD := H.w.disk
  have e : p.pool.dataRefs d = fun x => p.r.st.log.count x := funext H.dataRefs
  have hget : ∀ b c, (dataCounts p.r.nrData p.r.st.log)[b]? = some c ↔ b < p.r.nrData ∧ c = p.r.st.log.count b := by
    intro b c
    unfold dataCounts
    rw [List.getElem?_map]
    by_cases hb : b < p.r.nrData
    · rw [List.getElem?_range hb]
      simp only [Option.map_some, Option.some.injEq]
      exact ⟨fun h => ⟨hb, h.symm⟩, fun h => h.2.symm⟩
    · rw [List.getElem?_eq_none (by simpa using hb)]
      simp [hb]
  have hnr : p.droot.nr_blocks = p.r.nrData := by rw [hD.nr]; simp [dataCounts]
  rw [e, show p.pool.droot.nr_blocks = p.r.nrData from hnr]
  refine diskRight_of (rb := p.S1.readBm) hD.bitmaps ?_ (fun b hb => (hD.count b _ ((hget b _).mpr ⟨hb, rfl⟩) _).mpr rfl) ?_
  · intro ie hie es hes hl
    have hin := i_in (p := p) (List.mem_map_of_mem (f := (·.blocknr)) hie)
    refine H.shows.bitmaps _ _ ?_ hl
    rw [(H.smBlock (H.disk_fresh hin) (H.disk_ne_ix hin)).2, (H.keep hin).2]
    exact hes
  · intro x hx
    obtain ⟨c, h1, h2, h3⟩ := hD.only x hx
    obtain ⟨g1, rfl⟩ := (hget _ _).mp h1
    exact ⟨g1, h2, h3⟩

theorem Ok.hmin (H : p.Ok epb n max d) : ∀ y c, y ∈ p.pool.N → c ∈ kids d.low y → TChk.MIN_ENTRIES ≤ nEnt d.low c := by
  intro y c hy hc
  obtain ⟨e, he, hy⟩ := List.mem_flatMap.mp ((H.nodesIs y).mp hy)
  exact filled_kids e.h (Tree.map word e.h e.t) true (H.low he).stored (Or.inl (BT.Tree.map_rootFilled word e.h e.t (H.dev e he).2.2)) y (by rw [BT.Tree.map_blocks]; exact hy) c hc

theorem zip_same {α β γ : Type} (f : α → β) (g : α → γ) : ∀ l : List α, (l.map f).zip (l.map g) = l.map fun a => (f a, g a)
  | [] => rfl
  | a :: l => by rw [List.map_cons, List.map_cons, List.zip_cons_cons, zip_same f g l]; rfl

theorem Ok.thins (H : p.Ok epb n max d) : TChk.zipThins p.pool.devs p.pool.details = p.devs.map fun e => (e.id, e.t.blk e.h, e.det.mapped) := by
  unfold TChk.zipThins
  rw [H.devs_eq, H.details_eq, zip_same, List.map_map]
  rfl

/-- the tree of a device, as the check finds it -/
theorem Ok.found (H : p.Ok epb n max d) {e : DevT} (he : e ∈ p.devs) {h : Nat} {t : Tree Nat h} (hc : LW.Clean d.low.rd d.low.nr h t) (hb : t.blk h = e.t.blk e.h) :
    t.contents h = (e.t.contents e.h).map fun x => (x.1, word x.2) := by
  have := LW.stored_unique h e.h t (Tree.map word e.h e.t) true true hc.stored (H.low he).stored hc.noEmpty (H.low he).noEmpty (by rw [hb, BT.Tree.map_blk])
  rw [this.2, BT.Tree.map_contents]

theorem Ok.countsRight (H : p.Ok epb n max d) : p.pool.CountsRight d ↔ ∀ e ∈ p.devs, e.det.mapped = (e.t.contents e.h).length := by
  unfold Pool.CountsRight
  rw [H.thins]
  constructor
  · intro h e he
    have := h _ (List.mem_map.mpr ⟨e, he, rfl⟩) e.h (Tree.map word e.h e.t) (by rw [H.lnr]; exact H.low he) (BT.Tree.map_blk word e.h e.t)
    rw [BT.Tree.map_contents, List.length_map] at this
    exact this.symm
  · intro h x hx k t hc hb
    obtain ⟨e, he, rfl⟩ := List.mem_map.mp hx
    rw [H.found he hc hb, List.length_map]
    exact (h e he).symm

theorem Ok.dataOnce (H : p.Ok epb n max d) (hone : ∀ e ∈ p.devs, ((e.t.contents e.h).flatMap fun x => refs x.2).Nodup) :
    ∀ r ∈ p.pool.roots, ∀ (h : Nat) (t : Tree Nat h), LW.Clean d.low.rd d.low.nr h t → t.blk h = r → (TChk.treeData t).Nodup := by
  intro r hr h t hc hb
  rw [H.roots_eq] at hr
  obtain ⟨e, he, rfl⟩ := List.mem_map.mp hr
  unfold TChk.treeData
  rw [H.found he hc hb, List.map_map]
  have : ∀ es : List (Nat × Val), (∀ y ∈ es, y ∈ e.t.contents e.h) → es.map ((fun e : Nat × Nat => e.2 >>> 24) ∘ fun y => (y.1, word y.2)) = es.flatMap fun y => refs y.2 := by
    intro es
    induction es with
    | nil => intro _; rfl
    | cons y es ih =>
      intro hes
      obtain ⟨b', t', g1, g2, g3⟩ := H.fval e he y (hes y (by simp))
      rw [List.map_cons, List.flatMap_cons, ih fun y hy => hes y (by simp [hy]), g1]
      simp only [Function.comp_apply, g1]
      rw [word_block g2 g3]
      rfl
  have e2 : (e.t.contents e.h).map ((fun x : Nat × Nat => x.2 >>> 24) ∘ fun y => (y.1, word y.2)) = (e.t.contents e.h).flatMap fun y => refs y.2 := this _ fun _ h => h
  rw [show ((fun x : Nat × Nat => x.2 >>> 24) ∘ fun y : Nat × Val => (y.1, word y.2)) = _ from rfl] at e2
  rw [e2]
  exact hone e he

theorem Ok.ids (H : p.Ok epb n max d) : p.pool.devs.map (·.1) = p.pool.details.map (·.1) := by
  rw [H.devs_eq, H.details_eq, List.map_map, List.map_map]
  rfl

end Parts

/-! ## C57 -/

/-- no device maps a data block twice -/
def MapsOnce (devices : List (DevIR × List (Nat × Val))) : Prop := ∀ p ∈ devices, (p.2.flatMap fun e => refs e.2).Nodup

/-- every device has as many mappings as `mapped_blocks` says -/
def MappedRight (devices : List (DevIR × List (Nat × Val))) : Prop := ∀ p ∈ devices, p.1.detail.mapped = p.2.length

section
variable [DecidableEq N]

theorem parts_of {epb n max : Nat} (hz : CacheM.SmSize epb n) (hmax : 1 ≤ max) (hn : n ≤ 2 ^ 32) (mem : Nat → Option (Blk Val)) (sb : SbIR) (hsz : SizeOK sb)
    (hnr : sb.nrData < 2 ^ 64) (sects : List (Sect N)) (hc : Consistent (fun _ => none) sects) (hid : ((meaning (fun _ => none) sects).map fun p => p.1.id).Nodup)
    (hf : Fits (meaning (fun _ => none) sects)) {img : Image} (hr : restoreAll epb (docEvents sb sects) ⟨mem, SM.Core.new max n, [], []⟩ = .ok img)
    {d : TDev} (hs : Shows epb d img) :
    ∃ p : Parts N, p.Ok epb n max d ∧ p.img = img ∧ (p.devs.map DevT.means).Perm (meaning (fun _ => none) sects) := by
  have hpost := restoreAll_post hz hmax (by omega) mem sb hsz sects hc hid
  rw [hr] at hpost
  obtain ⟨r, out, ⟨devs, hm, tm, hd, td, -, hperm, hout, a1, a2, a3, a4, a5, a6, a7, a8, a9, a10, a11, a12, a13, a14, L, a15, a16, a17⟩, hnrd, hout', k, droot, S1, hx, ho, tx, to, ies, mroot, mies,
    S, hM, tM, db, mb, hw⟩ := hpost
  rw [hout] at hout'
  cases hout'
  obtain ⟨nodes, n1, n2⟩ := exists_set (devs.flatMap fun d => d.t.blocks d.h)
  have hmeans : ∀ e ∈ devs, e.means ∈ meaning (fun _ => none) sects := fun e he => hperm.mem_iff.mp (List.mem_map_of_mem he)
  refine ⟨⟨r, ⟨sb.time, sb.transaction, sb.blockSize, tm.blk hm, td.blk hd⟩, img, k, droot, S1, hx, ho, tx, to, ies, mroot, mies, S, hM, tM, db, mb, devs, hm, tm, hd, td, nodes, L⟩, ?_, rfl, hperm⟩
  exact
    { hz := hz, hn := hn, w := hw, hnr := by rw [hnrd]; exact hnr
      shows := hs, mapRoot := rfl, detRoot := rfl, tmS := a1, tmO := a2, tmF := a3, tmC := a4, tdS := a5, tdO := a6, tdF := a7, tdC := a8, dev := a9, rc := a10, out0 := a11
      inner := a12, topNd := a13, topApart := a14, leavesNd := a15, leavesIs := a16, log := a17, nodesNd := n1, nodesIs := n2
      fid := fun e he => hf.id _ (hmeans e he)
      fdet := fun e he => hf.detail _ (hmeans e he)
      fkey := fun e he => hf.key _ (hmeans e he)
      fval := fun e he => hf.val _ (hmeans e he)
      few := by
        have := hperm.length_eq
        rw [List.length_map] at this
        show devs.length < _
        rw [this]
        exact hf.few }

/-- **C57.**  Whatever consistent document `thin_restore` restores (its values have room in the metadata, no device maps a data block twice), a full `thin_check` of the result
succeeds exactly if every device has as many mappings as its `mapped_blocks` says; then nothing is changed on the device.  So both space maps are exact, every node is filled well
enough, device ids agree, and only a wrong `mapped_blocks` of the document, which `thin_restore` copies, can be found at fault. -/
theorem restore_check {epb n max : Nat} (hz : CacheM.SmSize epb n) (hmax : 1 ≤ max) (hn : n ≤ 2 ^ 32) (mem : Nat → Option (Blk Val)) (sb : SbIR) (hsz : SizeOK sb)
    (hnr : sb.nrData < 2 ^ 64) (sects : List (Sect N)) (hc : Consistent (fun _ => none) sects) (hid : ((meaning (fun _ => none) sects).map fun p => p.1.id).Nodup)
    (hf : Fits (meaning (fun _ => none) sects)) (hone : MapsOnce (meaning (fun _ => none) sects))
    {img : Image} (hr : restoreAll epb (docEvents sb sects) ⟨mem, SM.Core.new max n, [], []⟩ = .ok img) {d : TDev} (hs : Shows epb d img)
    {o : TChk.TOpts} (ho : o.full) (w : TChk.Wr) {fuel : Nat} (hfuel : d.nr ≤ fuel)
    (bot : List Nat → TChk.Sm → TChk.Sm → TChk.Sm × TChk.Sm × Option TChk.Sums)
    (hbot : ∀ roots msm dsm, TChk.Bottom d.low o.ign fuel roots msm dsm (bot roots msm dsm)) :
    ((TChk.check CacheM.rootIn bot w o d).2 = .ok ↔ MappedRight (meaning (fun _ => none) sects)) ∧
    (MappedRight (meaning (fun _ => none) sects) → TChk.check CacheM.rootIn bot w o d = (d, .ok)) := by
  obtain ⟨p, H, himg, hperm⟩ := parts_of hz hmax hn mem sb hsz hnr sects hc hid hf hr hs
  have hright : p.pool.CountsRight d ↔ MappedRight (meaning (fun _ => none) sects) := by
    rw [H.countsRight]
    constructor
    · intro h q hq
      obtain ⟨e, he, rfl⟩ := List.mem_map.mp (hperm.mem_iff.mpr hq)
      exact h e he
    · intro h e he
      exact h _ (hperm.mem_iff.mp (List.mem_map_of_mem he))
  have hpass : MappedRight (meaning (fun _ => none) sects) → TChk.check CacheM.rootIn bot w o d = (d, .ok) := by
    intro h
    rw [TChk.check_pool_complete hz.epb0 hs.rows H.intact ho w (Or.inr H.hmin) hfuel bot hbot H.ids (hright.mpr h)
      (H.dataOnce fun e he => hone _ (hperm.mem_iff.mp (List.mem_map_of_mem he))) H.dataRight H.metaRight]
    split
    · unfold TChk.clearFlag
      rw [H.shows.sb]
      simp only
      rw [if_neg (by rw [H.w.img]; simp [imageOf, superblockOf])]
    · rfl
  refine ⟨⟨fun h => hright.mp ((TChk.check_pool H.intact ho w (Or.inr H.hmin) hfuel bot hbot).2 h).2.1, fun h => by rw [hpass h]⟩, hpass⟩

end

end Verif.Rst
