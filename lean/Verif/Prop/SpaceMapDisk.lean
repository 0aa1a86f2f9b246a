import Verif.Model.SpaceMapDisk
import Verif.Prop.Builder
import Verif.Prop.ArrayBuilder

/-!
# C19: a space map written to disk contains every reference count
-/

namespace Verif.SMD

open Verif.Bld (St Err NB NIO NodeRec Post Inv Sorted Result RootFilled)
open Verif.BT (Blk Tree)
open Verif.Arr (divUp)

/-! ## Specification -/

/-- `c` is the reference count of block `b` according to the index entries, the bitmaps and the overflow entries on disk: the
bitmap entry says 0, 1 or 2, or it says that the count is in the overflow tree, which has it. -/
inductive DiskCount (epb : Nat) (bitmap : Nat → Option (List BE)) (index : List IndexEntry) (overflow : List (Nat × SVal)) (b c : Nat) : Prop
  | small (ie : IndexEntry) (es : List BE) (h1 : index[b / epb]? = some ie) (h2 : bitmap ie.blocknr = some es)
      (h3 : es[b % epb]? = some (.small c)) : DiskCount epb bitmap index overflow b c
  | overflow (ie : IndexEntry) (es : List BE) (h1 : index[b / epb]? = some ie) (h2 : bitmap ie.blocknr = some es)
      (h3 : es[b % epb]? = some .overflow) (h4 : (b, .rc c) ∈ overflow) : DiskCount epb bitmap index overflow b c

/-- The summary in an index entry is right: the number of free entries of the bitmap, and a position before which all are used. -/
structure IndexOK (bitmap : Nat → Option (List BE)) (ie : IndexEntry) : Prop where
  free : ∀ es, bitmap ie.blocknr = some es → ie.nr_free = (es.filter fun e => e = .small 0).length
  first : ∀ es, bitmap ie.blocknr = some es → ∀ i, i < ie.none_free_before → es[i]? ≠ some (.small 0)

/-! ## Blocks that are written while a tree is being built -/

section frame
variable {V E : Type} {P : Nat → Prop}

/-- block `b` becomes used and holds no node -/
def addBlk (s0 : St V) (b : Nat) : St V :=
  { s0 with mem := fun x => if x = b then none else s0.mem x, sm := { s0.sm with counts := s0.sm.counts.set b 1 } }

theorem addBlk_abs {s0 : St V} {b : Nat} (hb : b < s0.sm.counts.length) : (addBlk s0 b).sm.abs = s0.sm.abs.upd b 1 := by
  funext x
  simp only [addBlk, SM.Core.abs, SM.Counts.upd, List.getD_eq_getElem?_getD, List.getElem?_set]
  by_cases h : x = b
  · subst h; simp [hb]
  · rw [if_neg h, if_neg (Ne.symm h)]

/-- A builder is not disturbed by a block that was free and is now used for something else. -/
theorem inv_foreign {io : NIO V E} {n max : Nat} {s0 s t : St V} {nb : NB E} {pushed : List (Nat × E)} {ps : List (NodeRec E)}
    (h : Inv P io n max s0 nb s pushed ps) (hlen : s0.sm.counts.length = n) {b : Nat} (hb : b < n) (h0 : s.sm.abs b = 0)
    (ht : t.sm.Inv n max) (ha : t.sm.abs = s.sm.abs.upd b 1) (hm : ∀ x, x ≠ b → t.mem x = s.mem x) (hmb : t.mem b = none)
    (hl : t.log = s.log) : Inv P io n max (addBlk s0 b) nb t pushed ps := by
  obtain ⟨f1, f2⟩ := h.toCore.free h0
  have hab := addBlk_abs (s0 := s0) (b := b) (by omega)
  refine ⟨⟨ht, h.nodes, ?_, h.cont, ?_, ?_, ?_, h.full, h.last, h.sorted⟩, h.half, h.vals, h.shv, h.capPos⟩
  · intro p hp
    have hne := f2 p hp
    have hp' := h.ok p hp
    refine ⟨by rw [hm _ hne]; exact hp'.mem, hp'.nr, hp'.key, hp'.bnd, ?_, ?_⟩
    · intro ho
      rw [hab]
      simp only [SM.Counts.upd, if_neg hne]
      exact hp'.own ho
    · intro ho
      rw [hab]
      simp only [SM.Counts.upd, if_neg hne]
      exact hp'.pre ho
  · intro x
    have := h.rc x
    rw [ha, hab]
    simp only [SM.Counts.upd]
    by_cases hx : x = b
    · subst hx
      rw [if_pos rfl, if_pos rfl]
      omega
    · rw [if_neg hx, if_neg hx]; exact this
  · intro x hx
    rw [hab] at hx
    by_cases e : x = b
    · subst e; simp [addBlk, hmb]
    · simp only [SM.Counts.upd, if_neg e] at hx
      rw [hm x e, h.mem x hx]
      simp [addBlk, e]
  · rw [hl]; exact h.log

end frame

/-- a bitmap: its block, and what reading it gives -/
abbrev Bms := List (Nat × List BE)

/-- The state of `write_common` and `write_metadata_common`: `pushed` went into the overflow tree so far, `bms` are the
bitmaps written so far. -/
structure Mid (n max : Nat) (S0 : SSt) (nb : NB SVal) (S : SSt) (pushed : List (Nat × SVal)) (bms : Bms) : Prop where
  ex : ∃ s0 ps, Inv (fun _ => False) io n max s0 nb S.bt pushed ps ∧ s0.sm.counts.length = n ∧
    (∀ x, s0.sm.abs x = S0.bt.sm.abs x + (bms.map (·.1)).count x) ∧
    (∀ x, 0 < S0.bt.sm.abs x → s0.mem x = S0.bt.mem x) ∧ (∀ p ∈ bms, s0.mem p.1 = none) ∧ s0.log = S0.bt.log
  cap : nb.cap = capOv
  shared : nb.shared = false
  bm : ∀ p ∈ bms, S.bm p.1 = some p.2
  free : ∀ p ∈ bms, S0.bt.sm.abs p.1 = 0
  old : ∀ x, 0 < S0.bt.sm.abs x → S.bm x = S0.bm x
  nodup : (bms.map (·.1)).Nodup
  bnd : ∀ p ∈ bms, p.1 < n

theorem mid_new {n max : Nat} {S : SSt} (hi : S.bt.sm.Inv n max) : Mid n max S (NB.new capOv false) S [] [] where
  ex := ⟨S.bt, [], Inv.new io (by decide) false hi, hi.len, by simp, fun _ _ => rfl, by simp, rfl⟩
  cap := rfl
  shared := rfl
  bm := by simp
  free := by simp
  old := fun _ _ => rfl
  nodup := by simp
  bnd := by simp

theorem mid_sm {n max : Nat} {S0 S : SSt} {nb : NB SVal} {pushed : List (Nat × SVal)} {bms : Bms}
    (h : Mid n max S0 nb S pushed bms) : S.bt.sm.Inv n max := by
  obtain ⟨s0, ps, h1, -⟩ := h.ex
  exact h1.sm

theorem mid_push {n max : Nat} {S0 S : SSt} {nb : NB SVal} {pushed : List (Nat × SVal)} {bms : Bms}
    (h : Mid n max S0 nb S pushed bms) (key : Nat) (v : SVal) (hs : ∀ e ∈ pushed, e.1 < key) :
    Post (Bld.pushValue io key v nb S.bt) (fun r => Mid n max S0 r.1 { S with bt := r.2 } (pushed ++ [(key, v)]) bms) := by
  obtain ⟨s0, ps, h1, h2, h3, h4, h5, h6⟩ := h.ex
  have hsort : Sorted (pushed ++ [(key, v)]) := by
    refine List.pairwise_append.mpr ⟨h1.sorted, by simp, ?_⟩
    intro a ha b hb
    rw [List.mem_singleton] at hb
    subst hb
    exact hs a ha
  refine (Bld.pushValue_post (Bld.leafIO_law _ _) h1 key v hsort).mono ?_
  rintro ⟨nb', s'⟩ ⟨ps', g1, g2, g3⟩
  exact ⟨⟨s0, ps', g1, h2, h3, h4, h5, h6⟩, g2.trans h.cap, g3.trans h.shared, h.bm, h.free, h.old, h.nodup, h.bnd⟩

theorem mid_bitmap {n max epb : Nat} {S0 S : SSt} {nb : NB SVal} {pushed : List (Nat × SVal)} {bms : Bms}
    (h : Mid n max S0 nb S pushed bms) (es : List BE) :
    Post (writeBitmap epb es S) (fun r =>
      Mid n max S0 nb r.2 pushed (bms ++ [(r.1, es ++ List.replicate (epb - es.length) (.small 0))])) := by
  obtain ⟨s0, ps, h1, h2, h3, h4, h5, h6⟩ := h.ex
  unfold writeBitmap
  refine (Bld.alloc_post h1.sm).bind ?_
  rintro ⟨b, t⟩ ⟨g1, g2, g3, g4, g5, g6⟩
  simp only at g1 g2 g3 g4 g5 g6
  have hs0 : s0.sm.abs b = 0 := (h1.toCore.free g2).1
  have hS0 : S0.bt.sm.abs b = 0 := by have := h3 b; omega
  have hnb : b ∉ bms.map (·.1) := by
    have := h3 b
    exact List.count_eq_zero.mp (by omega)
  show Mid n max S0 nb (putBitmap epb b es { S with bt := t }) pushed _
  refine ⟨⟨addBlk s0 b, ps, ?_, by simp [addBlk, h2], ?_, ?_, ?_, h6⟩, h.cap, h.shared, ?_, ?_, ?_, ?_, ?_⟩
  · refine inv_foreign h1 h2 g1 g2 g3 g4 ?_ (by simp [putBitmap]) g6
    intro x hx
    simp [putBitmap, hx, g5]
  · intro x
    rw [addBlk_abs (by omega)]
    simp only [SM.Counts.upd, List.map_append, List.map_cons, List.map_nil, List.count_append, List.count_cons, List.count_nil, beq_iff_eq]
    have := h3 x
    by_cases hx : x = b
    · subst hx
      rw [if_pos rfl, if_pos rfl]
      omega
    · rw [if_neg hx, if_neg (Ne.symm hx)]; omega
  · intro x hx
    have : x ≠ b := by intro e; subst e; omega
    simp only [addBlk, if_neg this]
    exact h4 x hx
  · intro p hp
    rcases List.mem_append.mp hp with hp | hp
    · simp only [addBlk]
      split
      · rfl
      · exact h5 p hp
    · rw [List.mem_singleton] at hp
      subst hp
      simp [addBlk]
  · intro p hp
    rcases List.mem_append.mp hp with hp | hp
    · have : p.1 ≠ b := by intro e; exact hnb (e ▸ List.mem_map.mpr ⟨p, hp, rfl⟩)
      simp only [putBitmap, if_neg this]
      exact h.bm p hp
    · rw [List.mem_singleton] at hp
      subst hp
      simp [putBitmap]
  · intro p hp
    rcases List.mem_append.mp hp with hp | hp
    · exact h.free p hp
    · rw [List.mem_singleton] at hp
      subst hp
      exact hS0
  · intro x hx
    have : x ≠ b := by intro e; subst e; omega
    simp only [putBitmap, if_neg this]
    exact h.old x hx
  · rw [List.map_append, List.nodup_append]
    refine ⟨h.nodup, by simp, ?_⟩
    intro a ha c hc
    simp only [List.map_cons, List.map_nil, List.mem_singleton] at hc
    subst hc
    intro e
    exact hnb (e ▸ ha)
  · intro p hp
    rcases List.mem_append.mp hp with hp | hp
    · exact h.bnd p hp
    · rw [List.mem_singleton] at hp
      subst hp
      exact g1

/-- The trees and bitmaps of a space map are on disk, in blocks that were free; nothing else changed. -/
structure Done (n max : Nat) (S0 S : SSt) (ovf : List (Nat × SVal)) (bms : Bms) (root : Nat) (h : Nat) (t : Tree SVal h) : Prop where
  /-- the overflow tree -/
  blk : t.blk h = root
  stored : t.Stored (fun _ b => S.bt.mem b) true h
  contents : t.contents h = ovf
  ordered : t.Ordered h 0 none
  filled : RootFilled capOv capI h t
  /-- the bitmaps -/
  bm : ∀ p ∈ bms, S.readBm p.1 = some p.2
  /-- blocks: new ones for the tree and the bitmaps -/
  rc : ∀ b, S.bt.sm.abs b = S0.bt.sm.abs b + (t.blocks h ++ bms.map (·.1)).count b
  fresh : ∀ b ∈ t.blocks h ++ bms.map (·.1), S0.bt.sm.abs b = 0
  bnd : ∀ p ∈ bms, p.1 < n
  nodup : (bms.map (·.1)).Nodup
  mem : ∀ b, 0 < S0.bt.sm.abs b → S.bt.mem b = S0.bt.mem b ∧ S.bm b = S0.bm b
  log : S.bt.log.Perm S0.bt.log
  sm : S.bt.sm.Inv n max

theorem norefs (p : Nat → Bool) (h : Nat) (t : Tree SVal h) :
    ((Bld.entriesIn p h t).flatMap fun e => (fun _ : SVal => ([] : List Nat)) e.2) = [] := by
  induction (Bld.entriesIn p h t) with
  | nil => rfl
  | cons a l ih => simp

theorem mid_complete {n max : Nat} {S0 S : SSt} {nb : NB SVal} {pushed : List (Nat × SVal)} {bms : Bms}
    (h : Mid n max S0 nb S pushed bms) :
    Post (completeTree capI nb S.bt) (fun r => ∃ (ht : Nat) (t : Tree SVal ht), Done n max S0 { S with bt := r.2 } pushed bms r.1 ht t) := by
  obtain ⟨s0, ps, h1, h2, h3, h4, h5, h6⟩ := h.ex
  unfold completeTree
  refine (Bld.complete_post (Bld.leafIO_law _ _) h1).bind ?_
  rintro ⟨ns, s⟩ ⟨ps', g1, g2⟩
  simp only at g1 g2 ⊢
  rw [g1, h.cap, h.shared] at *
  refine (Bld.buildTree_correct _ _ (capI := capI) (by decide) (by decide) h1.sorted g2).mono ?_
  rintro ⟨root, s'⟩ ⟨ht, t, R⟩
  have hfr : ∀ b ∈ t.blocks ht, s0.sm.abs b = 0 := by
    intro b hb
    by_cases e : s0.sm.abs b = 0
    · exact e
    · exact absurd (R.fresh b hb (by omega)) (by simp)
  have hbms : ∀ p ∈ bms, 0 < s0.sm.abs p.1 := by
    intro p hp
    have := h3 p.1
    have : 0 < (bms.map (·.1)).count p.1 := List.count_pos_iff.mpr (List.mem_map.mpr ⟨p, hp, rfl⟩)
    omega
  refine ⟨ht, t, R.blk, R.stored, R.contents, R.ordered, R.filled, ?_, ?_, ?_, h.bnd, h.nodup, ?_, ?_, R.sm⟩
  · intro p hp
    have hm : s'.mem p.1 = none := by
      have := R.mem p.1 (hbms p hp)
      rw [this]; exact h5 p hp
    simp only [SSt.readBm, hm]
    exact h.bm p hp
  · intro b
    have := R.rc b
    have := h3 b
    rw [List.count_append]
    simp only at *
    omega
  · intro b hb
    rcases List.mem_append.mp hb with hb | hb
    · have := hfr b hb
      have := h3 b
      omega
    · obtain ⟨p, hp, rfl⟩ := List.mem_map.mp hb
      exact h.free p hp
  · intro b hb
    refine ⟨?_, h.old b hb⟩
    have : 0 < s0.sm.abs b := by have := h3 b; omega
    rw [← h4 b hb]
    exact R.mem b this
  · have := R.log
    rw [norefs, List.append_nil, h6] at this
    exact this

/-! ## Counts above two -/

/-- the overflow entries of the counts of blocks `b`, `b + 1`, … -/
def ovf : Nat → List Nat → List (Nat × SVal)
  | _, [] => []
  | b, c :: cs => if c < 3 then ovf (b + 1) cs else (b, .rc c) :: ovf (b + 1) cs

theorem ovf_append (xs ys : List Nat) : ∀ b, ovf b (xs ++ ys) = ovf b xs ++ ovf (b + xs.length) ys := by
  induction xs with
  | nil => intro b; rfl
  | cons x xs ih =>
    intro b
    simp only [List.cons_append, ovf, ih, List.length_cons, show b + 1 + xs.length = b + (xs.length + 1) by omega]
    split <;> simp

theorem ovf_lt (cs : List Nat) : ∀ b, ∀ e ∈ ovf b cs, b ≤ e.1 ∧ e.1 < b + cs.length := by
  induction cs with
  | nil => intro b e h; cases h
  | cons c cs ih =>
    intro b e h
    unfold ovf at h
    simp only [List.length_cons]
    by_cases hc : c < 3
    · rw [if_pos hc] at h
      have := ih _ _ h
      omega
    · rw [if_neg hc] at h
      rcases List.mem_cons.mp h with rfl | h
      · simp
      · have := ih _ _ h
        omega

theorem mem_ovf (cs : List Nat) : ∀ (b x : Nat) (v : SVal), (b + x, v) ∈ ovf b cs ↔ ∃ c, cs[x]? = some c ∧ 3 ≤ c ∧ v = .rc c := by
  induction cs with
  | nil => intro b x v; simp [ovf]
  | cons c cs ih =>
    intro b x v
    unfold ovf
    cases x with
    | zero =>
      have hno : (b + 0, v) ∉ ovf (b + 1) cs := by intro h; have := ovf_lt _ _ _ h; simp only at this; omega
      by_cases hc : c < 3
      · rw [if_pos hc]
        constructor
        · intro h; exact absurd h hno
        · rintro ⟨c', h1, h2, -⟩
          simp at h1; omega
      · rw [if_neg hc, List.mem_cons]
        constructor
        · rintro (h | h)
          · simp at h; exact ⟨c, by simp, by omega, h⟩
          · exact absurd h hno
        · rintro ⟨c', h1, h2, h3⟩
          simp at h1; subst h1; left; simp [h3]
    | succ x =>
      have := ih (b + 1) x v
      rw [show b + 1 + x = b + (x + 1) by omega] at this
      rw [List.getElem?_cons_succ, ← this]
      by_cases hc : c < 3
      · rw [if_pos hc]
      · rw [if_neg hc, List.mem_cons]
        constructor
        · rintro (h | h)
          · simp at h; 
          · exact h
        · exact Or.inr

/-- the number of blocks in use -/
def used (cs : List Nat) : Nat := (cs.filter fun c => c ≠ 0).length

theorem rowLoop_zero (begin i : Nat) (cs : List Nat) (row : Row) (s : St SVal) : rowLoop begin (0 :: cs) i row s =
    rowLoop begin cs (i + 1)
      { row with entries := row.entries ++ [.small 0], firstFree := if row.firstFree.isNone then some i else row.firstFree } s := rfl

theorem rowLoop_one (begin i : Nat) (cs : List Nat) (row : Row) (s : St SVal) : rowLoop begin (1 :: cs) i row s =
    rowLoop begin cs (i + 1) { row with entries := row.entries ++ [.small 1], nrFree := row.nrFree - 1 } s := rfl

theorem rowLoop_two (begin i : Nat) (cs : List Nat) (row : Row) (s : St SVal) : rowLoop begin (2 :: cs) i row s =
    rowLoop begin cs (i + 1) { row with entries := row.entries ++ [.small 2], nrFree := row.nrFree - 1 } s := rfl

theorem rowLoop_big (begin i c : Nat) (cs : List Nat) (row : Row) (s : St SVal) : rowLoop begin ((c + 3) :: cs) i row s =
    (Bld.pushValue io (begin + i) (.rc (c + 3)) row.nb s >>= fun r =>
      rowLoop begin cs (i + 1) { row with entries := row.entries ++ [.overflow], nrFree := row.nrFree - 1, nb := r.1 } r.2) := rfl

theorem rowLoop_post {n max begin : Nat} {S0 : SSt} {bms : Bms} (bmf : Nat → Option (List BE)) (cs : List Nat) :
    ∀ (i : Nat) (row : Row) (s : St SVal) (pushed : List (Nat × SVal)), Mid n max S0 row.nb ⟨s, bmf⟩ pushed bms →
    (∀ e ∈ pushed, e.1 < begin + i) →
    Post (rowLoop begin cs i row s) (fun r => Mid n max S0 r.1.nb ⟨r.2, bmf⟩ (pushed ++ ovf (begin + i) cs) bms ∧
      r.1.entries = row.entries ++ cs.map entryOf ∧ r.1.nrFree = row.nrFree - used cs ∧
      r.1.firstFree = (if row.firstFree.isNone then (cs.findIdx? (· == 0)).map (· + i) else row.firstFree)) := by
  induction cs with
  | nil =>
    intro i row s pushed h _
    refine ⟨by simpa [ovf] using h, by simp, by simp [used], ?_⟩
    show row.firstFree = _
    cases row.firstFree <;> rfl
  | cons c cs ih =>
    intro i row s pushed h hp
    have hp' : ∀ e ∈ pushed, e.1 < begin + (i + 1) := fun e he => by have := hp e he; omega
    have eovf : c < 3 → ovf (begin + i) (c :: cs) = ovf (begin + (i + 1)) cs := by
      intro hc
      rw [ovf, if_pos hc]
      rfl
    match c, eovf with
    | 0, eovf =>
      rw [rowLoop_zero]
      refine (ih (i + 1) _ s pushed (by exact h) hp').mono ?_
      rintro ⟨r, t⟩ ⟨g1, g2, g3, g4⟩
      refine ⟨by rw [eovf (by omega)]; exact g1, by rw [g2]; simp [entryOf], by rw [g3]; simp [used], ?_⟩
      rw [g4]
      cases row.firstFree <;> simp [List.findIdx?_cons]
    | 1, eovf =>
      rw [rowLoop_one]
      refine (ih (i + 1) _ s pushed (by exact h) hp').mono ?_
      rintro ⟨r, t⟩ ⟨g1, g2, g3, g4⟩
      refine ⟨by rw [eovf (by omega)]; exact g1, by rw [g2]; simp [entryOf], by rw [g3]; simp [used]; omega, ?_⟩
      rw [g4]
      cases row.firstFree <;> simp [List.findIdx?_cons, Option.map_map, Function.comp_def, Nat.add_assoc, Nat.add_comm 1]
    | 2, eovf =>
      rw [rowLoop_two]
      refine (ih (i + 1) _ s pushed (by exact h) hp').mono ?_
      rintro ⟨r, t⟩ ⟨g1, g2, g3, g4⟩
      refine ⟨by rw [eovf (by omega)]; exact g1, by rw [g2]; simp [entryOf], by rw [g3]; simp [used]; omega, ?_⟩
      rw [g4]
      cases row.firstFree <;> simp [List.findIdx?_cons, Option.map_map, Function.comp_def, Nat.add_assoc, Nat.add_comm 1]
    | c + 3, _ =>
      rw [rowLoop_big]
      refine (mid_push h (begin + i) (.rc (c + 3)) hp).bind ?_
      rintro ⟨nb, t⟩ g
      have hp2 : ∀ e ∈ pushed ++ [(begin + i, SVal.rc (c + 3))], e.1 < begin + (i + 1) := by
        intro e he
        rcases List.mem_append.mp he with he | he
        · exact hp' e he
        · rw [List.mem_singleton] at he; subst he; simp
      refine (ih (i + 1) _ t _ g hp2).mono ?_
      rintro ⟨r, u⟩ ⟨g1, g2, g3, g4⟩
      refine ⟨?_, by rw [g2]; simp [entryOf], by rw [g3]; simp [used]; omega, ?_⟩
      · have e : ovf (begin + i) ((c + 3) :: cs) = (begin + i, .rc (c + 3)) :: ovf (begin + (i + 1)) cs := by
          rw [ovf, if_neg (by omega)]; rfl
        rw [e]
        simpa using g1
      · rw [g4]
        cases row.firstFree <;> simp [List.findIdx?_cons, Option.map_map, Function.comp_def, Nat.add_assoc, Nat.add_comm 1]

/-! ## The bitmaps -/

/-- the counts that go into bitmap `j` -/
def chunk (epb : Nat) (cs : List Nat) (j : Nat) : List Nat := (cs.drop (j * epb)).take epb

/-- bitmap `j` as it is read -/
def rowOf (epb : Nat) (cs : List Nat) (j : Nat) : List BE :=
  (chunk epb cs j).map entryOf ++ List.replicate (epb - (chunk epb cs j).length) (.small 0)

/-- the index entry of bitmap `j`, which is in block `b` -/
def ieOf (epb : Nat) (cs : List Nat) (j b : Nat) : IndexEntry :=
  ⟨b, epb - used (chunk epb cs j), ((chunk epb cs j).findIdx? (· == 0)).getD (chunk epb cs j).length⟩

/-- the first `j` bitmaps are written -/
structure Rows (epb : Nat) (cs : List Nat) (j : Nat) (ies : List IndexEntry) (bms : Bms) : Prop where
  nies : ies.length = j
  nbms : bms.length = j
  row : ∀ k, k < j → ∃ b, bms[k]? = some (b, rowOf epb cs k) ∧ ies[k]? = some (ieOf epb cs k b)

theorem Rows.next {epb : Nat} {cs : List Nat} {j : Nat} {ies : List IndexEntry} {bms : Bms} (h : Rows epb cs j ies bms) (b : Nat) :
    Rows epb cs (j + 1) (ies ++ [ieOf epb cs j b]) (bms ++ [(b, rowOf epb cs j)]) where
  nies := by simp [h.nies]
  nbms := by simp [h.nbms]
  row := by
    intro k hk
    by_cases e : k = j
    · subst e
      refine ⟨b, ?_, ?_⟩
      · rw [List.getElem?_append_right (by rw [h.nbms]; omega), h.nbms]; simp
      · rw [List.getElem?_append_right (by rw [h.nies]; omega), h.nies]; simp
    · obtain ⟨b', g1, g2⟩ := h.row k (by omega)
      refine ⟨b', ?_, ?_⟩
      · rw [List.getElem?_append_left (by rw [h.nbms]; omega)]; exact g1
      · rw [List.getElem?_append_left (by rw [h.nies]; omega)]; exact g2

theorem chunk_eq (epb : Nat) (cs : List Nat) (j : Nat) :
    (cs.drop (j * epb)).take (min (cs.length - j * epb) epb) = chunk epb cs j := by
  unfold chunk
  rw [List.take_eq_take_iff]
  simp [Nat.min_comm]

theorem chunk_length (epb : Nat) (cs : List Nat) (j : Nat) : (chunk epb cs j).length = min (cs.length - j * epb) epb := by
  simp [chunk, Nat.min_comm]

theorem take_chunk (epb : Nat) (cs : List Nat) (j : Nat) : cs.take ((j + 1) * epb) = cs.take (j * epb) ++ chunk epb cs j := by
  rw [Nat.succ_mul, List.take_add]
  rfl

theorem ovf_chunk {epb : Nat} {cs : List Nat} {j : Nat} (h : j * epb < cs.length) :
    ovf 0 (cs.take ((j + 1) * epb)) = ovf 0 (cs.take (j * epb)) ++ ovf (j * epb + 0) (chunk epb cs j) := by
  rw [take_chunk, ovf_append]
  simp [Nat.min_eq_left (Nat.le_of_lt h)]

theorem bitmapLoop_post {n max epb : Nat} {S0 : SSt} {cs : List Nat} (he : 0 < epb) : ∀ (k j : Nat) (ies : List IndexEntry) (nb : NB SVal) (S : SSt) (bms : Bms),
    j + k = divUp cs.length epb → Mid n max S0 nb S (ovf 0 (cs.take (j * epb))) bms → Rows epb cs j ies bms →
    Post (bitmapLoop epb cs k j ies nb S) (fun r => ∃ bms', Mid n max S0 r.2.1 r.2.2 (ovf 0 cs) bms' ∧
      Rows epb cs (divUp cs.length epb) r.1 bms') := by
  intro k
  induction k with
  | zero =>
    intro j ies nb S bms hj h hr
    have hle : cs.length ≤ j * epb := by
      have := Arr.divUp_le (nr := cs.length) he
      rw [← hj] at this
      simpa using this
    refine ⟨bms, ?_, ?_⟩
    · rw [List.take_of_length_le hle] at h; exact h
    · rw [← hj]; exact hr
  | succ k ih =>
    intro j ies nb S bms hj h hr
    have hlt : j * epb < cs.length := (Arr.lt_divUp he).mp (by omega)
    unfold bitmapLoop
    simp only
    rw [chunk_eq]
    refine (rowLoop_post (S0 := S0) (bms := bms) (n := n) (max := max) S.bm (chunk epb cs j) 0 ⟨[], none, epb, nb⟩ S.bt _ h ?_).bind ?_
    · intro e he'
      have := ovf_lt _ _ _ he'
      rw [List.length_take] at this
      omega
    · rintro ⟨row, t⟩ ⟨g1, g2, g3, g4⟩
      simp only at g1 g2 g3 g4 ⊢
      refine (mid_bitmap (epb := epb) (S := { S with bt := t }) g1 row.entries).bind ?_
      rintro ⟨b, S'⟩ g
      simp only at g ⊢
      rw [← ovf_chunk hlt] at g
      have e1 : (⟨b, row.nrFree, row.firstFree.getD (min (cs.length - j * epb) epb)⟩ : IndexEntry) = ieOf epb cs j b := by
        rw [g3, g4, ieOf, chunk_length]
        simp
      have e2 : (b, row.entries ++ List.replicate (epb - row.entries.length) (BE.small 0)) = (b, rowOf epb cs j) := by
        rw [g2, rowOf]
        simp
      rw [e2] at g
      rw [e1]
      exact ih (j + 1) _ _ _ _ (by omega) g (hr.next b)

/-- `write_common`: the bitmaps and the overflow tree -/
theorem writeCommon_post {n max epb : Nat} {S0 : SSt} {cs : List Nat} (he : 0 < epb) (hi : S0.bt.sm.Inv n max) :
    Post (writeCommon epb cs S0) (fun r => ∃ (bms : Bms) (h : Nat) (t : Tree SVal h), Done n max S0 r.2.2 (ovf 0 cs) bms r.2.1 h t ∧
      Rows epb cs (divUp cs.length epb) r.1 bms) := by
  unfold writeCommon
  refine (bitmapLoop_post he _ 0 [] _ S0 [] (by omega) (by simpa [ovf] using mid_new hi) ⟨rfl, rfl, by intro k hk; omega⟩).bind ?_
  rintro ⟨ies, nb, S⟩ ⟨bms, g1, g2⟩
  simp only at g1 g2 ⊢
  refine (mid_complete g1).bind ?_
  rintro ⟨root, s⟩ ⟨h, t, g3⟩
  exact ⟨bms, h, t, g3, g2⟩

theorem chunk_getElem? (epb : Nat) (cs : List Nat) (j i : Nat) (hi : i < epb) : (chunk epb cs j)[i]? = cs[j * epb + i]? := by
  rw [chunk, List.getElem?_take, if_pos hi, List.getElem?_drop]

theorem rowOf_length (epb : Nat) (cs : List Nat) (j : Nat) : (rowOf epb cs j).length = epb := by
  have := chunk_length epb cs j
  simp only [rowOf, List.length_append, List.length_map, List.length_replicate]
  omega

theorem rowOf_getElem? (epb : Nat) (cs : List Nat) (j i : Nat) (hi : i < epb) :
    (rowOf epb cs j)[i]? = some (entryOf (cs.getD (j * epb + i) 0)) := by
  have hl := chunk_length epb cs j
  rw [rowOf]
  by_cases h : i < (chunk epb cs j).length
  · rw [List.getElem?_append_left (by simpa using h), List.getElem?_map, chunk_getElem? _ _ _ _ hi, List.getD_eq_getElem?_getD]
    have : j * epb + i < cs.length := by omega
    simp [this]
  · rw [List.getElem?_append_right (by simpa using h), List.getElem?_replicate, List.length_map, if_pos (by omega), List.getD_eq_getElem?_getD,
      List.getElem?_eq_none (by omega)]
    rfl

theorem used_le (cs : List Nat) : used cs ≤ cs.length := List.length_filter_le _ _

theorem free_used (cs : List Nat) : ((cs.map entryOf).filter fun e => e = .small 0).length + used cs = cs.length := by
  induction cs with
  | nil => rfl
  | cons c cs ih =>
    simp only [used, List.map_cons, List.filter_cons, List.length_cons] at ih ⊢
    by_cases hc : c = 0
    · subst hc; simp [entryOf] at ih ⊢; omega
    · have : entryOf c ≠ .small 0 := by
        unfold entryOf; split
        · intro e; cases e; exact hc rfl
        · simp
      simp [this, hc] at ih ⊢; omega

theorem rowOf_free (epb : Nat) (cs : List Nat) (j : Nat) :
    ((rowOf epb cs j).filter fun e => e = .small 0).length = epb - used (chunk epb cs j) := by
  have h1 := free_used (chunk epb cs j)
  have h2 := chunk_length epb cs j
  simp only [rowOf, List.filter_append, List.length_append]
  rw [List.filter_replicate]
  simp only [decide_true, if_true, List.length_replicate]
  omega

theorem entryOf_free {c : Nat} : entryOf c = .small 0 ↔ c = 0 := by
  unfold entryOf
  split
  · constructor
    · intro h; cases h; rfl
    · intro h; rw [h]
  · constructor
    · intro h; cases h
    · intro h; omega

/-- the position in an index entry is that of the first free block, or the end -/
theorem ieOf_first (epb : Nat) (cs : List Nat) (j b : Nat) :
    (ieOf epb cs j b).none_free_before ≤ epb ∧ (∀ i, i < (ieOf epb cs j b).none_free_before → (rowOf epb cs j)[i]? ≠ some (.small 0)) ∧
    ((ieOf epb cs j b).none_free_before < epb → (rowOf epb cs j)[(ieOf epb cs j b).none_free_before]? = some (.small 0)) := by
  have hl := chunk_length epb cs j
  have key : ∀ i, i < (chunk epb cs j).length → ((rowOf epb cs j)[i]? = some (.small 0) ↔ (chunk epb cs j)[i]? = some 0) := by
    intro i hi
    rw [rowOf, List.getElem?_append_left (by simpa using hi), List.getElem?_map, List.getElem?_eq_getElem hi]
    simp [entryOf_free]
  simp only [ieOf]
  cases hf : (chunk epb cs j).findIdx? (· == 0) with
  | none =>
    rw [List.findIdx?_eq_none_iff] at hf
    simp only [Option.getD_none]
    refine ⟨by omega, ?_, ?_⟩
    · intro i hi h
      rw [key i hi] at h
      have := hf 0 (List.mem_of_getElem? h)
      simp at this
    · intro h
      rw [rowOf, List.getElem?_append_right (by simp), List.getElem?_replicate, List.length_map, if_pos (by omega)]
  | some k =>
    rw [List.findIdx?_eq_some_iff_getElem] at hf
    obtain ⟨h1, h2, h3⟩ := hf
    simp only [Option.getD_some]
    refine ⟨by omega, ?_, ?_⟩
    · intro i hi h
      rw [key i (by omega), List.getElem?_eq_getElem (by omega)] at h
      have := h3 i hi
      simp at this h
      omega
    · intro _
      rw [key k h1, List.getElem?_eq_getElem h1]
      simpa using h2

/-- what is on disk says what the counts are -/
theorem rows_count {epb : Nat} {cs : List Nat} {ies : List IndexEntry} {bms : Bms} {bitmap : Nat → Option (List BE)} (he : 0 < epb)
    (hr : Rows epb cs (divUp cs.length epb) ies bms) (hb : ∀ p ∈ bms, bitmap p.1 = some p.2) (b c : Nat) (hc : cs[b]? = some c) :
    DiskCount epb bitmap ies (ovf 0 cs) b c := by
  have hlt : b < cs.length := (List.getElem?_eq_some_iff.mp hc).1
  have hj : b / epb < divUp cs.length epb := by
    rw [Arr.lt_divUp he]
    have := Nat.div_mul_le_self b epb
    omega
  obtain ⟨blk, h1, h2⟩ := hr.row _ hj
  have h3 := hb _ (List.mem_of_getElem? h1)
  have h4 := rowOf_getElem? epb cs (b / epb) (b % epb) (Nat.mod_lt _ he)
  have e : b / epb * epb + b % epb = b := by rw [Nat.mul_comm]; exact Nat.div_add_mod b epb
  rw [e, List.getD_eq_getElem?_getD, hc, Option.getD_some] at h4
  by_cases h5 : c < 3
  · rw [entryOf, if_pos h5] at h4
    exact .small _ _ h2 h3 h4
  · rw [entryOf, if_neg h5] at h4
    refine .overflow _ _ h2 h3 h4 ?_
    have := (mem_ovf cs 0 b (.rc c)).mpr ⟨c, hc, by omega, rfl⟩
    simpa using this

/-- and nothing else -/
theorem rows_count_unique {epb : Nat} {cs : List Nat} {ies : List IndexEntry} {bms : Bms} {bitmap : Nat → Option (List BE)} (he : 0 < epb)
    (hr : Rows epb cs (divUp cs.length epb) ies bms) (hb : ∀ p ∈ bms, bitmap p.1 = some p.2) (b c c' : Nat) (hc : cs[b]? = some c)
    (h : DiskCount epb bitmap ies (ovf 0 cs) b c') : c' = c := by
  have hlt : b < cs.length := (List.getElem?_eq_some_iff.mp hc).1
  have hj : b / epb < divUp cs.length epb := by
    rw [Arr.lt_divUp he]
    have := Nat.div_mul_le_self b epb
    omega
  obtain ⟨blk, h1, h2⟩ := hr.row _ hj
  have h3 := hb _ (List.mem_of_getElem? h1)
  have h4 := rowOf_getElem? epb cs (b / epb) (b % epb) (Nat.mod_lt _ he)
  have e : b / epb * epb + b % epb = b := by rw [Nat.mul_comm]; exact Nat.div_add_mod b epb
  rw [e, List.getD_eq_getElem?_getD, hc, Option.getD_some] at h4
  cases h with
  | small ie es g1 g2 g3 =>
    rw [h2] at g1; cases g1
    have h3' : bitmap blk = some (rowOf epb cs (b / epb)) := h3
    have g2' : bitmap blk = some es := g2
    rw [h3'] at g2'; cases g2'
    rw [h4, entryOf] at g3
    by_cases h5 : c < 3
    · rw [if_pos h5] at g3; cases g3; rfl
    · rw [if_neg h5] at g3; cases g3
  | overflow ie es g1 g2 g3 g4 =>
    have := (mem_ovf cs 0 b (.rc c')).mp (by simpa using g4)
    obtain ⟨c2, k1, -, k2⟩ := this
    rw [hc] at k1; cases k1; cases k2; rfl

theorem rows_index {epb : Nat} {cs : List Nat} {ies : List IndexEntry} {bms : Bms} {bitmap : Nat → Option (List BE)}
    (hr : Rows epb cs (divUp cs.length epb) ies bms) (hb : ∀ p ∈ bms, bitmap p.1 = some p.2) : ∀ ie ∈ ies, IndexOK bitmap ie ∧
    (ie.none_free_before < epb → ∃ es, bitmap ie.blocknr = some es ∧ es[ie.none_free_before]? = some (.small 0)) := by
  intro ie hie
  obtain ⟨k, hk, rfl⟩ := List.mem_iff_getElem.mp hie
  obtain ⟨b, h1, h2⟩ := hr.row k (by rw [← hr.nies]; exact hk)
  rw [List.getElem?_eq_getElem hk] at h2
  injection h2 with h2
  rw [h2]
  have h3 : bitmap b = some (rowOf epb cs k) := hb _ (List.mem_of_getElem? h1)
  have e : (ieOf epb cs k b).blocknr = b := rfl
  refine ⟨⟨?_, ?_⟩, ?_⟩
  · intro es hes
    rw [e, h3] at hes; cases hes
    exact (rowOf_free epb cs k).symm
  · intro es hes
    rw [e, h3] at hes; cases hes
    exact (ieOf_first epb cs k b).2.1
  · intro hlt
    exact ⟨_, h3, (ieOf_first epb cs k b).2.2 hlt⟩

/-! ## The disk space map -/

/-- what `write_disk_sm` leaves behind: two trees and the bitmaps, for the counts `cs` -/
structure DiskSM (epb n max : Nat) (cs : List Nat) (S0 S : SSt) (root : SMRoot) (hx ho : Nat) (tx : Tree SVal hx) (to : Tree SVal ho)
    (ies : List IndexEntry) : Prop where
  /-- the index tree has the index entries under their numbers -/
  xblk : tx.blk hx = root.bitmap_root
  xstored : tx.Stored (fun _ b => S.bt.mem b) true hx
  xcontents : tx.contents hx = ies.zipIdx.map fun e => (e.2, SVal.ie e.1)
  xordered : tx.Ordered hx 0 none
  xfilled : RootFilled capIx capI hx tx
  /-- there is one for every `epb` blocks -/
  nies : ies.length = divUp cs.length epb
  /-- the overflow tree -/
  oblk : to.blk ho = root.ref_count_root
  ostored : to.Stored (fun _ b => S.bt.mem b) true ho
  oordered : to.Ordered ho 0 none
  ofilled : RootFilled capOv capI ho to
  /-- what they say together is the count of every block -/
  count : ∀ b c, cs[b]? = some c → ∀ c', DiskCount epb S.readBm ies (to.contents ho) b c' ↔ c' = c
  /-- the bitmaps are there, and full -/
  bitmaps : ∀ ie ∈ ies, ∃ es, S.readBm ie.blocknr = some es ∧ es.length = epb ∧ ∀ n, BE.small n ∈ es → n ≤ 2
  /-- nothing else is in the overflow tree -/
  only : ∀ e ∈ to.contents ho, ∃ c, cs[e.1]? = some c ∧ 3 ≤ c ∧ e.2 = .rc c
  /-- the summaries in the index entries are right -/
  index : ∀ ie ∈ ies, IndexOK S.readBm ie
  /-- the position is the first free one -/
  first : ∀ ie ∈ ies, ie.none_free_before < epb → ∃ es, S.readBm ie.blocknr = some es ∧ es[ie.none_free_before]? = some (.small 0)
  nr : root.nr_blocks = cs.length
  /-- the blocks used were free, and each has one reference now -/
  rc : ∀ b, S.bt.sm.abs b = S0.bt.sm.abs b + (tx.blocks hx ++ to.blocks ho ++ ies.map (·.blocknr)).count b
  fresh : ∀ b ∈ tx.blocks hx ++ to.blocks ho ++ ies.map (·.blocknr), S0.bt.sm.abs b = 0
  /-- the index tree is apart from the rest, and no two bitmaps are in the same block -/
  apart : ∀ b ∈ tx.blocks hx, b ∉ to.blocks ho ∧ b ∉ ies.map (·.blocknr)
  nodup : (ies.map (·.blocknr)).Nodup
  mem : ∀ b, 0 < S0.bt.sm.abs b → S.bt.mem b = S0.bt.mem b ∧ S.bm b = S0.bm b
  sm : S.bt.sm.Inv n max

theorem rows_blocks {epb : Nat} {cs : List Nat} {j : Nat} {ies : List IndexEntry} {bms : Bms} (hr : Rows epb cs j ies bms) :
    ies.map (·.blocknr) = bms.map (·.1) := by
  apply List.ext_getElem?
  intro k
  rw [List.getElem?_map, List.getElem?_map]
  by_cases hk : k < j
  · obtain ⟨b, h1, h2⟩ := hr.row k hk
    rw [h1, h2]
    rfl
  · rw [List.getElem?_eq_none (by rw [hr.nies]; omega), List.getElem?_eq_none (by rw [hr.nbms]; omega)]
    rfl

theorem index_contents (mem : Nat → Option (BT.Blk SVal)) (ies : List IndexEntry) :
    (indexItems ies).flatMap (Bld.Item.contents mem) = ies.zipIdx.map fun e => (e.2, SVal.ie e.1) := by
  rw [indexItems, List.flatMap_map]
  induction ies.zipIdx with
  | nil => rfl
  | cons a l ih => rw [List.flatMap_cons, ih]; rfl

theorem zipIdx_sorted (ies : List IndexEntry) : ∀ k, Sorted ((ies.zipIdx k).map fun e => (e.2, SVal.ie e.1)) := by
  induction ies with
  | nil => intro k; exact List.Pairwise.nil
  | cons a l ih =>
    intro k
    rw [List.zipIdx_cons, List.map_cons]
    refine List.Pairwise.cons ?_ (ih (k + 1))
    intro e he
    obtain ⟨x, hx, rfl⟩ := List.mem_map.mp he
    have := List.le_snd_of_mem_zipIdx hx
    simp only
    omega

/-- **C19** for the data space map: `write_disk_sm` either runs out of metadata blocks, or puts on disk a space map in which the
count of every block is the one it had in core, however many blocks there are and whatever their counts. -/
theorem writeDiskSm_correct {n max epb : Nat} (he : 0 < epb) (hn : n < 2 ^ 64) (cs : List Nat) (nrAlloc : Nat) (S0 : SSt)
    (hi : S0.bt.sm.Inv n max) :
    Post (writeDiskSm epb cs nrAlloc S0) (fun r => r.1.nr_allocated = nrAlloc ∧
      ∃ (hx ho : Nat) (tx : Tree SVal hx) (to : Tree SVal ho) (ies : List IndexEntry), DiskSM epb n max cs S0 r.2 r.1 hx ho tx to ies) := by
  unfold writeDiskSm
  refine (writeCommon_post he hi).bind ?_
  rintro ⟨ies, oroot, S⟩ ⟨bms, ho, to, D, hr⟩
  simp only at D hr ⊢
  have hb := Bld.build_correct (fun _ : SVal => []) (fun _ _ => true) (capL := capIx) (capI := capI) (by decide) (by decide) hn S.bt D.sm (indexItems ies)
    (by
      intro i hi'
      obtain ⟨e, -, rfl⟩ := List.mem_map.mp hi'
      trivial)
    (by rw [index_contents]; exact zipIdx_sorted ies 0)
  refine hb.bind ?_
  rintro ⟨xroot, s⟩ ⟨hx, tx, R⟩
  rw [index_contents] at R
  have hS : ∀ b, S0.bt.sm.abs b ≤ S.bt.sm.abs b := by intro b; have := D.rc b; omega
  have hold : ∀ b ∈ to.blocks ho ++ bms.map (·.1), 0 < S.bt.sm.abs b := by
    intro b hb
    have := D.rc b
    have := List.count_pos_iff.mpr hb
    omega
  have hbm : ∀ p ∈ bms, SSt.readBm { S with bt := s } p.1 = some p.2 := by
    intro p hp
    rw [← D.bm p hp]
    have : s.mem p.1 = S.bt.mem p.1 := R.mem _ (hold _ (by simp; right; exact ⟨_, hp⟩))
    simp only [SSt.readBm, this]
  refine ⟨rfl, hx, ho, tx, to, ies, ?_⟩
  refine { xblk := R.blk, xstored := R.stored, xcontents := R.contents, xordered := R.ordered, xfilled := R.filled, nies := hr.nies, oblk := D.blk, ostored := ?_,
           oordered := D.ordered, ofilled := D.filled, count := ?_, bitmaps := ?_, only := ?_, index := ?_, first := ?_, nr := rfl, rc := ?_, fresh := ?_, apart := ?_, nodup := by rw [rows_blocks hr]; exact D.nodup, mem := ?_, sm := R.sm }
  · refine Bld.stored_frame _ _ ho to ?_ D.stored
    intro b hb
    exact R.mem b (hold b (List.mem_append.mpr (Or.inl hb)))
  · intro b c hc c'
    rw [D.contents]
    constructor
    · intro h; exact rows_count_unique he hr hbm b c c' hc h
    · rintro rfl; exact rows_count he hr hbm b c' hc
  · intro ie hie
    obtain ⟨k, hk, rfl⟩ := List.mem_iff_getElem.mp hie
    obtain ⟨b, h1, h2⟩ := hr.row k (by rw [← hr.nies]; exact hk)
    rw [List.getElem?_eq_getElem hk] at h2
    have h2 := Option.some.inj h2
    rw [h2]
    refine ⟨rowOf epb cs k, hbm _ (List.mem_of_getElem? h1), ?_, ?_⟩
    · have := chunk_length epb cs k
      simp only [rowOf, List.length_append, List.length_map, List.length_replicate]
      omega
    · intro n hn
      rw [rowOf, List.mem_append] at hn
      rcases hn with hn | hn
      · obtain ⟨c, -, e⟩ := List.mem_map.mp hn
        unfold entryOf at e
        split at e
        · cases e; omega
        · cases e
      · have := List.eq_of_mem_replicate hn
        cases this; omega
  · intro e hme
    rw [D.contents] at hme
    obtain ⟨k, v⟩ := e
    have := (mem_ovf cs 0 k v).mp (by simpa using hme)
    exact this
  · exact fun ie h => (rows_index hr hbm ie h).1
  · exact fun ie h => (rows_index hr hbm ie h).2
  · intro b
    have h1 := R.rc b
    have h2 := D.rc b
    rw [rows_blocks hr, List.append_assoc, List.count_append]
    simp only at h1 h2 ⊢
    omega
  · intro b hb
    rw [rows_blocks hr, List.append_assoc] at hb
    rcases List.mem_append.mp hb with hb | hb
    · by_cases e : S.bt.sm.abs b = 0
      · have := hS b; omega
      · obtain ⟨i, hi, hb'⟩ := List.mem_flatMap.mp (R.fresh b hb (by omega))
        obtain ⟨e, -, rfl⟩ := List.mem_map.mp hi
        cases hb'
    · exact D.fresh b hb
  · intro b hb
    rw [rows_blocks hr]
    have h0 : S.bt.sm.abs b = 0 := by
      apply Classical.byContradiction
      intro e
      obtain ⟨i, hi, hb'⟩ := List.mem_flatMap.mp (R.fresh b hb (by omega))
      obtain ⟨e, -, rfl⟩ := List.mem_map.mp hi
      cases hb'
    constructor
    · intro hb'
      have := hold b (List.mem_append.mpr (Or.inl hb'))
      omega
    · intro hb'
      have := hold b (List.mem_append.mpr (Or.inr hb'))
      omega
  · intro b hb
    have h1 := D.mem b hb
    exact ⟨(R.mem b (by have := hS b; omega)).trans h1.1, h1.2⟩

/-- the number of used blocks, counted over the list -/
theorem allocated_used (cs : List Nat) : SM.Counts.allocated (fun b => cs.getD b 0) cs.length = used cs := by
  have key : ∀ k, k ≤ cs.length → SM.Counts.allocated (fun b => cs.getD b 0) k = used (cs.take k) := by
    intro k
    induction k with
    | zero => intro _; rfl
    | succ k ih =>
      intro hk
      rw [SM.Counts.allocated, ih (by omega), List.take_add_one, List.getElem?_eq_getElem (by omega)]
      simp only [used, List.filter_append, List.length_append, Option.toList_some, List.getD_eq_getElem?_getD]
      rw [List.getElem?_eq_getElem (by omega)]
      simp only [Option.getD_some]
      by_cases h : cs[k] = 0 <;> simp [h]
  have := key cs.length (Nat.le_refl _)
  rwa [List.take_length] at this

/-- **C19**: and the number of used blocks in the root is the number of blocks whose count is not zero. -/
theorem writeDiskSm_core {n max epb N M : Nat} (he : 0 < epb) (hn : n < 2 ^ 64) (sm : SM.Core) (hsm : sm.Inv N M) (S0 : SSt)
    (hi : S0.bt.sm.Inv n max) :
    Post (writeDiskSm epb sm.counts sm.nrAlloc S0) (fun r => r.1.nr_allocated = used sm.counts ∧ r.1.nr_blocks = N ∧
      ∃ (hx ho : Nat) (tx : Tree SVal hx) (to : Tree SVal ho) (ies : List IndexEntry), DiskSM epb n max sm.counts S0 r.2 r.1 hx ho tx to ies) := by
  refine (writeDiskSm_correct he hn sm.counts sm.nrAlloc S0 hi).mono ?_
  rintro ⟨root, S⟩ ⟨h1, hx, ho, tx, to, ies, h⟩
  refine ⟨?_, h.nr.trans hsm.len, hx, ho, tx, to, ies, h⟩
  simp only at h1 ⊢
  rw [h1, hsm.nr, ← hsm.len]
  exact allocated_used sm.counts

/-- not vacuous: seven blocks with counts on both sides of three, four to a bitmap, on an empty device of ten blocks -/
example : ∃ r, writeDiskSm 4 [0, 1, 5, 2, 0, 3, 7] 5 ⟨⟨fun _ => none, SM.Core.new 100 10, [], []⟩, fun _ => none⟩ = .ok r ∧
    r.1 = ⟨7, 5, 3, 2⟩ ∧ r.2.readBm 1 = some [.small 0, .overflow, .overflow, .small 0] ∧
    r.2.bt.mem 2 = some (.leaf [(2, .rc 5), (5, .rc 3), (6, .rc 7)]) ∧
    r.2.bt.mem 3 = some (.leaf [(0, .ie ⟨0, 1, 0⟩), (1, .ie ⟨1, 2, 0⟩)]) := by
  refine ⟨_, rfl, rfl, rfl, rfl, rfl⟩

end Verif.SMD
