import Verif.Prop.ThinCheckCollect
import Verif.Prop.LeafWalker

/-!
# C47: on undamaged trees `thin_check` is exact

`check_exact`: if all mapping trees are undamaged search trees, whatever they share, a device is accepted exactly if the number of its mappings is the expected one.
`leaves_exact`: every data block is counted once for every mapping in a distinct leaf, in whatever order the threads work.
-/

namespace Verif.TChk

open Verif.BT (Blk KeyRange splitKeyRanges Tree Chain nextKey Below eachRange rangesOf)

variable {d : Dev} {roots : List Nat} {base : Nat → Nat}

/-! ## Reading the leaves -/

theorem chunks_flat (k : Nat) (hk : 0 < k) : ∀ (fuel : Nat) (l : List Nat), l.length < fuel → (chunks k fuel l).flatMap id = l := by
  intro fuel
  induction fuel with
  | zero => intro l h; omega
  | succ fuel ih =>
    intro l h
    simp only [chunks]
    by_cases hl : l = []
    · rw [if_pos hl, hl]; rfl
    · rw [if_neg hl, List.flatMap_cons, ih (l.drop k) (by
        have : 0 < l.length := List.length_pos_iff.mpr hl
        simp only [List.length_drop]; omega)]
      exact List.take_append_drop k l

theorem chunkRead_all (hm : ∀ l i, d.many l i = true) (hc : ∀ l, d.chunkOk l = true) (c : List Nat) : chunkRead d c = c := by
  unfold chunkRead
  rw [if_pos (hc c)]
  simp only [hm]
  rw [List.filter_eq_self.mpr (fun _ _ => rfl)]
  exact List.zipIdx_map_fst 0 c

theorem chunkFail_none (hc : ∀ l, d.chunkOk l = true) (cs : List (List Nat)) (n : NodeMap) : cs.foldl (chunkFail d) n = n := by
  induction cs with
  | nil => rfl
  | cons c cs ih => simp only [List.foldl_cons, chunkFail, hc, if_true]; exact ih

/-- the data blocks a leaf refers to, one for each mapping -/
def dataOf (d : Dev) (b : Nat) : List Nat :=
  match d.rd b with
  | some (.leaf es) => es.map fun e => e.2 >>> 24
  | _ => []

theorem incData_cnt : ∀ (es : List (Nat × Nat)) (sm : Sm), (∀ x, sm.cnt x ≤ sm.mx) → (incData sm es).nr = sm.nr ∧ (incData sm es).mx = sm.mx ∧ (incData sm es).sat = sm.sat ∧
    (∀ x, (incData sm es).cnt x ≤ sm.mx) ∧
    ∀ x, (incData sm es).cnt x = if x < sm.nr then min sm.mx (sm.cnt x + (es.map fun e => e.2 >>> 24).count x) else sm.cnt x := by
  intro es
  induction es with
  | nil =>
    intro sm h
    refine ⟨rfl, rfl, rfl, h, fun x => ?_⟩
    have := h x
    simp only [incData, List.foldl_nil, List.map_nil, List.count_nil]
    split
    · omega
    · rfl
  | cons e es ih =>
    intro sm h
    have step : ∃ s1, (sm.inc (e.2 >>> 24)).getD sm = s1 ∧ s1.nr = sm.nr ∧ s1.mx = sm.mx ∧ s1.sat = sm.sat ∧ (∀ x, s1.cnt x ≤ sm.mx) ∧
        ∀ x, s1.cnt x = if x < sm.nr then min sm.mx (sm.cnt x + [e.2 >>> 24].count x) else sm.cnt x := by
      have hc0 : ∀ x, x ≠ e.2 >>> 24 → [e.2 >>> 24].count x = 0 := by
        intro x hx
        rw [List.count_singleton]
        have : (e.2 >>> 24 == x) = false := by simp; exact fun h => hx h.symm
        rw [this]; simp
      have hc1 : [e.2 >>> 24].count (e.2 >>> 24) = 1 := List.count_singleton_self
      generalize e.2 >>> 24 = b at *
      unfold Sm.inc
      by_cases hb : b < sm.nr
      · rw [if_pos hb]
        by_cases hc : sm.cnt b < sm.mx
        · rw [if_pos hc]
          refine ⟨_, rfl, rfl, rfl, rfl, fun x => ?_, fun x => ?_⟩
          · show (if x = b then sm.cnt b + 1 else sm.cnt x) ≤ _
            split
            · omega
            · exact h x
          · show (if x = b then sm.cnt b + 1 else sm.cnt x) = _
            by_cases e : x = b
            · subst e; rw [if_pos rfl, if_pos hb, hc1]; omega
            · rw [if_neg e, hc0 x e]
              have := h x
              split <;> omega
        · rw [if_neg hc]
          have hsame : (if sm.sat = true then some sm else none).getD sm = sm := by split <;> rfl
          refine ⟨_, rfl, ?_⟩
          rw [hsame]
          refine ⟨rfl, rfl, rfl, h, fun x => ?_⟩
          by_cases e : x = b
          · subst e; rw [if_pos hb, hc1]; have := h x; omega
          · rw [hc0 x e]
            have := h x
            split <;> omega
      · rw [if_neg hb]
        refine ⟨_, rfl, rfl, rfl, rfl, h, fun x => ?_⟩
        show sm.cnt x = _
        by_cases hx : x < sm.nr
        · rw [if_pos hx, hc0 x (by omega)]; have := h x; omega
        · rw [if_neg hx]
    obtain ⟨s1, e1, a1, a2, a3, a4, a5⟩ := step
    have hstep : incData sm (e :: es) = incData s1 es := by simp only [incData, List.foldl_cons, e1]
    obtain ⟨i1, i2, i3, i4, i5⟩ := ih s1 (by rw [a2]; exact a4)
    rw [hstep]
    refine ⟨i1.trans a1, i2.trans a2, i3.trans a3, by rw [a2] at i4; exact i4, fun x => ?_⟩
    rw [i5 x, a1, a2, a5 x]
    have hcc : ((e :: es).map fun e => e.2 >>> 24).count x = [e.2 >>> 24].count x + (es.map fun e => e.2 >>> 24).count x := by
      rw [List.map_cons, show (e.2 >>> 24) :: es.map (fun e => e.2 >>> 24) = [e.2 >>> 24] ++ es.map (fun e => e.2 >>> 24) from rfl, List.count_append]
    rw [hcc]
    by_cases hx : x < sm.nr
    · rw [if_pos hx, if_pos hx, if_pos hx]; omega
    · rw [if_neg hx, if_neg hx, if_neg hx]

/-- **C47, the data blocks.**  `L` are the leaves on record, all readable.  In whatever order the threads handle them, every leaf is summarised, nothing becomes an error, and every
data block of the data device is counted once for each mapping to it in a distinct leaf (up to the limit of the counters).  Mappings to blocks beyond the data device are not
counted anywhere (see `check_data_range_refuted`). -/
theorem leaves_exact (hd : Sane d) (hm : ∀ l i, d.many l i = true) (hc : ∀ l, d.chunkOk l = true) {n n' : NodeMap} {dsm dsm' : Sm} {m : Sums} {L : List Nat} (hL : L.Nodup)
    (hmem : ∀ b, b ∈ L ↔ n.leafBit b = true) (hleaf : ∀ b ∈ L, ∃ es, d.rd b = some (.leaf es)) (hmx : ∀ x, dsm.cnt x ≤ dsm.mx) (hr : ReadLeaves d n dsm (n', dsm', m)) :
    n' = n ∧ (∀ b ∈ L, ∀ es, d.rd b = some (.leaf es) → m b = some (Sum.ofLeaf (es.map (·.1)))) ∧ (∀ b, b ∉ L → m b = none) ∧ dsm'.nr = dsm.nr ∧ dsm'.mx = dsm.mx ∧
    ∀ x, dsm'.cnt x = if x < dsm.nr then min dsm.mx (dsm.cnt x + (L.map fun b => (dataOf d b).count x).sum) else dsm.cnt x := by
  obtain ⟨order, hp, e⟩ := hr
  rw [chunkFail_none hc] at e
  have hlist : (chunks 1024 (d.nr + 1) (leavesOf d n)).flatMap (chunkRead d) = leavesOf d n := by
    rw [show chunkRead d = id from funext (chunkRead_all hm hc)]
    apply chunks_flat 1024 (by decide)
    unfold leavesOf
    have := List.length_filter_le n.leafBit (List.range d.nr)
    simp at this
    omega
  rw [hlist] at hp
  have hLL : (leavesOf d n).Perm L := by
    unfold leavesOf
    rw [List.perm_ext_iff_of_nodup (List.nodup_range.sublist List.filter_sublist) hL]
    intro y
    simp only [List.mem_filter, List.mem_range, hmem]
    refine ⟨fun h => h.2, fun h => ⟨?_, h⟩⟩
    obtain ⟨es, he⟩ := hleaf y ((hmem y).mpr h)
    exact hd.bound y _ he
  have hp' := hp.trans hLL
  have key : ∀ (l : List Nat) (s : NodeMap × Sm × Sums), (∀ b ∈ l, b ∈ L) → (∀ x, s.2.1.cnt x ≤ s.2.1.mx) →
      (l.foldl (leafStep d) s).1 = s.1 ∧ (∀ b, (l.foldl (leafStep d) s).2.2 b = if b ∈ l then (match d.rd b with | some (.leaf es) => some (Sum.ofLeaf (es.map (·.1))) | _ => none) else s.2.2 b) ∧
      (l.foldl (leafStep d) s).2.1.nr = s.2.1.nr ∧ (l.foldl (leafStep d) s).2.1.mx = s.2.1.mx ∧
      ∀ x, (l.foldl (leafStep d) s).2.1.cnt x = if x < s.2.1.nr then min s.2.1.mx (s.2.1.cnt x + (l.map fun b => (dataOf d b).count x).sum) else s.2.1.cnt x := by
    intro l
    induction l with
    | nil =>
      intro s _ hs
      refine ⟨rfl, fun b => by simp, rfl, rfl, fun x => ?_⟩
      have := hs x
      simp only [List.foldl_nil, List.map_nil, List.sum_nil]
      split
      · omega
      · rfl
    | cons b l ih =>
      intro s hl hs
      obtain ⟨es, he⟩ := hleaf b (hl b (by simp))
      have hub : u32 b = b := u32_of_lt (Nat.lt_of_lt_of_le (hd.bound b _ he) hd.small)
      have hst : leafStep d s b = (s.1, incData s.2.1 es, setBit s.2.2 b (some (Sum.ofLeaf (es.map (·.1))))) := by
        simp only [leafStep, he, hub]
      obtain ⟨c1, c2, -, c3, c4⟩ := incData_cnt es s.2.1 hs
      obtain ⟨i1, i2, i3, i4, i5⟩ := ih (leafStep d s b) (fun x hx => hl x (by simp [hx])) (by rw [hst]; simp only; rw [c2]; exact c3)
      rw [List.foldl_cons]
      refine ⟨i1.trans (by rw [hst]), fun x => ?_, i3.trans (by rw [hst]; exact c1), i4.trans (by rw [hst]; exact c2), fun x => ?_⟩
      · rw [i2 x]
        by_cases hx : x ∈ l
        · rw [if_pos hx, if_pos (List.mem_cons_of_mem _ hx)]
        · rw [if_neg hx, hst]
          by_cases hxb : x = b
          · subst hxb; rw [if_pos (by simp)]; simp [setBit, he]
          · rw [if_neg (by simp [hxb, hx])]; simp [setBit, hxb]
      · rw [i5 x, hst]
        simp only
        rw [c1, c2, c4 x]
        have hdat : dataOf d b = es.map fun e => e.2 >>> 24 := by simp only [dataOf, he]
        rw [List.map_cons, List.sum_cons, hdat]
        by_cases hx : x < s.2.1.nr
        · rw [if_pos hx, if_pos hx, if_pos hx]; omega
        · rw [if_neg hx, if_neg hx, if_neg hx]
  obtain ⟨k1, k2, k3, k4, k5⟩ := key order (n, dsm, fun _ => none) (fun b hb => hp'.mem_iff.mp hb) hmx
  rw [← e] at k1 k2 k3 k4 k5
  simp only at k1 k2 k3 k4 k5
  refine ⟨k1, ?_, ?_, k3, k4, fun x => ?_⟩
  · intro b hb es he
    rw [k2 b, if_pos (hp'.mem_iff.mpr hb), he]
  · intro b hb
    rw [k2 b, if_neg fun h => hb (hp'.mem_iff.mp h)]
  · rw [k5 x, (hp'.map fun b => (dataOf d b).count x).sum_nat]

/-! ## Counting -/

/-- the number of entries of a node -/
def nEnt (d : Dev) (b : Nat) : Nat :=
  match d.rd b with
  | some (.leaf es) => es.length
  | some (.internal ch) => ch.length
  | none => 0

/-- the summary of a tree with these mapped blocks -/
def mkSum (ks : List Nat) (e : Nat) : Sum := ⟨ks.head?.getD 0, ks.getLast?.getD 0, ks.length, e, 0⟩

/-- the right summary of a node -/
noncomputable def exactOf (d : Dev) (b : Nat) : Sum := mkSum (keysOf d b) (nEnt d b % 256)

/-- all summaries are right -/
def Valid (d : Dev) (m : Sums) : Prop := ∀ b s, m b = some s → s = exactOf d b

theorem mkSum_add {A C : List Nat} {e e' : Nat} (hC : C ≠ []) (hlen : (A ++ C).length < 2 ^ 64) (hlt : ∀ a ∈ A, ∀ c ∈ C, a < c) :
    (mkSum A e).add (mkSum C e') = mkSum (A ++ C) ((e + 1) % 256) := by
  obtain ⟨x, C, rfl⟩ := List.exists_cons_of_ne_nil hC
  have hlast : (A ++ x :: C).getLast? = (x :: C).getLast? := by
    rw [List.getLast?_append, List.getLast?_eq_some_getLast (l := x :: C) (by simp)]; rfl
  cases A with
  | nil =>
    simp only [Sum.add, Sum.append, mkSum, List.length_nil, if_true, List.nil_append, Nat.zero_add, Option.getD_some] at *
    rw [Nat.mod_eq_of_lt hlen]
    rfl
  | cons a A =>
    have hl : ¬ (mkSum (x :: C) e').low ≤ (mkSum (a :: A) e).high := by
      simp only [mkSum, List.head?_cons, Option.getD_some]
      rw [List.getLast?_eq_some_getLast (by simp)]
      simp only [Option.getD_some]
      have := hlt _ (List.getLast_mem (l := a :: A) (by simp)) x (by simp)
      omega
    have h0 : ¬ (mkSum (a :: A) e).maps = 0 := by simp [mkSum]
    have h1 : (mkSum (x :: C) e').maps > 0 := by simp [mkSum]
    unfold Sum.add Sum.append
    rw [if_neg h0, if_pos h1, if_neg hl]
    simp only [mkSum, Option.getD_some, hlast, List.head?_cons]
    simp only [List.cons_append, List.head?_cons, Option.getD_some]
    have : ((a :: A).length + (x :: C).length) % 2 ^ 64 = (a :: (A ++ x :: C)).length := by
      rw [Nat.mod_eq_of_lt (by simp at hlen ⊢; omega)]
      simp; omega
    rw [this]
    rfl

/-- a tree on the device holds the blocks of the specification -/
theorem keys_of_tree : ∀ (h : Nat) (t : Tree Nat h) (r : Bool), t.Stored (fun _ b => d.rd b) r h → Keys d (t.blk h) ((t.contents h).map (·.1)) := by
  intro h
  induction h with
  | zero => intro t r hs; exact .leaf _ _ hs
  | succ h ih =>
    intro t r hs
    obtain ⟨h1, h2⟩ := hs
    have := Keys.node (d := d) t.1 (t.2.map fun c => (c.1, Tree.blk h c.2)) (keysOf d) h1 (by
      intro c hc
      obtain ⟨q, hq, rfl⟩ := List.mem_map.mp hc
      have := ih q.2 false (h2 q hq)
      simp only
      rw [keysOf_eq this]
      exact this)
    have he : ((t.2.map fun c => (c.1, Tree.blk h c.2)).flatMap fun c => keysOf d c.2) = (t.contents (h + 1)).map (·.1) := by
      show _ = (t.2.flatMap fun c => c.2.contents h).map (·.1)
      rw [List.map_flatMap, List.flatMap_map]
      have : ∀ l : List (Nat × Tree Nat h), (∀ c ∈ l, c ∈ t.2) → (l.flatMap fun c => keysOf d (Tree.blk h c.2)) = l.flatMap fun c => (c.2.contents h).map (·.1) := by
        intro l
        induction l with
        | nil => intro _; rfl
        | cons c l ihl =>
          intro hl
          rw [List.flatMap_cons, List.flatMap_cons, ihl fun x hx => hl x (by simp [hx]), keysOf_eq (ih c.2 false (h2 c (hl c (by simp))))]
      exact this t.2 fun _ h => h
    rw [he] at this
    exact this

/-- a right summary passes the checks made on every visit -/
theorem recheck_ok {ign isRoot : Bool} {kr : KeyRange} {b lo : Nat} (hmin : ign = true ∨ isRoot = true ∨ MIN_ENTRIES ≤ nEnt d b) (hmax : nEnt d b ≤ 255)
    (hlo : ∀ n, kr.start = some n → n ≤ lo) (hk : ∀ k ∈ keysOf d b, lo ≤ k ∧ Below k kr.fin) : recheck ign isRoot kr (exactOf d b) = exactOf d b := by
  have he : (exactOf d b).entries = nEnt d b := by
    show nEnt d b % 256 = _
    omega
  have hlow : (exactOf d b).maps > 0 → (exactOf d b).low ∈ keysOf d b ∧ (exactOf d b).high ∈ keysOf d b := by
    intro hm
    have hne : keysOf d b ≠ [] := fun h => by simp [exactOf, mkSum, h] at hm
    simp only [exactOf, mkSum]
    rw [List.head?_eq_some_head hne, List.getLast?_eq_some_getLast hne]
    exact ⟨List.head_mem hne, List.getLast_mem hne⟩
  unfold recheck
  rw [if_neg (by
    rw [he]
    rcases hmin with h | h | h
    · simp [h]
    · simp [h]
    · simp; intros; omega)]
  rw [if_neg (by
    simp only [Bool.and_eq_true, decide_eq_true_eq, not_and]
    intro hm
    cases hs : kr.start with
    | none => simp
    | some n =>
      have := hlo n hs
      have := (hk _ (hlow hm).1).1
      simp; omega)]
  rw [if_neg (by
    simp only [Bool.and_eq_true, decide_eq_true_eq, not_and]
    intro hm
    have := (hk _ (hlow hm).2).2
    cases hs : kr.fin with
    | none => simp
    | some n =>
      rw [hs] at this
      simp only [Below] at this
      simp; omega)]

theorem summarize_clean (hd : Sane d) {n : NodeMap} (ign : Bool) (hn : ∀ b ch, Reach d roots b → d.rd b = some (.internal ch) → n.ty b = .internal ∧ n.info b = some ch)
    (hmin : ign = true ∨ ∀ y c, Reach d roots y → c ∈ kids d y → MIN_ENTRIES ≤ nEnt d c) (hmax : ∀ b, nEnt d b ≤ 255) :
    ∀ (h : Nat) (t : Tree Nat h) (lo : Nat) (kr : KeyRange) (isRoot r : Bool) (fuel : Nat) (m : Sums), t.Stored (fun _ b => d.rd b) r h → t.Ordered h lo kr.fin → (h = 0 ∨ t.NoEmpty h) →
      Reach d roots (t.blk h) → (∀ n, kr.start = some n → n ≤ lo) → (ign = true ∨ isRoot = true ∨ MIN_ENTRIES ≤ nEnt d (t.blk h)) → h < fuel → Valid d m →
      (∀ b es, Reach d roots b → d.rd b = some (.leaf es) → m b ≠ none) →
      ∃ m', summarize n ign fuel kr isRoot (t.blk h) m = some (m', exactOf d (t.blk h)) ∧ Valid d m' ∧ m' (t.blk h) = some (exactOf d (t.blk h)) ∧ ∀ x, m x ≠ none → m' x = m x := by
  intro h
  induction h with
  | zero =>
    intro t lo kr isRoot r fuel m hs ho _ hr hlo hb hf hv hl
    obtain ⟨fuel, rfl⟩ : ∃ f, fuel = f + 1 := ⟨fuel - 1, by omega⟩
    have hk := keysOf_eq (keys_of_tree 0 t r hs)
    have hne := hl _ _ hr hs
    simp only [summarize]
    cases hmb : m (t.blk 0) with
    | none => exact absurd hmb hne
    | some s =>
      have := hv _ _ hmb
      subst this
      simp only
      rw [recheck_ok hb (hmax _) hlo (by
        rw [hk]
        intro k hk
        obtain ⟨e, he, rfl⟩ := List.mem_map.mp hk
        exact BT.ordered_mem 0 lo kr.fin t ho e he)]
      exact ⟨m, rfl, hv, hmb, fun _ _ => rfl⟩
  | succ h ih =>
    intro t lo kr isRoot r fuel m hs ho hn0 hr hlo hb hf hv hl
    obtain ⟨fuel, rfl⟩ : ∃ f, fuel = f + 1 := ⟨fuel - 1, by omega⟩
    have hkt := keys_of_tree (h + 1) t r hs
    have hk := keysOf_eq hkt
    have hsorted : ((t.contents (h + 1)).map (·.1)).Pairwise (· < ·) := by
      have := LW.ordered_sorted (h + 1) t lo kr.fin ho
      exact List.pairwise_map.mpr this
    have hlen : ((t.contents (h + 1)).map (·.1)).length < 2 ^ 64 := Keys.length_lt hd hkt.under hsorted
    have hmem := BT.ordered_mem (h + 1) lo kr.fin t ho
    obtain ⟨b, ch⟩ := t
    obtain ⟨hs1, hs2⟩ := hs
    have hne' : ch ≠ [] ∧ ∀ c ∈ ch, Tree.NoEmpty h c.2 := by
      rcases hn0 with h0 | hne
      · omega
      · exact hne
    simp only [Tree.Ordered] at ho
    simp only at hs1 hs2
    rw [show Tree.blk (V := Nat) (h + 1) ((b, ch) : Nat × List (Nat × Tree Nat h)) = b from rfl] at *
    simp only [summarize]
    cases hmb : m b with
    | some s =>
      have := hv _ _ hmb
      subst this
      simp only
      rw [recheck_ok hb (hmax _) hlo (by
        rw [hk]
        intro k hk
        obtain ⟨e, he, rfl⟩ := List.mem_map.mp hk
        exact hmem e he)]
      exact ⟨m, rfl, hv, hmb, fun _ _ => rfl⟩
    | none =>
      obtain ⟨hty, hinfo⟩ := hn b _ hr hs1
      have hent : nEnt d b = ch.length := by simp only [nEnt, hs1, List.length_map]
      simp only [hty, if_true, hinfo]
      rw [if_neg (by
        rw [List.length_map, ← hent]
        rcases hb with h | h | h
        · simp [h]
        · simp [h]
        · simp; intros; omega)]
      rw [show (ch.map fun c => (c.1, Tree.blk h c.2)).map (·.1) = ch.map (·.1) by simp [List.map_map], BT.split_chain ho hne'.1]
      simp only
      rw [show (ch.map fun c => (c.1, Tree.blk h c.2)).map (·.2) = ch.map (fun c => Tree.blk h c.2) by simp [List.map_map], BT.rangesOf_zip]
      have hkids : ∀ c ∈ ch, Tree.blk h c.2 ∈ kids d b := by
        intro c hc
        simp only [kids, hs1, List.map_map, List.mem_map]
        exact ⟨c, hc, rfl⟩
      have loop : ∀ (l pre : List (Nat × Tree Nat h)) (lo : Nat) (m : Sums), pre ++ l = ch → Chain (Tree.Ordered h) lo kr.fin l → Valid d m →
          (∀ b es, Reach d roots b → d.rd b = some (.leaf es) → m b ≠ none) →
          ∃ m', sumKids (fun kr b m => summarize n ign fuel kr false b m) (eachRange (fun kr c => [(kr, Tree.blk h c)]) kr.fin l) m
              (mkSum ((pre.flatMap fun c => c.2.contents h).map (·.1)) (pre.length % 256)) =
            some (m', mkSum ((ch.flatMap fun c => c.2.contents h).map (·.1)) (ch.length % 256)) ∧ Valid d m' ∧ ∀ x, m x ≠ none → m' x = m x := by
        intro l
        induction l with
        | nil =>
          intro pre lo m hp _ hv _
          simp only [List.append_nil] at hp
          subst hp
          exact ⟨m, rfl, hv, fun _ _ => rfl⟩
        | cons p l ihl =>
          intro pre lo m hp hch hv hl
          obtain ⟨k, c⟩ := p
          obtain ⟨c1, c2, c3, c4⟩ := hch
          have hcm : (k, c) ∈ ch := by rw [← hp]; simp
          have hcr : Reach d roots (Tree.blk h c) := .kid b _ hr (hkids _ hcm)
          obtain ⟨m1, e1, v1, -, k1⟩ := ih c k ⟨some k, nextKey kr.fin l⟩ false false fuel m (hs2 _ hcm) c3 (Or.inr (hne'.2 _ hcm)) hcr (by
              intro n hn
              cases hn
              exact Nat.le_refl _) (by
              rcases hmin with q | q
              · exact Or.inl q
              · exact Or.inr (Or.inr (q b _ hr (hkids _ hcm)))) (by omega) hv hl
          obtain ⟨m2, e2, v2, k2⟩ := ihl (pre ++ [(k, c)]) (k + 1) m1 (by simp [hp]) c4 v1 (fun b es hb he => by rw [k1 b (hl b es hb he)]; exact hl b es hb he)
          have hkc := keysOf_eq (keys_of_tree h c false (hs2 _ hcm))
          simp only [eachRange, List.singleton_append, sumKids, e1]
          have hall : (pre.flatMap fun c => c.2.contents h).map (·.1) ++ (c.contents h).map (·.1) ++ (l.flatMap fun c => c.2.contents h).map (·.1) =
              (Tree.contents (h + 1) ((b, ch) : Nat × List (Nat × Tree Nat h))).map (·.1) := by
            show _ = (ch.flatMap fun c => c.2.contents h).map (·.1)
            rw [← hp]
            simp
          rw [← hall] at hsorted hlen
          rw [List.pairwise_append] at hsorted
          have hadd := mkSum_add (A := (pre.flatMap fun c => c.2.contents h).map (·.1)) (C := (c.contents h).map (·.1)) (e := pre.length % 256) (e' := nEnt d (Tree.blk h c) % 256)
            (by simpa using LW.noEmpty_contents h c (hne'.2 _ hcm)) (by rw [List.length_append] at hlen; omega) (List.pairwise_append.mp hsorted.1).2.2
          have hex : exactOf d (Tree.blk h c) = mkSum ((c.contents h).map (·.1)) (nEnt d (Tree.blk h c) % 256) := by
            unfold exactOf; rw [hkc]
          rw [hex, hadd]
          have : mkSum ((pre.flatMap fun c => c.2.contents h).map (·.1) ++ (c.contents h).map (·.1)) ((pre.length % 256 + 1) % 256) =
              mkSum (((pre ++ [(k, c)]).flatMap fun c => c.2.contents h).map (·.1)) ((pre ++ [(k, c)]).length % 256) := by
            congr 1
            · simp
            · simp
          rw [this, e2]
          exact ⟨m2, rfl, v2, fun x hx => by rw [k2 x (by rw [k1 x hx]; exact hx), k1 x hx]⟩
      obtain ⟨m1, e1, v1, k1⟩ := loop ch [] lo m rfl ho hv hl
      have hz : (⟨0, 0, 0, 0, 0⟩ : Sum) = mkSum (([] : List (Nat × Tree Nat h)).flatMap (fun c => c.2.contents h) |>.map (·.1)) (([] : List (Nat × Tree Nat h)).length % 256) := rfl
      rw [hz, e1]
      have hex : mkSum ((ch.flatMap fun c => c.2.contents h).map (·.1)) (ch.length % 256) = exactOf d b := by
        unfold exactOf
        rw [hk, hent]
        rfl
      simp only
      rw [hex]
      refine ⟨_, rfl, ?_, by simp [setBit], ?_⟩
      · intro x s hx
        by_cases e : x = b
        · subst e; simp [setBit] at hx; exact hx.symm
        · simp only [setBit, if_neg e] at hx; exact v1 x s hx
      · intro x hx
        have : x ≠ b := fun e => hx (by rw [e, hmb])
        simp only [setBit, if_neg this]
        exact k1 x hx

/-- an undamaged search tree is an undamaged tree -/
theorem bal_of_clean : ∀ (h : Nat) (t : Tree Nat h) (r : Bool) (lo : Nat) (hi : Option Nat), t.Stored (fun _ b => d.rd b) r h → t.Ordered h lo hi → (h = 0 ∨ t.NoEmpty h) → Bal d h (t.blk h) := by
  intro h
  induction h with
  | zero => intro t r lo hi hs _ _; exact .leaf _ _ hs
  | succ h ih =>
    intro t r lo hi hs ho hn
    have hnd := LW.blocks_nodup (h + 1) t r lo hi hs ho hn
    obtain ⟨b, ch⟩ := t
    obtain ⟨hs1, hs2⟩ := hs
    have hne' : ch ≠ [] ∧ ∀ c ∈ ch, Tree.NoEmpty h c.2 := by
      rcases hn with h0 | hne
      · omega
      · exact hne
    simp only [Tree.Ordered] at ho
    refine .node h b (ch.map fun c => (c.1, Tree.blk h c.2)) hs1 (by simpa using hne'.1) ?_ ?_
    · rw [List.map_map]
      have hblk : ∀ t : Tree Nat h, Tree.blk h t ∈ t.blocks h := by
        intro t; cases h <;> simp [Tree.blk, Tree.blocks]
      have hndb : ∀ l : List (Nat × Tree Nat h), (l.flatMap fun c => c.2.blocks h).Nodup → (l.map ((·.2) ∘ fun c => (c.1, Tree.blk h c.2))).Nodup := by
        intro l
        induction l with
        | nil => simp
        | cons p l ih =>
          simp only [List.flatMap_cons, List.map_cons, List.nodup_append, List.nodup_cons]
          rintro ⟨h1, h2, h3⟩
          refine ⟨?_, ih h2⟩
          intro hm
          obtain ⟨q, hq, e⟩ := List.mem_map.mp hm
          exact h3 _ (hblk p.2) _ (List.mem_flatMap.mpr ⟨q, hq, hblk q.2⟩) e.symm
      simp only [Tree.blocks, List.nodup_cons] at hnd
      exact hndb ch hnd.2
    · intro c hc
      obtain ⟨q, hq, rfl⟩ := List.mem_map.mp hc
      have : ∀ (l : List (Nat × Tree Nat h)) (lo : Nat), Chain (Tree.Ordered h) lo hi l → q ∈ l → ∃ lo hi, q.2.Ordered h lo hi := by
        intro l
        induction l with
        | nil => intro lo _ h; cases h
        | cons p l ihl =>
          intro lo hx hq
          obtain ⟨k, c⟩ := p
          rcases List.mem_cons.mp hq with e | hq
          · subst e; exact ⟨_, _, hx.2.2.1⟩
          · exact ihl _ hx.2.2.2 hq
      obtain ⟨lo', hi', ho'⟩ := this ch lo ho hq
      exact ih q.2 false lo' hi' (hs2 q hq) ho' (Or.inr (hne'.2 q hq))

/-- all trees are undamaged search trees; they may share any nodes -/
def AllClean (d : Dev) (roots : List Nat) : Prop := ∀ r ∈ roots, ∃ (h : Nat) (t : Tree Nat h), LW.Clean d.rd d.nr h t ∧ t.blk h = r

theorem AllClean.balanced (h : AllClean d roots) : Balanced d roots := by
  intro r hr
  obtain ⟨k, t, hc, rfl⟩ := h r hr
  exact ⟨k, bal_of_clean k t true 0 none hc.stored hc.ordered hc.noEmpty⟩

theorem count_clean (hd : Sane d) {n : NodeMap} (ign : Bool) (hn : ∀ b ch, Reach d roots b → d.rd b = some (.internal ch) → n.ty b = .internal ∧ n.info b = some ch)
    (hmin : ign = true ∨ ∀ y c, Reach d roots y → c ∈ kids d y → MIN_ENTRIES ≤ nEnt d c) (hmax : ∀ b, nEnt d b ≤ 255) (hc : AllClean d roots) (fuel : Nat) (hf : d.nr ≤ fuel) :
    ∀ (rs : List Nat) (m : Sums), (∀ r ∈ rs, r ∈ roots) → Valid d m → (∀ b es, Reach d roots b → d.rd b = some (.leaf es) → m b ≠ none) →
      ∃ m', countMapped n ign fuel rs m = some m' ∧ Valid d m' ∧ (∀ r ∈ rs, m' r = some (exactOf d r)) ∧ ∀ x, m x ≠ none → m' x = m x := by
  intro rs
  induction rs with
  | nil => intro m _ hv _; exact ⟨m, rfl, hv, by simp, fun _ _ => rfl⟩
  | cons r rs ih =>
    intro m hrs hv hl
    have hr := hrs r (by simp)
    obtain ⟨h, hbal⟩ := hc.balanced r hr
    have hu := hbal.u32 hd
    obtain ⟨k, t, hcl, hb⟩ := hc r hr
    obtain ⟨m1, e1, v1, r1, k1⟩ := summarize_clean hd ign hn hmin hmax k t 0 ⟨none, none⟩ true true fuel m hcl.stored hcl.ordered hcl.noEmpty (by rw [hb]; exact .root r hr)
      (by intro n h; cases h) (Or.inr (Or.inl rfl)) (by have := hcl.height; omega) hv hl
    rw [hb] at e1 r1
    obtain ⟨m2, e2, v2, r2, k2⟩ := ih m1 (fun x hx => hrs x (by simp [hx])) v1 (fun b es h1 h2 => by rw [k1 b (hl b es h1 h2)]; exact hl b es h1 h2)
    refine ⟨m2, ?_, v2, ?_, fun x hx => by rw [k2 x (by rw [k1 x hx]; exact hx), k1 x hx]⟩
    · simp only [countMapped, hu, e1, e2]
    · intro x hx
      rcases List.mem_cons.mp hx with rfl | hx
      · rw [k2 x (by rw [r1]; simp), r1]
      · exact r2 x hx

/-- **C47.**  Let the mapping trees of all devices be undamaged search trees, sharing whatever nodes they like, with at least 84 entries in every node that is not only a root (or
with non-fatal errors ignored), and let all blocks be readable.  Then, in whatever order the threads work, `thin_check` finishes, counts in the metadata space map every root and
every child pointer of every distinct node, counts every data block once for each mapping in a distinct leaf, and accepts the devices exactly if each has the expected
number of mappings.  `N` and `L` list the nodes and the leaves of the trees. -/
theorem check_exact (hd : Sane d) (hl : ∀ b n, d.rd b = some n → d.rdl b = some n) (hm : ∀ l i, d.many l i = true) (hck : ∀ l, d.chunkOk l = true)
    (devs : List (Nat × Nat × Nat)) (hc : AllClean d (devs.map (·.2.1))) (ign : Bool)
    (hmin : ign = true ∨ ∀ y c, Reach d (devs.map (·.2.1)) y → c ∈ kids d y → MIN_ENTRIES ≤ nEnt d c) (hmax : ∀ b, nEnt d b ≤ 255)
    (fuel : Nat) (hf : d.nr ≤ fuel) (msm dsm : Sm) (hn : msm.nr = d.nr) (hmx : 0 < msm.mx) (hdx : ∀ x, dsm.cnt x ≤ dsm.mx)
    (N L : List Nat) (hN : N.Nodup) (hmem : ∀ y, y ∈ N ↔ Reach d (devs.map (·.2.1)) y) (hL : L.Nodup) (hLm : ∀ y, y ∈ L ↔ y ∈ N ∧ ∃ es, d.rd y = some (.leaf es))
    (h0 : ∀ b ∈ N, msm.cnt b = 0)
    (hroom : msm.sat = false → ∀ x, msm.cnt x + (devs.map (·.2.1)).count x + (N.map fun y => (kids d y).count x).sum ≤ msm.mx)
    (r : Sm × Sm × Option Sums) (hr : Bottom d ign fuel (devs.map (·.2.1)) msm dsm r) :
    (msm.sat = false → ∀ x, r.1.cnt x = msm.cnt x + (devs.map (·.2.1)).count x + (N.map fun y => (kids d y).count x).sum) ∧
    (∀ x, r.2.1.cnt x = if x < dsm.nr then min dsm.mx (dsm.cnt x + (L.map fun b => (dataOf d b).count x).sum) else dsm.cnt x) ∧
    ∃ m, r.2.2 = some m ∧ (checkMapped m devs = true ↔
      ∀ e ∈ devs, ∀ (h : Nat) (t : Tree Nat h), LW.Clean d.rd d.nr h t → t.blk h = e.2.1 → (t.contents h).length = e.2.2) := by
  obtain ⟨n', dsm', m, hrl, rfl⟩ := hr
  obtain ⟨c1, c2, c3, c4, c5, c6, c7⟩ := collect_exact hd hl hm hc.balanced msm hn hmx N hN hmem h0 hroom
  generalize collectNodes d (devs.map (·.2.1)) NodeMap.empty msm = p at *
  have hLb : ∀ b, b ∈ L ↔ p.1.leafBit b = true := by
    intro b
    rw [hLm, c4, decide_eq_true_eq, c2]
  obtain ⟨l1, l2, l3, l4, l5, l6⟩ := leaves_exact hd hm hck hL hLb (fun b hb => ((hLm b).mp hb).2) hdx hrl
  subst l1
  obtain ⟨m', e1, v1, r1, k1⟩ := count_clean (n := p.1) hd ign (by
      intro b ch hb he
      obtain ⟨ch', h1, h2⟩ := (c1 b).mpr ⟨(hmem b).mpr hb, ch, he⟩
      have := c3 b ch' h1 h2
      rw [he] at this
      cases this
      exact ⟨h1, h2⟩) hmin hmax hc fuel hf (devs.map (·.2.1)) m (fun _ h => h) (by
      intro b s hs
      by_cases hb : b ∈ L
      · obtain ⟨es, he⟩ := ((hLm b).mp hb).2
        rw [l2 b hb es he] at hs
        cases hs
        unfold exactOf
        rw [keysOf_eq (Keys.leaf b es he)]
        simp only [Sum.ofLeaf, mkSum, nEnt, he, List.length_map]
      · rw [l3 b hb] at hs; cases hs) (by
      intro b es hb he
      rw [l2 b ((hLm b).mpr ⟨(hmem b).mpr hb, es, he⟩) es he]
      simp)
  refine ⟨c7, l6, m', e1, ?_⟩
  have hone : ∀ e ∈ devs, devOk m' e.2.1 e.2.2 = decide ((keysOf d e.2.1).length = e.2.2) := by
    intro e he
    have her : e.2.1 ∈ devs.map (·.2.1) := List.mem_map.mpr ⟨e, he, rfl⟩
    obtain ⟨h, hbal⟩ := hc.balanced _ her
    unfold devOk
    rw [hbal.u32 hd, r1 _ her]
    have h1 : ¬ (exactOf d e.2.1).errors > 0 := Nat.lt_irrefl 0
    simp only [if_neg h1]
    rfl
  unfold checkMapped
  rw [List.all_eq_true]
  constructor
  · intro h e he k t hcl hb
    have := h e he
    rw [hone e he, decide_eq_true_eq] at this
    rw [← this, ← hb, keysOf_eq (keys_of_tree k t true hcl.stored), List.length_map]
  · intro h e he
    rw [hone e he, decide_eq_true_eq]
    obtain ⟨k, t, hcl, hb⟩ := hc e.2.1 (List.mem_map.mpr ⟨e, he, rfl⟩)
    rw [← h e he k t hcl hb, ← hb, keysOf_eq (keys_of_tree k t true hcl.stored), List.length_map]

end Verif.TChk
