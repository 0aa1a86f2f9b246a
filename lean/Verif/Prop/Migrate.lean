import Verif.Model.Migrate
import Verif.Prop.BTreeRead
import Verif.Prop.CopyQueue
import Verif.Prop.LeafWalker

/-!
# C58: `thin_migrate` copies exactly the mapped blocks
-/

namespace Verif.Mig

open Verif.BT Verif.Cop Verif.CopyQ

variable {V β : Type}

/-! ## The stream -/

/-- how many of the ascending keys are `b`, `b + 1`, ... -/
def runLen : Nat → List Nat → Nat
  | _, [] => 0
  | b, k :: ks => if k = b then runLen (b + 1) ks + 1 else 0

theorem runLen_le : ∀ (ks : List Nat) (b : Nat), runLen b ks ≤ ks.length := by
  intro ks
  induction ks with
  | nil => intro b; exact Nat.le_refl _
  | cons k ks ih =>
    intro b
    rw [runLen]
    split
    · have := ih (b + 1); simp; omega
    · omega

theorem runLen_take : ∀ (ks : List Nat) (b : Nat), ks.take (runLen b ks) = List.range' b (runLen b ks) := by
  intro ks
  induction ks with
  | nil => intro b; simp [runLen]
  | cons k ks ih =>
    intro b
    rw [runLen]
    split
    · next h => rw [List.take_succ_cons, ih, h, List.range'_succ]
    · simp

/-- the iterator stands on the first of the entries `rem` -/
def On (rd : Bool → Nat → Option (Blk V)) (stk : Stack V) (rem : List (Nat × V)) : Prop :=
  iterGet stk = .ok rem[0]? ∧ (rem ≠ [] → At rd stk rem)

theorem on_of_at {rd : Bool → Nat → Option (Blk V)} {stk : Stack V} {rem : List (Nat × V)} (h : At rd stk rem) : On rd stk rem := ⟨at_get h, fun _ => h⟩

theorem contiguousRun_spec {rd : Bool → Nat → Option (Blk V)} (start : Nat) : ∀ (fuel : Nat) (rem : List (Nat × V)) (stk : Stack V) (count : Nat),
    At rd stk rem → (rem.map (·.1))[0]? = some (start + count) → rem.length ≤ fuel →
    ∃ stk', contiguousRun rd start fuel stk count = .ok (count + runLen (start + count) (rem.map (·.1)), stk') ∧
      At rd stk' (rem.drop (runLen (start + count) (rem.map (·.1)))) := by
  intro fuel
  induction fuel with
  | zero =>
    intro rem stk count h1 h2 h3
    have : rem = [] := List.length_eq_zero_iff.mp (by omega)
    subst this
    simp at h2
  | succ fuel ih =>
    intro rem stk count h1 h2 h3
    obtain ⟨stk', s1, s2⟩ := at_step h1
    cases rem with
    | nil => simp at h2
    | cons e rem =>
      have he : e.1 = start + count := by simpa using h2
      simp only [List.tail_cons] at s2
      have hg := at_get s2
      rw [contiguousRun, s1]
      simp only [hg]
      cases rem with
      | nil =>
        refine ⟨stk', ?_, ?_⟩
        · simp [runLen, he]
        · simpa [runLen, he] using s2
      | cons e' rem =>
        simp only [List.getElem?_cons_zero]
        by_cases hn : e'.1 = start + (count + 1)
        · rw [if_neg (by simpa using hn)]
          obtain ⟨stk2, r1, r2⟩ := ih (e' :: rem) stk' (count + 1) s2 (by simp [hn]) (by simp at h3 ⊢; omega)
          refine ⟨stk2, ?_, ?_⟩
          · rw [r1]
            simp only [List.map_cons, runLen, he, if_true]
            rw [← Nat.add_assoc]
            simp only [hn, Nat.add_assoc, if_true]
            congr 2
            omega
          · have : runLen (start + count) ((e :: e' :: rem).map (·.1)) = runLen (start + (count + 1)) ((e' :: rem).map (·.1)) + 1 := by
              simp only [List.map_cons]
              rw [runLen, if_pos he, Nat.add_assoc]
            rw [this, List.drop_succ_cons]
            exact r2
        · rw [if_pos (by simpa using hn)]
          have : runLen (start + count) ((e :: e' :: rem).map (·.1)) = 1 := by
            simp only [List.map_cons]
            rw [runLen, if_pos he, runLen, if_neg (by rw [Nat.add_assoc]; exact hn)]
          rw [this]
          exact ⟨stk', rfl, s2⟩

/-- the end of the last mapped block -/
def endOf (cur : Nat) (ks : List Nat) : Nat := ks.foldl (fun _ k => k + 1) cur

/-- one chunk as the blocks it stands for, with what is done to them -/
def Chunk.blocks (bs : Nat) (c : Chunk) : List (Nat × Contents) := (List.range' (c.offset / bs) (c.len / bs)).map fun b => (b, c.contents)

/-- what is to be done to block `b` of a device with the mapped blocks `ks` -/
def wanted (ks : List Nat) (b : Nat) : Contents := if b ∈ ks then .copy else .skip

/-- the chunk begins and ends at block boundaries, and is not empty -/
def Chunk.Whole (bs : Nat) (c : Chunk) : Prop := bs ∣ c.offset ∧ bs ∣ c.len ∧ 0 < c.len

theorem endOf_append (cur : Nat) (a b : List Nat) : endOf cur (a ++ b) = endOf (endOf cur a) b := by simp [endOf, List.foldl_append]

theorem endOf_range (cur : Nat) : ∀ n, endOf cur (List.range' cur n) = cur + n := by
  intro n
  induction n generalizing cur with
  | zero => rfl
  | succ n ih =>
    rw [List.range'_succ]
    show endOf (cur + 1) _ = _
    rw [ih]; omega

theorem endOf_ge : ∀ (ks : List Nat) (cur : Nat), ks.Pairwise (· < ·) → (∀ k ∈ ks, cur ≤ k) → cur ≤ endOf cur ks ∧ ∀ k ∈ ks, k < endOf cur ks := by
  intro ks
  induction ks with
  | nil => intro cur _ _; exact ⟨Nat.le_refl _, by simp⟩
  | cons k ks ih =>
    intro cur hp hc
    obtain ⟨h1, h2⟩ := List.pairwise_cons.mp hp
    obtain ⟨i1, i2⟩ := ih (k + 1) h2 (fun x hx => h1 x hx)
    have e : endOf cur (k :: ks) = endOf (k + 1) ks := rfl
    have := hc k (by simp)
    rw [e]
    refine ⟨by omega, ?_⟩
    intro x hx
    rcases List.mem_cons.mp hx with rfl | hx
    · omega
    · exact i2 x hx

theorem mul64_eq {a b : Nat} (h : a * b < 2 ^ 64) : mul64 a b = a * b := Nat.mod_eq_of_lt h

theorem chunkBlocks_eq {bs cur n : Nat} (hb : 0 < bs) (k : Contents) : Chunk.blocks bs ⟨cur * bs, n * bs, k⟩ = (List.range' cur n).map fun b => (b, k) := by
  simp only [Chunk.blocks, Nat.mul_div_cancel _ hb]

/-- one call of `next_chunk` -/
theorem nextChunk_spec {rd : Bool → Nat → Option (Blk V)} {bs : Nat} {fuel : Nat} {stk : Stack V} {cur : Nat} {e : Nat × V} {rem : List (Nat × V)}
    (ho : On rd stk (e :: rem)) (hc : cur ≤ e.1) (hf : (e :: rem).length ≤ fuel) :
    (e.1 = cur ∧ ∃ stk', nextChunk rd fuel bs stk cur = .ok (some (⟨mul64 cur bs, mul64 (runLen cur ((e :: rem).map (·.1))) bs, .copy⟩, stk',
        cur + runLen cur ((e :: rem).map (·.1)))) ∧ On rd stk' ((e :: rem).drop (runLen cur ((e :: rem).map (·.1))))) ∨
    (cur < e.1 ∧ nextChunk rd fuel bs stk cur = .ok (some (⟨mul64 cur bs, mul64 (e.1 - cur) bs, .skip⟩, stk, e.1))) := by
  have hg := ho.1
  simp only [List.getElem?_cons_zero] at hg
  rw [nextChunk, hg]
  by_cases h : e.1 = cur
  · left
    refine ⟨h, ?_⟩
    obtain ⟨stk', r1, r2⟩ := contiguousRun_spec e.1 fuel (e :: rem) stk 0 (ho.2 (by simp)) (by simp) hf
    simp only [Nat.add_zero, Nat.zero_add] at r1 r2
    simp only [h, if_true] at r1 r2 ⊢
    rw [r1]
    exact ⟨stk', rfl, on_of_at r2⟩
  · right
    simp only [h, if_false, and_true]
    omega

/-- all chunks, from any block on -/
theorem chunks_spec {rd : Bool → Nat → Option (Blk V)} {bs : Nat} (hb : 0 < bs) {fuel : Nat} : ∀ (n : Nat) (rem : List (Nat × V)) (stk : Stack V) (cur : Nat),
    On rd stk rem → (rem.map (·.1)).Pairwise (· < ·) → (∀ k ∈ rem.map (·.1), cur ≤ k) → rem.length ≤ fuel → endOf cur (rem.map (·.1)) * bs < 2 ^ 64 →
    2 * rem.length + (if (rem.map (·.1))[0]? = some cur then 0 else 1) ≤ n →
    ∃ cs, chunks rd fuel bs (n + 1) stk cur = .ok cs ∧ (∀ c ∈ cs, c.Whole bs ∧ c.offset + c.len < 2 ^ 64) ∧
      cs.flatMap (Chunk.blocks bs) = (List.range' cur (endOf cur (rem.map (·.1)) - cur)).map (fun b => (b, wanted (rem.map (·.1)) b)) := by
  intro n
  induction n with
  | zero =>
    intro rem stk cur ho hp hge hf hlt hn
    have : rem = [] := List.length_eq_zero_iff.mp (by omega)
    subst this
    simp at hn
  | succ n ih =>
    intro rem stk cur ho hp hge hf hlt hn
    cases hr : rem with
    | nil =>
      subst hr
      have hg := ho.1
      simp only [List.getElem?_nil] at hg
      refine ⟨[], by rw [chunks, nextChunk, hg], by simp, by simp [endOf]⟩
    | cons e rem' =>
      subst hr
      obtain ⟨hge1, hge2⟩ := endOf_ge _ cur hp hge
      have hec : cur ≤ e.1 := hge e.1 (by simp)
      rcases nextChunk_spec (bs := bs) ho hec hf with ⟨h1, stk', h2, h3⟩ | ⟨h1, h2⟩
      · generalize hm : runLen cur ((e :: rem').map (·.1)) = m at h2 h3
        have hmpos : 0 < m := by rw [← hm]; simp [runLen, h1]
        have hmle : m ≤ (e :: rem').length := by rw [← hm]; simpa using runLen_le ((e :: rem').map (·.1)) cur
        have htake : ((e :: rem').map (·.1)).take m = List.range' cur m := by rw [← hm]; exact runLen_take _ _
        have hsplit : (e :: rem').map (·.1) = List.range' cur m ++ ((e :: rem').drop m).map (·.1) := by
          rw [← htake, List.map_drop, List.take_append_drop]
        generalize hks : (e :: rem').map (·.1) = ks at *
        generalize hds : ((e :: rem').drop m).map (·.1) = ds at *
        have hend : endOf cur ks = endOf (cur + m) ds := by rw [hsplit, endOf_append, endOf_range]
        have hpd : ds.Pairwise (· < ·) := by rw [hsplit] at hp; exact (List.pairwise_append.mp hp).2.1
        have hged : ∀ k ∈ ds, cur + m ≤ k := by
          intro k hk
          rw [hsplit] at hp
          have := (List.pairwise_append.mp hp).2.2 (cur + m - 1) (by rw [List.mem_range'_1]; omega) k hk
          omega
        have hend2 := endOf_ge ds (cur + m) hpd hged
        have hnot : ds[0]? ≠ some (cur + m) := by
          intro h
          have hks2 : ks = List.range' cur (m + 1) ++ ds.tail := by
            rw [hsplit, List.range'_concat, List.append_assoc]
            congr 1
            cases ds with
            | nil => simp at h
            | cons d ds => simp only [List.getElem?_cons_zero, Option.some.injEq] at h; simp [h]
          have hL : ∀ (p : Nat) (b : Nat) (l : List Nat), p ≤ runLen b (List.range' b p ++ l) := by
            intro p
            induction p with
            | zero => intro b l; omega
            | succ p ih =>
              intro b l
              rw [List.range'_succ, List.cons_append, runLen, if_pos rfl]
              have := ih (b + 1) l
              omega
          have := hL (m + 1) cur ds.tail
          rw [← hks2, hm] at this
          omega
        obtain ⟨cs, c1, c2, c3⟩ := ih ((e :: rem').drop m) stk' (cur + m) h3 (by rw [hds]; exact hpd) (by rw [hds]; exact hged)
          (by rw [List.length_drop]; omega) (by rw [hds, ← hend]; exact hlt) (by
            rw [hds, if_neg hnot, List.length_drop]
            simp only [List.length_cons] at hn hmle ⊢
            omega)
        have hcm : (cur + m) * bs < 2 ^ 64 := Nat.lt_of_le_of_lt (Nat.mul_le_mul_right bs hend2.1) (by rw [← hend]; exact hlt)
        have hmb : m * bs < 2 ^ 64 := Nat.lt_of_le_of_lt (Nat.mul_le_mul_right bs (by omega)) hcm
        have hcb : cur * bs < 2 ^ 64 := Nat.lt_of_le_of_lt (Nat.mul_le_mul_right bs (by omega)) hcm
        refine ⟨⟨cur * bs, m * bs, .copy⟩ :: cs, ?_, ?_, ?_⟩
        · rw [chunks, h2]
          simp only [c1, mul64_eq hmb, mul64_eq hcb]
        · intro c hc
          rcases List.mem_cons.mp hc with rfl | hc
          · exact ⟨⟨Nat.dvd_mul_left _ _, Nat.dvd_mul_left _ _, Nat.mul_pos hmpos hb⟩, by simp only; rw [← Nat.add_mul]; exact hcm⟩
          · exact c2 c hc
        · rw [List.flatMap_cons, c3, chunkBlocks_eq hb, hds, ← hend]
          have hrange : List.range' cur (endOf cur ks - cur) = List.range' cur m ++ List.range' (cur + m) (endOf cur ks - (cur + m)) := by
            rw [List.range'_append_1]
            congr 1
            omega
          rw [hrange, List.map_append]
          congr 1
          · apply List.map_congr_left
            intro b hb'
            rw [wanted, if_pos]
            rw [hsplit]
            exact List.mem_append.mpr (Or.inl hb')
          · apply List.map_congr_left
            intro b hb'
            rw [List.mem_range'_1] at hb'
            have : (b ∈ ds ↔ b ∈ ks) := by
              rw [hsplit, List.mem_append, List.mem_range'_1]
              constructor
              · exact Or.inr
              · rintro (h | h)
                · omega
                · exact h
            simp only [wanted, this]
      · have hskip : 2 * (e :: rem').length + 0 ≤ n := by
          rw [if_neg (by simp; omega)] at hn
          omega
        have hend : endOf cur ((e :: rem').map (·.1)) = endOf e.1 ((e :: rem').map (·.1)) := rfl
        obtain ⟨cs, c1, c2, c3⟩ := ih (e :: rem') stk e.1 ho hp (by
            intro k hk
            rcases List.mem_cons.mp hk with rfl | hk
            · exact Nat.le_refl _
            · exact Nat.le_of_lt ((List.pairwise_cons.mp hp).1 k hk)) hf (by rw [← hend]; exact hlt) (by rw [if_pos (by simp)]; exact hskip)
        have heb : e.1 * bs < 2 ^ 64 := Nat.lt_of_le_of_lt (Nat.mul_le_mul_right bs (Nat.le_of_lt (hge2 e.1 (by simp)))) hlt
        have hdb : (e.1 - cur) * bs < 2 ^ 64 := Nat.lt_of_le_of_lt (Nat.mul_le_mul_right bs (by omega)) heb
        have hcb : cur * bs < 2 ^ 64 := Nat.lt_of_le_of_lt (Nat.mul_le_mul_right bs (by omega)) heb
        refine ⟨⟨cur * bs, (e.1 - cur) * bs, .skip⟩ :: cs, ?_, ?_, ?_⟩
        · rw [chunks, h2]
          simp only [c1, mul64_eq hdb, mul64_eq hcb]
        · intro c hc
          rcases List.mem_cons.mp hc with rfl | hc
          · refine ⟨⟨Nat.dvd_mul_left _ _, Nat.dvd_mul_left _ _, Nat.mul_pos (by omega) hb⟩, ?_⟩
            simp only
            rw [← Nat.add_mul]
            exact Nat.lt_of_le_of_lt (Nat.mul_le_mul_right bs (by omega)) heb
          · exact c2 c hc
        · rw [List.flatMap_cons, c3, chunkBlocks_eq hb, ← hend]
          have hrange : List.range' cur (endOf cur ((e :: rem').map (·.1)) - cur) =
              List.range' cur (e.1 - cur) ++ List.range' e.1 (endOf cur ((e :: rem').map (·.1)) - e.1) := by
            have h5 := hge2 e.1 (by simp)
            have : cur + (e.1 - cur) = e.1 := by omega
            have h6 := List.range'_append_1 (s := cur) (m := e.1 - cur) (n := endOf cur ((e :: rem').map (·.1)) - e.1)
            rw [this] at h6
            rw [h6]
            congr 1
            omega
          rw [hrange, List.map_append]
          congr 1
          apply List.map_congr_left
          intro b hb'
          rw [List.mem_range'_1] at hb'
          rw [wanted, if_neg]
          intro hm
          rcases List.mem_cons.mp hm with h | hm
          · have : b = e.1 := h
            omega
          · have : e.1 < b := (List.pairwise_cons.mp hp).1 b hm
            omega

/-- the iterator at the beginning of a tree -/
theorem on_tree {rd : Bool → Nat → Option (Blk V)} {h : Nat} {t : Tree V h} (hs : t.Stored rd true h) (hn : h = 0 ∨ t.NoEmpty h) {fuel : Nat} (hf : h < fuel) :
    ∃ stk, iterNew rd fuel (t.blk h) = .ok stk ∧ On rd stk (t.contents h) := by
  by_cases hne : t.NoEmpty h
  · obtain ⟨stk, e1, e2⟩ := leftMost_spec h t [] [] hs hne .nil fuel hf
    rw [List.append_nil] at e2
    exact ⟨stk, e1, on_of_at e2⟩
  · have h0 : h = 0 := hn.resolve_right hne
    subst h0
    have he : t.2 = [] := by simpa [Tree.NoEmpty] using hne
    have hr : rd true t.1 = some (.leaf []) := by have := hs; simp only [Tree.Stored] at this; rw [this, he]
    obtain ⟨fuel, rfl⟩ : ∃ f, fuel = f + 1 := ⟨fuel - 1, by omega⟩
    refine ⟨[{ index := 0, node := .leaf [] }], ?_, ?_⟩
    · show leftMost rd (fuel + 1) [] t.1 = _
      simp [leftMost, pushLoc, hr]
    · show On rd _ t.2
      rw [he]
      exact ⟨rfl, fun h => absurd rfl h⟩

/-- C58, the stream: its chunks cover, one after another from block 0 to the end of the last mapped block, every block once; the mapped blocks are in chunks to copy, the others in
chunks to skip. -/
theorem stream_exact {rd : Bool → Nat → Option (Blk V)} {h : Nat} {t : Tree V h} (hs : t.Stored rd true h) (ho : t.Ordered h 0 none) (hn : h = 0 ∨ t.NoEmpty h)
    {bs fuel : Nat} (hb : 0 < bs) (hf : h < fuel) (hf2 : 2 * (t.contents h).length + 2 ≤ fuel) (hlt : endOf 0 ((t.contents h).map (·.1)) * bs < 2 ^ 64) :
    ∃ stk cs, iterNew rd fuel (t.blk h) = .ok stk ∧ chunks rd fuel bs fuel stk 0 = .ok cs ∧ (∀ c ∈ cs, c.Whole bs ∧ c.offset + c.len < 2 ^ 64) ∧
      cs.flatMap (Chunk.blocks bs) = (List.range (endOf 0 ((t.contents h).map (·.1)))).map (fun b => (b, wanted ((t.contents h).map (·.1)) b)) := by
  obtain ⟨stk, e1, e2⟩ := on_tree hs hn hf
  obtain ⟨fuel, rfl⟩ : ∃ f, fuel = f + 1 := ⟨fuel - 1, by omega⟩
  obtain ⟨cs, c1, c2, c3⟩ := chunks_spec hb (fuel := fuel + 1) fuel (t.contents h) stk 0 e2 (List.pairwise_map.mpr (LW.ordered_sorted h t 0 none ho)) (by simp) (by omega) hlt
    (by split <;> omega)
  refine ⟨stk, cs, e1, c1, c2, ?_⟩
  rw [c3, Nat.sub_zero, List.range_eq_range']

/-! ## The copy operations -/

theorem chunkOps_eq {bs : Nat} (hb : 0 < bs) {c : Chunk} (hw : c.Whole bs) (hlt : c.offset + c.len < 2 ^ 64) :
    chunkOps bs c = ((c.blocks bs).filter fun p => p.2 = .copy).map fun p => ⟨p.1, p.1⟩ := by
  obtain ⟨o, l, k⟩ := c
  obtain ⟨⟨x, rfl⟩, ⟨y, rfl⟩, -⟩ := hw
  cases k with
  | skip => simp [chunkOps, Chunk.blocks, List.filter_map]
  | copy =>
    simp only [chunkOps, Chunk.blocks] at hlt ⊢
    rw [Nat.mod_eq_of_lt hlt, ← Nat.mul_add, Nat.mul_div_cancel_left _ hb, Nat.mul_div_cancel_left _ hb, Nat.mul_div_cancel_left _ hb, List.filter_eq_self.mpr (by intro p hp; obtain ⟨b, -, rfl⟩ := List.mem_map.mp hp; simp), List.map_map]
    congr 2
    omega

/-- of the numbers below a bound of an ascending list, those in it are the list -/
theorem filter_range_sorted : ∀ (ks : List Nat) (s n : Nat), ks.Pairwise (· < ·) → (∀ k ∈ ks, s ≤ k ∧ k < s + n) → (List.range' s n).filter (fun b => b ∈ ks) = ks := by
  intro ks s n
  induction n generalizing s ks with
  | zero =>
    intro _ h
    have : ks = [] := List.eq_nil_iff_forall_not_mem.mpr (fun k hk => by have := h k hk; omega)
    subst this; rfl
  | succ n ih =>
    intro hp h
    rw [List.range'_succ, List.filter_cons]
    cases ks with
    | nil => simp
    | cons k ks =>
      obtain ⟨h1, h2⟩ := List.pairwise_cons.mp hp
      have hk := h k (by simp)
      by_cases hks : s = k
      · subst hks
        rw [if_pos (by simp)]
        congr 1
        have := ih ks (s + 1) h2 (fun x hx => ⟨h1 x hx, by have := h x (by simp [hx]); omega⟩)
        rw [← this]
        apply List.filter_congr
        intro b hb
        rw [List.mem_range'_1] at hb
        rw [this]
        have : b ≠ s := by omega
        simp [this]
      · have hns : s ∉ k :: ks := by
          intro hm
          rcases List.mem_cons.mp hm with h' | h'
          · exact hks h'
          · have := h1 s h'; omega
        rw [if_neg (by simpa using hns)]
        exact ih (k :: ks) (s + 1) hp (fun x hx => ⟨by have := h x hx; have : x ≠ s := fun e => hns (e ▸ hx); omega, by have := h x hx; omega⟩)

/-- The pool's metadata is readable and its snapshot has the device `id`, whose mappings are the tree `t`; block sizes of snapshot and table agree. -/
structure Vol {D : Type} (m : Meta D) (tbs id : Nat) (h : Nat) (t : Tree (Nat × Nat) h) (fuel : Nat) : Prop where
  pos : 0 < tbs
  stored : t.Stored m.maps true h
  ordered : t.Ordered h 0 none
  noEmpty : h = 0 ∨ t.NoEmpty h
  height : h < fuel
  size : 2 * (t.contents h).length + 2 ≤ fuel
  range : endOf 0 ((t.contents h).map (·.1)) * tbs < 2 ^ 64
  snap : ∃ dr mr, m.snap = some (dr, mr, tbs) ∧
    (∃ hd, ∃ td : Tree D hd, td.Stored m.details true hd ∧ td.Ordered hd 0 none ∧ td.blk hd = dr ∧ hd < fuel ∧ ∃ v, (id, v) ∈ td.contents hd) ∧
    ∃ hm, ∃ tm : Tree Nat hm, tm.Stored m.tops true hm ∧ tm.Ordered hm 0 none ∧ tm.blk hm = mr ∧ hm < fuel ∧ (id, t.blk h) ∈ tm.contents hm

theorem readById_ok {rd : Bool → Nat → Option (Blk V)} {h : Nat} {t : Tree V h} (hs : t.Stored rd true h) (ho : t.Ordered h 0 none) {fuel : Nat} (hf : h < fuel) {id : Nat} {v : V}
    (hm : (id, v) ∈ t.contents h) : readById rd fuel (t.blk h) id = .ok v := by
  obtain ⟨r, e1, e2⟩ := lookup_correct rd id h t true 0 none hs ho fuel hf
  rw [readById, e1, (e2 v).mpr hm]

/-- C58, the operations: one for every mapped block, in order, from and to the same place -/
theorem copyOps_exact {D : Type} {m : Meta D} {tbs id h fuel : Nat} {t : Tree (Nat × Nat) h} (hv : Vol m tbs id h t fuel) :
    copyOps m fuel tbs id = .ok (((t.contents h).map (·.1)).map fun b => ⟨b, b⟩) := by
  obtain ⟨dr, mr, e1, ⟨hd, td, d1, d2, rfl, d4, v, d5⟩, hm, tm, m1, m2, rfl, m4, m5⟩ := hv.snap
  obtain ⟨stk, cs, s1, s2, s3, s4⟩ := stream_exact hv.stored hv.ordered hv.noEmpty hv.pos hv.height hv.size hv.range
  have hsorted : ((t.contents h).map (·.1)).Pairwise (· < ·) := List.pairwise_map.mpr (LW.ordered_sorted h t 0 none hv.ordered)
  have hend := endOf_ge _ 0 hsorted (by simp)
  rw [copyOps, e1]
  simp only [readById_ok d1 d2 d4 d5, readById_ok m1 m2 m4 m5, s1, s2]
  congr 1
  have hfl : cs.flatMap (chunkOps tbs) = ((cs.flatMap (Chunk.blocks tbs)).filter fun p => p.2 = .copy).map fun p => ⟨p.1, p.1⟩ := by
    clear s2 s4
    induction cs with
    | nil => rfl
    | cons c cs ih =>
      rw [List.flatMap_cons, List.flatMap_cons, List.filter_append, List.map_append, ih (fun c' hc => s3 c' (by simp [hc])),
        chunkOps_eq hv.pos (s3 c (by simp)).1 (s3 c (by simp)).2]
  rw [hfl, s4, List.filter_map, List.map_map]
  have hf2 : ((fun p : Nat × Contents => decide (p.2 = .copy)) ∘ fun b => (b, wanted ((t.contents h).map (·.1)) b)) = fun b => decide (b ∈ (t.contents h).map (·.1)) := by
    funext b
    by_cases hb : b ∈ (t.contents h).map (·.1)
    · simp only [Function.comp_apply, wanted, if_pos hb]; simp [hb]
    · simp only [Function.comp_apply, wanted, if_neg hb]; simp [hb]
  have := filter_range_sorted _ 0 (endOf 0 ((t.contents h).map (·.1))) hsorted (fun k hk => ⟨Nat.zero_le _, by rw [Nat.zero_add]; exact hend.2 k hk⟩)
  rw [hf2, List.range_eq_range', this]
  rfl

/-! ## The tool -/

/-- block `b` of the source -/
def src (tbs b : Nat) : Loc := (false, b * (tbs * 512))

/-- block `b` of the destination -/
def dst (tbs b : Nat) : Loc := (true, b * (tbs * 512))

theorem separate_of {buf tbs : Nat} (hb : 0 < tbs) {ks : List Nat} (hk : ks.Pairwise (· < ·)) : Separate (cfg buf tbs) (ks.map fun b => ⟨b, b⟩) := by
  refine ⟨?_, ?_⟩
  · rw [List.map_map]
    refine List.pairwise_map.mpr (hk.imp ?_)
    intro a b hab h
    simp only [Function.comp_apply, Cfg.dstLoc, cfg, Prod.mk.injEq, Nat.add_zero, true_and] at h
    have := Nat.eq_of_mul_eq_mul_right (by omega) h
    omega
  · intro a _ b _ h
    simp [Cfg.srcLoc, Cfg.dstLoc, cfg] at h

/-- C58.  Whatever the devices answer and however the threads are scheduled: if `thin_migrate` succeeds, every block mapped in the snapshot has been copied to the
same place of the destination; if it does not, it names a mapped block that could not be read or written, or the buffer was chosen smaller than a block (and then
nothing is written).  In no case anything else changes, on the destination or on the source. -/
theorem migrate_correct {D : Type} {m : Meta D} {tbs id h fuel : Nat} {t : Tree (Nat × Nat) h} (hv : Vol m tbs id h t fuel) {zd : Bool} {opt : Option Nat} {s s' : Loc → β}
    {r : Except Err CopyQ.Res} (hr : Migrate m fuel tbs id zd opt s s' r) :
    (∀ l, (∀ e ∈ t.contents h, l ≠ dst tbs e.1) → s' l = s l) ∧
      match r with
      | .ok .ok => ∀ e ∈ t.contents h, s' (dst tbs e.1) = s (src tbs e.1)
      | .ok (.readError b) => ∃ e ∈ t.contents h, e.1 = b
      | .ok (.writeError b) => ∃ e ∈ t.contents h, e.1 = b
      | .ok .failed => False
      | .error e => e = .bufferTooSmall ∧ s' = s ∧ ∃ n, opt = some n ∧ n < tbs := by
  have hops := copyOps_exact hv
  have hsorted : ((t.contents h).map (·.1)).Pairwise (· < ·) := List.pairwise_map.mpr (LW.ordered_sorted h t 0 none hv.ordered)
  have hpos := hv.pos
  cases hr with
  | refused he => rw [hops] at he; cases he
  | small hlt =>
    refine ⟨fun _ _ => rfl, rfl, rfl, ?_⟩
    cases opt with
    | none => simp only [bufferSectors, Option.getD_none] at hlt; omega
    | some n => simp only [bufferSectors, Option.getD_some] at hlt; exact ⟨n, rfl, by omega⟩
  | @run _ _ r he hle hrun =>
    rw [hops] at he
    cases he
    have hz : 0 < bufferSectors opt tbs / tbs := Nat.div_pos (by omega) hpos
    obtain ⟨h1, h2⟩ := threaded_copy_correct (c := cfg (bufferSectors opt tbs) tbs) (by simp [cfg]; omega) (by simpa [cfg] using hle) _ hz (separate_of hpos hsorted) hrun
    have hmem : ∀ op : CopyOp, op ∈ ((t.contents h).map (·.1)).map (fun b => (⟨b, b⟩ : CopyOp)) ↔ ∃ e ∈ t.contents h, op = ⟨e.1, e.1⟩ := by
      intro op
      simp only [List.map_map, List.mem_map, Function.comp_apply]
      exact ⟨fun ⟨e, a, b⟩ => ⟨e, a, b.symm⟩, fun ⟨e, a, b⟩ => ⟨e, a, b.symm⟩⟩
    refine ⟨?_, ?_⟩
    · intro l hl
      refine h1 l ?_
      intro op ho
      obtain ⟨e, he, rfl⟩ := (hmem op).mp ho
      exact hl e he
    · cases r with
      | ok =>
        intro e he
        exact h2 ⟨e.1, e.1⟩ ((hmem _).mpr ⟨e, he, rfl⟩)
      | failed => exact h2
      | readError b =>
        obtain ⟨op, ho, hb⟩ := h2
        obtain ⟨e, he, rfl⟩ := (hmem op).mp ho
        exact ⟨e, he, hb⟩
      | writeError b =>
        obtain ⟨op, ho, hb⟩ := h2
        obtain ⟨e, he, rfl⟩ := (hmem op).mp ho
        exact ⟨e, he, hb⟩

/-- C58: a destination that is zero where the source is unmapped (a new file) becomes a copy of the source, if the source reads zero where it is unmapped. -/
theorem migrate_new_file {D : Type} {m : Meta D} {tbs id h fuel : Nat} {t : Tree (Nat × Nat) h} (hv : Vol m tbs id h t fuel) {zd : Bool} {opt : Option Nat} {s s' : Loc → β}
    (hr : Migrate m fuel tbs id zd opt s s' (.ok .ok)) {zero : β} (hsrc : ∀ b, b ∉ (t.contents h).map (·.1) → s (src tbs b) = zero) (hdst : ∀ l, s (true, l) = zero) :
    ∀ b, s' (dst tbs b) = s (src tbs b) := by
  obtain ⟨h1, h2⟩ := migrate_correct hv hr
  intro b
  by_cases hb : b ∈ (t.contents h).map (·.1)
  · obtain ⟨e, he, rfl⟩ := List.mem_map.mp hb
    exact h2 e he
  · rw [hsrc b hb, ← hdst (b * (tbs * 512))]
    refine h1 _ ?_
    intro e he hd
    simp only [dst, Prod.mk.injEq, true_and] at hd
    have hpos := hv.pos
    have := Nat.eq_of_mul_eq_mul_right (by omega) hd
    exact hb (List.mem_map.mpr ⟨e, he, this.symm⟩)

/-- there is a run of the tool -/
theorem migrate_exists {D : Type} {m : Meta D} {tbs id h fuel : Nat} {t : Tree (Nat × Nat) h} (hv : Vol m tbs id h t fuel) (zd : Bool) (opt : Option Nat)
    (hbuf : tbs ≤ bufferSectors opt tbs) (s : Loc → β) : ∃ s' r, Migrate m fuel tbs id zd opt s s' (.ok r) := by
  have hpos := hv.pos
  have hsorted : ((t.contents h).map (·.1)).Pairwise (· < ·) := List.pairwise_map.mpr (LW.ordered_sorted h t 0 none hv.ordered)
  have hz : 0 < bufferSectors opt tbs / tbs := Nat.div_pos hbuf hpos
  have hsep := separate_of (buf := bufferSectors opt tbs) hpos hsorted
  obtain ⟨s', r, hrun⟩ := run_exists (c := cfg (bufferSectors opt tbs) tbs) (by simp [cfg]; omega) (by simp [cfg]; omega)
    (batches (bufferSectors opt tbs / tbs) (((t.contents h).map (·.1)).map fun b => ⟨b, b⟩)) s (Separate.perm hsep (batches_correct _ hz _).1.symm)
  exact ⟨s', r, .run (copyOps_exact hv) (by omega) hrun⟩

/-- The full claim, that the destination is then a copy of the source, is false for a destination with old content: blocks unmapped in the source keep it, with
`--zero-dest` (`zd`) too. -/
theorem migrate_old_content_refuted {D : Type} {m : Meta D} {tbs id h fuel : Nat} {t : Tree (Nat × Nat) h} (hv : Vol m tbs id h t fuel) {zd : Bool} {opt : Option Nat} {s s' : Loc → β}
    (hr : Migrate m fuel tbs id zd opt s s' (.ok .ok)) {b : Nat} (hb : b ∉ (t.contents h).map (·.1)) (hold : s (dst tbs b) ≠ s (src tbs b)) :
    s' (dst tbs b) ≠ s' (src tbs b) := by
  obtain ⟨h1, -⟩ := migrate_correct hv hr
  rw [h1 (dst tbs b), h1 (src tbs b)]
  · exact hold
  · intro e _ hd; simp [src, dst] at hd
  · intro e he hd
    simp only [dst, Prod.mk.injEq, true_and] at hd
    have hpos := hv.pos
    have := Nat.eq_of_mul_eq_mul_right (by omega) hd
    exact hb (List.mem_map.mpr ⟨e, he, this.symm⟩)

/-! non-vacuity: a device with two runs of mapped blocks -/

/-- mappings of block 2, 3 and 8 in two leaves -/
def demoTree : Tree (Nat × Nat) 1 := (9, [(2, ((4, [(2, (20, 0)), (3, (30, 0))]) : Tree (Nat × Nat) 0)), (7, ((5, [(8, (80, 1))]) : Tree (Nat × Nat) 0))])

/-- a pool with the device 7 -/
def demoMeta : Meta Unit where
  snap := some (1, 2, 128)
  details _ b := if b = 1 then some (.leaf [(7, ())]) else none
  tops _ b := if b = 2 then some (.leaf [(3, 33), (7, 9)]) else none
  maps _ b := if b = 9 then some (.internal [(2, 4), (7, 5)]) else if b = 4 then some (.leaf [(2, (20, 0)), (3, (30, 0))]) else if b = 5 then some (.leaf [(8, (80, 1))]) else none

theorem demo_vol : Vol demoMeta 128 7 1 demoTree 20 := by
  refine ⟨by decide, ⟨rfl, ?_⟩, ?_, Or.inr ⟨by simp [demoTree], ?_⟩, by decide, by decide, by decide, 1, 2, rfl, ?_, ?_⟩
  · intro c hc; simp [demoTree] at hc; rcases hc with rfl | rfl <;> rfl
  · simp [demoTree, Tree.Ordered, Chain, Below, nextKey]
  · intro c hc; simp [demoTree] at hc; rcases hc with rfl | rfl <;> simp [Tree.NoEmpty]
  · exact ⟨0, (1, [(7, ())]), rfl, by simp [Tree.Ordered, Chain, Below], rfl, by decide, (), by simp [Tree.contents]⟩
  · exact ⟨0, (2, [(3, 33), (7, 9)]), rfl, by simp [Tree.Ordered, Chain, Below], rfl, by decide, by simp [Tree.contents, demoTree, Tree.blk]⟩

example : copyOps demoMeta 20 128 7 = .ok [⟨2, 2⟩, ⟨3, 3⟩, ⟨8, 8⟩] := copyOps_exact demo_vol

example : (do let stk ← iterNew demoMeta.maps 20 9; chunks demoMeta.maps 20 128 20 stk 0) =
    .ok [⟨0, 256, .skip⟩, ⟨256, 256, .copy⟩, ⟨512, 512, .skip⟩, ⟨1024, 128, .copy⟩] := by rfl

example (s : Loc → Nat) : ∃ s' r, Migrate demoMeta 20 128 7 false none s s' (.ok r) := migrate_exists demo_vol false none (by decide) s

end Verif.Mig
