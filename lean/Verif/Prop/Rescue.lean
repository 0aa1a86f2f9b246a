import Verif.Model.Rescue
import Verif.Prop.Copier

/-!
# C41: the rescue copier
-/

namespace Verif.Resc

open Verif.Cop

variable {β : Type}

/-! ## Specification -/

/-- The destinations are different blocks, and no destination page is a source page. -/
structure Separate (c : Cfg) (ops : List CopyOp) : Prop where
  dst : (ops.map (·.dst)).Nodup
  src : ∀ a ∈ ops, ∀ b ∈ ops, ∀ i j, i < c.pages → j < c.pages → c.srcPage a i ≠ c.dstPage b j

/-- What a run did, for the outcomes `rd`, `wr` of the accesses and the devices' contents `store0` before. -/
structure Rescued (c : Cfg) (rd wr : Nat → Nat → Outcome β) (ops : List CopyOp) (store0 store : Loc → β) (stats : Stats) (log : List (Loc × β)) : Prop where
  /-- every write has the content of the matching page of the source, which was read without an error in the same operation -/
  writes : ∀ l x, (l, x) ∈ log → ∃ k op i, ops[k]? = some op ∧ i < c.pages ∧ rd k i = none ∧ l = c.dstPage op i ∧ x = store0 (c.srcPage op i)
  /-- a page that was read and written has been copied, also when other pages of the block failed -/
  copied : ∀ k op i, ops[k]? = some op → i < c.pages → rd k i = none → wr k i = none → store (c.dstPage op i) = store0 (c.srcPage op i)
  /-- a page that was not read has not been touched at the destination -/
  unread : ∀ k op i, ops[k]? = some op → i < c.pages → rd k i ≠ none → store (c.dstPage op i) = store0 (c.dstPage op i)
  /-- nothing but the destinations has changed -/
  frame : ∀ l, (∀ op ∈ ops, ∀ i, i < c.pages → l ≠ c.dstPage op i) → store l = store0 l
  readErrors : ∀ op, op ∈ stats.readErrors ↔ ∃ k i, ops[k]? = some op ∧ i < c.pages ∧ rd k i ≠ none
  writeErrors : ∀ op, op ∈ stats.writeErrors ↔ ∃ k i, ops[k]? = some op ∧ i < c.pages ∧ rd k i = none ∧ wr k i ≠ none
  /-- a block counts as copied when all of its pages were read and written -/
  count : stats.nrCopied = (ops.filter fun op => op ∉ stats.readErrors ∧ op ∉ stats.writeErrors).length

/-! ## One operation -/

theorem doRead_spec (rd : Nat → Outcome β) (store : Loc → β) (loc : Nat → Loc) : ∀ (buf : List β) (i : Nat) (ok : List Nat),
    (doRead rd store loc i buf ok).1.length = buf.length ∧
    (∀ j, j < buf.length → rd (i + j) = none → (doRead rd store loc i buf ok).1[j]? = some (store (loc (i + j)))) ∧
    (∀ m, m ∈ (doRead rd store loc i buf ok).2.1 ↔ m ∈ ok ∨ (i ≤ m ∧ m < i + buf.length ∧ rd m = none)) ∧
    ((doRead rd store loc i buf ok).2.2 = 0 ↔ ∀ m, i ≤ m → m < i + buf.length → rd m = none) := by
  intro buf
  induction buf with
  | nil =>
    intro i ok
    refine ⟨rfl, by intro j hj; simp at hj, ?_, ?_⟩
    · intro m
      simp only [doRead, List.length_nil]
      constructor
      · exact Or.inl
      · rintro (h | ⟨h1, h2, -⟩)
        · exact h
        · omega
    · simp only [doRead, List.length_nil, true_iff]
      intro m h1 h2
      omega
  | cons b buf ih =>
    intro i ok
    cases hr : rd i with
    | none =>
      obtain ⟨h1, h2, h3, h4⟩ := ih (i + 1) (mark ok i)
      have e : doRead rd store loc i (b :: buf) ok = (store (loc i) :: (doRead rd store loc (i + 1) buf (mark ok i)).1,
        (doRead rd store loc (i + 1) buf (mark ok i)).2.1, (doRead rd store loc (i + 1) buf (mark ok i)).2.2) := by simp only [doRead, hr]
      rw [e]
      refine ⟨by simp [h1], ?_, ?_, ?_⟩
      · intro j hj hrd
        cases j with
        | zero => rfl
        | succ j =>
          rw [List.getElem?_cons_succ, h2 j (by simpa using hj) (by rw [show i + 1 + j = i + (j + 1) by omega]; exact hrd), show i + 1 + j = i + (j + 1) by omega]
      · intro m
        show m ∈ (doRead rd store loc (i + 1) buf (mark ok i)).2.1 ↔ _
        rw [h3 m, List.length_cons]
        have hm : m ∈ mark ok i ↔ m ∈ ok ∨ m = i := by
          unfold mark
          split
          · constructor
            · exact Or.inl
            · rintro (h | rfl)
              · exact h
              · assumption
          · simp only [List.mem_cons]; exact Or.comm
        rw [hm]
        constructor
        · rintro ((h | rfl) | ⟨a, b, d⟩)
          · exact Or.inl h
          · exact Or.inr ⟨Nat.le_refl _, by omega, hr⟩
          · exact Or.inr ⟨by omega, by omega, d⟩
        · rintro (h | ⟨a, b, d⟩)
          · exact Or.inl (Or.inl h)
          · by_cases e : m = i
            · exact Or.inl (Or.inr e)
            · exact Or.inr ⟨by omega, by omega, d⟩
      · show (doRead rd store loc (i + 1) buf (mark ok i)).2.2 = 0 ↔ _
        rw [h4, List.length_cons]
        constructor
        · intro h m a b
          by_cases e : m = i
          · rw [e]; exact hr
          · exact h m (by omega) (by omega)
        · intro h m a b
          exact h m (by omega) (by omega)
    | some junk =>
      obtain ⟨h1, h2, h3, h4⟩ := ih (i + 1) ok
      have e : doRead rd store loc i (b :: buf) ok = (junk.getD b :: (doRead rd store loc (i + 1) buf ok).1,
        (doRead rd store loc (i + 1) buf ok).2.1, (doRead rd store loc (i + 1) buf ok).2.2 + 1) := by simp only [doRead, hr]
      rw [e]
      refine ⟨by simp [h1], ?_, ?_, ?_⟩
      · intro j hj hrd
        cases j with
        | zero => rw [Nat.add_zero, hr] at hrd; cases hrd
        | succ j =>
          rw [List.getElem?_cons_succ, h2 j (by simpa using hj) (by rw [show i + 1 + j = i + (j + 1) by omega]; exact hrd), show i + 1 + j = i + (j + 1) by omega]
      · intro m
        show m ∈ (doRead rd store loc (i + 1) buf ok).2.1 ↔ _
        rw [h3 m, List.length_cons]
        constructor
        · rintro (h | ⟨a, b, d⟩)
          · exact Or.inl h
          · exact Or.inr ⟨by omega, by omega, d⟩
        · rintro (h | ⟨a, b, d⟩)
          · exact Or.inl h
          · by_cases e : m = i
            · rw [e, hr] at d; cases d
            · exact Or.inr ⟨by omega, by omega, d⟩
      · show (doRead rd store loc (i + 1) buf ok).2.2 + 1 = 0 ↔ _
        constructor
        · intro h; omega
        · intro h
          have := h i (Nat.le_refl _) (by rw [List.length_cons]; omega)
          rw [hr] at this
          cases this

theorem put_same (store : Loc → β) (l : Loc) (x : β) : put store l x l = x := by simp [put]
theorem put_other (store : Loc → β) {l k : Loc} (x : β) (h : k ≠ l) : put store l x k = store k := by simp [put, h]

theorem doWrite_spec (wr : Nat → Outcome β) (loc : Nat → Loc) (buf : List β) : ∀ (sel : List Nat) (store : Loc → β), (∀ i ∈ sel, i < buf.length) → sel.Nodup →
    (∀ i ∈ sel, ∀ j ∈ sel, loc i = loc j → i = j) →
    ∃ r, doWrite wr loc buf sel store = some r ∧ (∀ l, (∀ i ∈ sel, l ≠ loc i) → r.1 l = store l) ∧ (∀ i ∈ sel, wr i = none → buf[i]? = some (r.1 (loc i))) ∧
      (∀ l x, (l, x) ∈ r.2.1 → ∃ i ∈ sel, l = loc i ∧ buf[i]? = some x) ∧ (r.2.2 = 0 ↔ ∀ i ∈ sel, wr i = none) := by
  intro sel
  induction sel with
  | nil =>
    intro store _ _ _
    exact ⟨(store, [], 0), rfl, fun _ _ => rfl, (by intro i h; cases h), (by intro l x h; cases h), by simp⟩
  | cons i sel ih =>
    intro store hb hn hl
    obtain ⟨n1, n2⟩ := List.nodup_cons.mp hn
    have hi : i < buf.length := hb i List.mem_cons_self
    have hget : buf[i]? = some buf[i] := List.getElem?_eq_getElem hi
    have key : ∀ (store1 : Loc → β) (d : Nat), (∀ l, l ≠ loc i → store1 l = store l) → (wr i = none → store1 (loc i) = buf[i]) → (d = 0 ↔ wr i = none) →
        ∃ r, (doWrite wr loc buf sel store1).map (fun r => (r.1, (loc i, buf[i]) :: r.2.1, r.2.2 + d)) = some r ∧ (∀ l, (∀ j ∈ i :: sel, l ≠ loc j) → r.1 l = store l) ∧
          (∀ j ∈ i :: sel, wr j = none → buf[j]? = some (r.1 (loc j))) ∧
          (∀ l x, (l, x) ∈ r.2.1 → ∃ j ∈ i :: sel, l = loc j ∧ buf[j]? = some x) ∧ (r.2.2 = 0 ↔ ∀ j ∈ i :: sel, wr j = none) := by
      intro store1 d k1 k2 k3
      obtain ⟨r, r1, r2, r3, r4, r5⟩ := ih store1 (fun j hj => hb j (List.mem_cons_of_mem _ hj)) n2
        (fun a ha b hb e => hl a (List.mem_cons_of_mem _ ha) b (List.mem_cons_of_mem _ hb) e)
      refine ⟨_, by rw [r1]; rfl, ?_, ?_, ?_, ?_⟩
      · intro l h
        show r.1 l = _
        rw [r2 l (fun j hj => h j (List.mem_cons_of_mem _ hj)), k1 l (h i List.mem_cons_self)]
      · intro j hj hw
        rcases List.mem_cons.mp hj with rfl | hj
        · show _ = some (r.1 _)
          rw [r2, k2 hw, hget]
          intro k hk e
          exact n1 (hl _ List.mem_cons_self k (List.mem_cons_of_mem _ hk) e ▸ hk)
        · exact r3 j hj hw
      · intro l x h
        rcases List.mem_cons.mp h with h | h
        · cases h
          exact ⟨i, List.mem_cons_self, rfl, hget⟩
        · obtain ⟨j, j1, j2⟩ := r4 l x h
          exact ⟨j, List.mem_cons_of_mem _ j1, j2⟩
      · show r.2.2 + d = 0 ↔ _
        rw [Nat.add_eq_zero_iff, r5, k3, List.forall_mem_cons]
        exact And.comm
    cases hw : wr i with
    | none =>
      have := key (put store (loc i) buf[i]) 0 (fun l h => put_other _ _ h) (fun _ => put_same _ _ _) (by simp [hw])
      simpa only [doWrite, hget, hw, Nat.add_zero] using this
    | some junk =>
      cases junk with
      | none =>
        have := key store 1 (fun _ _ => rfl) (fun h => by rw [hw] at h; cases h) (by simp [hw])
        simpa only [doWrite, hget, hw] using this
      | some y =>
        have := key (put store (loc i) y) 1 (fun l h => put_other _ _ h) (fun h => by rw [hw] at h; cases h) (by simp [hw])
        simpa only [doWrite, hget, hw] using this

/-- one turn of the loop -/
structure OneOK (c : Cfg) (rd wr : Nat → Outcome β) (op : CopyOp) (s t : St β) : Prop where
  buf : t.buf.length = c.pages
  copied : ∀ i, i < c.pages → rd i = none → wr i = none → t.store (c.dstPage op i) = s.store (c.srcPage op i)
  frame : ∀ l, (∀ i, i < c.pages → rd i = none → l ≠ c.dstPage op i) → t.store l = s.store l
  log : ∃ new, t.log = s.log ++ new ∧ ∀ l x, (l, x) ∈ new → ∃ i, i < c.pages ∧ rd i = none ∧ l = c.dstPage op i ∧ x = s.store (c.srcPage op i)
  re : t.stats.readErrors = s.stats.readErrors ++ [] ∧ (∀ i, i < c.pages → rd i = none) ∨ t.stats.readErrors = s.stats.readErrors ++ [op] ∧ (∃ i, i < c.pages ∧ rd i ≠ none)
  we : t.stats.writeErrors = s.stats.writeErrors ++ [] ∧ (∀ i, i < c.pages → rd i = none → wr i = none) ∨
    t.stats.writeErrors = s.stats.writeErrors ++ [op] ∧ (∃ i, i < c.pages ∧ rd i = none ∧ wr i ≠ none)
  nr : t.stats.nrCopied = s.stats.nrCopied + 1 ∧ (∀ i, i < c.pages → rd i = none ∧ wr i = none) ∨
    t.stats.nrCopied = s.stats.nrCopied ∧ (∃ i, i < c.pages ∧ (rd i ≠ none ∨ wr i ≠ none))

theorem dstPage_inj (c : Cfg) {a b : CopyOp} {i j : Nat} (hi : i < c.pages) (hj : j < c.pages) (h : c.dstPage a i = c.dstPage b j) : a.dst = b.dst ∧ i = j := by
  simp only [Cfg.dstPage, Prod.mk.injEq, true_and, pageSize] at h
  have e : a.dst * c.pages + i = b.dst * c.pages + j := by
    rw [← Nat.mul_assoc, ← Nat.mul_assoc] at h
    omega
  have h1 : (a.dst * c.pages + i) / c.pages = a.dst := by
    rw [Nat.add_comm, Nat.add_mul_div_right _ _ (by omega), Nat.div_eq_of_lt hi, Nat.zero_add]
  have h2 : (b.dst * c.pages + j) / c.pages = b.dst := by
    rw [Nat.add_comm, Nat.add_mul_div_right _ _ (by omega), Nat.div_eq_of_lt hj, Nat.zero_add]
  have : a.dst = b.dst := by rw [← h1, e, h2]
  refine ⟨this, ?_⟩
  rw [this] at e
  omega

theorem copyOne_spec (c : Cfg) (rd wr : Nat → Outcome β) (op : CopyOp) (s : St β) (hb : s.buf.length = c.pages) :
    ∃ t, copyOne c rd wr op s = some t ∧ OneOK c rd wr op s t := by
  obtain ⟨d1, d2, d3, d4⟩ := doRead_spec rd s.store (c.srcPage op) s.buf 0 []
  unfold copyOne
  generalize doRead rd s.store (c.srcPage op) 0 s.buf [] = r at d1 d2 d3 d4
  simp only [hb, Nat.zero_add, List.not_mem_nil, false_or, Nat.zero_le, true_and, forall_const] at d1 d2 d3 d4
  have hones : ∀ i, i ∈ ones c.pages r.2.1 ↔ i < c.pages ∧ rd i = none := by
    intro i
    simp only [ones, List.mem_filter, List.mem_range, decide_eq_true_eq, d3 i]
    constructor
    · rintro ⟨-, h⟩; exact h
    · intro h; exact ⟨h.1, h⟩
  obtain ⟨w, w1, w2, w3, w4, w5⟩ := doWrite_spec wr (c.dstPage op) r.1 (ones c.pages r.2.1) s.store (fun i hi => by rw [d1]; exact ((hones i).mp hi).1)
    (List.nodup_range.sublist List.filter_sublist) (fun i hi j hj e => (dstPage_inj c ((hones i).mp hi).1 ((hones j).mp hj).1 e).2)
  simp only [w1, Option.map_some]
  refine ⟨_, rfl, ?_⟩
  have hr0 : r.2.2 > 0 → ∃ i, i < c.pages ∧ rd i ≠ none := by
    intro h
    by_contra hne
    have : r.2.2 = 0 := d4.mpr (fun m hm => Classical.byContradiction fun h2 => hne ⟨m, hm, h2⟩)
    omega
  have hw0 : w.2.2 > 0 → ∃ i, i < c.pages ∧ rd i = none ∧ wr i ≠ none := by
    intro h
    by_contra hne
    have : w.2.2 = 0 := w5.mpr (fun m hm => Classical.byContradiction fun h2 => hne ⟨m, ((hones m).mp hm).1, ((hones m).mp hm).2, h2⟩)
    omega
  have hw1 : w.2.2 = 0 → ∀ i, i < c.pages → rd i = none → wr i = none := fun h i h1 h2 => w5.mp h i ((hones i).mpr ⟨h1, h2⟩)
  refine ⟨by exact d1, ?_, ?_, ?_, ?_, ?_, ?_⟩
  · intro i h1 h2 h3
    have e1 := w3 i ((hones i).mpr ⟨h1, h2⟩) h3
    rw [d2 i h1 h2] at e1
    exact (Option.some.inj e1).symm
  · intro l hl
    exact w2 l (fun i hi => hl i ((hones i).mp hi).1 ((hones i).mp hi).2)
  · refine ⟨_, rfl, ?_⟩
    intro l x hx
    obtain ⟨i, i1, i2, i3⟩ := w4 l x hx
    obtain ⟨i4, i5⟩ := (hones i).mp i1
    rw [d2 i i4 i5] at i3
    exact ⟨i, i4, i5, i2, (Option.some.inj i3).symm⟩
  · simp only
    by_cases c1 : r.2.2 > 0
    · refine Or.inr ⟨?_, hr0 c1⟩
      rw [if_pos c1]
      split
      · rfl
      · split <;> rfl
    · refine Or.inl ⟨?_, d4.mp (by omega)⟩
      rw [if_neg c1, List.append_nil]
      split
      · rfl
      · split <;> rfl
  · simp only
    by_cases c2 : w.2.2 > 0
    · refine Or.inr ⟨?_, hw0 c2⟩
      rw [if_pos c2]
      split <;> rfl
    · refine Or.inl ⟨?_, hw1 (by omega)⟩
      rw [if_neg c2, List.append_nil]
      split <;> split <;> rfl
  · simp only
    by_cases c2 : w.2.2 > 0
    · obtain ⟨i, i1, i2, i3⟩ := hw0 c2
      refine Or.inr ⟨?_, i, i1, Or.inr i3⟩
      rw [if_pos c2]
      split <;> rfl
    · rw [if_neg c2]
      by_cases c1 : r.2.2 > 0
      · obtain ⟨i, i1, i2⟩ := hr0 c1
        refine Or.inr ⟨?_, i, i1, Or.inl i2⟩
        rw [if_pos c1, if_neg (by omega)]
      · refine Or.inl ⟨?_, fun i hi => ⟨d4.mp (by omega) i hi, hw1 (by omega) i hi (d4.mp (by omega) i hi)⟩⟩
        rw [if_neg c1, if_pos (by omega)]

/-! ## All operations -/

/-- an operation that failed to read a page -/
def BadRead (c : Cfg) (rd : Nat → Nat → Outcome β) (k : Nat) : Prop := ∃ i, i < c.pages ∧ rd k i ≠ none

/-- an operation that failed to write a page -/
def BadWrite (c : Cfg) (rd wr : Nat → Nat → Outcome β) (k : Nat) : Prop := ∃ i, i < c.pages ∧ rd k i = none ∧ wr k i ≠ none

/-- the loop; `k` operations were processed before -/
structure FromOK (c : Cfg) (rd wr : Nat → Nat → Outcome β) (k : Nat) (ops : List CopyOp) (s t : St β) : Prop where
  copied : ∀ j op i, ops[j]? = some op → i < c.pages → rd (k + j) i = none → wr (k + j) i = none → t.store (c.dstPage op i) = s.store (c.srcPage op i)
  frame : ∀ l, (∀ j op i, ops[j]? = some op → i < c.pages → rd (k + j) i = none → l ≠ c.dstPage op i) → t.store l = s.store l
  log : ∃ new, t.log = s.log ++ new ∧ ∀ l x, (l, x) ∈ new → ∃ j op i, ops[j]? = some op ∧ i < c.pages ∧ rd (k + j) i = none ∧ l = c.dstPage op i ∧ x = s.store (c.srcPage op i)
  stats : ∃ re we, t.stats.readErrors = s.stats.readErrors ++ re ∧ t.stats.writeErrors = s.stats.writeErrors ++ we ∧
    (∀ op, op ∈ re ↔ ∃ j, ops[j]? = some op ∧ BadRead c rd (k + j)) ∧ (∀ op, op ∈ we ↔ ∃ j, ops[j]? = some op ∧ BadWrite c rd wr (k + j)) ∧
    t.stats.nrCopied = s.stats.nrCopied + (ops.filter fun op => op ∉ re ∧ op ∉ we).length

theorem Separate.tail {c : Cfg} {op : CopyOp} {ops : List CopyOp} (h : Separate c (op :: ops)) : Separate c ops :=
  ⟨(List.nodup_cons.mp h.dst).2, fun a ha b hb => h.src a (List.mem_cons_of_mem _ ha) b (List.mem_cons_of_mem _ hb)⟩

theorem mem_of_get {α : Type} {l : List α} {i : Nat} {a : α} (h : l[i]? = some a) : a ∈ l := List.mem_iff_getElem?.mpr ⟨i, h⟩

theorem copyFrom_spec (c : Cfg) (rd wr : Nat → Nat → Outcome β) : ∀ (ops : List CopyOp) (k : Nat) (s : St β), s.buf.length = c.pages → Separate c ops →
    ∃ t, copyFrom c rd wr k ops s = some t ∧ FromOK c rd wr k ops s t := by
  intro ops
  induction ops with
  | nil =>
    intro k s hb hs
    refine ⟨s, rfl, ?_, fun _ _ => rfl, ⟨[], by simp, by intro l x h; cases h⟩, [], [], by simp, by simp, ?_, ?_, by simp⟩
    · intro j op i h; simp at h
    · intro op; simp
    · intro op; simp
  | cons op ops ih =>
    intro k s hb hs
    obtain ⟨u, u1, u2⟩ := copyOne_spec c (rd k) (wr k) op s hb
    obtain ⟨t, t1, t2⟩ := ih (k + 1) u u2.buf hs.tail
    have hk : ∀ j, k + 1 + j = k + (j + 1) := by intro j; omega
    have hnm : op.dst ∉ ops.map (·.dst) := (List.nodup_cons.mp hs.dst).1
    have hne : ∀ o ∈ ops, ∀ i j, i < c.pages → j < c.pages → c.dstPage op i ≠ c.dstPage o j := by
      intro o ho i j hi hj e
      exact hnm (List.mem_map.mpr ⟨o, ho, (dstPage_inj c hi hj e).1.symm⟩)
    have hop : op ∉ ops := fun h => hnm (List.mem_map.mpr ⟨op, h, rfl⟩)
    have hsrc : ∀ o ∈ ops, ∀ i, i < c.pages → u.store (c.srcPage o i) = s.store (c.srcPage o i) := by
      intro o ho i hi
      exact u2.frame _ (fun j hj _ => hs.src o (List.mem_cons_of_mem _ ho) op List.mem_cons_self i j hi hj)
    refine ⟨t, by rw [copyFrom, u1]; exact t1, ?_, ?_, ?_, ?_⟩
    · intro j o i hj hi h1 h2
      cases j with
      | zero =>
        simp only [List.getElem?_cons_zero, Option.some.injEq] at hj
        subst hj
        rw [t2.frame _ (fun j' o' i' hj' hi' _ => hne o' (mem_of_get hj') i i' hi hi')]
        exact u2.copied i hi h1 h2
      | succ j =>
        rw [List.getElem?_cons_succ] at hj
        rw [t2.copied j o i hj hi (by rw [hk]; exact h1) (by rw [hk]; exact h2), hsrc o (mem_of_get hj) i hi]
    · intro l hl
      rw [t2.frame l (fun j o i hj hi h1 => hl (j + 1) o i (by rw [List.getElem?_cons_succ]; exact hj) hi (by rw [← hk]; exact h1))]
      exact u2.frame l (fun i hi h1 => hl 0 op i rfl hi h1)
    · obtain ⟨n1, e1, m1⟩ := u2.log
      obtain ⟨n2, e2, m2⟩ := t2.log
      refine ⟨n1 ++ n2, by rw [e2, e1, List.append_assoc], ?_⟩
      intro l x h
      rcases List.mem_append.mp h with h | h
      · obtain ⟨i, i1, i2, i3, i4⟩ := m1 l x h
        exact ⟨0, op, i, rfl, i1, i2, i3, i4⟩
      · obtain ⟨j, o, i, j1, j2, j3, j4, j5⟩ := m2 l x h
        exact ⟨j + 1, o, i, j1, j2, (by rw [← hk]; exact j3), j4, by rw [j5, hsrc o (mem_of_get j1) i j2]⟩
    · obtain ⟨re, we, r1, r2, r3, r4, r5⟩ := t2.stats
      have hre : op ∉ re := fun h => by obtain ⟨j, j1, -⟩ := (r3 op).mp h; exact hop (mem_of_get j1)
      have hwe : op ∉ we := fun h => by obtain ⟨j, j1, -⟩ := (r4 op).mp h; exact hop (mem_of_get j1)
      -- the errors of this operation
      obtain ⟨re0, a1, a2⟩ : ∃ re0, u.stats.readErrors = s.stats.readErrors ++ re0 ∧ ∀ o, o ∈ re0 ↔ o = op ∧ BadRead c rd k := by
        rcases u2.re with ⟨h1, h2⟩ | ⟨h1, i, h2, h3⟩
        · refine ⟨[], h1, ?_⟩
          intro o
          constructor
          · intro h; cases h
          · rintro ⟨-, i, h3, h4⟩; exact absurd (h2 i h3) h4
        · refine ⟨[op], h1, ?_⟩
          intro o
          rw [List.mem_singleton]
          exact ⟨fun h => ⟨h, i, h2, h3⟩, fun h => h.1⟩
      obtain ⟨we0, b1, b2⟩ : ∃ we0, u.stats.writeErrors = s.stats.writeErrors ++ we0 ∧ ∀ o, o ∈ we0 ↔ o = op ∧ BadWrite c rd wr k := by
        rcases u2.we with ⟨h1, h2⟩ | ⟨h1, i, h2, h3⟩
        · refine ⟨[], h1, ?_⟩
          intro o
          constructor
          · intro h; cases h
          · rintro ⟨-, i, h3, h4, h5⟩; exact absurd (h2 i h3 h4) h5
        · refine ⟨[op], h1, ?_⟩
          intro o
          rw [List.mem_singleton]
          exact ⟨fun h => ⟨h, i, h2, h3⟩, fun h => h.1⟩
      refine ⟨re0 ++ re, we0 ++ we, by rw [r1, a1, List.append_assoc], by rw [r2, b1, List.append_assoc], ?_, ?_, ?_⟩
      · intro o
        rw [List.mem_append, a2, r3]
        constructor
        · rintro (⟨rfl, h⟩ | ⟨j, h1, h2⟩)
          · exact ⟨0, rfl, h⟩
          · exact ⟨j + 1, h1, by rw [← hk]; exact h2⟩
        · rintro ⟨j, h1, h2⟩
          cases j with
          | zero => exact Or.inl ⟨(Option.some.inj h1).symm, h2⟩
          | succ j => exact Or.inr ⟨j, h1, by rw [hk]; exact h2⟩
      · intro o
        rw [List.mem_append, b2, r4]
        constructor
        · rintro (⟨rfl, h⟩ | ⟨j, h1, h2⟩)
          · exact ⟨0, rfl, h⟩
          · exact ⟨j + 1, h1, by rw [← hk]; exact h2⟩
        · rintro ⟨j, h1, h2⟩
          cases j with
          | zero => exact Or.inl ⟨(Option.some.inj h1).symm, h2⟩
          | succ j => exact Or.inr ⟨j, h1, by rw [hk]; exact h2⟩
      · have hrest : (ops.filter fun o => o ∉ re0 ++ re ∧ o ∉ we0 ++ we) = ops.filter fun o => o ∉ re ∧ o ∉ we := by
          apply List.filter_congr
          intro o ho
          have n1 : o ∉ re0 := fun h => hop (((a2 o).mp h).1 ▸ ho)
          have n2 : o ∉ we0 := fun h => hop (((b2 o).mp h).1 ▸ ho)
          simp [n1, n2]
        rw [r5, List.filter_cons, hrest]
        rcases u2.nr with ⟨h1, h2⟩ | ⟨h1, i, h2, h3⟩
        · have n1 : op ∉ re0 := fun h => by obtain ⟨-, i, i1, i2⟩ := (a2 op).mp h; exact i2 (h2 i i1).1
          have n2 : op ∉ we0 := fun h => by obtain ⟨-, i, i1, -, i2⟩ := (b2 op).mp h; exact i2 (h2 i i1).2
          rw [if_pos (by simp [n1, n2, hre, hwe]), h1, List.length_cons]
          omega
        · have : op ∈ re0 ∨ op ∈ we0 := by
            by_cases hb : rd k i = none
            · exact Or.inr ((b2 op).mpr ⟨rfl, i, h2, hb, h3.resolve_left (fun h => h hb)⟩)
            · exact Or.inl ((a2 op).mpr ⟨rfl, i, h2, hb⟩)
          rw [if_neg, h1]
          rcases this with h | h <;> simp [h]

/-- C41: whatever pages fail, the rescue copier writes only data it has read in the same operation from the matching page, copies every page it can read and write, leaves all else
alone, and its statistics are exact. -/
theorem rescue_correct (c : Cfg) (rd wr : Nat → Nat → Outcome β) (ops : List CopyOp) (buf : List β) (store0 : Loc → β) (hb : buf.length = c.pages) (hs : Separate c ops) :
    ∃ t, copy c rd wr ops buf store0 = some t ∧ Rescued c rd wr ops store0 t.store t.stats t.log := by
  obtain ⟨t, t1, t2⟩ := copyFrom_spec c rd wr ops 0 ⟨buf, [], store0, ⟨0, [], []⟩, []⟩ hb hs
  refine ⟨t, t1, ?_⟩
  obtain ⟨new, e1, e2⟩ := t2.log
  obtain ⟨re, we, r1, r2, r3, r4, r5⟩ := t2.stats
  have hc := t2.copied
  have hfr := t2.frame
  simp only [List.nil_append] at e1 r1 r2
  simp only [Nat.zero_add] at r3 r4 r5 hc hfr e2
  subst e1
  subst r1
  subst r2
  refine ⟨e2, hc, ?_, ?_, ?_, ?_, r5⟩
  · intro k op i hk hi hr
    refine hfr _ ?_
    intro j o i' hj hi' h1 e
    obtain ⟨e3, e4⟩ := dstPage_inj c hi hi' e
    have hkl := (List.getElem?_eq_some_iff.mp hk).1
    have : k = j := by
      refine (List.getElem?_inj (l := ops.map (·.dst)) (by rw [List.length_map]; exact hkl) hs.dst).mp ?_
      rw [List.getElem?_map, List.getElem?_map, hk, hj]
      simp only [Option.map_some, e3]
    subst this
    subst e4
    exact hr h1
  · intro l hl
    exact hfr l (fun j op i hj hi _ => hl op (mem_of_get hj) i hi)
  · intro op
    rw [r3]
    constructor
    · rintro ⟨j, h1, i, h2, h3⟩; exact ⟨j, i, h1, h2, h3⟩
    · rintro ⟨j, i, h1, h2, h3⟩; exact ⟨j, h1, i, h2, h3⟩
  · intro op
    rw [r4]
    constructor
    · rintro ⟨j, h1, i, h2, h3⟩; exact ⟨j, i, h1, h2, h3⟩
    · rintro ⟨j, i, h1, h2, h3⟩; exact ⟨j, h1, i, h2, h3⟩

/-! ## Examples: two blocks of two pages; page 1 of the first and page 0 of the second cannot be read -/

def exCfg : Cfg := ⟨2, 0, 0, false⟩
def exOps : List CopyOp := [⟨3, 1⟩, ⟨0, 2⟩, ⟨1, 0⟩]

theorem exSeparate : Separate exCfg exOps := ⟨by decide, by intro a _ b _ i j _ _ h; simp [Cfg.srcPage, Cfg.dstPage, exCfg] at h⟩

example : ((copy exCfg (fun k i => if (k, i) = (0, 1) ∨ (k, i) = (1, 0) then some none else none) (fun _ _ => none) exOps [7, 7] (fun l => l.2)).map
    fun t => (t.stats, t.log)) =
  some (⟨1, [⟨3, 1⟩, ⟨0, 2⟩], []⟩, [((true, 8192), 24576), ((true, 20480), 4096), ((true, 0), 8192), ((true, 4096), 12288)]) := by decide

end Verif.Resc
