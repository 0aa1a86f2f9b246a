import Verif.Prop.ThinCheckExact

/-!
# C47: what `thin_check` misses, and a case that meets the hypotheses of the theorems

Concrete devices on which the unrestricted claim "accepted iff undamaged, and the tool always finishes" is false of the code.
-/

namespace Verif.TChk

open Verif.BT (Blk KeyRange splitKeyRanges Tree)

/-- a device of six blocks, everything readable -/
def devOf (f : Nat → Option (Blk Nat)) : Dev := ⟨10, fun b => if b < 10 then f b else none, fun b => if b < 10 then f b else none, fun _ _ => true, fun _ => true⟩

/-- fresh space maps -/
def fresh (nr : Nat) : Sm := ⟨nr, 255, false, fun _ => 0⟩

/-! ## Two devices that share a leaf -/

def shared : Dev := devOf fun b =>
  if b = 1 then some (.internal [(0, 3), (5, 4)]) else if b = 2 then some (.internal [(0, 3), (5, 5)])
  else if b = 3 then some (.leaf [(0, 7 * 2 ^ 24), (2, 8 * 2 ^ 24)]) else if b = 4 then some (.leaf [(5, 9 * 2 ^ 24)]) else if b = 5 then some (.leaf [(6, 7 * 2 ^ 24)]) else none

theorem shared_rd {b : Nat} {n : Blk Nat} (h : shared.rd b = some n) :
    (b = 1 ∧ n = .internal [(0, 3), (5, 4)]) ∨ (b = 2 ∧ n = .internal [(0, 3), (5, 5)]) ∨ (b = 3 ∧ n = .leaf [(0, 7 * 2 ^ 24), (2, 8 * 2 ^ 24)]) ∨
    (b = 4 ∧ n = .leaf [(5, 9 * 2 ^ 24)]) ∨ (b = 5 ∧ n = .leaf [(6, 7 * 2 ^ 24)]) := by
  simp only [shared, devOf] at h
  split at h
  · split at h
    · cases h; simp_all
    · split at h
      · cases h; simp_all
      · split at h
        · cases h; simp_all
        · split at h
          · cases h; simp_all
          · split at h
            · cases h; simp_all
            · cases h
  · cases h

theorem shared_sane : Sane shared := by
  refine ⟨?_, by decide, ?_, ?_⟩
  · intro b n h
    rcases shared_rd h with h | h | h | h | h <;> (rw [h.1]; decide)
  · intro b es h
    rcases shared_rd h with ⟨-, h⟩ | ⟨-, h⟩ | ⟨-, h⟩ | ⟨-, h⟩ | ⟨-, h⟩ <;> cases h <;> simp
  · intro b ch h
    rcases shared_rd h with ⟨-, h⟩ | ⟨-, h⟩ | ⟨-, h⟩ | ⟨-, h⟩ | ⟨-, h⟩ <;> cases h <;> simp

def sharedT1 : Tree Nat 1 := (1, [(0, ((3, [(0, 7 * 2 ^ 24), (2, 8 * 2 ^ 24)]) : Tree Nat 0)), (5, ((4, [(5, 9 * 2 ^ 24)]) : Tree Nat 0))])
def sharedT2 : Tree Nat 1 := (2, [(0, ((3, [(0, 7 * 2 ^ 24), (2, 8 * 2 ^ 24)]) : Tree Nat 0)), (5, ((5, [(6, 7 * 2 ^ 24)]) : Tree Nat 0))])

theorem shared_clean : AllClean shared [1, 2] := by
  intro r hr
  simp only [List.mem_cons, List.not_mem_nil, or_false] at hr
  rcases hr with rfl | rfl
  · refine ⟨1, sharedT1, ⟨⟨rfl, ?_⟩, ?_, Or.inr ⟨by simp [sharedT1], ?_⟩, ?_⟩, rfl⟩
    · intro c hc; simp [sharedT1] at hc; rcases hc with rfl | rfl <;> rfl
    · simp [sharedT1, Tree.Ordered, BT.Chain, BT.Below, BT.nextKey]
    · intro c hc; simp [sharedT1] at hc; rcases hc with rfl | rfl <;> simp [Tree.NoEmpty]
    · simp [sharedT1, Tree.blocks, shared, devOf]
  · refine ⟨1, sharedT2, ⟨⟨rfl, ?_⟩, ?_, Or.inr ⟨by simp [sharedT2], ?_⟩, ?_⟩, rfl⟩
    · intro c hc; simp [sharedT2] at hc; rcases hc with rfl | rfl <;> rfl
    · simp [sharedT2, Tree.Ordered, BT.Chain, BT.Below, BT.nextKey]
    · intro c hc; simp [sharedT2] at hc; rcases hc with rfl | rfl <;> simp [Tree.NoEmpty]
    · simp [sharedT2, Tree.blocks, shared, devOf]

theorem shared_nodes (y : Nat) : y ∈ [1, 2, 3, 4, 5] ↔ Reach shared [1, 2] y := by
  constructor
  · intro h
    have r1 : Reach shared [1, 2] 1 := .root 1 (by simp)
    have r2 : Reach shared [1, 2] 2 := .root 2 (by simp)
    simp only [List.mem_cons, List.not_mem_nil, or_false] at h
    rcases h with rfl | rfl | rfl | rfl | rfl
    · exact r1
    · exact r2
    · exact .kid 1 3 r1 (by decide)
    · exact .kid 1 4 r1 (by decide)
    · exact .kid 2 5 r2 (by decide)
  · intro h
    induction h with
    | root r h => simp at h ⊢; omega
    | kid b c hb hc ih =>
      simp only [List.mem_cons, List.not_mem_nil, or_false] at ih
      rcases ih with rfl | rfl | rfl | rfl | rfl
      · have : c ∈ [3, 4] := hc
        simp at this ⊢; omega
      · have : c ∈ [3, 5] := hc
        simp at this ⊢; omega
      · have : c ∈ ([] : List Nat) := hc
        cases this
      · have : c ∈ ([] : List Nat) := hc
        cases this
      · have : c ∈ ([] : List Nat) := hc
        cases this

/-- the hypotheses of `check_exact` are met by two devices that share a leaf; the data block they share that way is counted once, the one they map twice is counted twice -/
example : ∃ r, Bottom shared true 10 [1, 2] (fresh 10) (fresh 20) r ∧ r.1.cnt 3 = 2 ∧ r.1.cnt 4 = 1 ∧ r.2.1.cnt 7 = 2 ∧ r.2.1.cnt 8 = 1 ∧
    ∃ m, r.2.2 = some m ∧ checkMapped m [(10, 1, 3), (11, 2, 3)] = true := by
  obtain ⟨r, hr⟩ : ∃ r, Bottom shared true 10 [1, 2] (fresh 10) (fresh 20) r := ⟨_, _, _, _, ⟨_, List.Perm.refl _, rfl⟩, rfl⟩
  have := check_exact shared_sane (fun b n h => h) (fun _ _ => rfl) (fun _ => rfl) [(10, 1, 3), (11, 2, 3)] shared_clean true (Or.inl rfl) (by
      intro b
      unfold nEnt
      cases h : shared.rd b with
      | none => exact Nat.zero_le _
      | some n => rcases shared_rd h with ⟨-, h⟩ | ⟨-, h⟩ | ⟨-, h⟩ | ⟨-, h⟩ | ⟨-, h⟩ <;> subst h <;> decide)
    10 (Nat.le_refl _) (fresh 10) (fresh 20) rfl (by decide) (fun _ => Nat.zero_le _) [1, 2, 3, 4, 5] [3, 4, 5] (by decide) shared_nodes (by decide) (by
      intro y
      constructor
      · intro h
        refine ⟨by simp at h ⊢; omega, ?_⟩
        simp only [List.mem_cons, List.not_mem_nil, or_false] at h
        rcases h with rfl | rfl | rfl <;> exact ⟨_, rfl⟩
      · rintro ⟨-, es, h⟩
        rcases shared_rd h with ⟨h, h'⟩ | ⟨h, h'⟩ | ⟨h, h'⟩ | ⟨h, h'⟩ | ⟨h, h'⟩ <;> first | (cases h'; done) | simp [h])
    (fun _ _ => rfl) (by
      intro _ x
      have h1 : ([1, 2] : List Nat).count x ≤ 2 := List.count_le_length
      have hk : ∀ y, (kids shared y).length ≤ 2 := by
        intro y
        unfold kids
        cases h : shared.rd y with
        | none => exact Nat.zero_le _
        | some n => rcases shared_rd h with ⟨-, h⟩ | ⟨-, h⟩ | ⟨-, h⟩ | ⟨-, h⟩ | ⟨-, h⟩ <;> subst h <;> decide
      have h2 : ∀ y, (kids shared y).count x ≤ 2 := fun y => Nat.le_trans List.count_le_length (hk y)
      have := h2 1; have := h2 2; have := h2 3; have := h2 4; have := h2 5
      show 0 + ([1, 2] : List Nat).count x + _ ≤ 255
      simp only [List.map_cons, List.map_nil, List.sum_cons, List.sum_nil]
      omega) r hr
  obtain ⟨a1, a2, m, a3, a4⟩ := this
  refine ⟨r, hr, by rw [a1 rfl]; decide, by rw [a1 rfl]; decide, by rw [a2]; decide, by rw [a2]; decide, m, a3, a4.mpr ?_⟩
  intro e he h t hc hb
  simp only [List.mem_cons, List.not_mem_nil, or_false] at he
  obtain ⟨h1, t1, c1, b1⟩ := shared_clean 1 (by simp)
  rcases he with rfl | rfl
  · have hk := (keys_of_tree h t true hc.stored).det (d := shared) (b := t.blk h) (by
      rw [hb]
      exact keys_of_tree 1 sharedT1 true (by refine ⟨rfl, ?_⟩; intro c hc; simp [sharedT1] at hc; rcases hc with rfl | rfl <;> rfl))
    have := congrArg List.length hk
    simpa [sharedT1, Tree.contents] using this
  · have hk := (keys_of_tree h t true hc.stored).det (d := shared) (b := t.blk h) (by
      rw [hb]
      exact keys_of_tree 1 sharedT2 true (by refine ⟨rfl, ?_⟩; intro c hc; simp [sharedT2] at hc; rcases hc with rfl | rfl <;> rfl))
    have := congrArg List.length hk
    simpa [sharedT2, Tree.contents] using this

/-! ## Findings -/

/-- the entries of a node that is its own last child -/
def loopCh : List (Nat × Nat) := ((List.range 83).map fun i => (i, 2)) ++ [(83, 1)]

def loopDev : Dev := devOf fun b => if b = 1 then some (.internal loopCh) else if b = 2 then some (.leaf [(0, 0)]) else none

/-- the children of the loop with their ranges -/
def loopKids : List (KeyRange × Nat) := (List.range 83).map fun i => (⟨some i, some (i + 1)⟩, 2)

set_option maxRecDepth 4000 in
theorem loop_split (kr : KeyRange) (h : kr.fin = none) : ∃ krs, splitKeyRanges kr (loopCh.map (·.1)) = some krs ∧ krs.zip (loopCh.map (·.2)) = loopKids ++ [(⟨some 83, none⟩, 1)] := by
  obtain ⟨st, fin⟩ := kr
  simp only at h; subst h
  exact ⟨_, rfl, by decide⟩

theorem sumKids_loop (f : KeyRange → Nat → Sums → Option (Sums × Sum)) (m : Sums) (h2 : ∀ kr, ∃ s, f kr 2 m = some (m, s)) (h1 : f ⟨some 83, none⟩ 1 m = none) :
    ∀ (l : List (KeyRange × Nat)) (acc : Sum), (∀ c ∈ l, c.2 = 2) → sumKids f (l ++ [(⟨some 83, none⟩, 1)]) m acc = none := by
  intro l
  induction l with
  | nil => intro acc _; simp only [List.nil_append, sumKids, h1]
  | cons c l ih =>
    intro acc hl
    obtain ⟨kr, b⟩ := c
    have : b = 2 := hl (kr, b) (by simp)
    subst this
    obtain ⟨s, e⟩ := h2 kr
    simp only [List.cons_append, sumKids, e]
    exact ih _ fun c hc => hl c (by simp [hc])

theorem loop_forever (n : NodeMap) (ign : Bool) (hty : n.ty 1 = .internal) (hi : n.info 1 = some loopCh) (h2 : n.ty 2 = .leaf) (m : Sums) (hm : m 1 = none) :
    ∀ (fuel : Nat) (kr : KeyRange) (isRoot : Bool), kr.fin = none → summarize n ign fuel kr isRoot 1 m = none := by
  intro fuel
  induction fuel with
  | zero => intro kr isRoot _; rfl
  | succ fuel ih =>
    intro kr isRoot hk
    obtain ⟨krs, e1, e2⟩ := loop_split kr hk
    simp only [summarize, hm, hty, hi, if_true]
    rw [if_neg (by have : loopCh.length = 84 := by decide
                   rw [this]; simp [MIN_ENTRIES])]
    simp only [e1]
    rw [e2]
    cases fuel with
    | zero =>
      have : sumKids (fun kr b m => summarize n ign 0 kr false b m) (loopKids ++ [(⟨some 83, none⟩, 1)]) m ⟨0, 0, 0, 0, 0⟩ = none := rfl
      rw [this]
    | succ fuel =>
      rw [sumKids_loop _ m (by
        intro kr
        simp only [summarize, h2]
        cases m 2 with
        | none => exact ⟨_, rfl⟩
        | some s => exact ⟨_, rfl⟩) (ih ⟨some 83, none⟩ false rfl) loopKids _ (by decide)]

set_option maxRecDepth 4000 in
/-- **Finding.**  A mapping tree with a node that is its own last child makes the third pass of `thin_check` recurse without end, whatever the options, the order of the threads
and the stack: the tool does not report the damage but overflows its stack. -/
theorem check_loop_refuted : Sane loopDev ∧ ∀ (ign : Bool) (fuel : Nat) (r : Sm × Sm × Option Sums), Bottom loopDev ign fuel [1] (fresh 10) (fresh 10) r → r.2.2 = none := by
  refine ⟨⟨?_, by decide, ?_, ?_⟩, ?_⟩
  · intro b n h
    simp only [loopDev, devOf] at h ⊢
    split at h
    · assumption
    · cases h
  · intro b es h
    simp only [loopDev, devOf] at h
    split at h
    · split at h
      · cases h
      · split at h
        · cases h; simp
        · cases h
    · cases h
  · intro b ch h
    simp only [loopDev, devOf] at h
    split at h
    · split at h
      · cases h; decide
      · split at h
        · cases h
        · cases h
    · cases h
  · rintro ign fuel r ⟨n', dsm', m, ⟨order, hp, e⟩, rfl⟩
    have hl : (chunks 1024 (loopDev.nr + 1) (leavesOf loopDev (collectNodes loopDev [1] NodeMap.empty (fresh 10)).1)).flatMap (chunkRead loopDev) = [2] := by decide
    rw [hl, List.perm_singleton] at hp
    subst hp
    have hn : n' = (collectNodes loopDev [1] NodeMap.empty (fresh 10)).1 := by
      have := congrArg (·.1) e
      simp only [List.foldl_cons, List.foldl_nil] at this
      rw [this, chunkFail_none (fun _ => rfl)]
      rfl
    have hm : m 1 = none := by
      have := congrArg (·.2.2) e
      simp only [List.foldl_cons, List.foldl_nil] at this
      rw [this]
      rfl
    subst hn
    simp only [countMapped]
    rw [show u32 1 = 1 from rfl, loop_forever _ ign (by decide) (by decide) (by decide) m hm fuel ⟨none, none⟩ true rfl]

/-- a pointer of more than 32 bits -/
def wideDev : Dev := devOf fun b => if b = 1 then some (.internal [(0, 2), (5, 2 ^ 32 + 3)]) else if b = 2 then some (.leaf [(0, 0)]) else if b = 3 then some (.leaf [(5, 0)]) else none

/-- **Finding.**  `thin_check` looks at the low 32 bits of the pointers of the lowest internal level only: it accepts a tree with a child that is far beyond the device. -/
theorem check_wide_pointer_refuted : ∃ r m, Bottom wideDev true 10 [1] (fresh 10) (fresh 10) r ∧ r.2.2 = some m ∧ checkMapped m [(0, 1, 2)] = true ∧
    wideDev.rd (2 ^ 32 + 3) = none ∧ ¬ ∃ ks, Keys wideDev 1 ks := by
  refine ⟨_, _, ⟨_, _, _, ⟨_, List.Perm.refl _, rfl⟩, rfl⟩, rfl, by decide, rfl, ?_⟩
  rintro ⟨ks, hk⟩
  cases hk with
  | leaf _ es h => cases h
  | node _ ch kid h hk =>
    have h' : wideDev.rd 1 = some (.internal [(0, 2), (5, 2 ^ 32 + 3)]) := rfl
    rw [h'] at h
    cases h
    have := hk (5, 2 ^ 32 + 3) (by simp)
    have hno : wideDev.rd (2 ^ 32 + 3) = none := rfl
    simp only at this
    generalize kid (2 ^ 32 + 3) = q at this
    cases this with
    | leaf _ es h => rw [hno] at h; cases h
    | node _ ch kid h => rw [hno] at h; cases h

/-- overlapping subtrees, one of them damaged -/
def hideDev : Dev := devOf fun b =>
  if b = 1 then some (.internal [(0, 2), (5, 3)]) else if b = 2 then some (.internal [(0, 4)]) else if b = 3 then some (.internal [(5, 5), (7, 6)])
  else if b = 4 then some (.leaf [(0, 0), (5, 0)]) else if b = 5 then some (.leaf [(5, 0)]) else none

/-- **Finding.**  The upper end of the range of a child is checked with `<` where the bound is exclusive, and the error of joining overlapping summaries is dropped together with the
second summary: `thin_check` accepts a tree with an unreadable leaf (block 6) and a block that is mapped twice. -/
theorem check_overlap_refuted : ∃ r m, Bottom hideDev true 10 [1] (fresh 10) (fresh 10) r ∧ r.2.2 = some m ∧ checkMapped m [(0, 1, 2)] = true ∧
    hideDev.rd 6 = none ∧ 6 ∈ kids hideDev 3 ∧ 3 ∈ kids hideDev 1 ∧ Sane hideDev := by
  refine ⟨_, _, ⟨_, _, _, ⟨_, List.Perm.refl _, rfl⟩, rfl⟩, rfl, by decide, rfl, by decide, by decide, ?_, by decide, ?_, ?_⟩
  · intro b n h
    simp only [hideDev, devOf] at h ⊢
    split at h
    · assumption
    · cases h
  · intro b es h
    simp only [hideDev, devOf] at h
    repeat' split at h
    all_goals first | (cases h; done) | (cases h; simp)
  · intro b ch h
    simp only [hideDev, devOf] at h
    repeat' split at h
    all_goals first | (cases h; done) | (cases h; simp)

/-- a mapping to data block 20 -/
def rangeDev : Dev := devOf fun b => if b = 1 then some (.leaf [(0, 20 * 2 ^ 24)]) else none

/-- **Finding.**  A mapping to a block beyond the end of the data device is accepted: the error of counting it is dropped. -/
theorem check_data_range_refuted : ∃ r m, Bottom rangeDev false 10 [1] (fresh 10) (fresh 10) r ∧ r.2.2 = some m ∧ checkMapped m [(0, 1, 1)] = true ∧
    dataOf rangeDev 1 = [20] ∧ (fresh 10).nr < 20 ∧ ∀ x, r.2.1.cnt x = 0 := by
  refine ⟨_, _, ⟨_, _, _, ⟨_, List.Perm.refl _, rfl⟩, rfl⟩, rfl, by decide, by decide, by decide, ?_⟩
  intro x
  rfl

end Verif.TChk
