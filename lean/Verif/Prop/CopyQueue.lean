import Verif.Model.CopyQueue
import Verif.Prop.CopierRun

/-!
# C40: batches, and the worker thread that stops at the first error
-/

namespace Verif.CopyQ

open Verif.Cop

variable {β : Type}

theorem insertDst_perm (o : CopyOp) (l : List CopyOp) : (insertDst o l).Perm (o :: l) := by
  induction l with
  | nil => exact .refl _
  | cons p l ih =>
    rw [insertDst]
    split
    · exact .refl _
    · exact (ih.cons p).trans (.swap o p l)

theorem sortDst_perm (l : List CopyOp) : (sortDst l).Perm l := by
  induction l with
  | nil => exact .refl _
  | cons p l ih => exact (insertDst_perm p _).trans (ih.cons p)

theorem insertDst_sorted (o : CopyOp) (l : List CopyOp) (h : l.Pairwise (fun a b => a.dst ≤ b.dst)) : (insertDst o l).Pairwise (fun a b => a.dst ≤ b.dst) := by
  induction l with
  | nil => simp [insertDst]
  | cons p l ih =>
    obtain ⟨h1, h2⟩ := List.pairwise_cons.mp h
    rw [insertDst]
    split
    · rename_i hle
      refine List.pairwise_cons.mpr ⟨?_, h⟩
      intro a ha
      rcases List.mem_cons.mp ha with rfl | ha
      · exact hle
      · exact Nat.le_trans hle (h1 a ha)
    · refine List.pairwise_cons.mpr ⟨?_, ih h2⟩
      intro a ha
      rcases List.mem_cons.mp ((insertDst_perm o l).mem_iff.mp ha) with rfl | ha
      · omega
      · exact h1 a ha

theorem sortDst_sorted (l : List CopyOp) : (sortDst l).Pairwise (fun a b => a.dst ≤ b.dst) := by
  induction l with
  | nil => exact .nil
  | cons p l ih => exact insertDst_sorted p _ ih

/-- what the batcher has sent and holds, after pushing `ops` -/
structure BInv (size : Nat) (ops : List CopyOp) (b : Batcher) : Prop where
  bsize : b.size = size
  perm : (b.sent.flatten ++ b.ops).Perm ops
  sorted : ∀ m ∈ b.sent, m.Pairwise (fun a b => a.dst ≤ b.dst)
  full : ∀ m ∈ b.sent, m.length = size
  held : b.ops.length < size

theorem push_inv {size : Nat} {ops : List CopyOp} {b : Batcher} (op : CopyOp) (h : BInv size ops b) : BInv size (ops ++ [op]) (b.push op) := by
  obtain ⟨h1, h2, h3, h4, h5⟩ := h
  have hp : (b.sent.flatten ++ (b.ops ++ [op])).Perm (ops ++ [op]) := by
    rw [← List.append_assoc]
    exact h2.append_right _
  unfold Batcher.push
  simp only
  by_cases hc : (b.ops ++ [op]).length ≥ b.size
  · rw [if_pos hc]
    refine ⟨h1, ?_, ?_, ?_, ?_⟩
    · simp only [Batcher.send, List.flatten_append, List.flatten_cons, List.flatten_nil, List.append_nil]
      exact ((sortDst_perm _).append_left _).trans hp
    · intro m hm
      rcases List.mem_append.mp hm with hm | hm
      · exact h3 m hm
      · rw [List.mem_singleton.mp hm]; exact sortDst_sorted _
    · intro m hm
      rcases List.mem_append.mp hm with hm | hm
      · exact h4 m hm
      · rw [List.mem_singleton.mp hm, (sortDst_perm _).length_eq]
        simp only [List.length_append, List.length_singleton] at hc ⊢
        omega
    · simp only [Batcher.send, List.length_nil]; omega
  · rw [if_neg hc]
    exact ⟨h1, hp, h3, h4, by simp only at hc ⊢; omega⟩

theorem pushes_inv (size : Nat) (hs : 0 < size) : ∀ (ops : List CopyOp), BInv size ops (ops.foldl Batcher.push ⟨size, [], []⟩) := by
  intro ops
  suffices H : ∀ (ops pre : List CopyOp) (b : Batcher), BInv size pre b → BInv size (pre ++ ops) (ops.foldl Batcher.push b) by
    exact H ops [] _ ⟨rfl, .nil, (by intro m h; cases h), (by intro m h; cases h), hs⟩
  intro ops
  induction ops with
  | nil => intro pre b h; rw [List.append_nil]; exact h
  | cons op ops ih =>
    intro pre b h
    have := ih (pre ++ [op]) (b.push op) (push_inv op h)
    rw [List.append_assoc] at this
    exact this

/-- C40: every operation pushed is in exactly one batch, each batch is sorted by destination and has at most `size` operations. -/
theorem batches_correct (size : Nat) (hs : 0 < size) (ops : List CopyOp) :
    (batches size ops).flatten.Perm ops ∧ ∀ m ∈ batches size ops, m.Pairwise (fun a b => a.dst ≤ b.dst) ∧ m.length ≤ size := by
  obtain ⟨h1, h2, h3, h4, h5⟩ := pushes_inv size hs ops
  refine ⟨?_, ?_⟩
  · simp only [batches, Batcher.send, List.flatten_append, List.flatten_cons, List.flatten_nil, List.append_nil]
    exact ((sortDst_perm _).append_left _).trans h2
  · intro m hm
    rcases List.mem_append.mp hm with hm | hm
    · exact ⟨h3 m hm, Nat.le_of_eq (h4 m hm)⟩
    · rw [List.mem_singleton.mp hm]
      exact ⟨sortDst_sorted _, by rw [(sortDst_perm _).length_eq]; omega⟩

theorem Separate.perm {c : Cfg} {a b : List CopyOp} (h : Separate c a) (p : a.Perm b) : Separate c b :=
  ⟨(p.map _).nodup_iff.mp h.dst, fun x hx y hy => h.src x (p.mem_iff.mpr hx) y (p.mem_iff.mpr hy)⟩

theorem Separate.left {c : Cfg} {a b : List CopyOp} (h : Separate c (a ++ b)) : Separate c a := by
  refine ⟨?_, fun x hx y hy => h.src x (List.mem_append.mpr (Or.inl hx)) y (List.mem_append.mpr (Or.inl hy))⟩
  have := h.dst
  rw [List.map_append] at this
  exact (List.nodup_append.mp this).1

theorem Separate.right {c : Cfg} {a b : List CopyOp} (h : Separate c (a ++ b)) : Separate c b := by
  refine ⟨?_, fun x hx y hy => h.src x (List.mem_append.mpr (Or.inr hx)) y (List.mem_append.mpr (Or.inr hy))⟩
  have := h.dst
  rw [List.map_append] at this
  exact (List.nodup_append.mp this).2.1

theorem run_sync {c : Cfg} (hb : 0 < c.blockSize) (hc : c.blockSize ≤ c.bufferSize) {msgs : List (List CopyOp)} {s t : Loc → β} {r : Res}
    (h : Run (syncCopy c) msgs s t r) : Separate c msgs.flatten →
    (∀ l, (∀ op ∈ msgs.flatten, l ≠ c.dstLoc op.dst) → t l = s l) ∧ (r = .ok → ∀ op ∈ msgs.flatten, t (c.dstLoc op.dst) = s (c.srcLoc op.src)) ∧
      (∀ b, r = .readError b → ∃ op ∈ msgs.flatten, op.src = b) ∧ (∀ b, r = .writeError b → ∃ op ∈ msgs.flatten, op.dst = b) ∧ r ≠ .failed := by
  induction h with
  | closed s => intro _; exact ⟨fun _ _ => rfl, (by intro _ op ho; cases ho), (by intro b e; cases e), (by intro b e; cases e), (by intro e; cases e)⟩
  | failed h =>
    obtain ⟨u, -, -, -, e⟩ := h
    cases e
  | readError h h1 =>
    intro hs
    rw [List.flatten_cons] at hs
    obtain ⟨u, u1, u2, rfl, e⟩ := h
    cases e
    have hcp := copy_correct hb hc (Separate.left hs) u1 u2
    refine ⟨?_, (by intro e; cases e), ?_, (by intro b e; cases e), (by intro e; cases e)⟩
    · intro l hl
      exact hcp.frame l (fun op ho => hl op (by rw [List.flatten_cons]; exact List.mem_append.mpr (Or.inl ho)))
    · intro b e
      cases e
      exact ⟨_, by rw [List.flatten_cons]; exact List.mem_append.mpr (Or.inl (hcp.errors.1 _ (by rw [h1]; simp))), rfl⟩
  | writeError h h1 h2 =>
    intro hs
    rw [List.flatten_cons] at hs
    obtain ⟨u, u1, u2, rfl, e⟩ := h
    cases e
    have hcp := copy_correct hb hc (Separate.left hs) u1 u2
    refine ⟨?_, (by intro e; cases e), (by intro b e; cases e), ?_, (by intro e; cases e)⟩
    · intro l hl
      exact hcp.frame l (fun op ho => hl op (by rw [List.flatten_cons]; exact List.mem_append.mpr (Or.inl ho)))
    · intro b e
      cases e
      exact ⟨_, by rw [List.flatten_cons]; exact List.mem_append.mpr (Or.inl (hcp.errors.1 _ (by rw [h1, h2]; simp))), rfl⟩
  | @next ops msgs s t u' st r h h1 h2 _ ih =>
    intro hs
    rw [List.flatten_cons] at hs
    obtain ⟨u, u1, u2, rfl, e⟩ := h
    cases e
    have hcp := copy_correct hb hc (Separate.left hs) u1 u2
    obtain ⟨i1, i2, i3, i4, i5⟩ := ih (Separate.right hs)
    have hnd := hs.dst
    rw [List.map_append] at hnd
    have hdis := (List.nodup_append.mp hnd).2.2
    refine ⟨?_, ?_, ?_, ?_, i5⟩
    · intro l hl
      rw [i1 l (fun op ho => hl op (by rw [List.flatten_cons]; exact List.mem_append.mpr (Or.inr ho)))]
      exact hcp.frame l (fun op ho => hl op (by rw [List.flatten_cons]; exact List.mem_append.mpr (Or.inl ho)))
    · intro e op ho
      rw [List.flatten_cons] at ho
      rcases List.mem_append.mp ho with ho | ho
      · rw [i1]
        · rcases hcp.each op ho with h | h | h
          · rw [h1] at h; cases h
          · rw [h2] at h; cases h
          · exact h
        · intro op' ho' e'
          exact hdis _ (List.mem_map.mpr ⟨op, ho, rfl⟩) _ (List.mem_map.mpr ⟨op', ho', rfl⟩) e'
      · rw [i2 e op ho, hcp.frame]
        intro op' ho'
        exact hs.src op (List.mem_append.mpr (Or.inr ho)) op' (List.mem_append.mpr (Or.inl ho'))
    · intro b e
      obtain ⟨op, h1, h2⟩ := i3 b e
      exact ⟨op, by rw [List.flatten_cons]; exact List.mem_append.mpr (Or.inr h1), h2⟩
    · intro b e
      obtain ⟨op, h1, h2⟩ := i4 b e
      exact ⟨op, by rw [List.flatten_cons]; exact List.mem_append.mpr (Or.inr h1), h2⟩

/-- C40: batching the operations and copying the batches one after another until the first error (as `thin_shrink` and `thin_migrate` do) succeeds only if every operation was
copied; otherwise it names a block that could not be read or written; and nothing but the destinations changes. -/
theorem threaded_copy_correct {c : Cfg} (hb : 0 < c.blockSize) (hc : c.blockSize ≤ c.bufferSize) (size : Nat) (hz : 0 < size) {ops : List CopyOp} (hs : Separate c ops)
    {s t : Loc → β} {r : Res} (h : Run (syncCopy c) (batches size ops) s t r) :
    (∀ l, (∀ op ∈ ops, l ≠ c.dstLoc op.dst) → t l = s l) ∧
      match r with
      | .ok => ∀ op ∈ ops, t (c.dstLoc op.dst) = s (c.srcLoc op.src)
      | .readError b => ∃ op ∈ ops, op.src = b
      | .writeError b => ∃ op ∈ ops, op.dst = b
      | .failed => False := by
  have hp := (batches_correct size hz ops).1
  obtain ⟨h1, h2, h3, h4, h5⟩ := run_sync hb hc h (Separate.perm hs hp.symm)
  refine ⟨fun l hl => h1 l (fun op ho => hl op (hp.mem_iff.mp ho)), ?_⟩
  cases r with
  | ok => intro op ho; exact h2 rfl op (hp.mem_iff.mpr ho)
  | failed => exact h5 rfl
  | readError b => obtain ⟨op, a, e⟩ := h3 b rfl; exact ⟨op, hp.mem_iff.mp a, e⟩
  | writeError b => obtain ⟨op, a, e⟩ := h4 b rfl; exact ⟨op, hp.mem_iff.mp a, e⟩

example : batches 2 [⟨0, 9⟩, ⟨1, 3⟩, ⟨2, 5⟩] = [[⟨1, 3⟩, ⟨0, 9⟩], [⟨2, 5⟩]] := by decide

/-- there is such a run for every list of batches -/
theorem run_exists {c : Cfg} (hb : 0 < c.blockSize) (hc : c.blockSize ≤ c.bufferSize) : ∀ (msgs : List (List CopyOp)) (s : Loc → β), Separate c msgs.flatten →
    ∃ t r, Run (syncCopy c) msgs s t r := by
  intro msgs
  induction msgs with
  | nil => intro s _; exact ⟨s, .ok, .closed s⟩
  | cons ops msgs ih =>
    intro s hs
    rw [List.flatten_cons] at hs
    obtain ⟨u, u1, u2, -⟩ := copy_completes hb hc (store0 := s) (Separate.left hs) (.refl _)
    have hu : syncCopy c ops s u.store (some u.stats) := ⟨u, u1, u2, rfl, rfl⟩
    cases hr : u.stats.readErrors with
    | cons op rest => exact ⟨_, _, .readError hu hr⟩
    | nil =>
      cases hw : u.stats.writeErrors with
      | cons op rest => exact ⟨_, _, .writeError hu hr hw⟩
      | nil =>
        obtain ⟨t, r, h⟩ := ih u.store (Separate.right hs)
        exact ⟨t, r, .next hu hr hw h⟩

end Verif.CopyQ
