import Verif.Model.Node
import Verif.Prop.Records

namespace Verif

/-- A parser that consumes exactly `k` bytes, and fails only on shorter input. -/
def ExactP {α : Type} (p : Parser α) (k : Nat) : Prop :=
  ∀ i, (i.length < k → p i = none) ∧ (k ≤ i.length → ∃ v, p i = some (v, i.drop k))

theorem exactP_leU (k : Nat) : ExactP (leU k) k := by
  intro i
  constructor <;> intro h
  · rw [leU_eq, if_neg (by omega)]
  · rw [leU_eq, if_pos h]; exact ⟨_, rfl⟩

theorem ExactP.rest {α : Type} {p : Parser α} {k : Nat} (hp : ExactP p k) {i r : Bytes} {v : α}
    (h : p i = some (v, r)) : k ≤ i.length ∧ r = i.drop k := by
  by_cases hk : k ≤ i.length
  · obtain ⟨w, hw⟩ := (hp i).2 hk
    rw [hw] at h; simp only [Option.some.injEq, Prod.mk.injEq] at h
    exact ⟨hk, h.2.symm⟩
  · rw [(hp i).1 (by omega)] at h; simp at h

theorem countP_some {α : Type} {p : Parser α} {k : Nat} (hp : ExactP p k) (n : Nat) (i : Bytes) :
    k * n ≤ i.length → ∃ xs, countP p n i = some (xs, i.drop (k * n)) := by
  induction n generalizing i with
  | zero => intro _; exact ⟨[], by simp [countP]⟩
  | succ n ih =>
    intro h
    rw [Nat.mul_succ] at h
    obtain ⟨v, hv⟩ := (hp i).2 (by omega)
    obtain ⟨xs, hxs⟩ := ih (i.drop k) (by simp; omega)
    refine ⟨v :: xs, ?_⟩
    simp [countP, hv, hxs, Nat.mul_succ, Nat.add_comm]

theorem countP_eq_some {α : Type} {p : Parser α} {k : Nat} (hp : ExactP p k) (n : Nat) (i r : Bytes)
    (xs : List α) (h : countP p n i = some (xs, r)) :
    k * n ≤ i.length ∧ r = i.drop (k * n) ∧ xs.length = n ∧
      ∀ j x, xs[j]? = some x → ∃ r', p (i.drop (k * j)) = some (x, r') := by
  induction n generalizing i xs with
  | zero => simp [countP] at h; simp [h.1, ← h.2]
  | succ n ih =>
    simp only [countP] at h
    split at h
    · simp at h
    · next a i' ha =>
      split at h
      · simp at h
      · next as i'' has =>
        simp only [Option.some.injEq, Prod.mk.injEq] at h
        obtain ⟨rfl, rfl⟩ := h
        obtain ⟨h1, h2⟩ := hp.rest ha
        obtain ⟨h3, h4, h5, h6⟩ := ih i' as has
        subst h2
        simp only [List.length_drop] at h3
        refine ⟨by rw [Nat.mul_succ]; omega, by rw [h4, List.drop_drop, Nat.mul_succ, Nat.add_comm], by simp [h5], ?_⟩
        intro j x hx
        cases j with
        | zero =>
          simp at hx; subst hx
          exact ⟨_, by simpa using ha⟩
        | succ j =>
          obtain ⟨r', hr'⟩ := h6 j x (by simpa using hx)
          refine ⟨r', ?_⟩
          rw [List.drop_drop] at hr'
          rwa [Nat.mul_succ, Nat.add_comm]

end Verif
