import Verif.Model.HashVec
import Mathlib.Data.List.Nodup
import Mathlib.Data.Fintype.Card

/-!
# C81: `HashVec` is a map that remembers the order of first insertion
-/

namespace Verif.HVec

variable {T : Type}

/-! ## Specification -/

/-- the keys, in the order in which they were first inserted -/
def firstKeys : List (Nat × T) → List Nat
  | [] => []
  | (k, _) :: l => k :: (firstKeys l).filter fun x => decide (x ≠ k)

/-- the value last inserted for a key -/
def lastValue (k : Nat) : List (Nat × T) → Option T
  | [] => none
  | (k', v) :: l => (lastValue k l).or (if k' = k then some v else none)

/-! ## Lemmas -/

/-- `h` represents the keys `ks` (in order) with the values `f` -/
structure Rep (h : HVec T) (ks : List Nat) (f : Nat → Option T) : Prop where
  nodup : ks.Nodup
  small : ∀ k ∈ ks, k < 2 ^ 32
  len : h.entries.length = ks.length
  idx : ∀ k i, h.map k = some i ↔ ks[i]? = some k
  val : ∀ i k : Nat, ks[i]? = some k → h.entries[i]? = f k
  dom : ∀ k, k ∉ ks → f k = none

theorem bounded {ks : List Nat} (hn : ks.Nodup) (hs : ∀ k ∈ ks, k < 2 ^ 32) : ks.length ≤ 2 ^ 32 := by
  have h : ks ⊆ List.range (2 ^ 32) := fun k hk => List.mem_range.mpr (hs k hk)
  have := (List.subperm_of_subset hn h).length_le
  rwa [List.length_range] at this

/-- the keys and values after one insertion -/
theorem rep_insert {h : HVec T} {ks : List Nat} {f : Nat → Option T} (hr : Rep h ks f) (k : Nat) (hk : k < 2 ^ 32) (v : T) :
    ∃ h', h.insert k v = some h' ∧ Rep h' (if k ∈ ks then ks else ks ++ [k]) (fun x => if x = k then some v else f x) := by
  cases e : h.map k with
  | some i =>
    have hi := (hr.idx k i).mp e
    have hlt : i < h.entries.length := by
      rw [hr.len]
      exact (List.getElem?_eq_some_iff.mp hi).1
    have hmem : k ∈ ks := List.mem_of_getElem? hi
    refine ⟨{ h with entries := h.entries.set i v }, ?_, ?_⟩
    · simp only [HVec.insert, e, hlt, if_true]
    · rw [if_pos hmem]
      refine ⟨hr.nodup, hr.small, by simp [hr.len], hr.idx, ?_, ?_⟩
      · intro j x hj
        by_cases hji : j = i
        · subst hji
          rw [hi] at hj
          simp only [Option.some.injEq] at hj
          simp [hj, hlt]
        · have hx : x ≠ k := by
            rintro rfl
            obtain ⟨h1, h2⟩ := List.getElem?_eq_some_iff.mp hi
            obtain ⟨h3, h4⟩ := List.getElem?_eq_some_iff.mp hj
            exact hji ((List.Nodup.getElem_inj_iff hr.nodup).mp (h4.trans h2.symm))
          rw [if_neg hx]
          show (h.entries.set i v)[j]? = f x
          rw [List.getElem?_set_ne (Ne.symm hji)]
          exact hr.val j x hj
      · intro x hx
        have hxk : x ≠ k := by rintro rfl; exact hx hmem
        rw [if_neg hxk]
        exact hr.dom x hx
  | none =>
    have hmem : k ∉ ks := by
      intro hm
      obtain ⟨i, hi⟩ := List.mem_iff_getElem?.mp hm
      have := (hr.idx k i).mpr hi
      rw [e] at this
      simp at this
    have hb : ks.length < 2 ^ 32 := by
      have h2 : (ks ++ [k]).Nodup := by
        rw [List.nodup_append]
        refine ⟨hr.nodup, by simp, ?_⟩
        intro a ha b hb
        simp only [List.mem_singleton] at hb
        subst hb
        rintro rfl
        exact hmem ha
      have := bounded h2 (by
        intro x hx
        rcases List.mem_append.mp hx with h | h
        · exact hr.small x h
        · simp only [List.mem_singleton] at h; rw [h]; exact hk)
      rw [List.length_append, List.length_singleton] at this
      omega
    refine ⟨_, by simp only [HVec.insert, e]; rfl, ?_⟩
    rw [if_neg hmem]
    have hmod : ((h.entries ++ [v]).length - 1) % 2 ^ 32 = ks.length := by
      rw [List.length_append, List.length_singleton, hr.len, Nat.add_sub_cancel, Nat.mod_eq_of_lt hb]
    refine ⟨?_, ?_, by simp [hr.len], ?_, ?_, ?_⟩
    · rw [List.nodup_append]
      refine ⟨hr.nodup, by simp, ?_⟩
      intro a ha b hb
      simp only [List.mem_singleton] at hb
      subst hb
      rintro rfl
      exact hmem ha
    · intro x hx
      rcases List.mem_append.mp hx with h | h
      · exact hr.small x h
      · simp only [List.mem_singleton] at h; rw [h]; exact hk
    · intro x i
      simp only [hmod]
      by_cases hxk : x = k
      · subst hxk
        simp only [if_true, Option.some.injEq]
        constructor
        · rintro rfl; simp
        · intro hi
          by_cases hlt : i < ks.length
          · rw [List.getElem?_append_left hlt] at hi
            exact absurd (List.mem_of_getElem? hi) hmem
          · have h1 := (List.getElem?_eq_some_iff.mp hi).1
            rw [List.length_append, List.length_singleton] at h1
            omega
      · rw [if_neg hxk, hr.idx]
        by_cases hlt : i < ks.length
        · rw [List.getElem?_append_left hlt]
        · rw [List.getElem?_append_right (by omega), List.getElem?_eq_none (by omega)]
          constructor
          · intro h; simp at h
          · intro h
            have := List.mem_of_getElem? h
            simp only [List.mem_singleton] at this
            exact absurd this hxk
    · intro i x hi
      by_cases hlt : i < ks.length
      · rw [List.getElem?_append_left hlt] at hi
        have hx : x ≠ k := by rintro rfl; exact hmem (List.mem_of_getElem? hi)
        rw [if_neg hx]
        show (h.entries ++ [v])[i]? = f x
        rw [List.getElem?_append_left (by rw [hr.len]; exact hlt)]
        exact hr.val i x hi
      · have h1 := (List.getElem?_eq_some_iff.mp hi).1
        rw [List.length_append, List.length_singleton] at h1
        have hie : i = ks.length := by omega
        subst hie
        simp only [List.getElem?_concat_length, Option.some.injEq] at hi
        subst hi
        rw [if_pos rfl]
        show (h.entries ++ [v])[ks.length]? = some v
        rw [← hr.len]
        simp
    · intro x hx
      have h1 : x ∉ ks := fun h => hx (List.mem_append_left _ h)
      have h2 : x ≠ k := by rintro rfl; exact hx (List.mem_append_right _ (by simp))
      rw [if_neg h2]
      exact hr.dom x h1

/-- the keys after a history, from those before it -/
def keysFrom (ks : List Nat) : List (Nat × T) → List Nat
  | [] => ks
  | (k, _) :: l => keysFrom (if k ∈ ks then ks else ks ++ [k]) l

theorem rep_all (l : List (Nat × T)) : ∀ {h : HVec T} {ks : List Nat} {f : Nat → Option T}, Rep h ks f → (∀ p ∈ l, p.1 < 2 ^ 32) →
    ∃ h', h.insertAll l = some h' ∧ Rep h' (keysFrom ks l) (fun x => (lastValue x l).or (f x)) := by
  induction l with
  | nil => intro h ks f hr _; exact ⟨h, rfl, by simpa [keysFrom, lastValue] using hr⟩
  | cons p l ih =>
    obtain ⟨k, v⟩ := p
    intro h ks f hr hl
    obtain ⟨h1, e1, r1⟩ := rep_insert hr k (hl (k, v) (by simp)) v
    obtain ⟨h2, e2, r2⟩ := ih r1 (fun p hp => hl p (by simp [hp]))
    refine ⟨h2, ?_, ?_⟩
    · simp only [HVec.insertAll, e1, Option.bind_some, e2]
    · have : (fun x => (lastValue x ((k, v) :: l)).or (f x)) = fun x => (lastValue x l).or (if x = k then some v else f x) := by
        funext x
        simp only [lastValue]
        cases lastValue x l with
        | some y => simp
        | none =>
          by_cases hx : x = k
          · subst hx; simp
          · simp [hx, Ne.symm hx]
      rw [this]
      exact r2

theorem keysFrom_eq (l : List (Nat × T)) : ∀ ks : List Nat, keysFrom ks l = ks ++ (firstKeys l).filter fun x => decide (x ∉ ks) := by
  induction l with
  | nil => intro ks; simp [keysFrom, firstKeys]
  | cons p l ih =>
    obtain ⟨k, v⟩ := p
    intro ks
    simp only [keysFrom, firstKeys]
    rw [ih]
    by_cases hk : k ∈ ks
    · rw [if_pos hk, List.filter_cons_of_neg (by simpa using hk), List.filter_filter]
      congr 1
      apply List.filter_congr
      intro x _
      by_cases hx : x ∈ ks
      · simp [hx]
      · have : x ≠ k := by rintro rfl; exact hx hk
        simp [hx, this]
    · rw [if_neg hk, List.filter_cons_of_pos (by simpa using hk), List.filter_filter, List.append_assoc, List.singleton_append]
      congr 2
      apply List.filter_congr
      intro x _
      simp [List.mem_append, not_or]

theorem new_rep : Rep (HVec.new : HVec T) [] (fun _ => none) :=
  ⟨List.nodup_nil, by simp, rfl, by simp [HVec.new], by simp, fun _ _ => rfl⟩

/-! ## Theorems -/

/-- C81.  After any history of insertions with 32 bit keys nothing panics, a lookup gives the value last inserted for the
key and nothing for a key never inserted, and the values are listed in the order in which their keys first came. -/
theorem hashvec_correct (l : List (Nat × T)) (hl : ∀ p ∈ l, p.1 < 2 ^ 32) :
    ∃ h, (HVec.new : HVec T).insertAll l = some h ∧ (∀ k, h.get k = some (lastValue k l)) ∧
      h.values.map some = (firstKeys l).map (fun k => lastValue k l) ∧ h.len = (firstKeys l).length ∧ (h.isEmpty = true ↔ l = []) := by
  obtain ⟨h, e, r⟩ := rep_all l new_rep hl
  have hk : keysFrom [] l = firstKeys l := by
    rw [keysFrom_eq, List.nil_append]
    exact List.filter_eq_self.mpr (by simp)
  rw [hk] at r
  simp only [Option.or_none] at r
  refine ⟨h, e, ?_, ?_, r.len, ?_⟩
  · intro k
    unfold HVec.get
    cases hm : h.map k with
    | some i =>
      have hi := (r.idx k i).mp hm
      have hlt : i < h.entries.length := by rw [r.len]; exact (List.getElem?_eq_some_iff.mp hi).1
      simp only [hlt, if_true]
      rw [r.val i k hi]
    | none =>
      have : k ∉ firstKeys l := by
        intro hm'
        obtain ⟨i, hi⟩ := List.mem_iff_getElem?.mp hm'
        have := (r.idx k i).mpr hi
        rw [hm] at this
        simp at this
      rw [r.dom k this]
  · apply List.ext_getElem?
    intro i
    rw [List.getElem?_map, List.getElem?_map]
    by_cases hi : i < (firstKeys l).length
    · have hk : (firstKeys l)[i]? = some (firstKeys l)[i] := List.getElem?_eq_getElem hi
      have hv := r.val i _ hk
      have hi' : i < h.entries.length := by rw [r.len]; exact hi
      show h.entries[i]?.map some = _
      rw [hk, Option.map_some, ← hv, List.getElem?_eq_getElem hi']
      rfl
    · rw [List.getElem?_eq_none (l := firstKeys l) (by omega)]
      show h.entries[i]?.map some = _
      rw [List.getElem?_eq_none (by rw [r.len]; omega)]
      rfl
  · have : h.entries.length = (firstKeys l).length := r.len
    unfold HVec.isEmpty
    rw [List.isEmpty_iff_length_eq_zero, this]
    cases l with
    | nil => simp [firstKeys]
    | cons p l => obtain ⟨k, v⟩ := p; simp [firstKeys]

/-- the specification of the order says: without repetitions, and exactly the keys inserted -/
theorem firstKeys_spec (l : List (Nat × T)) : (firstKeys l).Nodup ∧ ∀ k, k ∈ firstKeys l ↔ ∃ v, (k, v) ∈ l := by
  induction l with
  | nil => simp [firstKeys]
  | cons p l ih =>
    obtain ⟨k, v⟩ := p
    refine ⟨?_, ?_⟩
    · simp only [firstKeys]
      rw [List.nodup_cons]
      exact ⟨by simp, ih.1.filter _⟩
    · intro x
      simp only [firstKeys, List.mem_cons, List.mem_filter, ih.2, decide_eq_true_eq, Prod.mk.injEq]
      constructor
      · rintro (rfl | ⟨⟨w, hw⟩, _⟩)
        · exact ⟨v, Or.inl ⟨rfl, rfl⟩⟩
        · exact ⟨w, Or.inr hw⟩
      · rintro ⟨w, (⟨rfl, rfl⟩ | hw)⟩
        · exact Or.inl rfl
        · by_cases hx : x = k
          · exact Or.inl hx
          · exact Or.inr ⟨⟨w, hw⟩, hx⟩

/-- non-vacuity -/
example : ((HVec.new : HVec Nat).insertAll [(7, 1), (3, 2), (7, 5)]).map (fun h => (h.values, h.get 7, h.get 3, h.get 4)) =
    some ([5, 2], some (some 5), some (some 2), some none) ∧ firstKeys [(7, 1), (3, 2), (7, 5)] = [7, 3] := by decide +kernel

end Verif.HVec
