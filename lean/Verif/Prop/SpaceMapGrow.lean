import Verif.Prop.SpaceMapDisk

/-!
# Building a tree from values never frees a block

`write_metadata_sm` counts the blocks of its own bitmaps and trees after they are written, from the batcher's record of
allocations.  This is right only if nothing that was allocated is freed again, or freed and allocated again.
-/

namespace Verif.SMD

open Verif.Bld (St Err NB NIO Summary Post)

variable {V E : Type}

theorem ok_bind {α β : Type} {x : Except Err α} {f : α → Except Err β} {r : β} : (x >>= f) = .ok r ↔ ∃ a, x = .ok a ∧ f a = .ok r := by
  cases x with
  | error e => constructor
               · intro h; cases h
               · rintro ⟨a, h, -⟩; cases h
  | ok a => constructor
            · intro h; exact ⟨a, rfl, h⟩
            · rintro ⟨b, h, h'⟩; cases h; exact h'

/-- From `s` to `t` the space map changed by allocations only, and the batcher recorded them. -/
structure Grow (n max : Nat) (s t : St V) (l : List Nat) : Prop where
  sm : t.sm.Inv n max
  allocs : t.allocs = s.allocs ++ l
  abs : ∀ b, t.sm.abs b = s.sm.abs b + l.count b
  zero : ∀ b ∈ l, s.sm.abs b = 0
  bnd : ∀ b ∈ l, b < n
  nodup : l.Nodup

theorem Grow.refl {n max : Nat} {s : St V} (h : s.sm.Inv n max) : Grow n max s s [] :=
  ⟨h, by simp, by simp, by simp, by simp, List.nodup_nil⟩

theorem Grow.trans {n max : Nat} {s t u : St V} {l m : List Nat} (h : Grow n max s t l) (k : Grow n max t u m) : Grow n max s u (l ++ m) where
  sm := k.sm
  allocs := by rw [k.allocs, h.allocs, List.append_assoc]
  abs := by intro b; rw [k.abs, h.abs, List.count_append]; omega
  zero := by
    intro b hb
    rcases List.mem_append.mp hb with hb | hb
    · exact h.zero b hb
    · have := k.zero b hb
      have := h.abs b
      omega
  bnd := by
    intro b hb
    rcases List.mem_append.mp hb with hb | hb
    · exact h.bnd b hb
    · exact k.bnd b hb
  nodup := by
    rw [List.nodup_append]
    refine ⟨h.nodup, k.nodup, ?_⟩
    intro a ha b hb e
    subst e
    have := k.zero a hb
    have := h.abs a
    have := List.count_pos_iff.mpr ha
    omega

/-- only memory and log change -/
theorem Grow.frame {n max : Nat} {s t u : St V} {l : List Nat} (h : Grow n max s t l) (h1 : u.sm = t.sm) (h2 : u.allocs = t.allocs) :
    Grow n max s u l :=
  ⟨by rw [h1]; exact h.sm, by rw [h2]; exact h.allocs, by rw [h1]; exact h.abs, h.zero, h.bnd, h.nodup⟩

theorem alloc_grow {n max : Nat} {s : St V} (hi : s.sm.Inv n max) {r : Nat × St V} (h : Bld.alloc s = .ok r) : Grow n max s r.2 [r.1] := by
  have hp := Bld.alloc_post hi
  rw [h] at hp
  obtain ⟨h1, h2, h3, h4, -, -⟩ := (show _ ∧ _ from hp)
  refine ⟨h3, ?_, ?_, ?_, ?_, by simp⟩
  · unfold Bld.alloc at h
    split at h
    · cases h; rfl
    · cases h
  · intro b
    rw [h4]
    simp only [SM.Counts.upd, List.count_cons, List.count_nil, beq_iff_eq]
    by_cases e : b = r.1
    · rw [if_pos e, if_pos e.symm, e, h2]
    · rw [if_neg e, if_neg (Ne.symm e)]; omega
  · intro b hb; rw [List.mem_singleton] at hb; rw [hb]; exact h2
  · intro b hb; rw [List.mem_singleton] at hb; rw [hb]; exact h1

theorem writeNode_grow {n max : Nat} {io : NIO V E} {es : List (Nat × E)} {s : St V} (hi : s.sm.Inv n max) {r : Nat × St V}
    (h : Bld.writeNode io es s = .ok r) : Grow n max s r.2 [r.1] := by
  unfold Bld.writeNode at h
  obtain ⟨a, h1, h2⟩ := ok_bind.mp h
  cases h2
  exact (alloc_grow hi h1).frame rfl rfl

theorem emitValues_grow {n max k : Nat} {io : NIO V E} {nb : NB E} {s : St V} (hi : s.sm.Inv n max) {r : NB E × St V}
    (h : Bld.emitValues io k nb s = .ok r) : (∃ l, Grow n max s r.2 l) ∧ k ≤ nb.values.length ∧ r.1.values = nb.values.drop k ∧ r.1.cap = nb.cap ∧
    ∃ m : Summary, m.nr = k ∧ r.1.nodes = nb.nodes ++ [m] := by
  unfold Bld.emitValues at h
  by_cases hk : k ≤ nb.values.length
  · rw [if_pos hk] at h
    obtain ⟨a, h1, h2⟩ := ok_bind.mp h
    cases h2
    exact ⟨⟨_, writeNode_grow hi h1⟩, hk, rfl, rfl, _, rfl, rfl⟩
  · rw [if_neg hk] at h; cases h

theorem emitAll_grow {n max : Nat} {io : NIO V E} {nb : NB E} {s : St V} (hi : s.sm.Inv n max) {r : NB E × St V}
    (h : Bld.emitAll io nb s = .ok r) : ∃ l, Grow n max s r.2 l := by
  unfold Bld.emitAll at h
  simp only at h
  by_cases h0 : nb.values.length = 0
  · rw [if_pos h0] at h; cases h; exact ⟨[], .refl hi⟩
  · rw [if_neg h0] at h
    by_cases h1 : nb.values.length ≤ nb.cap
    · rw [if_pos h1] at h; exact (emitValues_grow hi h).1
    · rw [if_neg h1] at h
      by_cases h2 : nb.values.length ≤ nb.cap * 2
      · rw [if_pos h2] at h
        obtain ⟨a, g1, g2⟩ := ok_bind.mp h
        obtain ⟨⟨l, k1⟩, -⟩ := emitValues_grow hi g1
        obtain ⟨⟨l', k2⟩, -⟩ := emitValues_grow k1.sm g2
        exact ⟨_, k1.trans k2⟩
      · rw [if_neg h2] at h; cases h

/-- A builder that has received values only: its nodes are full, and enough values remain for another. -/
structure Fed (nb : NB E) : Prop where
  full : ∀ m ∈ nb.nodes, m.nr = nb.cap
  rest : nb.nodes ≠ [] → nb.cap < nb.values.length

theorem Fed.new (cap : Nat) (sh : Bool) : Fed (NB.new cap sh : NB E) := ⟨by simp [NB.new], by simp [NB.new]⟩

theorem Fed.notLone {nb : NB E} (h : Fed nb) : Bld.loneUnderfull nb = false := by
  unfold Bld.loneUnderfull
  split
  · rename_i n hn
    have := h.full n (by rw [hn]; simp)
    simp only [decide_eq_false_iff_not]
    have := Nat.div_le_self nb.cap 2
    omega
  · rfl

theorem checkKey_eq {key : Nat} {nb nb' : NB E} (h : Bld.checkKey key nb = .ok nb') :
    nb'.values = nb.values ∧ nb'.nodes = nb.nodes ∧ nb'.cap = nb.cap := by
  unfold Bld.checkKey at h
  split at h
  · split at h
    · cases h
    · cases h; exact ⟨rfl, rfl, rfl⟩
  · cases h; exact ⟨rfl, rfl, rfl⟩

theorem incValue_sm {io : NIO V E} {v : E} {s t : St V} (h : Bld.incValue io v s = .ok t) : t.sm = s.sm ∧ t.allocs = s.allocs := by
  unfold Bld.incValue at h
  split at h
  · cases h; exact ⟨rfl, rfl⟩
  · cases h

theorem pushValue_grow {n max : Nat} {io : NIO V E} {key : Nat} {v : E} {nb : NB E} {s : St V} (hi : s.sm.Inv n max) (hf : Fed nb)
    {r : NB E × St V} (h : Bld.pushValue io key v nb s = .ok r) : (∃ l, Grow n max s r.2 l) ∧ Fed r.1 := by
  unfold Bld.pushValue at h
  rw [hf.notLone] at h
  simp only [Bool.false_eq_true, if_false] at h
  obtain ⟨⟨nb1, s1⟩, h1, h⟩ := ok_bind.mp h
  obtain ⟨nb2, h2, h⟩ := ok_bind.mp h
  obtain ⟨s2, h3, h⟩ := ok_bind.mp h
  cases h
  obtain ⟨e1, e2, e3⟩ := checkKey_eq h2
  obtain ⟨e4, e5⟩ := incValue_sm h3
  simp only at h1 e1 e2 e3 e4 e5 ⊢
  by_cases hv : nb.values.length = nb.cap * 2
  · rw [if_pos hv] at h1
    obtain ⟨⟨l, g⟩, hk, g1, g2, m, g3, g4⟩ := emitValues_grow hi h1
    simp only at g g1 g2 g4
    refine ⟨⟨l, g.frame e4 e5⟩, ?_, ?_⟩
    · intro x hx
      simp only [e2, g4, e3, g2] at hx ⊢
      rcases List.mem_append.mp hx with hx | hx
      · exact hf.full x hx
      · rw [List.mem_singleton] at hx; rw [hx]; exact g3
    · intro _
      simp only [e3, g2, e1, g1, List.length_append, List.length_drop, List.length_singleton]
      omega
  · rw [if_neg hv] at h1
    cases h1
    refine ⟨⟨[], (Grow.refl hi).frame e4 e5⟩, ?_, ?_⟩
    · intro x hx
      simp only [e2, e3] at hx ⊢
      exact hf.full x hx
    · intro hx
      simp only [e2, e3, e1, List.length_append, List.length_singleton] at hx ⊢
      have := hf.rest hx
      omega

theorem complete_grow {n max : Nat} {io : NIO V E} {nb : NB E} {s : St V} (hi : s.sm.Inv n max) (hf : Fed nb)
    {r : List Summary × St V} (h : Bld.complete io nb s = .ok r) : ∃ l, Grow n max s r.2 l := by
  unfold Bld.complete at h
  have hno : ¬ (nb.values ≠ [] ∧ nb.values.length < nb.cap / 2 ∧ nb.nodes ≠ []) := by
    rintro ⟨-, h1, h2⟩
    have := hf.rest h2
    have := Nat.div_le_self nb.cap 2
    omega
  rw [if_neg hno] at h
  obtain ⟨a, h1, h⟩ := ok_bind.mp h
  cases h1
  obtain ⟨b, h2, h⟩ := ok_bind.mp h
  obtain ⟨c, h3, h⟩ := ok_bind.mp h
  cases h
  obtain ⟨l, g⟩ := emitAll_grow hi h2
  by_cases hn : b.1.nodes = []
  · rw [if_pos hn] at h3
    obtain ⟨⟨l', g'⟩, -⟩ := emitValues_grow g.sm h3
    exact ⟨_, g.trans g'⟩
  · rw [if_neg hn] at h3
    cases h3
    exact ⟨_, g⟩

theorem pushAll_grow {n max : Nat} {io : NIO V E} (es : List (Nat × E)) : ∀ {nb : NB E} {s : St V}, s.sm.Inv n max → Fed nb →
    ∀ {r : NB E × St V}, Bld.pushAll io es nb s = .ok r → (∃ l, Grow n max s r.2 l) ∧ Fed r.1 := by
  induction es with
  | nil => intro nb s hi hf r h; cases h; exact ⟨⟨[], .refl hi⟩, hf⟩
  | cons e es ih =>
    intro nb s hi hf r h
    unfold Bld.pushAll at h
    obtain ⟨a, h1, h⟩ := ok_bind.mp h
    obtain ⟨⟨l, g⟩, hf'⟩ := pushValue_grow hi hf h1
    obtain ⟨⟨l', g'⟩, hf''⟩ := ih g.sm hf' h
    exact ⟨⟨_, g.trans g'⟩, hf''⟩

theorem buildLoop_grow {n max capI : Nat} : ∀ (fuel : Nat) {nodes : List Summary} {s : St V}, s.sm.Inv n max →
    ∀ {r : Nat × St V}, Bld.buildLoop capI fuel nodes s = .ok r → ∃ l, Grow n max s r.2 l := by
  intro fuel
  induction fuel with
  | zero =>
    intro nodes s hi r h
    match nodes with
    | [] => cases h
    | [m] => cases h; exact ⟨[], .refl hi⟩
    | _ :: _ :: _ => cases h
  | succ fuel ih =>
    intro nodes s hi r h
    match nodes with
    | [] => cases h
    | [m] => cases h; exact ⟨[], .refl hi⟩
    | a :: b :: l =>
      have h' : (Bld.buildLayer capI (a :: b :: l) s >>= fun r => Bld.buildLoop capI fuel r.1 r.2) = .ok r := h
      obtain ⟨x, h1, h2⟩ := ok_bind.mp h'
      unfold Bld.buildLayer at h1
      obtain ⟨y, h3, h4⟩ := ok_bind.mp h1
      obtain ⟨⟨l1, g1⟩, hf⟩ := pushAll_grow _ hi (Fed.new _ _) h3
      obtain ⟨l2, g2⟩ := complete_grow g1.sm hf h4
      obtain ⟨l3, g3⟩ := ih g2.sm h2
      exact ⟨_, (g1.trans g2).trans g3⟩

theorem completeTree_grow {n max capI : Nat} {nb : NB SVal} {s : St SVal} (hi : s.sm.Inv n max) (hf : Fed nb) {r : Nat × St SVal}
    (h : completeTree capI nb s = .ok r) : ∃ l, Grow n max s r.2 l := by
  unfold completeTree at h
  obtain ⟨a, h1, h2⟩ := ok_bind.mp h
  obtain ⟨l1, g1⟩ := complete_grow hi hf h1
  obtain ⟨l2, g2⟩ := buildLoop_grow _ g1.sm h2
  exact ⟨_, g1.trans g2⟩

theorem writeBitmap_grow {n max epb : Nat} {es : List BE} {S : SSt} (hi : S.bt.sm.Inv n max) {r : Nat × SSt}
    (h : writeBitmap epb es S = .ok r) : Grow n max S.bt r.2.bt [r.1] := by
  unfold writeBitmap at h
  obtain ⟨a, h1, h2⟩ := ok_bind.mp h
  cases h2
  exact (alloc_grow hi h1).frame rfl rfl

/-- both kinds of knowledge together -/
theorem Post.and {α : Type} {x : Except Err α} {Q R : α → Prop} (h : Post x Q) (k : ∀ r, x = .ok r → R r) : Post x (fun r => Q r ∧ R r) := by
  cases x with
  | error e => exact h
  | ok a => exact ⟨h, k a rfl⟩

end Verif.SMD
