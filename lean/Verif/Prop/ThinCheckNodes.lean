import Verif.Prop.ThinCheckSum

/-!
# C47: the first pass of `thin_check` finds exactly the nodes of undamaged trees and counts their references

`Bal` is a node of an undamaged tree, `Reach` what the roots lead to.
-/

namespace Verif.TChk

open Verif.BT (Blk KeyRange splitKeyRanges)

variable {d : Dev}

/-! ## Specification -/

/-- the children of a node -/
def kids (d : Dev) (b : Nat) : List Nat :=
  match d.rd b with
  | some (.internal ch) => ch.map (·.2)
  | _ => []

/-- a node `h` levels above the leaves, all of whose descendants can be read -/
inductive Bal (d : Dev) : Nat → Nat → Prop
  | leaf (b : Nat) (es : List (Nat × Nat)) : d.rd b = some (.leaf es) → Bal d 0 b
  | node (h b : Nat) (ch : List (Nat × Nat)) : d.rd b = some (.internal ch) → ch ≠ [] → (ch.map (·.2)).Nodup → (∀ c ∈ ch, Bal d h c.2) → Bal d (h + 1) b

/-- the blocks the trees at `roots` consist of -/
inductive Reach (d : Dev) (roots : List Nat) : Nat → Prop
  | root (r : Nat) : r ∈ roots → Reach d roots r
  | kid (b c : Nat) : Reach d roots b → c ∈ kids d b → Reach d roots c

theorem Bal.unique {h h' b : Nat} (x : Bal d h b) (y : Bal d h' b) : h = h' := by
  induction x generalizing h' with
  | leaf b es hb =>
    cases y with
    | leaf => rfl
    | node h' _ ch hb' => rw [hb] at hb'; cases hb'
  | node h b ch hb hne hnd hk ih =>
    cases y with
    | leaf _ es hb' => rw [hb] at hb'; cases hb'
    | node h' _ ch' hb' hne' hnd' hk' =>
      rw [hb] at hb'; cases hb'
      obtain ⟨c, hc⟩ := List.exists_mem_of_ne_nil _ hne
      rw [ih c hc (hk' c hc)]

/-- all trees at the roots are undamaged -/
def Balanced (d : Dev) (roots : List Nat) : Prop := ∀ r ∈ roots, ∃ h, Bal d h r

theorem Bal.kid {h b c : Nat} (x : Bal d (h + 1) b) (hc : c ∈ kids d b) : Bal d h c := by
  cases x with
  | node _ _ ch hb hne hnd hk =>
    simp only [kids, hb] at hc
    obtain ⟨e, he, rfl⟩ := List.mem_map.mp hc
    exact hk e he

theorem Reach.bal {roots : List Nat} (hr : Balanced d roots) {b : Nat} (x : Reach d roots b) : ∃ h, Bal d h b := by
  induction x with
  | root r h => exact hr r h
  | kid b c hb hc ih =>
    obtain ⟨h, hh⟩ := ih
    cases h with
    | zero =>
      cases hh with
      | leaf _ es e => simp [kids, e] at hc
    | succ h => exact ⟨h, hh.kid hc⟩

theorem Bal.lt (hd : Sane d) {h b : Nat} (x : Bal d h b) : b < d.nr := by
  cases x with
  | leaf _ es e => exact hd.bound b _ e
  | node _ _ ch e => exact hd.bound b _ e

theorem Bal.u32 (hd : Sane d) {h b : Nat} (x : Bal d h b) : u32 b = b := u32_of_lt (Nat.lt_of_lt_of_le (x.lt hd) hd.small)

/-! ## Depth -/

/-- the depth of an undamaged tree is found along its first children -/
theorem getDepth_bal (hl : ∀ b n, d.rd b = some n → d.rdl b = some n) : ∀ (h b fuel : Nat) (path : List Nat), Bal d h b → h < fuel → (∀ x ∈ path, ∀ k, Bal d k x → h ≤ k) →
    getDepth d fuel path b = some (some h) := by
  intro h
  induction h with
  | zero =>
    intro b fuel path hb hf _
    obtain ⟨fuel, rfl⟩ : ∃ f, fuel = f + 1 := ⟨fuel - 1, by omega⟩
    cases hb with
    | leaf _ es e => simp only [getDepth, hl b _ e]
  | succ h ih =>
    intro b fuel path hb hf hp
    obtain ⟨fuel, rfl⟩ : ∃ f, fuel = f + 1 := ⟨fuel - 1, by omega⟩
    cases hb with
    | node _ _ ch e hne hnd hk =>
      simp only [getDepth, hl b _ e]
      cases ch with
      | nil => exact absurd rfl hne
      | cons c ch =>
        have hc := hk c (by simp)
        have hnp : path.contains c.2 = false := by
          rw [Bool.eq_false_iff]
          intro h1
          have := hp c.2 (List.contains_iff_mem.mp h1) h hc
          omega
        simp only [List.map_cons, firstOk, hnp]
        rw [ih c.2 fuel (path ++ [c.2]) hc (by omega) (by
          intro x hx k hxk
          rcases List.mem_append.mp hx with hx | hx
          · have := hp x hx k hxk; omega
          · have e := List.mem_singleton.mp hx
            subst e
            exact Nat.le_of_eq (hc.unique hxk))]
        rfl

/-! ## Node types -/

theorem ty_insertLeaf (n : NodeMap) (b x : Nat) : (n.insertLeaf b).ty x = if x = b ∧ n.ty b = .none then .leaf else n.ty x := by
  unfold NodeMap.insertLeaf
  by_cases h : n.ty b = .none
  · rw [if_neg (by simp [h])]
    by_cases e : x = b
    · subst e
      rw [if_pos ⟨rfl, h⟩]
      unfold NodeMap.ty at h ⊢
      simp only [NodeMap.setTy, setBit]
      revert h
      cases n.lsb x <;> cases n.msb x <;> simp
    · rw [if_neg (fun h => e h.1)]
      simp only [NodeMap.ty, NodeMap.setTy, setBit, if_neg e]
  · rw [if_pos h, if_neg (fun q => h q.2)]

theorem ty_insertInternal (n : NodeMap) (b x : Nat) (i : List (Nat × Nat)) :
    (n.insertInternal b i).ty x = if x = b ∧ (n.ty b = .none ∨ n.ty b = .leaf) then .internal else n.ty x := by
  unfold NodeMap.insertInternal
  by_cases h : n.ty b = .none ∨ n.ty b = .leaf
  · rw [if_neg fun q => h.elim q.1 q.2]
    by_cases e : x = b
    · subst e
      rw [if_pos ⟨rfl, h⟩]
      simp [NodeMap.ty, NodeMap.setTy, setBit]
    · rw [if_neg (fun h => e h.1)]
      simp only [NodeMap.ty, NodeMap.setTy, setBit, if_neg e]
  · rw [if_pos ⟨fun q => h (Or.inl q), fun q => h (Or.inr q)⟩, if_neg (fun q => h q.2)]

/-! ## References -/

/-- references to `x` from the internal nodes on record -/
def refs (d : Dev) (n : NodeMap) (x : Nat) : Nat := ((List.range d.nr).map fun y => if n.ty y = .internal then (kids d y).count x else 0).sum

theorem sum_update (L : List Nat) (hL : L.Nodup) (f g : Nat → Nat) (b c : Nat) (hb : b ∈ L) (hg : g b = f b + c) (ho : ∀ y, y ≠ b → g y = f y) :
    (L.map g).sum = (L.map f).sum + c := by
  induction L with
  | nil => cases hb
  | cons y L ih =>
    rw [List.nodup_cons] at hL
    simp only [List.map_cons, List.sum_cons]
    rcases List.mem_cons.mp hb with e | hb
    · subst e
      have : L.map g = L.map f := List.map_congr_left fun z hz => ho z fun e => hL.1 (e ▸ hz)
      rw [this, hg]; omega
    · have : g y = f y := ho y fun e => hL.1 (e ▸ hb)
      rw [ih hL.2 hb, this]; omega

theorem sum_mono (L : List Nat) (f g : Nat → Nat) (h : ∀ y ∈ L, f y ≤ g y) : (L.map f).sum ≤ (L.map g).sum := by
  induction L with
  | nil => simp
  | cons y L ih =>
    simp only [List.map_cons, List.sum_cons]
    have := h y (by simp)
    have := ih fun z hz => h z (by simp [hz])
    omega

theorem refs_congr {n n' : NodeMap} (h : ∀ y, n'.ty y = .internal ↔ n.ty y = .internal) (x : Nat) : refs d n' x = refs d n x := by
  unfold refs
  congr 1
  apply List.map_congr_left
  intro y _
  by_cases e : n.ty y = .internal
  · rw [if_pos e, if_pos ((h y).mpr e)]
  · rw [if_neg e, if_neg fun q => e ((h y).mp q)]

theorem refs_new {n n' : NodeMap} {b : Nat} (hb : b < d.nr) (h0 : n.ty b ≠ .internal) (h1 : n'.ty b = .internal) (h : ∀ y, y ≠ b → n'.ty y = n.ty y) (x : Nat) :
    refs d n' x = refs d n x + (kids d b).count x := by
  unfold refs
  apply sum_update _ List.nodup_range _ _ b _ (List.mem_range.mpr hb)
  · rw [if_pos h1, if_neg h0, Nat.zero_add]
  · intro y hy; rw [h y hy]

/-! ## The invariant -/

open Classical in
/-- all references from the internal nodes of the trees, if the children were counted -/
noncomputable def total (d : Dev) (roots : List Nat) (x : Nat) : Nat := ((List.range d.nr).map fun y => if Reach d roots y then (kids d y).count x else 0).sum

/-- the state of the first pass between two steps: `base` are the references from elsewhere -/
structure Inv (d : Dev) (roots : List Nat) (base : Nat → Nat) (n : NodeMap) (sm : Sm) : Prop where
  int : ∀ b, n.ty b = .internal → Reach d roots b ∧ ∃ ch, d.rd b = some (.internal ch) ∧ n.info b = some ch
  leaf : ∀ b, n.ty b = .leaf → Reach d roots b ∧ ∃ es, d.rd b = some (.leaf es)
  noErr : ∀ b, n.ty b ≠ .error ∧ n.errs b = false
  bit : ∀ b, n.leafBit b = decide (n.ty b = .leaf)
  nr : sm.nr = d.nr
  counted : ∀ b, n.ty b ≠ .none → 0 < sm.cnt b
  cnt : sm.sat = false → ∀ x, sm.cnt x = base x + refs d n x

/-- a node and everything below it is on record -/
inductive Dn (d : Dev) (n : NodeMap) : Nat → Prop
  | leaf (b : Nat) : n.ty b = .leaf → Dn d n b
  | node (b : Nat) (ch : List (Nat × Nat)) : n.ty b = .internal → d.rd b = some (.internal ch) → (∀ c ∈ ch, Dn d n c.2) → Dn d n b

theorem Dn.mono {n n' : NodeMap} {b : Nat} (h : Dn d n b) (hm : ∀ x, n.ty x ≠ .none → n'.ty x = n.ty x) : Dn d n' b := by
  induction h with
  | leaf b hb => exact .leaf b (by rw [hm b (by rw [hb]; decide), hb])
  | node b ch hb hr hk ih => exact .node b ch (by rw [hm b (by rw [hb]; decide), hb]) hr ih

theorem Dn.ty {n : NodeMap} {b : Nat} (h : Dn d n b) : n.ty b ≠ .none := by
  cases h with
  | leaf _ h => rw [h]; decide
  | node _ ch h => rw [h]; decide

/-- nodes up to height `h` that were counted are finished -/
def Fin (d : Dev) (roots : List Nat) (n : NodeMap) (sm : Sm) (h : Nat) : Prop := ∀ b k, Reach d roots b → Bal d k b → k ≤ h → 0 < sm.cnt b → Dn d n b

/-- counters do not overflow -/
def Room (d : Dev) (roots : List Nat) (base : Nat → Nat) (sm : Sm) : Prop := sm.sat = false → ∀ x, base x + total d roots x ≤ sm.mx

theorem refs_le {roots : List Nat} {n : NodeMap} (h : ∀ b, n.ty b = .internal → Reach d roots b) (x : Nat) : refs d n x ≤ total d roots x := by
  unfold refs total
  apply sum_mono
  intro y _
  by_cases e : n.ty y = .internal
  · rw [if_pos e, if_pos (h y e)]; exact Nat.le_refl _
  · rw [if_neg e]; exact Nat.zero_le _

theorem Sm.inc_ok {sm : Sm} {b : Nat} (hb : b < sm.nr) (h : sm.sat = false → sm.cnt b < sm.mx) : ∃ sm', sm.inc b = some sm' ∧ sm'.nr = sm.nr ∧ sm'.mx = sm.mx ∧ sm'.sat = sm.sat ∧
    (sm.sat = false → sm'.cnt b = sm.cnt b + 1) ∧ sm.cnt b ≤ sm'.cnt b ∧ (sm'.cnt b > 1 → 0 < sm.cnt b) ∧ (0 < sm.mx → 0 < sm'.cnt b) ∧ ∀ x, x ≠ b → sm'.cnt x = sm.cnt x := by
  unfold Sm.inc
  rw [if_pos hb]
  by_cases hc : sm.cnt b < sm.mx
  · rw [if_pos hc]
    refine ⟨_, rfl, rfl, rfl, rfl, fun _ => ?_, ?_, ?_, fun _ => ?_, fun x hx => ?_⟩
    · show (if b = b then sm.cnt b + 1 else sm.cnt b) = _
      rw [if_pos rfl]
    · show sm.cnt b ≤ (if b = b then sm.cnt b + 1 else sm.cnt b)
      rw [if_pos rfl]; omega
    · show (if b = b then sm.cnt b + 1 else sm.cnt b) > 1 → _
      rw [if_pos rfl]; omega
    · show 0 < (if b = b then sm.cnt b + 1 else sm.cnt b)
      rw [if_pos rfl]; omega
    · show (if x = b then sm.cnt b + 1 else sm.cnt x) = _
      rw [if_neg hx]
  · rw [if_neg hc]
    cases hs : sm.sat with
    | false => exact absurd (h hs) hc
    | true =>
      rw [if_pos rfl]
      exact ⟨sm, rfl, rfl, rfl, hs, fun h => (by cases h), Nat.le_refl _, fun h => (by omega), fun h => (by omega), fun x _ => rfl⟩

/-- the loop over the children of a node -/
theorem newKids_spec (hd : Sane d) (n : NodeMap) (depth : Nat) : ∀ (vs : List Nat) (sm : Sm), 0 < sm.mx → sm.nr = d.nr → (∀ v ∈ vs, v < d.nr) → vs.Nodup →
    (sm.sat = false → ∀ v ∈ vs, sm.cnt v < sm.mx) → ∃ sm' ks, newKids n depth vs sm = (sm', ks) ∧ sm'.nr = sm.nr ∧ sm'.mx = sm.mx ∧ sm'.sat = sm.sat ∧
      ks.Sublist vs ∧ (∀ x, sm.cnt x ≤ sm'.cnt x) ∧ (∀ x, x ∉ vs → sm'.cnt x = sm.cnt x) ∧ (∀ v ∈ vs, 0 < sm'.cnt v) ∧
      (sm.sat = false → ∀ x, sm'.cnt x = sm.cnt x + vs.count x) ∧
      (∀ v ∈ vs, v ∉ ks → 0 < sm.cnt v ∧ (depth = 0 → n.ty v ≠ .none)) ∧
      (∀ v ∈ ks, sm.sat = false → sm.cnt v = 0 ∨ (0 < depth ∧ n.ty v = .leaf) ∨ n.ty v = .none) := by
  intro vs
  induction vs with
  | nil => intro sm _ _ _ _ _; exact ⟨sm, [], rfl, rfl, rfl, rfl, List.Sublist.refl _, fun _ => Nat.le_refl _, fun _ _ => rfl, by simp, by simp, by simp, by simp⟩
  | cons v vs ih =>
    intro sm hmx hnr hlt hnd hroom
    rw [List.nodup_cons] at hnd
    have hv : v < d.nr := hlt v (by simp)
    have hu : u32 v = v := u32_of_lt (Nat.lt_of_lt_of_le hv hd.small)
    obtain ⟨s1, e1, a1, a2, a3, a4, a5, a6, a7, a8⟩ := Sm.inc_ok (sm := sm) (b := v) (by omega) (fun h => hroom h v (by simp))
    have hne : ∀ x ∈ vs, x ≠ v := fun x hx e => hnd.1 (e ▸ hx)
    obtain ⟨s2, ks, e2, b1, b2, b3, b4, b5, b6, b7, b8, b9, b10⟩ := ih s1 (by omega) (by omega) (fun x hx => hlt x (by simp [hx])) hnd.2 (by
      intro hs x hx
      rw [a8 x (hne x hx), a2]
      exact hroom (by rw [← a3]; exact hs) x (by simp [hx]))
    simp only [newKids, isSeen, hu, e1, Option.map_some, e2]
    have hsub : (if (!decide (s1.cnt v > 1) || (decide (depth > 0) && decide (n.ty v = .leaf)) || (decide (depth = 0) && decide (n.ty v = .none))) = true then v :: ks else ks).Sublist (v :: vs) := by
      split
      · exact List.Sublist.cons_cons v b4
      · exact List.Sublist.cons v b4
    refine ⟨s2, _, rfl, by omega, by omega, by rw [b3, a3], hsub, ?_, ?_, ?_, ?_, ?_, ?_⟩
    · intro x
      by_cases e : x = v
      · subst e; exact Nat.le_trans a5 (b5 x)
      · rw [← a8 x e]; exact b5 x
    · intro x hx
      rw [List.mem_cons, not_or] at hx
      rw [b6 x hx.2, a8 x hx.1]
    · intro x hx
      rcases List.mem_cons.mp hx with e | hx
      · subst e
        exact Nat.lt_of_lt_of_le (a7 hmx) (b5 x)
      · exact b7 x hx
    · intro hs x
      rw [b8 (by rw [a3]; exact hs) x, List.count_cons]
      by_cases e : x = v
      · subst e
        rw [a4 hs]; simp; omega
      · rw [a8 x e]
        have : (v == x) = false := by simp; exact fun h => e h.symm
        rw [this]; simp
    · intro x hx hxk
      rcases List.mem_cons.mp hx with e | hx
      · subst e
        split at hxk
        · simp at hxk
        · rename_i hc
          simp only [Bool.or_eq_true, Bool.and_eq_true, Bool.not_eq_true', decide_eq_true_eq, decide_eq_false_iff_not, not_or, not_and] at hc
          exact ⟨a6 (by omega), hc.2⟩
      · have : x ∉ ks := by
          intro h
          apply hxk
          split
          · simp [h]
          · exact h
        obtain ⟨c1, c2⟩ := b9 x hx this
        rw [a8 x (hne x hx)] at c1
        exact ⟨c1, c2⟩
    · intro x hx hs
      have hs1 : s1.sat = false := by rw [a3]; exact hs
      have hks : x ∈ ks → sm.cnt x = 0 ∨ (0 < depth ∧ n.ty x = .leaf) ∨ n.ty x = .none := by
        intro hx
        have := b10 x hx hs1
        rw [a8 x (hne x (b4.subset hx))] at this
        exact this
      split at hx
      · rename_i hc
        rcases List.mem_cons.mp hx with e | hx
        · subst e
          simp only [Bool.or_eq_true, Bool.and_eq_true, Bool.not_eq_true', decide_eq_true_eq, decide_eq_false_iff_not] at hc
          rcases hc with (hc | hc) | hc
          · left
            have := a4 hs
            omega
          · exact Or.inr (Or.inl ⟨hc.1, hc.2⟩)
          · exact Or.inr (Or.inr hc.2)
        · exact hks hx
      · exact hks hx

theorem insertInternal_other (n : NodeMap) (b : Nat) (i : List (Nat × Nat)) : (n.insertInternal b i).errs = n.errs ∧
    (∀ x, (n.insertInternal b i).info x = if x = b ∧ (n.ty b = .none ∨ n.ty b = .leaf) then some i else n.info x) ∧
    ∀ x, (n.insertInternal b i).leafBit x = if x = b ∧ (n.ty b = .none ∨ n.ty b = .leaf) then false else n.leafBit x := by
  unfold NodeMap.insertInternal
  by_cases h : n.ty b = .none ∨ n.ty b = .leaf
  · rw [if_neg fun q => h.elim q.1 q.2]
    refine ⟨rfl, fun x => ?_, fun x => ?_⟩ <;> simp only [NodeMap.setTy, setBit] <;> by_cases e : x = b
    · rw [if_pos e, if_pos ⟨e, h⟩]
    · rw [if_neg e, if_neg fun q => e q.1]
    · rw [if_pos e, if_pos ⟨e, h⟩]
    · rw [if_neg e, if_neg fun q => e q.1]
  · rw [if_pos ⟨fun q => h (Or.inl q), fun q => h (Or.inr q)⟩]
    exact ⟨rfl, fun x => by rw [if_neg fun q => h q.2], fun x => by rw [if_neg fun q => h q.2]⟩

theorem insertLeaf_other (n : NodeMap) (b : Nat) : (n.insertLeaf b).errs = n.errs ∧ (n.insertLeaf b).info = n.info ∧
    ∀ x, (n.insertLeaf b).leafBit x = if x = b ∧ n.ty b = .none then true else n.leafBit x := by
  unfold NodeMap.insertLeaf
  by_cases h : n.ty b = .none
  · rw [if_neg (by simp [h])]
    refine ⟨rfl, rfl, fun x => ?_⟩
    simp only [NodeMap.setTy, setBit]
    by_cases e : x = b
    · rw [if_pos e, if_pos ⟨e, h⟩]
    · rw [if_neg e, if_neg fun q => e q.1]
  · rw [if_pos h]
    exact ⟨rfl, rfl, fun x => by rw [if_neg fun q => h q.2]⟩

variable {roots : List Nat} {base : Nat → Nat}

/-- putting a leaf of the trees on record -/
theorem Inv.addLeaf {n : NodeMap} {sm : Sm} (h : Inv d roots base n sm) {b : Nat} {es : List (Nat × Nat)} (hr : Reach d roots b) (hb : d.rd b = some (.leaf es)) (hc : 0 < sm.cnt b) :
    Inv d roots base (n.insertLeaf b) sm ∧ (n.insertLeaf b).ty b = .leaf ∧ (∀ x, n.ty x ≠ .none → (n.insertLeaf b).ty x = n.ty x) ∧ ∀ x, x ≠ b → (n.insertLeaf b).ty x = n.ty x := by
  obtain ⟨o1, o2, o3⟩ := insertLeaf_other n b
  have hty := ty_insertLeaf n b
  have hbt : n.ty b = .none ∨ n.ty b = .leaf := by
    cases e : n.ty b with
    | none => exact Or.inl rfl
    | leaf => exact Or.inr rfl
    | internal => obtain ⟨-, ch, h1, -⟩ := h.int b e; rw [hb] at h1; cases h1
    | error => exact absurd e (h.noErr b).1
  have hself : (n.insertLeaf b).ty b = .leaf := by
    rw [hty]
    rcases hbt with e | e
    · rw [if_pos ⟨rfl, e⟩]
    · rw [if_neg (by rw [e]; simp), e]
  have hint : ∀ x, (n.insertLeaf b).ty x = .internal ↔ n.ty x = .internal := by
    intro x
    rw [hty]
    by_cases q : x = b ∧ n.ty b = .none
    · rw [if_pos q, q.1, q.2]; simp
    · rw [if_neg q]
  refine ⟨⟨?_, ?_, ?_, ?_, h.nr, ?_, ?_⟩, hself, ?_, ?_⟩
  · intro x hx
    rw [o2]
    exact h.int x ((hint x).mp hx)
  · intro x hx
    rw [hty] at hx
    by_cases q : x = b ∧ n.ty b = .none
    · rw [q.1]; exact ⟨hr, es, hb⟩
    · rw [if_neg q] at hx; exact h.leaf x hx
  · intro x
    rw [o1, hty]
    refine ⟨?_, (h.noErr x).2⟩
    by_cases q : x = b ∧ n.ty b = .none
    · rw [if_pos q]; decide
    · rw [if_neg q]; exact (h.noErr x).1
  · intro x
    rw [o3, hty]
    by_cases q : x = b ∧ n.ty b = .none
    · rw [if_pos q, if_pos q]; rfl
    · rw [if_neg q, if_neg q]; exact h.bit x
  · intro x hx
    rw [hty] at hx
    by_cases q : x = b ∧ n.ty b = .none
    · rw [q.1]; exact hc
    · rw [if_neg q] at hx; exact h.counted x hx
  · intro hs x
    rw [refs_congr hint]
    exact h.cnt hs x
  · intro x hx
    rw [hty, if_neg (by rintro ⟨rfl, q⟩; exact hx q)]
  · intro x hx
    rw [hty, if_neg fun q => hx q.1]

/-- the leaves below a node of the lowest level -/
theorem addLeaves : ∀ (ks : List Nat) (n : NodeMap) (sm : Sm), (∀ v ∈ ks, u32 v = v) → Inv d roots base n sm →
    (∀ v ∈ ks, Reach d roots v ∧ (∃ es, d.rd v = some (.leaf es)) ∧ 0 < sm.cnt v) →
    Inv d roots base (ks.foldl (fun n v => n.insertLeaf (u32 v)) n) sm ∧ (∀ v ∈ ks, (ks.foldl (fun n v => n.insertLeaf (u32 v)) n).ty v = .leaf) ∧
      (∀ x, n.ty x ≠ .none → (ks.foldl (fun n v => n.insertLeaf (u32 v)) n).ty x = n.ty x) ∧ ∀ x, x ∉ ks → (ks.foldl (fun n v => n.insertLeaf (u32 v)) n).ty x = n.ty x := by
  intro ks
  induction ks with
  | nil => intro n sm _ h _; exact ⟨h, by simp, fun _ _ => rfl, fun _ _ => rfl⟩
  | cons v ks ih =>
    intro n sm hu h hk
    obtain ⟨hr, ⟨es, he⟩, hc⟩ := hk v (by simp)
    obtain ⟨i1, i2, i3, i4⟩ := h.addLeaf hr he hc
    obtain ⟨j1, j2, j3, j4⟩ := ih (n.insertLeaf v) sm (fun x hx => hu x (by simp [hx])) i1 fun x hx => hk x (by simp [hx])
    rw [List.foldl_cons, hu v (by simp)]
    refine ⟨j1, ?_, ?_, ?_⟩
    · intro x hx
      rcases List.mem_cons.mp hx with e | hx
      · subst e; rw [j3 x (by rw [i2]; decide), i2]
      · exact j2 x hx
    · intro x hx
      have := i3 x hx
      rw [j3 x (by rw [this]; exact hx), this]
    · intro x hx
      rw [List.mem_cons, not_or] at hx
      rw [j4 x hx.2, i4 x hx.1]

/-- what reading a node `h + 1` levels above the leaves achieves -/
structure Step (d : Dev) (roots : List Nat) (base : Nat → Nat) (h : Nat) (bs : List Nat) (n : NodeMap) (sm : Sm) (n' : NodeMap) (sm' : Sm) : Prop where
  inv : Inv d roots base n' sm'
  fin : Fin d roots n' sm' h
  dn : ∀ b ∈ bs, Dn d n' b
  keep : ∀ x, n.ty x ≠ .none → n'.ty x = n.ty x
  mono : ∀ x, sm.cnt x ≤ sm'.cnt x
  same : ∀ x k, Bal d k x → h < k → x ∉ bs → n'.ty x = n.ty x
  cntSame : ∀ x k, Bal d k x → h < k → sm'.cnt x = sm.cnt x
  shape : sm'.nr = sm.nr ∧ sm'.mx = sm.mx ∧ sm'.sat = sm.sat

/-- putting an internal node on record and counting its children -/
theorem Inv.expand (hd : Sane d) {h b : Nat} {n : NodeMap} {sm : Sm} {ch : List (Nat × Nat)} (hb : d.rd b = some (.internal ch)) (hnd : (ch.map (·.2)).Nodup)
    (hk : ∀ c ∈ ch, Bal d h c.2) (hr : Reach d roots b) (hi : Inv d roots base n sm) (hf : Fin d roots n sm h) (hc : 0 < sm.cnt b) (hmx : 0 < sm.mx)
    (hroom : Room d roots base sm) (hty : sm.sat = false → n.ty b = .none) :
    ∃ sm' ks, newKids (n.insertInternal b ch) h (ch.map (·.2)) sm = (sm', ks) ∧ Inv d roots base (n.insertInternal b ch) sm' ∧
      (n.insertInternal b ch).ty b = .internal ∧ (∀ x, x ≠ b → (n.insertInternal b ch).ty x = n.ty x) ∧ (∀ x, n.ty x ≠ .none → (n.insertInternal b ch).ty x = n.ty x) ∧
      (sm'.nr = sm.nr ∧ sm'.mx = sm.mx ∧ sm'.sat = sm.sat) ∧ ks.Sublist (ch.map (·.2)) ∧ (∀ x, sm.cnt x ≤ sm'.cnt x) ∧ (∀ x, x ∉ ch.map (·.2) → sm'.cnt x = sm.cnt x) ∧
      (∀ v ∈ ch.map (·.2), 0 < sm'.cnt v) ∧ (∀ v ∈ ch.map (·.2), v ∉ ks → Dn d n v) ∧ (∀ v ∈ ks, sm.sat = false → n.ty v = .none) := by
  have hkids : kids d b = ch.map (·.2) := by simp only [kids, hb]
  have hbal : ∀ v ∈ ch.map (·.2), Bal d h v := fun v hv => by
    obtain ⟨c, h1, rfl⟩ := List.mem_map.mp hv
    exact hk c h1
  have hreach : ∀ v ∈ ch.map (·.2), Reach d roots v := fun v hv => .kid b v hr (by rw [hkids]; exact hv)
  have hbt : n.ty b = .none ∨ n.ty b = .internal := by
    cases e : n.ty b with
    | none => exact Or.inl rfl
    | internal => exact Or.inr rfl
    | leaf => obtain ⟨-, es, h1⟩ := hi.leaf b e; rw [hb] at h1; cases h1
    | error => exact absurd e (hi.noErr b).1
  have hT := ty_insertInternal n b (i := ch)
  obtain ⟨o1, o2, o3⟩ := insertInternal_other n b ch
  have hself : (n.insertInternal b ch).ty b = .internal := by
    rw [hT]
    rcases hbt with e | e
    · rw [if_pos ⟨rfl, Or.inl e⟩]
    · rw [if_neg (by rw [e]; simp), e]
  have hother : ∀ x, x ≠ b → (n.insertInternal b ch).ty x = n.ty x := fun x hx => by rw [hT, if_neg fun q => hx q.1]
  have hkeep : ∀ x, n.ty x ≠ .none → (n.insertInternal b ch).ty x = n.ty x := by
    intro x hx
    by_cases e : x = b
    · subst e
      rw [hself]
      rcases hbt with e | e
      · exact absurd e hx
      · exact e.symm
    · exact hother x e
  have hint : ∀ x, (n.insertInternal b ch).ty x = .internal → Reach d roots x := by
    intro x hx
    by_cases e : x = b
    · subst e; exact hr
    · rw [hother x e] at hx; exact (hi.int x hx).1
  have hlt : b < d.nr := hd.bound b _ hb
  have hrefs : sm.sat = false → ∀ x, refs d (n.insertInternal b ch) x = refs d n x + (ch.map (·.2)).count x := by
    intro hs x
    rw [← hkids]
    exact refs_new hlt (by rw [hty hs]; decide) hself hother x
  obtain ⟨sm', ks, e, a1, a2, a3, a4, a5, a6, a7, a8, a9, a10⟩ := newKids_spec hd (n.insertInternal b ch) h (ch.map (·.2)) sm hmx hi.nr (fun v hv => (hbal v hv).lt hd) hnd (by
    intro hs v hv
    have h1 := hi.cnt hs v
    have h2 := hrefs hs v
    have h3 := refs_le hint v
    have h4 := hroom hs v
    have h5 : 0 < (ch.map (·.2)).count v := List.count_pos_iff.mpr hv
    omega)
  refine ⟨sm', ks, e, ⟨?_, ?_, ?_, ?_, by rw [a1]; exact hi.nr, ?_, ?_⟩, hself, hother, hkeep, ⟨a1, a2, a3⟩, a4, a5, a6, a7, ?_, ?_⟩
  · intro x hx
    refine ⟨hint x hx, ?_⟩
    by_cases e : x = b
    · subst e
      refine ⟨ch, hb, ?_⟩
      rw [o2]
      rcases hbt with e | e
      · rw [if_pos ⟨rfl, Or.inl e⟩]
      · rw [if_neg (by rw [e]; simp)]
        obtain ⟨-, ch', h1, h2⟩ := hi.int x e
        rw [hb] at h1
        cases h1
        exact h2
    · rw [hother x e] at hx
      obtain ⟨-, ch', h1, h2⟩ := hi.int x hx
      refine ⟨ch', h1, ?_⟩
      rw [o2, if_neg fun q => e q.1]
      exact h2
  · intro x hx
    by_cases e : x = b
    · subst e; rw [hself] at hx; cases hx
    · rw [hother x e] at hx; exact hi.leaf x hx
  · intro x
    rw [o1]
    refine ⟨?_, (hi.noErr x).2⟩
    by_cases e : x = b
    · subst e; rw [hself]; decide
    · rw [hother x e]; exact (hi.noErr x).1
  · intro x
    rw [o3]
    by_cases e : x = b
    · subst e
      rw [hself]
      rcases hbt with e | e
      · rw [if_pos ⟨rfl, Or.inl e⟩]; rfl
      · rw [if_neg (by rw [e]; simp), hi.bit, e]
    · rw [if_neg fun q => e q.1, hother x e]; exact hi.bit x
  · intro x hx
    by_cases e : x = b
    · subst e; exact Nat.lt_of_lt_of_le hc (a5 x)
    · rw [hother x e] at hx; exact Nat.lt_of_lt_of_le (hi.counted x hx) (a5 x)
  · intro hs x
    have hs' : sm.sat = false := by rw [← a3]; exact hs
    rw [a8 hs' x, hrefs hs' x, hi.cnt hs' x]
    omega
  · intro v hv hvk
    exact hf v h (hreach v hv) (hbal v hv) (Nat.le_refl _) (a9 v hv hvk).1
  · intro v hv hs
    have hvb : v ≠ b := by
      intro e
      have hne : ch ≠ [] := by
        intro e'
        have := a4.subset hv
        rw [e'] at this
        cases this
      have := (hbal v (a4.subset hv)).unique (e ▸ Bal.node h b ch hb hne hnd hk)
      omega
    have := a10 v hv hs
    rw [hother v hvb] at this
    rcases this with q | q | q
    · cases e : n.ty v with
      | none => rfl
      | _ => have := hi.counted v (by rw [e]; decide); omega
    · obtain ⟨-, es, h1⟩ := hi.leaf v q.2
      have := (hbal v (a4.subset hv)).unique (Bal.leaf v es h1)
      omega
    · exact q

theorem readNode_step (hd : Sane d) (hm : ∀ l i, d.many l i = true) : ∀ (h b : Nat) (n : NodeMap) (sm : Sm), Bal d (h + 1) b → Reach d roots b →
    Inv d roots base n sm → Fin d roots n sm h → 0 < sm.cnt b → 0 < sm.mx → Room d roots base sm → (sm.sat = false → n.ty b = .none) →
    Step d roots base h [b] n sm (readNode d h b n sm).1 (readNode d h b n sm).2 := by
  intro h
  induction h with
  | zero =>
    intro b n sm hbal hr hi hf hc hmx hroom hty
    have hub := hbal.u32 hd
    cases hbal with
    | node _ _ ch hb hne hnd hk =>
      obtain ⟨sm', ks, e, hi', t1, t2, t3, sh, sub, c1, c2, c3, c4, c5⟩ := hi.expand hd hb hnd hk hr hf hc hmx hroom hty
      have hkb : ∀ v ∈ ch.map (·.2), Bal d 0 v := fun v hv => by obtain ⟨c, h1, rfl⟩ := List.mem_map.mp hv; exact hk c h1
      have hkids : kids d b = ch.map (·.2) := by simp only [kids, hb]
      obtain ⟨j1, j2, j3, j4⟩ := addLeaves ks (n.insertInternal b ch) sm' (fun v hv => (hkb v (sub.subset hv)).u32 hd) hi' (by
        intro v hv
        have hv := sub.subset hv
        refine ⟨.kid b v hr (by rw [hkids]; exact hv), ?_, c3 v hv⟩
        cases hkb v hv with
        | leaf _ es he => exact ⟨es, he⟩)
      have hred : readNode d 0 b n sm = (ks.foldl (fun n v => n.insertLeaf (u32 v)) (n.insertInternal b ch), sm') := by
        unfold readNode
        simp only [hb, hub, map_u32 (hd.ptr b ch hb), e]
      rw [hred]
      generalize ks.foldl (fun n v => n.insertLeaf (u32 v)) (n.insertInternal b ch) = n' at *
      have hkeep : ∀ x, n.ty x ≠ .none → n'.ty x = n.ty x := by
        intro x hx
        rw [j3 x (by rw [t3 x hx]; exact hx), t3 x hx]
      have hv : ∀ v ∈ ch.map (·.2), Dn d n' v := by
        intro v hv
        by_cases hvk : v ∈ ks
        · exact .leaf v (j2 v hvk)
        · exact (c4 v hv hvk).mono hkeep
      have hbd : Dn d n' b := by
        refine .node b ch ?_ hb fun c hc => hv c.2 (List.mem_map.mpr ⟨c, hc, rfl⟩)
        rw [j3 b (by rw [t1]; decide), t1]
      refine ⟨j1, ?_, fun x hx => by rw [List.mem_singleton] at hx; subst hx; exact hbd, hkeep, c1, ?_, ?_, sh⟩
      · intro x k hx hxb hk0 hxc
        by_cases hxv : x ∈ ch.map (·.2)
        · exact hv x hxv
        · simp only at hxc
          rw [c2 x hxv] at hxc
          exact (hf x k hx hxb hk0 hxc).mono hkeep
      · intro x k hxb hk0 hx
        rw [List.mem_singleton] at hx
        rw [j4 x fun hxk => by have := (hkb x (sub.subset hxk)).unique hxb; omega, t2 x hx]
      · intro x k hxb hk0
        exact c2 x fun hxk => by have := (hkb x hxk).unique hxb; omega
  | succ h ih =>
    intro b n sm hbal hr hi hf hc hmx hroom hty
    have hub := hbal.u32 hd
    cases hbal with
    | node _ _ ch hb hne hnd hk =>
      obtain ⟨sm', ks, e, hi', t1, t2, t3, sh, sub, c1, c2, c3, c4, c5⟩ := hi.expand hd hb hnd hk hr hf hc hmx hroom hty
      have hkb : ∀ v ∈ ch.map (·.2), Bal d (h + 1) v := fun v hv => by obtain ⟨c, h1, rfl⟩ := List.mem_map.mp hv; exact hk c h1
      have hkids : kids d b = ch.map (·.2) := by simp only [kids, hb]
      have hred : readNode d (h + 1) b n sm = readKids d ks (readNode d h) ks 0 (n.insertInternal b ch) sm' := by
        rw [readNode]
        simp only [hb, hub, map_u32 (hd.ptr b ch hb), e]
      rw [hred]
      -- the loop over the new children
      have loop : ∀ (l : List Nat) (i : Nat) (n : NodeMap) (sm : Sm), l.Nodup → (∀ v ∈ l, v ∈ ch.map (·.2)) → Inv d roots base n sm → Fin d roots n sm h → 0 < sm.mx → Room d roots base sm →
          (∀ v ∈ l, 0 < sm.cnt v) → (∀ v ∈ l, sm.sat = false → n.ty v = .none) →
          Step d roots base h l n sm (readKids d ks (readNode d h) l i n sm).1 (readKids d ks (readNode d h) l i n sm).2 := by
        intro l
        induction l with
        | nil =>
          intro i n sm _ _ hi hf _ _ _ _
          exact ⟨hi, hf, by simp, fun _ _ => rfl, fun _ => Nat.le_refl _, fun _ _ _ _ _ => rfl, fun _ _ _ _ => rfl, rfl, rfl, rfl⟩
        | cons v l ihl =>
          intro i n sm hnd hl hi hf hmx hroom hcv hn
          rw [List.nodup_cons] at hnd
          have hv := hl v (by simp)
          have hvr : Reach d roots v := .kid b v hr (by rw [hkids]; exact hv)
          have s1 := ih v n sm (hkb v hv) hvr hi hf (hcv v (by simp)) hmx hroom (hn v (by simp))
          simp only [readKids, hm, if_true]
          generalize readNode d h v n sm = p at s1
          obtain ⟨n1, sm1⟩ := p
          have hroom1 : Room d roots base sm1 := by
            intro hs x
            rw [s1.shape.2.1]
            exact hroom (by rw [← s1.shape.2.2]; exact hs) x
          have s2 := ihl (i + 1) n1 sm1 hnd.2 (fun x hx => hl x (by simp [hx])) s1.inv s1.fin (by rw [s1.shape.2.1]; exact hmx) hroom1
            (fun x hx => Nat.lt_of_lt_of_le (hcv x (by simp [hx])) (s1.mono x))
            (fun x hx hs => by
              rw [s1.same x (h + 1) (hkb x (hl x (by simp [hx]))) (by omega) (by simp; intro e; exact hnd.1 (e ▸ hx))]
              exact hn x (by simp [hx]) (by rw [← s1.shape.2.2]; exact hs))
          refine ⟨s2.inv, s2.fin, ?_, ?_, fun x => Nat.le_trans (s1.mono x) (s2.mono x), ?_, ?_, ?_, ?_, ?_⟩
          · intro x hx
            rcases List.mem_cons.mp hx with e | hx
            · subst e; exact (s1.dn x (by simp)).mono s2.keep
            · exact s2.dn x hx
          · intro x hx
            have := s1.keep x hx
            rw [s2.keep x (by rw [this]; exact hx), this]
          · intro x k hx hk hxl
            rw [List.mem_cons, not_or] at hxl
            rw [s2.same x k hx hk hxl.2, s1.same x k hx hk (by simp; exact hxl.1)]
          · intro x k hx hk
            rw [s2.cntSame x k hx hk, s1.cntSame x k hx hk]
          · exact s2.shape.1.trans s1.shape.1
          · exact s2.shape.2.1.trans s1.shape.2.1
          · exact s2.shape.2.2.trans s1.shape.2.2
      have hroom' : Room d roots base sm' := by
        intro hs x
        rw [sh.2.1]
        exact hroom (by rw [← sh.2.2]; exact hs) x
      have hne' : ∀ v ∈ ch.map (·.2), v ≠ b := by
        intro v hv e
        have := (hkb v hv).unique (e ▸ Bal.node (h + 1) b ch hb hne hnd hk)
        omega
      have st := loop ks 0 (n.insertInternal b ch) sm' (hnd.sublist sub) (fun v hv => sub.subset hv) hi' (by
        intro x k hx hxb hk0 hxc
        rw [c2 x fun hxv => by have := (hkb x hxv).unique hxb; omega] at hxc
        exact (hf x k hx hxb (by omega) hxc).mono t3) (by rw [sh.2.1]; exact hmx) hroom' (fun v hv => c3 v (sub.subset hv)) (by
        intro v hv hs
        rw [t2 v (hne' v (sub.subset hv))]
        exact c5 v hv (by rw [← sh.2.2]; exact hs))
      generalize readKids d ks (readNode d h) ks 0 (n.insertInternal b ch) sm' = p at st
      obtain ⟨n', sm''⟩ := p
      have hkeep : ∀ x, n.ty x ≠ .none → n'.ty x = n.ty x := by
        intro x hx
        rw [st.keep x (by rw [t3 x hx]; exact hx), t3 x hx]
      have hv : ∀ v ∈ ch.map (·.2), Dn d n' v := by
        intro v hv
        by_cases hvk : v ∈ ks
        · exact st.dn v hvk
        · exact (c4 v hv hvk).mono hkeep
      have hbd : Dn d n' b := by
        refine .node b ch ?_ hb fun c hc => hv c.2 (List.mem_map.mpr ⟨c, hc, rfl⟩)
        rw [st.keep b (by rw [t1]; decide), t1]
      refine ⟨st.inv, ?_, fun x hx => by rw [List.mem_singleton] at hx; subst hx; exact hbd, hkeep, fun x => Nat.le_trans (c1 x) (st.mono x), ?_, ?_, ?_, ?_, ?_⟩
      · intro x k hx hxb hk0 hxc
        by_cases hk1 : k ≤ h
        · exact st.fin x k hx hxb hk1 hxc
        · simp only at hxc
          rw [st.cntSame x k hxb (by omega)] at hxc
          by_cases hxv : x ∈ ch.map (·.2)
          · exact hv x hxv
          · rw [c2 x hxv] at hxc
            exact (hf x k hx hxb hk0 hxc).mono hkeep
      · intro x k hxb hk0 hx
        rw [List.mem_singleton] at hx
        rw [st.same x k hxb (by omega) fun hxk => by have := (hkb x (sub.subset hxk)).unique hxb; omega, t2 x hx]
      · intro x k hxb hk0
        simp only
        rw [st.cntSame x k hxb (by omega), c2 x fun hxv => by have := (hkb x hxv).unique hxb; omega]
      · exact st.shape.1.trans sh.1
      · exact st.shape.2.1.trans sh.2.1
      · exact st.shape.2.2.trans sh.2.2

end Verif.TChk
