import Verif.Model.ThinLs
import Verif.Prop.ThinCheckRefs

/-!
# C66: the first pass of `thin_ls`

It finds the nodes that `thin_check` finds, and its two-bit counters hold the number of references, cut off at two.
-/

namespace Verif.Ls

open Verif.BT (Blk Tree)
open Verif.TChk (Dev Sm NodeMap Sum u32 kids Reach Balanced Sane InfoOk)

variable {d : Dev} {roots : List Nat}

/-! ## Counts only grow -/

def Le (a b : Sm) : Prop := ∀ x, a.cnt x ≤ b.cnt x

theorem Le.refl (a : Sm) : Le a a := fun _ => Nat.le_refl _

theorem Le.trans {a b c : Sm} (h : Le a b) (h' : Le b c) : Le a c := fun x => Nat.le_trans (h x) (h' x)

theorem inc_le {sm sm' : Sm} {b : Nat} (h : sm.inc b = some sm') : Le sm sm' := by
  unfold Sm.inc at h
  split at h
  · split at h
    · cases h
      intro x
      show sm.cnt x ≤ if x = b then sm.cnt b + 1 else sm.cnt x
      split
      · rename_i e; subst e; omega
      · exact Nat.le_refl _
    · split at h
      · cases h; exact Le.refl _
      · cases h
  · cases h

theorem isSeen_le {sm sm' : Sm} {b : Nat} {r : Bool} (h : TChk.isSeen b sm = some (sm', r)) : Le sm sm' := by
  unfold TChk.isSeen at h
  cases hi : sm.inc b with
  | none => rw [hi] at h; cases h
  | some s =>
    rw [hi] at h
    simp only [Option.map_some, Option.some.injEq, Prod.mk.injEq] at h
    rw [← h.1]
    exact inc_le hi

theorem newKids_le (n : NodeMap) (depth : Nat) : ∀ (vs : List Nat) (sm : Sm), Le sm (TChk.newKids n depth vs sm).1 := by
  intro vs
  induction vs with
  | nil => intro sm; exact Le.refl sm
  | cons v vs ih =>
    intro sm
    unfold TChk.newKids
    cases h : TChk.isSeen (u32 v) sm with
    | none => exact ih sm
    | some p => exact (isSeen_le h).trans (ih p.1)

theorem readKids_le (all : List Nat) (read : Nat → NodeMap → Sm → NodeMap × Sm) (hr : ∀ v n sm, Le sm (read v n sm).2) : ∀ (vs : List Nat) (i : Nat) (n : NodeMap) (sm : Sm),
    Le sm (TChk.readKids d all read vs i n sm).2 := by
  intro vs
  induction vs with
  | nil => intro i n sm; exact Le.refl sm
  | cons v vs ih =>
    intro i n sm
    unfold TChk.readKids
    split
    · exact (hr v n sm).trans (ih _ _ _)
    · exact ih _ _ _

theorem readNode_le : ∀ (depth b : Nat) (n : NodeMap) (sm : Sm), Le sm (TChk.readNode d depth b n sm).2 := by
  intro depth
  induction depth with
  | zero =>
    intro b n sm
    unfold TChk.readNode
    split
    · exact Le.refl sm
    · exact Le.refl sm
    · exact newKids_le _ _ _ _
  | succ depth ih =>
    intro b n sm
    unfold TChk.readNode
    split
    · exact Le.refl sm
    · exact Le.refl sm
    · exact (newKids_le _ _ _ _).trans (readKids_le _ _ ih _ _ _ _)

theorem readInternal_le (root : Nat) (n : NodeMap) (sm : Sm) : Le sm (TChk.readInternal d root n sm).2 := by
  unfold TChk.readInternal
  cases h : TChk.isSeen root sm with
  | none => exact Le.refl sm
  | some p =>
    obtain ⟨s, r⟩ := p
    cases r
    · simp only
      split
      · exact isSeen_le h
      · exact (isSeen_le h).trans (readNode_le _ _ _ _)
      · exact isSeen_le h
    · exact isSeen_le h

theorem collect_le : ∀ (roots : List Nat) (n : NodeMap) (sm : Sm), Le sm (TChk.collectNodes d roots n sm).2 := by
  intro roots
  induction roots with
  | nil => intro n sm; exact Le.refl sm
  | cons r rs ih => intro n sm; exact (readInternal_le _ _ _).trans (ih _ _)

/-! ## Counting to two and counting on -/

/-- `a` counts to two what `b` counts -/
structure Cap (a b : Sm) : Prop where
  nr : a.nr = b.nr
  mx : a.mx = 2
  sat : a.sat = true
  bsat : b.sat = false
  cnt : ∀ x, a.cnt x = min 2 (b.cnt x)

theorem inc_sim {a b : Sm} (h : Cap a b) {x : Nat} (hx : x < b.nr) (hm : b.cnt x < b.mx) : ∃ a' b', a.inc x = some a' ∧ b.inc x = some b' ∧ Cap a' b' := by
  unfold Sm.inc
  rw [if_pos (by rw [h.nr]; exact hx), if_pos hx, if_pos hm]
  have hcx := h.cnt x
  by_cases hc : a.cnt x < a.mx
  · rw [if_pos hc]
    refine ⟨_, _, rfl, rfl, ⟨h.nr, h.mx, h.sat, h.bsat, fun y => ?_⟩⟩
    show (if y = x then a.cnt x + 1 else a.cnt y) = min 2 (if y = x then b.cnt x + 1 else b.cnt y)
    rw [h.mx] at hc
    by_cases e : y = x
    · rw [if_pos e, if_pos e]; omega
    · rw [if_neg e, if_neg e]; exact h.cnt y
  · rw [if_neg hc, if_pos h.sat]
    refine ⟨_, _, rfl, rfl, ⟨h.nr, h.mx, h.sat, h.bsat, fun y => ?_⟩⟩
    show a.cnt y = min 2 (if y = x then b.cnt x + 1 else b.cnt y)
    rw [h.mx] at hc
    by_cases e : y = x
    · rw [if_pos e, e]; omega
    · rw [if_neg e]; exact h.cnt y

theorem isSeen_sim {a b : Sm} (h : Cap a b) {x : Nat} (hx : x < b.nr) (hm : b.cnt x < b.mx) : ∃ a' b' s, TChk.isSeen x a = some (a', s) ∧ TChk.isSeen x b = some (b', s) ∧ Cap a' b' := by
  obtain ⟨a', b', h1, h2, h3⟩ := inc_sim h hx hm
  refine ⟨a', b', decide (b'.cnt x > 1), ?_, ?_, h3⟩
  · unfold TChk.isSeen
    rw [h1]
    simp only [Option.map_some, Option.some.injEq, Prod.mk.injEq, true_and, decide_eq_decide]
    rw [h3.cnt]; omega
  · unfold TChk.isSeen
    rw [h2]; rfl

theorem newKids_sim (n : NodeMap) (depth : Nat) : ∀ (vs : List Nat) (a b : Sm), Cap a b → (∀ v ∈ vs, u32 v < b.nr) → (∀ x, (TChk.newKids n depth vs b).1.cnt x < b.mx) →
    ∃ a', newKids n depth vs a = some (a', (TChk.newKids n depth vs b).2) ∧ Cap a' (TChk.newKids n depth vs b).1 := by
  intro vs
  induction vs with
  | nil => intro a b h _ _; exact ⟨a, rfl, h⟩
  | cons v vs ih =>
    intro a b h hv hm
    have hb : b.cnt (u32 v) < b.mx := Nat.lt_of_le_of_lt (newKids_le n depth (v :: vs) b _) (hm _)
    obtain ⟨a1, b1, s, h1, h2, h3⟩ := isSeen_sim h (hv v (by simp)) hb
    have hl := TChk.isSeen_like h2
    unfold TChk.newKids at hm ⊢
    rw [h2] at hm ⊢
    simp only at hm ⊢
    obtain ⟨a2, e2, h4⟩ := ih a1 b1 h3 (fun x hx => by rw [hl.1]; exact hv x (by simp [hx])) (fun x => by rw [hl.2.1]; exact hm x)
    unfold newKids
    rw [h1]
    simp only
    rw [e2]
    exact ⟨a2, rfl, h4⟩

/-- the first pass on blocks of a set whose pointers stay in the set -/
theorem readNode_sim {S : Nat → Prop} {nr : Nat} (hS : ∀ b, S b → u32 b < nr) (hk : ∀ b c, S b → c ∈ kids d b → S c) : ∀ (depth b : Nat) (n : NodeMap) (sa sb : Sm), S b → Cap sa sb →
    sb.nr = nr → (∀ x, (TChk.readNode d depth b n sb).2.cnt x < sb.mx) →
    ∃ sa', readNode d depth b n sa = some ((TChk.readNode d depth b n sb).1, sa') ∧ Cap sa' (TChk.readNode d depth b n sb).2 := by
  intro depth
  induction depth with
  | zero =>
    intro b n sa sb hb hc hn hm
    unfold TChk.readNode at hm ⊢
    unfold readNode
    cases hr : d.rd b with
    | none => exact ⟨sa, rfl, hc⟩
    | some blk =>
      cases blk with
      | leaf es => exact ⟨sa, rfl, hc⟩
      | internal ch =>
        rw [hr] at hm
        simp only at hm ⊢
        obtain ⟨sa', e, h1⟩ := newKids_sim (n.insertInternal (u32 b) (ch.map fun c => (c.1, u32 c.2))) 0 (ch.map (·.2)) sa sb hc (fun v hv => by
          rw [hn]; exact hS v (hk b v hb (by rw [TChk.kids_node hr]; exact hv))) hm
        rw [e]
        exact ⟨sa', rfl, h1⟩
  | succ depth ih =>
    intro b n sa sb hb hc hn hm
    unfold TChk.readNode at hm ⊢
    unfold readNode
    cases hr : d.rd b with
    | none => exact ⟨sa, rfl, hc⟩
    | some blk =>
      cases blk with
      | leaf es => exact ⟨sa, rfl, hc⟩
      | internal ch =>
        rw [hr] at hm
        simp only at hm ⊢
        have hkS : ∀ v ∈ ch.map (·.2), S v := fun v hv => hk b v hb (by rw [TChk.kids_node hr]; exact hv)
        have hsub : ∀ (n : NodeMap) (depth : Nat) (vs : List Nat) (sm : Sm), ∀ v ∈ (TChk.newKids n depth vs sm).2, v ∈ vs := by
          intro n depth vs
          induction vs with
          | nil => intro sm v hv; exact hv
          | cons w vs ihv =>
            intro sm v hv
            unfold TChk.newKids at hv
            cases hi : TChk.isSeen (u32 w) sm with
            | none => rw [hi] at hv; exact List.mem_cons_of_mem _ (ihv sm v hv)
            | some p =>
              rw [hi] at hv
              simp only at hv
              split at hv
              · rcases List.mem_cons.mp hv with e | hv
                · rw [e]; simp
                · exact List.mem_cons_of_mem _ (ihv _ v hv)
              · exact List.mem_cons_of_mem _ (ihv _ v hv)
        obtain ⟨sa', e, h1⟩ := newKids_sim (n.insertInternal (u32 b) (ch.map fun c => (c.1, u32 c.2))) (depth + 1) (ch.map (·.2)) sa sb hc (fun v hv => by
          rw [hn]; exact hS v (hkS v hv)) (fun x => Nat.lt_of_le_of_lt (readKids_le _ _ (readNode_le depth) _ _ _ _ x) (hm x))
        have hlk := TChk.newKids_like (n.insertInternal (u32 b) (ch.map fun c => (c.1, u32 c.2))) (depth + 1) (ch.map (·.2)) sb
        have hin := hsub (n.insertInternal (u32 b) (ch.map fun c => (c.1, u32 c.2))) (depth + 1) (ch.map (·.2)) sb
        rw [e]
        simp only
        generalize TChk.newKids (n.insertInternal (u32 b) (ch.map fun c => (c.1, u32 c.2))) (depth + 1) (ch.map (·.2)) sb = k at *
        have loop : ∀ (l : List Nat) (i : Nat) (n : NodeMap) (sa s : Sm), (∀ v ∈ l, S v) → Cap sa s → s.nr = nr → (∀ x, (TChk.readKids d k.2 (TChk.readNode d depth) l i n s).2.cnt x < s.mx) →
            ∃ sa', readKids d k.2 (readNode d depth) l i n sa = some ((TChk.readKids d k.2 (TChk.readNode d depth) l i n s).1, sa') ∧
              Cap sa' (TChk.readKids d k.2 (TChk.readNode d depth) l i n s).2 := by
          intro l
          induction l with
          | nil => intro i n sa s _ hc _ _; exact ⟨sa, rfl, hc⟩
          | cons v l ihl =>
            intro i n sa s hl hc hn hm2
            unfold TChk.readKids readKids
            unfold TChk.readKids at hm2
            by_cases hmy : d.many k.2 i = true
            · rw [if_pos hmy] at hm2
              rw [if_pos hmy, if_pos hmy]
              simp only at hm2 ⊢
              obtain ⟨s1, e1, c1⟩ := ih v n sa s (hl v (by simp)) hc hn (fun x => Nat.lt_of_le_of_lt (readKids_le _ _ (readNode_le depth) _ _ _ _ x) (hm2 x))
              have hlk := TChk.readNode_like (d := d) depth v n s
              rw [e1]
              simp only
              exact ihl (i + 1) _ s1 _ (fun x hx => hl x (by simp [hx])) c1 (hlk.1.trans hn) (fun x => by rw [hlk.2.1]; exact hm2 x)
            · rw [if_neg hmy] at hm2
              rw [if_neg hmy, if_neg hmy]
              exact ihl (i + 1) _ sa s (fun x hx => hl x (by simp [hx])) hc hn hm2
        exact loop k.2 0 _ sa' k.1 (fun v hv => hkS v (hin v hv)) h1 (hlk.1.trans hn) (fun x => by rw [hlk.2.1]; exact hm x)

theorem readInternal_sim {S : Nat → Prop} {nr : Nat} (hS : ∀ b, S b → u32 b < nr) (hk : ∀ b c, S b → c ∈ kids d b → S c) (r : Nat) (hr : S r) (hu : u32 r = r) (n : NodeMap) (sa sb : Sm)
    (hc : Cap sa sb) (hn : sb.nr = nr) (hm : ∀ x, (TChk.readInternal d r n sb).2.cnt x < sb.mx) :
    ∃ sa', readInternal d r n sa = some ((TChk.readInternal d r n sb).1, sa') ∧ Cap sa' (TChk.readInternal d r n sb).2 := by
  obtain ⟨a1, b1, s, h1, h2, h3⟩ := isSeen_sim hc (x := r) (by rw [hn, ← hu]; exact hS r hr) (Nat.lt_of_le_of_lt (readInternal_le r n sb _) (hm _))
  have hl := TChk.isSeen_like h2
  unfold TChk.readInternal at hm ⊢
  unfold readInternal
  rw [h2] at hm ⊢
  rw [h1]
  cases s
  · simp only at hm ⊢
    generalize TChk.getDepth d (d.nr + 2) [] r = g at *
    match g, hm with
    | some (some 0), hm => exact ⟨a1, rfl, h3⟩
    | some (some (depth + 1)), hm =>
      exact readNode_sim hS hk depth r n a1 b1 hr h3 (hl.1.trans hn) (fun x => by rw [hl.2.1]; exact hm x)
    | some none, hm => exact ⟨a1, rfl, h3⟩
    | none, hm => exact ⟨a1, rfl, h3⟩
  · exact ⟨a1, rfl, h3⟩

theorem collect_sim {S : Nat → Prop} {nr : Nat} (hS : ∀ b, S b → u32 b < nr) (hk : ∀ b c, S b → c ∈ kids d b → S c) : ∀ (rs : List Nat) (n : NodeMap) (sa sb : Sm),
    (∀ r ∈ rs, S r ∧ u32 r = r) → Cap sa sb → sb.nr = nr → (∀ x, (TChk.collectNodes d rs n sb).2.cnt x < sb.mx) →
    ∃ sa', collectNodes d rs n sa = some ((TChk.collectNodes d rs n sb).1, sa') ∧ Cap sa' (TChk.collectNodes d rs n sb).2 := by
  intro rs
  induction rs with
  | nil => intro n sa sb _ hc _ _; exact ⟨sa, rfl, hc⟩
  | cons r rs ih =>
    intro n sa sb hr hc hn hm
    obtain ⟨h1, h2⟩ := hr r (by simp)
    unfold TChk.collectNodes at hm ⊢
    unfold collectNodes
    rw [h2] at hm ⊢
    simp only at hm ⊢
    obtain ⟨s1, e1, c1⟩ := readInternal_sim hS hk r h1 h2 n sa sb hc hn (fun x => Nat.lt_of_le_of_lt (collect_le _ _ _ x) (hm x))
    have hlk := TChk.readInternal_like (d := d) r n sb
    rw [e1]
    exact ih _ s1 _ (fun x hx => hr x (by simp [hx])) c1 (hlk.1.trans hn) (fun x => by rw [hlk.2.1]; exact hm x)

/-- **C66, the first pass.**  For undamaged trees, whatever they share, the nodes on record are exactly those of the trees, and the counters hold the number of references, up to two.
`N` lists the nodes. -/
theorem collect_two (hd : Sane d) (hl : ∀ b n, d.rd b = some n → d.rdl b = some n) (hm : ∀ l i, d.many l i = true) (hc : TChk.AllClean d roots)
    (N : List Nat) (hN : N.Nodup) (hmem : ∀ y, y ∈ N ↔ Reach d roots y) :
    ∃ n msm, collectNodes d roots NodeMap.empty (two d.nr) = some (n, msm) ∧
      (∀ b, (∃ ch, n.ty b = .internal ∧ n.info b = some ch) ↔ b ∈ N ∧ ∃ ch, d.rd b = some (.internal ch)) ∧
      (∀ b, n.ty b = .leaf ↔ b ∈ N ∧ ∃ es, d.rd b = some (.leaf es)) ∧ (∀ b ch, n.ty b = .internal → n.info b = some ch → d.rd b = some (.internal ch)) ∧
      (∀ b, n.leafBit b = decide (n.ty b = .leaf)) ∧
      ∀ x, msm.cnt x = min 2 (roots.count x + (N.map fun y => (kids d y).count x).sum) := by
  have hroom := fun x => TChk.refs_le_devices hc hN hmem x
  obtain ⟨c1, c2, c3, c4, c5, c6, c7⟩ := TChk.collect_exact hd hl hm hc.balanced ⟨d.nr, roots.length + 1, false, fun _ => 0⟩ rfl (by show 0 < roots.length + 1; omega) N hN hmem (fun _ _ => rfl)
    (fun _ x => by have := hroom x; show 0 + roots.count x + _ ≤ roots.length + 1; omega)
  have hbal : ∀ b, Reach d roots b → u32 b = b ∧ b < d.nr := by
    intro b hb
    obtain ⟨k, hk⟩ := hb.bal hc.balanced
    exact ⟨hk.u32 hd, hk.lt hd⟩
  obtain ⟨sa', e, h1⟩ := collect_sim (d := d) (S := Reach d roots) (nr := d.nr) (fun b hb => by rw [(hbal b hb).1]; exact (hbal b hb).2) (fun b c hb hc => .kid b c hb hc) roots NodeMap.empty
    (two d.nr) ⟨d.nr, roots.length + 1, false, fun _ => 0⟩ (fun r hr => ⟨.root r hr, (hbal r (.root r hr)).1⟩) ⟨rfl, rfl, rfl, rfl, fun x => rfl⟩ rfl (by
      intro x
      rw [c7 rfl x]
      have := hroom x
      show 0 + roots.count x + _ < roots.length + 1
      omega)
  refine ⟨_, sa', e, c1, c2, c3, c4, fun x => ?_⟩
  rw [h1.cnt x, c7 rfl x]
  show min 2 (0 + roots.count x + _) = _
  rw [Nat.zero_add]

/-! ## Whatever the device: what is on record was read -/

theorem readKids_info {all : List Nat} {read : Nat → NodeMap → Sm → Option (NodeMap × Sm)} (hr : ∀ v n sm n' sm', read v n sm = some (n', sm') → InfoOk d n → InfoOk d n') :
    ∀ (l : List Nat) (i : Nat) (n : NodeMap) (sm : Sm) (n' : NodeMap) (sm' : Sm), readKids d all read l i n sm = some (n', sm') → InfoOk d n → InfoOk d n' := by
  intro l
  induction l with
  | nil => intro i n sm n' sm' h hi; cases h; exact hi
  | cons v l ih =>
    intro i n sm n' sm' h hi
    unfold readKids at h
    split at h
    · split at h
      · cases h
      · rename_i n1 sm1 he
        exact ih _ _ _ _ _ h (hr _ _ _ _ _ he hi)
    · exact ih _ _ _ _ _ h (hi.insertError _)

theorem readNode_info (hd : Sane d) : ∀ (depth b : Nat) (n : NodeMap) (sm : Sm) (n' : NodeMap) (sm' : Sm), readNode d depth b n sm = some (n', sm') → InfoOk d n → InfoOk d n' := by
  intro depth
  induction depth with
  | zero =>
    intro b n sm n' sm' h hi
    unfold readNode at h
    cases hb : d.rd b with
    | none => rw [hb] at h; cases h; exact hi.insertError _
    | some blk =>
      cases blk with
      | leaf es => rw [hb] at h; cases h; exact hi
      | internal ch =>
        rw [hb] at h
        simp only at h
        cases hk : newKids (n.insertInternal (u32 b) (ch.map fun c => (c.1, u32 c.2))) 0 (ch.map (·.2)) sm with
        | none => rw [hk] at h; cases h
        | some p =>
          rw [hk] at h
          cases h
          exact TChk.foldl_inv (InfoOk d) _ (fun s a hs => hs.insertLeaf _) _ _ (hi.insertInternal hd hb)
  | succ depth ih =>
    intro b n sm n' sm' h hi
    unfold readNode at h
    cases hb : d.rd b with
    | none => rw [hb] at h; cases h; exact hi.insertError _
    | some blk =>
      cases blk with
      | leaf es => rw [hb] at h; cases h; exact hi
      | internal ch =>
        rw [hb] at h
        simp only at h
        cases hk : newKids (n.insertInternal (u32 b) (ch.map fun c => (c.1, u32 c.2))) (depth + 1) (ch.map (·.2)) sm with
        | none => rw [hk] at h; cases h
        | some p =>
          rw [hk] at h
          exact readKids_info ih _ _ _ _ _ _ h (hi.insertInternal hd hb)

theorem collect_info (hd : Sane d) : ∀ (roots : List Nat) (n : NodeMap) (sm : Sm) (n' : NodeMap) (sm' : Sm), collectNodes d roots n sm = some (n', sm') → InfoOk d n → InfoOk d n' := by
  intro roots
  induction roots with
  | nil => intro n sm n' sm' h hi; cases h; exact hi
  | cons r rs ih =>
    intro n sm n' sm' h hi
    unfold collectNodes at h
    split at h
    · cases h
    · rename_i n1 sm1 he
      refine ih _ _ _ _ h ?_
      unfold readInternal at he
      split at he
      · cases he
      · cases he; exact hi
      · split at he
        · cases he; exact hi.insertLeaf _
        · exact readNode_info hd _ _ _ _ _ _ he hi
        · cases he; exact hi

end Verif.Ls
