import Verif.Prop.ThinCheckNodes

/-!
# C47: what the first pass of `thin_check` leaves behind

`collect_exact`: for undamaged trees, whatever they share, the internal nodes and the leaves on record are exactly those of the trees, and the reference count of every block is
what it was before, plus the number of roots that name it, plus the number of child pointers to it in *distinct* internal nodes.
-/

namespace Verif.TChk

open Verif.BT (Blk KeyRange splitKeyRanges)

variable {d : Dev} {roots : List Nat} {base : Nat → Nat}

/-- the height of an undamaged tree is below the number of blocks -/
theorem Bal.chain (hd : Sane d) : ∀ (h b : Nat), Bal d h b → ∃ l : List Nat, l.length = h + 1 ∧ l.Nodup ∧ ∀ x ∈ l, x < d.nr ∧ ∃ k, k ≤ h ∧ Bal d k x := by
  intro h
  induction h with
  | zero => intro b hb; exact ⟨[b], rfl, by simp, by simpa using ⟨hb.lt hd, hb⟩⟩
  | succ h ih =>
    intro b hb
    cases hb with
    | node _ _ ch e hne hnd hk =>
      obtain ⟨c, hc⟩ := List.exists_mem_of_ne_nil _ hne
      obtain ⟨l, l1, l2, l3⟩ := ih c.2 (hk c hc)
      have hb : Bal d (h + 1) b := .node h b ch e hne hnd hk
      refine ⟨b :: l, by simp [l1], ?_, ?_⟩
      · rw [List.nodup_cons]
        refine ⟨fun hm => ?_, l2⟩
        obtain ⟨-, k, k1, k2⟩ := l3 b hm
        have := hb.unique k2
        omega
      · intro x hx
        rcases List.mem_cons.mp hx with rfl | hx
        · exact ⟨hb.lt hd, h + 1, Nat.le_refl _, hb⟩
        · obtain ⟨a1, k, a2, a3⟩ := l3 x hx
          exact ⟨a1, k, by omega, a3⟩

theorem Bal.height (hd : Sane d) {h b : Nat} (hb : Bal d h b) : h < d.nr := by
  obtain ⟨l, l1, l2, l3⟩ := hb.chain hd
  have := List.Nodup.length_le_of_subset l2 (l₂ := List.range d.nr) fun x hx => List.mem_range.mpr (l3 x hx).1
  simp at this
  omega

/-- every counted node of the trees is finished -/
def FinAll (d : Dev) (roots : List Nat) (n : NodeMap) (sm : Sm) : Prop := ∀ b, Reach d roots b → 0 < sm.cnt b → Dn d n b

/-- what looking at some of the roots achieves -/
structure Seen (d : Dev) (roots done : List Nat) (base : Nat → Nat) (n : NodeMap) (sm : Sm) (n' : NodeMap) (sm' : Sm) : Prop where
  inv : Inv d roots (fun x => base x + done.count x) n' sm'
  fin : FinAll d roots n' sm'
  dn : ∀ b ∈ done, Dn d n' b
  keep : ∀ x, n.ty x ≠ .none → n'.ty x = n.ty x
  shape : sm'.nr = sm.nr ∧ sm'.mx = sm.mx ∧ sm'.sat = sm.sat

theorem Inv.count {n : NodeMap} {sm sm' : Sm} {r : Nat} (h : Inv d roots base n sm) (hn : sm'.nr = sm.nr) (hm : ∀ x, sm.cnt x ≤ sm'.cnt x)
    (hc : sm'.sat = false → ∀ x, sm'.cnt x = sm.cnt x + [r].count x) (hs : sm'.sat = sm.sat) : Inv d roots (fun x => base x + [r].count x) n sm' := by
  refine ⟨h.int, h.leaf, h.noErr, h.bit, hn.trans h.nr, fun b hb => Nat.lt_of_lt_of_le (h.counted b hb) (hm b), fun h1 x => ?_⟩
  rw [hc h1 x, h.cnt (hs ▸ h1) x]
  omega

theorem readInternal_seen (hd : Sane d) (hl : ∀ b n, d.rd b = some n → d.rdl b = some n) (hm : ∀ l i, d.many l i = true) (hb : Balanced d roots) {r : Nat} (hr : r ∈ roots)
    {n : NodeMap} {sm : Sm} (hi : Inv d roots base n sm) (hf : FinAll d roots n sm) (hmx : 0 < sm.mx)
    (hroom : sm.sat = false → ∀ x, base x + [r].count x + total d roots x ≤ sm.mx) :
    Seen d roots [r] base n sm (readInternal d (u32 r) n sm).1 (readInternal d (u32 r) n sm).2 := by
  obtain ⟨h, hbal⟩ := hb r hr
  have hreach : Reach d roots r := .root r hr
  rw [hbal.u32 hd]
  obtain ⟨s1, e1, a1, a2, a3, a4, a5, a6, a7, a8⟩ := Sm.inc_ok (sm := sm) (b := r) (by rw [hi.nr]; exact hbal.lt hd) (by
    intro hs
    have h1 := hroom hs r
    have h2 := hi.cnt hs r
    have h3 := refs_le (fun b hb => (hi.int b hb).1) r
    rw [List.count_singleton_self] at h1
    omega)
  have hcnt : s1.sat = false → ∀ x, s1.cnt x = sm.cnt x + [r].count x := by
    intro hs x
    by_cases e : x = r
    · subst e; rw [a4 (a3 ▸ hs), List.count_singleton_self]
    · rw [a8 x e, List.count_singleton]
      have : (r == x) = false := by simp; exact fun h => e h.symm
      rw [this]; simp
  have hmono : ∀ x, sm.cnt x ≤ s1.cnt x := by
    intro x
    by_cases e : x = r
    · subst e; exact a5
    · rw [a8 x e]; exact Nat.le_refl _
  have hi1 : Inv d roots (fun x => base x + [r].count x) n s1 := hi.count a1 hmono hcnt a3
  unfold readInternal
  simp only [isSeen, e1, Option.map_some]
  by_cases hs1 : s1.cnt r > 1
  · simp only [hs1, decide_true]
    have hdn : Dn d n r := hf r hreach (a6 hs1)
    refine ⟨hi1, ?_, by simpa using hdn, fun _ _ => rfl, a1, a2, a3⟩
    intro b hbr hbc
    by_cases e : b = r
    · subst e; exact hdn
    · exact hf b hbr (by rw [← a8 b e]; exact hbc)
  · simp only [hs1, decide_false]
    rw [getDepth_bal hl h r (d.nr + 2) [] hbal (by have := hbal.height hd; omega) (by simp)]
    cases h with
    | zero =>
      simp only
      cases hbal with
      | leaf _ es he =>
        obtain ⟨i1, i2, i3, i4⟩ := hi1.addLeaf hreach he (a7 hmx)
        have hdn : Dn d (n.insertLeaf r) r := .leaf r i2
        refine ⟨i1, ?_, by simpa using hdn, i3, a1, a2, a3⟩
        intro b hbr hbc
        by_cases e : b = r
        · subst e; exact hdn
        · exact (hf b hbr (by rw [← a8 b e]; exact hbc)).mono i3
    | succ h =>
      simp only
      have st := readNode_step hd hm h r n s1 hbal hreach hi1 (by
        intro b k hbr hbk hk hbc
        by_cases e : b = r
        · subst e; have := hbal.unique hbk; omega
        · exact hf b hbr (by rw [← a8 b e]; exact hbc)) (a7 hmx) (by omega) (by
        intro hs x
        rw [a2]; exact hroom (a3 ▸ hs) x) (by
        intro hs
        cases e : n.ty r with
        | none => rfl
        | _ =>
          have h1 := hi.counted r (by rw [e]; decide)
          have h2 := hcnt hs r
          rw [List.count_singleton_self] at h2
          omega)
      generalize readNode d h r n s1 = p at st
      obtain ⟨n', s2⟩ := p
      refine ⟨st.inv, ?_, st.dn, st.keep, st.shape.1.trans a1, st.shape.2.1.trans a2, st.shape.2.2.trans a3⟩
      intro b hbr hbc
      obtain ⟨k, hbk⟩ := hbr.bal hb
      by_cases hk : k ≤ h
      · exact st.fin b k hbr hbk hk hbc
      · simp only at hbc
        rw [st.cntSame b k hbk (by omega)] at hbc
        by_cases e : b = r
        · subst e; exact st.dn b (by simp)
        · exact (hf b hbr (by rw [← a8 b e]; exact hbc)).mono st.keep

theorem collect_seen (hd : Sane d) (hl : ∀ b n, d.rd b = some n → d.rdl b = some n) (hm : ∀ l i, d.many l i = true) (hb : Balanced d roots) : ∀ (rs : List Nat)
    (base : Nat → Nat) (n : NodeMap) (sm : Sm), (∀ r ∈ rs, r ∈ roots) → Inv d roots base n sm → FinAll d roots n sm → 0 < sm.mx →
    (sm.sat = false → ∀ x, base x + rs.count x + total d roots x ≤ sm.mx) → Seen d roots rs base n sm (collectNodes d rs n sm).1 (collectNodes d rs n sm).2 := by
  intro rs
  induction rs with
  | nil =>
    intro base n sm _ hi hf _ _
    exact ⟨by simpa [collectNodes] using hi, hf, by simp, fun _ _ => rfl, rfl, rfl, rfl⟩
  | cons r rs ih =>
    intro base n sm hrs hi hf hmx hroom
    have hcc : ∀ x, (r :: rs).count x = [r].count x + rs.count x := by
      intro x
      rw [show r :: rs = [r] ++ rs from rfl, List.count_append]
    have s1 := readInternal_seen hd hl hm hb (hrs r (by simp)) hi hf hmx (by
      intro hs x
      have := hroom hs x
      rw [hcc] at this
      omega)
    simp only [collectNodes]
    generalize readInternal d (u32 r) n sm = p at s1
    obtain ⟨n1, sm1⟩ := p
    simp only at s1
    have s2 := ih (fun x => base x + [r].count x) n1 sm1 (fun x hx => hrs x (by simp [hx])) s1.inv s1.fin (by rw [s1.shape.2.1]; exact hmx) (by
      intro hs x
      have := hroom (s1.shape.2.2 ▸ hs) x
      rw [hcc] at this
      rw [s1.shape.2.1]
      omega)
    simp only
    generalize collectNodes d rs n1 sm1 = q at s2
    obtain ⟨n2, sm2⟩ := q
    simp only at s2 ⊢
    refine ⟨?_, s2.fin, ?_, ?_, s2.shape.1.trans s1.shape.1, s2.shape.2.1.trans s1.shape.2.1, s2.shape.2.2.trans s1.shape.2.2⟩
    · have : (fun x => base x + (r :: rs).count x) = fun x => base x + [r].count x + rs.count x := by
        funext x; rw [hcc]; omega
      rw [this]
      exact s2.inv
    · intro b hb
      rcases List.mem_cons.mp hb with rfl | hb
      · exact (s1.dn b (by simp)).mono s2.keep
      · exact s2.dn b hb
    · intro x hx
      have := s1.keep x hx
      rw [s2.keep x (by rw [this]; exact hx), this]

theorem Reach.dn {n : NodeMap} {sm : Sm} (hi : Inv d roots base n sm) (h : ∀ r ∈ roots, Dn d n r) {b : Nat} (hb : Reach d roots b) : Dn d n b := by
  induction hb with
  | root r hr => exact h r hr
  | kid b c hb hc ih =>
    cases ih with
    | leaf _ hl =>
      obtain ⟨-, es, he⟩ := hi.leaf b hl
      simp [kids, he] at hc
    | node _ ch h1 h2 h3 =>
      simp only [kids, h2] at hc
      obtain ⟨e, he, rfl⟩ := List.mem_map.mp hc
      exact h3 e he

theorem sum_filter (L : List Nat) (f : Nat → Nat) (P : Nat → Prop) [DecidablePred P] : (L.map fun y => if P y then f y else 0).sum = ((L.filter fun y => decide (P y)).map f).sum := by
  induction L with
  | nil => rfl
  | cons y L ih =>
    simp only [List.map_cons, List.sum_cons, List.filter_cons]
    by_cases h : P y
    · simp [h, ih]
    · simp [h, ih]

open Classical in
/-- the references from the nodes of the trees, over any list of these nodes -/
theorem total_eq (hd : Sane d) (hb : Balanced d roots) {N : List Nat} (hN : N.Nodup) (hm : ∀ y, y ∈ N ↔ Reach d roots y) (x : Nat) :
    total d roots x = (N.map fun y => (kids d y).count x).sum := by
  unfold total
  rw [sum_filter (List.range d.nr) (fun y => (kids d y).count x) (fun y => Reach d roots y)]
  have : ((List.range d.nr).filter fun y => decide (Reach d roots y)).Perm N := by
    rw [List.perm_ext_iff_of_nodup (List.nodup_range.sublist List.filter_sublist) hN]
    intro y
    simp only [List.mem_filter, List.mem_range, decide_eq_true_eq, hm]
    refine ⟨fun h => h.2, fun h => ⟨?_, h⟩⟩
    obtain ⟨k, hk⟩ := h.bal hb
    exact hk.lt hd
  exact (this.map _).sum_nat

/-- the starting point -/
theorem Inv.start {sm : Sm} (hn : sm.nr = d.nr) : Inv d roots sm.cnt NodeMap.empty sm := by
  have ht : ∀ b, NodeMap.empty.ty b = .none := fun b => rfl
  refine ⟨fun b h => ?_, fun b h => ?_, fun b => ⟨by rw [ht]; decide, rfl⟩, fun b => rfl, hn, fun b h => absurd (ht b) h, fun _ x => ?_⟩
  · rw [ht] at h; cases h
  · rw [ht] at h; cases h
  · have : refs d NodeMap.empty x = 0 := by
      unfold refs
      have : ((List.range d.nr).map fun y => if NodeMap.empty.ty y = .internal then (kids d y).count x else 0) = (List.range d.nr).map fun _ => 0 := by
        apply List.map_congr_left
        intro y _
        rw [ht, if_neg (by decide)]
      rw [this]
      induction List.range d.nr with
      | nil => rfl
      | cons y l ih => simpa using ih
    omega

/-- **C47, the first pass.**  For undamaged trees, whatever they share, the nodes on record are exactly those of the trees, and every reference is counted: once for each root and
once for each child pointer of each distinct node.  `N` is any list of the nodes of the trees without repetition.  `msm` does not yet count any node of the trees. -/
theorem collect_exact (hd : Sane d) (hl : ∀ b n, d.rd b = some n → d.rdl b = some n) (hm : ∀ l i, d.many l i = true) (hb : Balanced d roots) (msm : Sm) (hn : msm.nr = d.nr)
    (hmx : 0 < msm.mx) (N : List Nat) (hN : N.Nodup) (hmem : ∀ y, y ∈ N ↔ Reach d roots y) (h0 : ∀ b ∈ N, msm.cnt b = 0)
    (hroom : msm.sat = false → ∀ x, msm.cnt x + roots.count x + (N.map fun y => (kids d y).count x).sum ≤ msm.mx) :
    let r := collectNodes d roots NodeMap.empty msm
    (∀ b, (∃ ch, r.1.ty b = .internal ∧ r.1.info b = some ch) ↔ b ∈ N ∧ ∃ ch, d.rd b = some (.internal ch)) ∧
    (∀ b, r.1.ty b = .leaf ↔ b ∈ N ∧ ∃ es, d.rd b = some (.leaf es)) ∧ (∀ b ch, r.1.ty b = .internal → r.1.info b = some ch → d.rd b = some (.internal ch)) ∧
    (∀ b, r.1.leafBit b = decide (r.1.ty b = .leaf)) ∧ (∀ b, r.1.ty b ≠ .error ∧ r.1.errs b = false) ∧ r.2.nr = msm.nr ∧
    (msm.sat = false → ∀ x, r.2.cnt x = msm.cnt x + roots.count x + (N.map fun y => (kids d y).count x).sum) := by
  intro r
  have s := collect_seen hd hl hm hb roots msm.cnt NodeMap.empty msm (fun _ h => h) (Inv.start hn) (by
    intro b hbr hbc
    rw [h0 b ((hmem b).mpr hbr)] at hbc
    omega) hmx (by
    intro hs x
    rw [total_eq hd hb hN hmem]
    exact hroom hs x)
  have hdn : ∀ b, Reach d roots b → Dn d r.1 b := fun b hbr => hbr.dn s.inv s.dn
  refine ⟨?_, ?_, ?_, s.inv.bit, s.inv.noErr, s.shape.1, ?_⟩
  · intro b
    constructor
    · rintro ⟨ch, h1, -⟩
      obtain ⟨a, ch, e, -⟩ := s.inv.int b h1
      exact ⟨(hmem b).mpr a, ch, e⟩
    · rintro ⟨h1, ch, e⟩
      have hi : r.1.ty b = .internal := by
        cases hdn b ((hmem b).mp h1) with
        | leaf _ hl =>
          obtain ⟨-, es, h2⟩ := s.inv.leaf b hl
          rw [e] at h2; cases h2
        | node _ ch h2 => exact h2
      obtain ⟨-, ch, h2, h3⟩ := s.inv.int b hi
      exact ⟨ch, hi, h3⟩
  · intro b
    constructor
    · intro h1
      obtain ⟨a, h2⟩ := s.inv.leaf b h1
      exact ⟨(hmem b).mpr a, h2⟩
    · rintro ⟨h1, es, e⟩
      cases hdn b ((hmem b).mp h1) with
      | leaf _ hl => exact hl
      | node _ ch h2 h3 => rw [e] at h3; cases h3
  · intro b ch h1 h2
    obtain ⟨-, ch', h3, h4⟩ := s.inv.int b h1
    have : some ch = some ch' := h2.symm.trans h4
    cases this
    exact h3
  · intro hs x
    rw [s.inv.cnt (s.shape.2.2.trans hs) x]
    have h1 := refs_le (fun b hb => (s.inv.int b hb).1) x
    have h2 : total d roots x ≤ refs d r.1 x := by
      unfold refs total
      apply sum_mono
      intro y _
      by_cases e : Reach d roots y
      · rw [if_pos e]
        cases hdn y e with
        | leaf _ hl =>
          obtain ⟨-, es, h2⟩ := s.inv.leaf y hl
          simp [kids, h2]
        | node _ ch h2 => rw [if_pos h2]; exact Nat.le_refl _
      · rw [if_neg e]; exact Nat.zero_le _
    have h3 : refs d r.1 x = total d roots x := Nat.le_antisymm h1 h2
    show msm.cnt x + roots.count x + refs d r.1 x = _
    rw [h3, total_eq hd hb hN hmem]

end Verif.TChk
