import Verif.Prop.ThinLsLeaves

/-!
# C66: the counting pass of `thin_ls`
-/

namespace Verif.Ls

open Verif.BT (Blk KeyRange splitKeyRanges Tree Chain nextKey Below eachRange rangesOf)
open Verif.TChk (Dev Sm NodeMap Sum u32 setBit kids Reach Sane dataOf nEnt mkSum exactOf keysOf keysOf_eq keys_of_tree mkSum_add recheck_ok Keys.length_lt AllClean)

variable {d : Dev} {roots : List Nat}

/-- the number of shared mappings of a tree, from the counts of metadata blocks and data blocks -/
def shT (msm dsm : Sm) : (h : Nat) → Tree Nat h → Nat
  | 0, t => if msm.cnt t.1 > 1 then (t.2 : List (Nat × Nat)).length else (t.2 : List (Nat × Nat)).countP fun e => decide (dsm.cnt (e.2 >>> 24) > 1)
  | h + 1, t => if msm.cnt t.1 > 1 then (t.contents (h + 1)).length else (t.2.map fun c => shT msm dsm h c.2).sum

theorem shT_node (msm dsm : Sm) (h : Nat) (b : Nat) (ch : List (Nat × Tree Nat h)) :
    shT msm dsm (h + 1) (b, ch) = if msm.cnt b > 1 then (Tree.contents (h + 1) ((b, ch) : Nat × List (Nat × Tree Nat h))).length else (ch.map fun c => shT msm dsm h c.2).sum := rfl

theorem shT_le (msm dsm : Sm) : ∀ (h : Nat) (t : Tree Nat h), shT msm dsm h t ≤ (t.contents h).length := by
  intro h
  induction h with
  | zero =>
    intro t
    unfold shT
    split
    · exact Nat.le_refl _
    · exact List.countP_le_length
  | succ h ih =>
    intro t
    obtain ⟨b, ch⟩ := t
    rw [shT_node]
    split
    · exact Nat.le_refl _
    · show _ ≤ (ch.flatMap fun c => c.2.contents h).length
      induction ch with
      | nil => simp
      | cons c l ihl =>
        have := ih c.2
        simp only [List.map_cons, List.sum_cons, List.flatMap_cons, List.length_append]
        omega

/-- what is stored at a block is one tree -/
theorem shT_same {msm dsm : Sm} : ∀ (h : Nat) (t : Tree Nat h) (r : Bool), t.Stored (fun _ b => d.rd b) r h → ∀ (h' : Nat) (t' : Tree Nat h') (r' : Bool),
    t'.Stored (fun _ b => d.rd b) r' h' → t.blk h = t'.blk h' → shT msm dsm h t = shT msm dsm h' t' := by
  intro h
  induction h with
  | zero =>
    intro t r hs h' t' r' hs' he
    cases h' with
    | zero =>
      obtain ⟨b, es⟩ := t
      obtain ⟨b', es'⟩ := t'
      have h1 : d.rd b = some (.leaf es) := hs
      have h2 : d.rd b' = some (.leaf es') := hs'
      have h3 : b = b' := he
      subst h3
      rw [h1] at h2
      cases h2
      rfl
    | succ h' =>
      have h1 : d.rd t.1 = some (.leaf t.2) := hs
      have h2 : d.rd t'.1 = some (.internal (t'.2.map fun c => (c.1, Tree.blk h' c.2))) := hs'.1
      have h3 : t.1 = t'.1 := he
      rw [h3, h2] at h1
      cases h1
  | succ h ih =>
    intro t r hs h' t' r' hs' he
    cases h' with
    | zero =>
      have h1 : d.rd t'.1 = some (.leaf t'.2) := hs'
      have h2 : d.rd t.1 = some (.internal (t.2.map fun c => (c.1, Tree.blk h c.2))) := hs.1
      have h3 : t.1 = t'.1 := he
      rw [← h3, h2] at h1
      cases h1
    | succ h' =>
      have hk : (t.contents (h + 1)).length = (t'.contents (h' + 1)).length := by
        have h1 := keysOf_eq (keys_of_tree (h + 1) t r hs)
        have h2 := keysOf_eq (keys_of_tree (h' + 1) t' r' hs')
        rw [← he, h1] at h2
        have := congrArg List.length h2
        simpa using this
      obtain ⟨b, ch⟩ := t
      obtain ⟨b', ch'⟩ := t'
      have h3 : b = b' := he
      subst h3
      rw [shT_node, shT_node, hk]
      have h1 : d.rd b = some (.internal (ch.map fun c => (c.1, Tree.blk h c.2))) := hs.1
      have h2 : d.rd b = some (.internal (ch'.map fun c => (c.1, Tree.blk h' c.2))) := hs'.1
      rw [h1] at h2
      have h4 : ch.map (fun c => (c.1, Tree.blk h c.2)) = ch'.map (fun c => (c.1, Tree.blk h' c.2)) := by
        injection h2 with h2
        injection h2
      have hall : ∀ (l : List (Nat × Tree Nat h)) (l' : List (Nat × Tree Nat h')), (∀ c ∈ l, c ∈ ch) → (∀ c ∈ l', c ∈ ch') →
          l.map (fun c => (c.1, Tree.blk h c.2)) = l'.map (fun c => (c.1, Tree.blk h' c.2)) → (l.map fun c => shT msm dsm h c.2).sum = (l'.map fun c => shT msm dsm h' c.2).sum := by
        intro l
        induction l with
        | nil => intro l' _ _ e; cases l' with
          | nil => rfl
          | cons c l' => cases e
        | cons c l ihl =>
          intro l' hl hl' e
          cases l' with
          | nil => cases e
          | cons c' l' =>
            simp only [List.map_cons, List.cons.injEq, Prod.mk.injEq] at e
            simp only [List.map_cons, List.sum_cons]
            rw [ihl l' (fun x hx => hl x (by simp [hx])) (fun x hx => hl' x (by simp [hx])) e.2,
              ih c.2 false (hs.2 c (hl c (by simp))) h' c'.2 false (hs'.2 c' (hl' c' (by simp))) e.1.2]
      rw [hall ch ch' (fun _ h => h) (fun _ h => h) h4]

/-- all summaries are right -/
def Valid (d : Dev) (msm dsm : Sm) (m : LSums) : Prop :=
  ∀ b s, m b = some s → s.sum = exactOf d b ∧ ∀ (h : Nat) (t : Tree Nat h) (r : Bool), t.Stored (fun _ b => d.rd b) r h → t.blk h = b → s.shared = shT msm dsm h t

theorem recheck_sum (ign isRoot : Bool) (kr : KeyRange) (s : LSum) : (recheck ign isRoot kr s).sum = TChk.recheck ign isRoot kr s.sum := by
  unfold recheck TChk.recheck
  rw [apply_ite LSum.sum, apply_ite LSum.sum, apply_ite LSum.sum]
  rfl

theorem recheck_same {ign isRoot : Bool} {kr : KeyRange} {b sh : Nat} (h : TChk.recheck ign isRoot kr (exactOf d b) = exactOf d b) :
    recheck ign isRoot kr ⟨exactOf d b, sh⟩ = ⟨exactOf d b, sh⟩ := by
  have h1 := recheck_sum ign isRoot kr ⟨exactOf d b, sh⟩
  rw [h] at h1
  have h2 : recheck ign isRoot kr ⟨exactOf d b, sh⟩ ≠ LSum.error := fun q => by
    rw [q] at h1
    have := congrArg Sum.errors h1
    simp [LSum.error, Sum.error, exactOf, mkSum] at this
  have h3 : ∀ s, recheck ign isRoot kr s = s ∨ recheck ign isRoot kr s = LSum.error := by
    intro s
    have hite : ∀ (p : Prop) [Decidable p] (a : LSum), a = s ∨ a = LSum.error → (if p then LSum.error else a) = s ∨ (if p then LSum.error else a) = LSum.error := by
      intro p _ a h
      by_cases hp : p
      · rw [if_pos hp]; exact Or.inr rfl
      · rw [if_neg hp]; exact h
    exact hite _ _ (hite _ _ (hite _ _ (Or.inl rfl)))
  rcases h3 ⟨exactOf d b, sh⟩ with h | h
  · exact h
  · exact absurd h h2

theorem add_eq {s c r : Sum} {x y : Nat} (h : s.add c = r) (hne : r ≠ s) (hlt : x + y < 2 ^ 64) : (⟨s, x⟩ : LSum).add ⟨c, y⟩ = ⟨r, x + y⟩ := by
  unfold LSum.add
  unfold Sum.add at h
  simp only
  cases ha : s.append c with
  | none => rw [ha] at h; exact absurd h.symm hne
  | some t =>
    rw [ha] at h
    simp only [Option.getD_some] at h
    subst h
    simp only
    rw [Nat.mod_eq_of_lt hlt]

theorem summarize_clean (hd : Sane d) {n : NodeMap} {msm dsm : Sm} (ign : Bool) (hn : ∀ b ch, Reach d roots b → d.rd b = some (.internal ch) → n.ty b = .internal ∧ n.info b = some ch)
    (hmin : ign = true ∨ ∀ y c, Reach d roots y → c ∈ kids d y → TChk.MIN_ENTRIES ≤ nEnt d c) (hmax : ∀ b, nEnt d b ≤ 255) :
    ∀ (h : Nat) (t : Tree Nat h) (lo : Nat) (kr : KeyRange) (isRoot r : Bool) (fuel : Nat) (m : LSums), t.Stored (fun _ b => d.rd b) r h → t.Ordered h lo kr.fin → (h = 0 ∨ t.NoEmpty h) →
      Reach d roots (t.blk h) → (∀ n, kr.start = some n → n ≤ lo) → (ign = true ∨ isRoot = true ∨ TChk.MIN_ENTRIES ≤ nEnt d (t.blk h)) → h < fuel → Valid d msm dsm m →
      (∀ b es, Reach d roots b → d.rd b = some (.leaf es) → m b ≠ none) →
      ∃ m', summarize n msm ign fuel kr isRoot (t.blk h) m = some (m', ⟨exactOf d (t.blk h), shT msm dsm h t⟩) ∧ Valid d msm dsm m' ∧ m' (t.blk h) = some ⟨exactOf d (t.blk h), shT msm dsm h t⟩ ∧ ∀ x, m x ≠ none → m' x = m x := by
  intro h
  induction h with
  | zero =>
    intro t lo kr isRoot r fuel m hs ho _ hr hlo hb hf hv hl
    obtain ⟨fuel, rfl⟩ : ∃ f, fuel = f + 1 := ⟨fuel - 1, by omega⟩
    have hk := keysOf_eq (keys_of_tree 0 t r hs)
    have hne := hl _ _ hr hs
    simp only [summarize]
    cases hmb : m (t.blk 0) with
    | none => exact absurd hmb hne
    | some s =>
      have hsv := hv _ _ hmb
      have hse : s = ⟨exactOf d (t.blk 0), shT msm dsm 0 t⟩ := by
        rw [← hsv.1, ← hsv.2 0 t r hs rfl]
      subst hse
      simp only
      rw [recheck_same (recheck_ok hb (hmax _) hlo (by
        rw [hk]
        intro k hk
        obtain ⟨e, he, rfl⟩ := List.mem_map.mp hk
        exact BT.ordered_mem 0 lo kr.fin t ho e he))]
      exact ⟨m, rfl, hv, hmb, fun _ _ => rfl⟩
  | succ h ih =>
    intro t lo kr isRoot r fuel m hs ho hn0 hr hlo hb hf hv hl
    obtain ⟨fuel, rfl⟩ : ∃ f, fuel = f + 1 := ⟨fuel - 1, by omega⟩
    have hkt := keys_of_tree (h + 1) t r hs
    have hk := keysOf_eq hkt
    have hsorted : ((t.contents (h + 1)).map (·.1)).Pairwise (· < ·) := by
      have := LW.ordered_sorted (h + 1) t lo kr.fin ho
      exact List.pairwise_map.mpr this
    have hlen : ((t.contents (h + 1)).map (·.1)).length < 2 ^ 64 := Keys.length_lt hd hkt.under hsorted
    have hmem := BT.ordered_mem (h + 1) lo kr.fin t ho
    obtain ⟨b, ch⟩ := t
    obtain ⟨hs1, hs2⟩ := hs
    have hne' : ch ≠ [] ∧ ∀ c ∈ ch, Tree.NoEmpty h c.2 := by
      rcases hn0 with h0 | hne
      · omega
      · exact hne
    simp only [Tree.Ordered] at ho
    simp only at hs1 hs2
    rw [show Tree.blk (V := Nat) (h + 1) ((b, ch) : Nat × List (Nat × Tree Nat h)) = b from rfl] at *
    simp only [summarize]
    cases hmb : m b with
    | some s =>
      have hsv := hv _ _ hmb
      have hse : s = ⟨exactOf d b, shT msm dsm (h + 1) (b, ch)⟩ := by
        rw [← hsv.1, ← hsv.2 (h + 1) (b, ch) r ⟨hs1, hs2⟩ rfl]
      subst hse
      simp only
      rw [recheck_same (recheck_ok hb (hmax _) hlo (by
        rw [hk]
        intro k hk
        obtain ⟨e, he, rfl⟩ := List.mem_map.mp hk
        exact hmem e he))]
      exact ⟨m, rfl, hv, hmb, fun _ _ => rfl⟩
    | none =>
      obtain ⟨hty, hinfo⟩ := hn b _ hr hs1
      have hent : nEnt d b = ch.length := by simp only [nEnt, hs1, List.length_map]
      simp only [hty, if_true, hinfo]
      rw [if_neg (by
        rw [List.length_map, ← hent]
        rcases hb with h | h | h
        · simp [h]
        · simp [h]
        · simp; intros; omega)]
      rw [show (ch.map fun c => (c.1, Tree.blk h c.2)).map (·.1) = ch.map (·.1) by simp [List.map_map], BT.split_chain ho hne'.1]
      simp only
      rw [show (ch.map fun c => (c.1, Tree.blk h c.2)).map (·.2) = ch.map (fun c => Tree.blk h c.2) by simp [List.map_map], BT.rangesOf_zip]
      have hkids : ∀ c ∈ ch, Tree.blk h c.2 ∈ kids d b := by
        intro c hc
        simp only [kids, hs1, List.map_map, List.mem_map]
        exact ⟨c, hc, rfl⟩
      have loop : ∀ (l pre : List (Nat × Tree Nat h)) (lo : Nat) (m : LSums), pre ++ l = ch → Chain (Tree.Ordered h) lo kr.fin l → Valid d msm dsm m →
          (∀ b es, Reach d roots b → d.rd b = some (.leaf es) → m b ≠ none) →
          ∃ m', sumKids (fun kr b m => summarize n msm ign fuel kr false b m) (eachRange (fun kr c => [(kr, Tree.blk h c)]) kr.fin l) m
              ⟨mkSum ((pre.flatMap fun c => c.2.contents h).map (·.1)) (pre.length % 256), (pre.map fun c => shT msm dsm h c.2).sum⟩ =
            some (m', ⟨mkSum ((ch.flatMap fun c => c.2.contents h).map (·.1)) (ch.length % 256), (ch.map fun c => shT msm dsm h c.2).sum⟩) ∧ Valid d msm dsm m' ∧ ∀ x, m x ≠ none → m' x = m x := by
        intro l
        induction l with
        | nil =>
          intro pre lo m hp _ hv _
          simp only [List.append_nil] at hp
          subst hp
          exact ⟨m, rfl, hv, fun _ _ => rfl⟩
        | cons p l ihl =>
          intro pre lo m hp hch hv hl
          obtain ⟨k, c⟩ := p
          obtain ⟨c1, c2, c3, c4⟩ := hch
          have hcm : (k, c) ∈ ch := by rw [← hp]; simp
          have hcr : Reach d roots (Tree.blk h c) := .kid b _ hr (hkids _ hcm)
          obtain ⟨m1, e1, v1, -, k1⟩ := ih c k ⟨some k, nextKey kr.fin l⟩ false false fuel m (hs2 _ hcm) c3 (Or.inr (hne'.2 _ hcm)) hcr (by
              intro n hn
              cases hn
              exact Nat.le_refl _) (by
              rcases hmin with q | q
              · exact Or.inl q
              · exact Or.inr (Or.inr (q b _ hr (hkids _ hcm)))) (by omega) hv hl
          obtain ⟨m2, e2, v2, k2⟩ := ihl (pre ++ [(k, c)]) (k + 1) m1 (by simp [hp]) c4 v1 (fun b es hb he => by rw [k1 b (hl b es hb he)]; exact hl b es hb he)
          have hkc := keysOf_eq (keys_of_tree h c false (hs2 _ hcm))
          simp only [eachRange, List.singleton_append, sumKids, e1]
          have hall : (pre.flatMap fun c => c.2.contents h).map (·.1) ++ (c.contents h).map (·.1) ++ (l.flatMap fun c => c.2.contents h).map (·.1) =
              (Tree.contents (h + 1) ((b, ch) : Nat × List (Nat × Tree Nat h))).map (·.1) := by
            show _ = (ch.flatMap fun c => c.2.contents h).map (·.1)
            rw [← hp]
            simp
          rw [← hall] at hsorted hlen
          rw [List.pairwise_append] at hsorted
          have hadd := mkSum_add (A := (pre.flatMap fun c => c.2.contents h).map (·.1)) (C := (c.contents h).map (·.1)) (e := pre.length % 256) (e' := nEnt d (Tree.blk h c) % 256)
            (by simpa using LW.noEmpty_contents h c (hne'.2 _ hcm)) (by rw [List.length_append] at hlen; omega) (List.pairwise_append.mp hsorted.1).2.2
          have hex : exactOf d (Tree.blk h c) = mkSum ((c.contents h).map (·.1)) (nEnt d (Tree.blk h c) % 256) := by
            unfold exactOf; rw [hkc]
          have hsh : (pre.map fun c => shT msm dsm h c.2).sum + shT msm dsm h c < 2 ^ 64 := by
            have h1 : ∀ l : List (Nat × Tree Nat h), (l.map fun c => shT msm dsm h c.2).sum ≤ ((l.flatMap fun c => c.2.contents h).map (·.1)).length := by
              intro l
              induction l with
              | nil => simp
              | cons c l ih2 =>
                have := shT_le msm dsm h c.2
                simp only [List.map_cons, List.sum_cons, List.flatMap_cons, List.map_append, List.length_append, List.length_map] at ih2 ⊢
                omega
            have h2 := h1 pre
            have h3 := shT_le msm dsm h c
            simp only [List.length_append, List.length_map] at hlen h2
            omega
          rw [hex, add_eq hadd (by
            intro q
            have q := congrArg Sum.maps q
            have hpos := List.length_pos_iff.mpr (LW.noEmpty_contents h c (hne'.2 _ hcm))
            simp only [mkSum, List.length_append, List.length_map] at q
            omega) hsh]
          have : mkSum ((pre.flatMap fun c => c.2.contents h).map (·.1) ++ (c.contents h).map (·.1)) ((pre.length % 256 + 1) % 256) =
              mkSum (((pre ++ [(k, c)]).flatMap fun c => c.2.contents h).map (·.1)) ((pre ++ [(k, c)]).length % 256) := by
            congr 1
            · simp
            · simp
          rw [this, show (pre.map fun c => shT msm dsm h c.2).sum + shT msm dsm h c = ((pre ++ [(k, c)]).map fun c => shT msm dsm h c.2).sum by simp, e2]
          exact ⟨m2, rfl, v2, fun x hx => by rw [k2 x (by rw [k1 x hx]; exact hx), k1 x hx]⟩
      obtain ⟨m1, e1, v1, k1⟩ := loop ch [] lo m rfl ho hv hl
      have hz : (⟨⟨0, 0, 0, 0, 0⟩, 0⟩ : LSum) = ⟨mkSum (([] : List (Nat × Tree Nat h)).flatMap (fun c => c.2.contents h) |>.map (·.1)) (([] : List (Nat × Tree Nat h)).length % 256),
        (([] : List (Nat × Tree Nat h)).map fun c => shT msm dsm h c.2).sum⟩ := rfl
      rw [hz, e1]
      have hex : mkSum ((ch.flatMap fun c => c.2.contents h).map (·.1)) (ch.length % 256) = exactOf d b := by
        unfold exactOf
        rw [hk, hent]
        rfl
      have hadj : adjust msm b ⟨exactOf d b, (ch.map fun c => shT msm dsm h c.2).sum⟩ = ⟨exactOf d b, shT msm dsm (h + 1) (b, ch)⟩ := by
        have hmp : (exactOf d b).maps = (Tree.contents (h + 1) ((b, ch) : Nat × List (Nat × Tree Nat h))).length := by
          unfold exactOf
          rw [hk]
          simp only [mkSum, List.length_map]
        unfold adjust
        rw [hmp, shT_node]
        by_cases hs : msm.cnt b > 1
        · rw [if_pos hs, if_pos hs]
        · rw [if_neg hs, if_neg hs]
      simp only
      rw [hex, hadj]
      refine ⟨_, rfl, ?_, by simp [setBit], ?_⟩
      · intro x s hx
        by_cases e : x = b
        · subst e
          simp only [setBit, if_true, Option.some.injEq] at hx
          subst hx
          exact ⟨rfl, fun h' t' r' hs' hb' => shT_same (h + 1) (x, ch) r ⟨hs1, hs2⟩ h' t' r' hs' hb'.symm⟩
        · simp only [setBit, if_neg e] at hx; exact v1 x s hx
      · intro x hx
        have : x ≠ b := fun e => hx (by rw [e, hmb])
        simp only [setBit, if_neg this]
        exact k1 x hx

theorem count_clean (hd : Sane d) {n : NodeMap} {msm dsm : Sm} (ign : Bool) (hn : ∀ b ch, Reach d roots b → d.rd b = some (.internal ch) → n.ty b = .internal ∧ n.info b = some ch)
    (hmin : ign = true ∨ ∀ y c, Reach d roots y → c ∈ kids d y → TChk.MIN_ENTRIES ≤ nEnt d c) (hmax : ∀ b, nEnt d b ≤ 255) (hc : AllClean d roots) (fuel : Nat) (hf : d.nr ≤ fuel) :
    ∀ (rs : List Nat) (m : LSums), (∀ r ∈ rs, r ∈ roots) → Valid d msm dsm m → (∀ b es, Reach d roots b → d.rd b = some (.leaf es) → m b ≠ none) →
      ∃ m', countMapped n msm ign fuel rs m = some m' ∧ Valid d msm dsm m' ∧ (∀ r ∈ rs, ∀ (h : Nat) (t : Tree Nat h), LW.Clean d.rd d.nr h t → t.blk h = r → m' r = some ⟨exactOf d r, shT msm dsm h t⟩) ∧ ∀ x, m x ≠ none → m' x = m x := by
  intro rs
  induction rs with
  | nil => intro m _ hv _; exact ⟨m, rfl, hv, by simp, fun _ _ => rfl⟩
  | cons r rs ih =>
    intro m hrs hv hl
    have hr := hrs r (by simp)
    obtain ⟨h, hbal⟩ := hc.balanced r hr
    have hu := hbal.u32 hd
    obtain ⟨k, t, hcl, hb⟩ := hc r hr
    obtain ⟨m1, e1, v1, r1, k1⟩ := summarize_clean hd ign hn hmin hmax k t 0 ⟨none, none⟩ true true fuel m hcl.stored hcl.ordered hcl.noEmpty (by rw [hb]; exact .root r hr)
      (by intro n h; cases h) (Or.inr (Or.inl rfl)) (by have := hcl.height; omega) hv hl
    rw [hb] at e1 r1
    obtain ⟨m2, e2, v2, r2, k2⟩ := ih m1 (fun x hx => hrs x (by simp [hx])) v1 (fun b es h1 h2 => by rw [k1 b (hl b es h1 h2)]; exact hl b es h1 h2)
    refine ⟨m2, ?_, v2, ?_, fun x hx => by rw [k2 x (by rw [k1 x hx]; exact hx), k1 x hx]⟩
    · simp only [countMapped, hu, e1, e2]
    · intro x hx h' t' hc' hb'
      rcases List.mem_cons.mp hx with rfl | hx
      · rw [k2 x (by rw [r1]; simp), r1, shT_same k t true hcl.stored h' t' true hc'.stored (hb.trans hb'.symm)]
      · exact r2 x hx h' t' hc' hb'

end Verif.Ls
