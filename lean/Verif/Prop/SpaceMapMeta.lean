import Verif.Prop.Cursor

/-!
# C19 for the metadata space map

The metadata space map describes the blocks that its own bitmaps and trees occupy.  `write_metadata_sm` writes the bitmaps first,
and corrects them with the allocations that were recorded meanwhile.
-/

namespace Verif.SMD

open Verif.Bld (St Err NB NIO NodeRec Post Inv Sorted Result RootFilled Summary)
open Verif.BT (Blk Tree)
open Verif.Arr (divUp)

/-! ## Rows -/

/-- the number of free entries of a bitmap -/
def free (es : List BE) : Nat := (es.filter fun e => e = .small 0).length

theorem free_set_used {es : List BE} {i : Nat} {e : BE} (h : es[i]? = some (.small 0)) (he : e ≠ .small 0) : free (es.set i e) = free es - 1 := by
  induction es generalizing i with
  | nil => simp at h
  | cons a l ih =>
    cases i with
    | zero =>
      simp at h
      subst h
      simp [free, he]
    | succ i =>
      have h' : l[i]? = some (.small 0) := by simpa using h
      have hpos : 0 < free l := by
        have : BE.small 0 ∈ l.filter (fun e => decide (e = .small 0)) := by simp; exact List.mem_of_getElem? h'
        exact List.length_pos_of_mem this
      have := ih h'
      simp only [free, List.set_cons_succ, List.filter_cons] at this hpos ⊢
      split <;> (try simp only [List.length_cons]) <;> omega

theorem free_pos {es : List BE} {i : Nat} (h : es[i]? = some (.small 0)) : 0 < free es := by
  have : BE.small 0 ∈ es.filter (fun e => decide (e = .small 0)) := by simp; exact List.mem_of_getElem? h
  exact List.length_pos_of_mem this

theorem free_replicate (k : Nat) : free (List.replicate k (.small 0)) = k := by simp [free]

/-- what the bitmap says of a block that the loop has seen: its count, or 1 if it was allocated by `write_metadata_sm` itself -/
def Ent (a0 : Nat → Nat) (l : List Nat) (x : Nat) (e : BE) : Prop := e = entryOf (a0 x) ∨ (e = .small 1 ∧ x ∈ l)

/-- bitmap `j` after the loop has seen blocks `0 … p - 1` -/
structure RowOK (epb : Nat) (a0 : Nat → Nat) (l : List Nat) (p j : Nat) (es : List BE) : Prop where
  len : es.length = epb
  seen : ∀ i, i < epb → j * epb + i < p → ∃ e, es[i]? = some e ∧ Ent a0 l (j * epb + i) e
  rest : ∀ i, i < epb → p ≤ j * epb + i → es[i]? = some (.small 0)

theorem RowOK.mono {epb : Nat} {a0 : Nat → Nat} {l : List Nat} {p j : Nat} {es : List BE} (h : RowOK epb a0 l p j es) (m : List Nat) :
    RowOK epb a0 (l ++ m) p j es :=
  ⟨h.len, fun i hi hp => by
    obtain ⟨e, h1, h2⟩ := h.seen i hi hp
    refine ⟨e, h1, ?_⟩
    rcases h2 with h2 | ⟨h2, h3⟩
    · exact .inl h2
    · exact .inr ⟨h2, List.mem_append.mpr (.inl h3)⟩, h.rest⟩

theorem RowOK.empty {epb : Nat} {a0 : Nat → Nat} {l : List Nat} {p j : Nat} (h : p ≤ j * epb) :
    RowOK epb a0 l p j (List.replicate epb (.small 0)) :=
  ⟨by simp, fun i _ h' => by omega, fun i hi _ => by simp [hi]⟩

/-- a bitmap that is complete -/
theorem RowOK.past {epb : Nat} {a0 : Nat → Nat} {l : List Nat} {p j : Nat} {es : List BE} (h : RowOK epb a0 l p j es)
    (hp : (j + 1) * epb ≤ p) (q : Nat) (hq : p ≤ q) : RowOK epb a0 l q j es := by
  rw [Nat.succ_mul] at hp
  exact ⟨h.len, fun i hi _ => h.seen i hi (by omega), fun i hi h' => by omega⟩

/-- the next block is recorded -/
theorem RowOK.step {epb : Nat} {a0 : Nat → Nat} {l : List Nat} {p j : Nat} {es : List BE} (h : RowOK epb a0 l p j es) (he : 0 < epb)
    (hj : p / epb = j) {e : BE} (hent : Ent a0 l p e) : RowOK epb a0 l (p + 1) j (es.set (p % epb) e) := by
  have hm := Nat.mod_lt p he
  have hp : j * epb + p % epb = p := by rw [← hj, Nat.mul_comm]; exact Nat.div_add_mod p epb
  refine ⟨by simp [h.len], ?_, ?_⟩
  · intro i hi hlt
    by_cases e1 : i = p % epb
    · subst e1
      refine ⟨e, ?_, by rw [hp]; exact hent⟩
      rw [List.getElem?_set_self (by rw [h.len]; exact hm)]
    · rw [List.getElem?_set_ne (Ne.symm e1)]
      exact h.seen i hi (by omega)
  · intro i hi hge
    rw [List.getElem?_set_ne (by omega)]
    exact h.rest i hi (by omega)

/-- a bitmap on disk with its index entry -/
structure VRow (epb : Nat) (a0 : Nat → Nat) (l : List Nat) (p j : Nat) (ie : IndexEntry) (bm : Nat × List BE) : Prop where
  blk : ie.blocknr = bm.1
  nr : ie.nr_free = free bm.2
  first : ∀ i, i < ie.none_free_before → bm.2[i]? ≠ some (.small 0)
  ok : RowOK epb a0 l p j bm.2

/-- the first `m` bitmaps -/
structure VRows (epb : Nat) (a0 : Nat → Nat) (l : List Nat) (p m : Nat) (ies : List IndexEntry) (bms : Bms) : Prop where
  nies : ies.length = m
  nbms : bms.length = m
  row : ∀ j, j < m → ∃ ie bm, ies[j]? = some ie ∧ bms[j]? = some bm ∧ VRow epb a0 l p j ie bm

theorem VRows.map {epb : Nat} {a0 : Nat → Nat} {l l' : List Nat} {p p' m : Nat} {ies : List IndexEntry} {bms : Bms}
    (h : VRows epb a0 l p m ies bms) (f : ∀ j es, j < m → RowOK epb a0 l p j es → RowOK epb a0 l' p' j es) : VRows epb a0 l' p' m ies bms :=
  ⟨h.nies, h.nbms, fun j hj => by
    obtain ⟨ie, bm, h1, h2, h3⟩ := h.row j hj
    exact ⟨ie, bm, h1, h2, h3.blk, h3.nr, h3.first, f _ _ hj h3.ok⟩⟩

theorem VRows.next {epb : Nat} {a0 : Nat → Nat} {l : List Nat} {p m : Nat} {ies : List IndexEntry} {bms : Bms}
    (h : VRows epb a0 l p m ies bms) {ie : IndexEntry} {bm : Nat × List BE} (hr : VRow epb a0 l p m ie bm) :
    VRows epb a0 l p (m + 1) (ies ++ [ie]) (bms ++ [bm]) where
  nies := by simp [h.nies]
  nbms := by simp [h.nbms]
  row := by
    intro j hj
    by_cases e : j = m
    · subst e
      refine ⟨ie, bm, ?_, ?_, hr⟩
      · rw [List.getElem?_append_right (by rw [h.nies]; omega), h.nies]; simp
      · rw [List.getElem?_append_right (by rw [h.nbms]; omega), h.nbms]; simp
    · obtain ⟨ie', bm', g1, g2, g3⟩ := h.row j (by omega)
      refine ⟨ie', bm', ?_, ?_, g3⟩
      · rw [List.getElem?_append_left (by rw [h.nies]; omega)]; exact g1
      · rw [List.getElem?_append_left (by rw [h.nbms]; omega)]; exact g2

/-! ## The loop -/

/-- The state of `write_metadata_common` after blocks `0 … p - 1` -/
structure MI (epb n max : Nat) (S0 : SSt) (p : Nat) (row : MRow) (S : SSt) (l : List Nat) (bms : Bms) : Prop where
  mid : Mid n max S0 row.nb S (ovf 0 ((List.range p).map S0.bt.sm.abs)) bms
  grow : Grow n max S0.bt S.bt l
  fed : Fed row.nb
  bm : row.bm = (p - 1) / epb
  cur : RowOK epb S0.bt.sm.abs l p row.bm row.entries
  nr : row.nrFree = free row.entries
  first : ∀ i, i < row.nfb → row.entries[i]? ≠ some (.small 0)
  rows : VRows epb S0.bt.sm.abs l p row.bm row.ies bms

theorem mi_new {epb n max : Nat} {S0 : SSt} (hi : S0.bt.sm.Inv n max) :
    MI epb n max S0 0 (MRow.fresh epb 0 [] (NB.new capOv false)) S0 [] [] where
  mid := by simpa [ovf, MRow.fresh] using mid_new hi
  grow := .refl hi
  fed := Fed.new _ _
  bm := by simp [MRow.fresh]
  cur := RowOK.empty (by omega)
  nr := (free_replicate epb).symm
  first := by intro i hi; simp [MRow.fresh] at hi
  rows := ⟨rfl, rfl, by intro j hj; simp [MRow.fresh] at hj⟩

/-- the current bitmap is written -/
theorem out_post {epb n max : Nat} {S0 : SSt} {p : Nat} {row : MRow} {S : SSt} {l : List Nat} {bms : Bms}
    (h : MI epb n max S0 p row S l bms) :
    Post (row.out epb S) (fun r => ∃ l' bms', Mid n max S0 row.nb r.2 (ovf 0 ((List.range p).map S0.bt.sm.abs)) bms' ∧
      Grow n max S0.bt r.2.bt l' ∧ VRows epb S0.bt.sm.abs l' p (row.bm + 1) r.1 bms') := by
  unfold MRow.out
  refine (Post.and (mid_bitmap (epb := epb) h.mid row.entries) (fun r hr => writeBitmap_grow h.grow.sm hr)).bind ?_
  rintro ⟨b, S'⟩ ⟨g1, g2⟩
  refine ⟨l ++ [b], _, g1, h.grow.trans g2, ?_⟩
  have hrow := h.rows.map (l' := l ++ [b]) (p' := p) (fun j es _ hr => hr.mono [b])
  have e : row.entries ++ List.replicate (epb - row.entries.length) (BE.small 0) = row.entries := by rw [h.cur.len]; simp
  simp only [e]
  exact hrow.next ⟨rfl, h.nr, h.first, h.cur.mono [b]⟩

theorem div_step {epb p : Nat} (he : 0 < epb) (h : p / epb ≠ (p - 1) / epb) : p / epb = (p - 1) / epb + 1 ∧ p / epb * epb = p := by
  cases p with
  | zero => simp at h
  | succ p =>
    simp only [Nat.add_sub_cancel] at h ⊢
    have h1 := Nat.div_add_mod p epb
    have h2 := Nat.mod_lt p he
    have h3 := Nat.div_add_mod (p + 1) epb
    have h4 := Nat.mod_lt (p + 1) he
    by_cases h5 : p % epb + 1 = epb
    · have e : p + 1 = epb * (p / epb + 1) := by rw [Nat.mul_succ]; omega
      have : (p + 1) / epb = p / epb + 1 := by rw [e]; exact Nat.mul_div_cancel_left _ he
      refine ⟨this, ?_⟩
      rw [this, Nat.mul_comm]; exact e.symm
    · exfalso
      apply h
      have e : p + 1 = epb * (p / epb) + (p % epb + 1) := by omega
      have e2 : (p % epb + 1) / epb = 0 := Nat.div_eq_of_lt (by omega)
      rw [e, Nat.mul_add_div he, e2]
      rfl

/-- the state when block `p` is looked at -/
structure MJ (epb n max : Nat) (S0 : SSt) (p : Nat) (row : MRow) (S : SSt) (l : List Nat) (bms : Bms) : Prop where
  mid : Mid n max S0 row.nb S (ovf 0 ((List.range p).map S0.bt.sm.abs)) bms
  grow : Grow n max S0.bt S.bt l
  fed : Fed row.nb
  bm : row.bm = p / epb
  cur : RowOK epb S0.bt.sm.abs l p row.bm row.entries
  nr : row.nrFree = free row.entries
  first : ∀ i, i < row.nfb → row.entries[i]? ≠ some (.small 0)
  rows : VRows epb S0.bt.sm.abs l p row.bm row.ies bms

theorem turn_post {epb n max : Nat} (he : 0 < epb) {S0 : SSt} {p : Nat} {row : MRow} {S : SSt} {l : List Nat} {bms : Bms}
    (h : MI epb n max S0 p row S l bms) :
    Post (if p / epb ≠ row.bm then do
        let o ← row.out epb S
        (.ok (MRow.fresh epb (p / epb) o.1 row.nb, o.2) : Except Err (MRow × SSt))
      else .ok (row, S)) (fun x => ∃ l' bms', MJ epb n max S0 p x.1 x.2 l' bms') := by
  by_cases hb : p / epb ≠ row.bm
  · rw [if_pos hb]
    rw [h.bm] at hb
    obtain ⟨d1, d2⟩ := div_step he hb
    refine (out_post h).bind ?_
    rintro ⟨ies, S'⟩ ⟨l', bms', g1, g2, g3⟩
    refine ⟨l', bms', g1, g2, h.fed, rfl, ?_, (free_replicate epb).symm, ?_, ?_⟩
    · exact RowOK.empty (by show p ≤ p / epb * epb; omega)
    · intro i hi; simp [MRow.fresh] at hi
    · show VRows epb S0.bt.sm.abs l' p (p / epb) ies bms'
      rw [d1, ← h.bm]
      exact g3
  · rw [if_neg hb]
    exact ⟨l, bms, h.mid, h.grow, h.fed, by simp only [ne_eq, Decidable.not_not] at hb; exact hb.symm, h.cur, h.nr, h.first, h.rows⟩

theorem range_ovf_small (f : Nat → Nat) (p : Nat) (h : f p < 3) : ovf 0 ((List.range (p + 1)).map f) = ovf 0 ((List.range p).map f) := by
  rw [List.range_succ, List.map_append, ovf_append]
  simp [ovf, h]

theorem range_ovf_big (f : Nat → Nat) (p : Nat) (h : 3 ≤ f p) :
    ovf 0 ((List.range (p + 1)).map f) = ovf 0 ((List.range p).map f) ++ [(p, .rc (f p))] := by
  rw [List.range_succ, List.map_append, ovf_append]
  simp [ovf, show ¬ f p < 3 by omega]

theorem used_first {es : List BE} {f i : Nat} {e : BE} (he : e ≠ .small 0) (h : ∀ k, k < f → es[k]? ≠ some (.small 0)) :
    ∀ k, k < (if i = f then i + 1 else f) → (es.set i e)[k]? ≠ some (.small 0) := by
  intro k hk
  by_cases hki : k = i
  · subst hki
    rw [List.getElem?_set]
    simp only [if_true]
    split
    · intro h'; injection h' with h'; exact he h'
    · simp
  · rw [List.getElem?_set_ne (Ne.symm hki)]
    apply h
    split at hk <;> omega

/-- a used block, whose entry is `e` -/
theorem mj_used {epb n max : Nat} (he : 0 < epb) {S0 : SSt} {p : Nat} {row : MRow} {S S' : SSt} {nb : NB SVal} {l : List Nat} {bms : Bms}
    (h : MJ epb n max S0 p row S l bms) {e : BE} (hne : e ≠ .small 0) {m : List Nat} (hent : Ent S0.bt.sm.abs (l ++ m) p e)
    (hmid : Mid n max S0 nb S' (ovf 0 ((List.range (p + 1)).map S0.bt.sm.abs)) bms) (hg : Grow n max S0.bt S'.bt (l ++ m)) (hf : Fed nb) :
    MI epb n max S0 (p + 1) (row.used (p % epb) e nb) S' (l ++ m) bms := by
  have hm := Nat.mod_lt p he
  have hp : p / epb * epb + p % epb = p := by rw [Nat.mul_comm]; exact Nat.div_add_mod p epb
  have hz : row.entries[p % epb]? = some (.small 0) := h.cur.rest _ hm (by rw [h.bm]; omega)
  refine ⟨hmid, hg, hf, by simpa [MRow.used] using h.bm, ?_, ?_, ?_, ?_⟩
  · exact (h.cur.mono m).step he h.bm.symm hent
  · show row.nrFree - 1 = free (row.entries.set (p % epb) e)
    rw [free_set_used hz hne, h.nr]
  · exact used_first hne h.first
  · refine h.rows.map ?_
    intro j es hj hr
    refine (hr.mono m).past ?_ (p + 1) (by omega)
    have : (j + 1) * epb ≤ row.bm * epb := Nat.mul_le_mul_right _ hj
    rw [h.bm] at this
    omega

theorem metaBlock_post {epb n max : Nat} (he : 0 < epb) {S0 : SSt} {p : Nat} (hpn : p < n) {row : MRow} {S : SSt} {l : List Nat} {bms : Bms}
    (h : MI epb n max S0 p row S l bms) :
    Post (metaBlock epb p row S) (fun r => ∃ l' bms', MI epb n max S0 (p + 1) r.1 r.2 l' bms') := by
  unfold metaBlock
  refine (turn_post he h).bind ?_
  rintro ⟨row, S⟩ ⟨l, bms, h⟩
  simp only at h ⊢
  have hm := Nat.mod_lt p he
  have hp : p / epb * epb + p % epb = p := by rw [Nat.mul_comm]; exact Nat.div_add_mod p epb
  have hz : row.entries[p % epb]? = some (.small 0) := h.cur.rest _ hm (by rw [h.bm]; omega)
  have hget : S.bt.sm.get p = some (S.bt.sm.abs p) := by
    have := h.grow.sm.len
    unfold SM.Core.get SM.Core.abs
    rw [List.getD_eq_getElem?_getD, List.getElem?_eq_getElem (by omega)]
    rfl
  rw [hget]
  have habs := h.grow.abs p
  have hcases : (p ∈ l ∧ S0.bt.sm.abs p = 0 ∧ S.bt.sm.abs p = 1) ∨ (p ∉ l ∧ S.bt.sm.abs p = S0.bt.sm.abs p) := by
    by_cases hl : p ∈ l
    · have h1 := h.grow.zero p hl
      have h2 : l.count p ≤ 1 := List.nodup_iff_count.mp h.grow.nodup p
      have h3 := List.count_pos_iff.mpr hl
      exact .inl ⟨hl, h1, by omega⟩
    · rw [List.count_eq_zero.mpr hl] at habs
      exact .inr ⟨hl, by omega⟩
  have hle : S0.bt.sm.abs p ≤ S.bt.sm.abs p := by omega
  generalize hc : S.bt.sm.abs p = c at *
  have hsm : c < 3 → ovf 0 ((List.range (p + 1)).map S0.bt.sm.abs) = ovf 0 ((List.range p).map S0.bt.sm.abs) := by
    intro h3; exact range_ovf_small _ _ (by omega)
  have hent : ∀ v, v = c → c < 3 → Ent S0.bt.sm.abs (l ++ []) p (.small v) := by
    intro v hv h3
    rcases hcases with ⟨h1, h2, h4⟩ | ⟨h1, h2⟩
    · right; exact ⟨by rw [hv, h4], by simpa using h1⟩
    · left; rw [← h2, entryOf, if_pos h3, hv]
  match c with
  | 0 =>
    refine ⟨l ++ [], bms, ?_, ?_, h.fed, by simpa using h.bm, ?_, ?_, ?_, ?_⟩
    · rw [hsm (by omega)]; exact h.mid
    · rw [List.append_nil]; exact h.grow
    · exact (h.cur.mono []).step he h.bm.symm (hent 0 rfl (by omega))
    · have : row.entries.set (p % epb) (.small 0) = row.entries := by
        apply List.ext_getElem?
        intro i
        by_cases e : i = p % epb
        · subst e; rw [List.getElem?_set_self (by rw [h.cur.len]; exact hm), hz]
        · rw [List.getElem?_set_ne (Ne.symm e)]
      show row.nrFree = free (row.entries.set (p % epb) (.small 0))
      rw [this]; exact h.nr
    · intro i hi
      show (row.entries.set (p % epb) (.small 0))[i]? ≠ _
      have := h.first i hi
      by_cases e : i = p % epb
      · subst e; exact absurd hz this
      · rw [List.getElem?_set_ne (Ne.symm e)]; exact this
    · refine h.rows.map ?_
      intro j es hj hr
      refine (hr.mono []).past ?_ (p + 1) (by omega)
      have : (j + 1) * epb ≤ row.bm * epb := Nat.mul_le_mul_right _ hj
      rw [h.bm] at this
      omega
  | 1 => exact ⟨l ++ [], bms, mj_used he h (by simp) (hent 1 rfl (by omega)) (by rw [hsm (by omega)]; exact h.mid) (by rw [List.append_nil]; exact h.grow) h.fed⟩
  | 2 => exact ⟨l ++ [], bms, mj_used he h (by simp) (hent 2 rfl (by omega)) (by rw [hsm (by omega)]; exact h.mid) (by rw [List.append_nil]; exact h.grow) h.fed⟩
  | c + 3 =>
    have hc0 : S0.bt.sm.abs p = c + 3 := by
      rcases hcases with ⟨-, -, h4⟩ | ⟨-, h2⟩
      · omega
      · exact h2.symm
    have hlt : ∀ e ∈ ovf 0 ((List.range p).map S0.bt.sm.abs), e.1 < p := by
      intro e hme
      have := ovf_lt _ _ _ hme
      simp at this
      exact this
    show Post (Bld.pushValue io p (.rc (c + 3)) row.nb S.bt >>= fun r => .ok (row.used (p % epb) .overflow r.1, { S with bt := r.2 })) _
    refine (Post.and (mid_push h.mid p (.rc (c + 3)) hlt) (fun r hr => pushValue_grow h.grow.sm h.fed hr)).bind ?_
    rintro ⟨nb, t⟩ ⟨g1, ⟨m, g2⟩, g3⟩
    refine ⟨l ++ m, bms, mj_used he h (by simp) ?_ ?_ (h.grow.trans g2) g3⟩
    · left; rw [hc0, entryOf, if_neg (by omega)]
    · rw [range_ovf_big _ _ (by omega), hc0]; exact g1

theorem metaLoop_post {epb n max : Nat} (he : 0 < epb) {S0 : SSt} : ∀ (k p : Nat) (row : MRow) (S : SSt) (l : List Nat) (bms : Bms), p + k ≤ n →
    MI epb n max S0 p row S l bms →
    Post (metaLoop epb (List.range' p k) row S) (fun r => ∃ l' bms', MI epb n max S0 (p + k) r.1 r.2 l' bms') := by
  intro k
  induction k with
  | zero => intro p row S l bms _ h; exact ⟨l, bms, h⟩
  | succ k ih =>
    intro p row S l bms hk h
    rw [List.range'_succ]
    unfold metaLoop
    refine (metaBlock_post he (by omega) h).bind ?_
    rintro ⟨row', S'⟩ ⟨l', bms', h'⟩
    refine (ih (p + 1) row' S' l' bms' (by omega) h').mono ?_
    rintro r ⟨l'', bms'', h''⟩
    exact ⟨l'', bms'', by rw [show p + (k + 1) = p + 1 + k by omega]; exact h''⟩

theorem fillLoop_post {epb n max k : Nat} {S0 : SSt} {nb : NB SVal} {pushed : List (Nat × SVal)} : ∀ (f m : Nat) (ies : List IndexEntry)
    (S : SSt) (l : List Nat) (bms : Bms), k ≤ m * epb → Mid n max S0 nb S pushed bms → Grow n max S0.bt S.bt l →
    VRows epb S0.bt.sm.abs l k m ies bms →
    Post (fillLoop epb f ies S) (fun r => ∃ l' bms', Mid n max S0 nb r.2 pushed bms' ∧ Grow n max S0.bt r.2.bt l' ∧
      VRows epb S0.bt.sm.abs l' k (m + f) r.1 bms') := by
  intro f
  induction f with
  | zero => intro m ies S l bms _ h1 h2 h3; exact ⟨l, bms, h1, h2, h3⟩
  | succ f ih =>
    intro m ies S l bms hk h1 h2 h3
    unfold fillLoop
    refine (Post.and (mid_bitmap (epb := epb) h1 (List.replicate epb (.small 0))) (fun r hr => writeBitmap_grow h2.sm hr)).bind ?_
    rintro ⟨b, S'⟩ ⟨g1, g2⟩
    have h3' := h3.map (l' := l ++ [b]) (p' := k) (fun j es _ hr => hr.mono [b])
    have e : List.replicate epb (BE.small 0) ++ List.replicate (epb - (List.replicate epb (BE.small 0)).length) (BE.small 0) = List.replicate epb (BE.small 0) := by
      simp
    rw [e] at g1
    have hn := h3'.next (ie := ⟨b, epb, 0⟩) (bm := (b, List.replicate epb (.small 0)))
      ⟨rfl, (free_replicate epb).symm, by intro i hi; simp at hi, RowOK.empty hk⟩
    refine (ih (m + 1) _ S' _ _ (by rw [Nat.succ_mul]; omega) g1 (h2.trans g2) hn).mono ?_
    rintro r ⟨l', bms', q1, q2, q3⟩
    exact ⟨l', bms', q1, q2, by rw [show m + (f + 1) = m + 1 + f by omega]; exact q3⟩

theorem sortedSet_prefix {n k : Nat} {l : List Nat} (hk : k ≤ n) (h : ∀ b, b < n → (b ∈ l ↔ b < k)) : sortedSet n l = List.range' 0 k := by
  have e : sortedSet n l = (List.range n).filter (fun b => decide (b < k)) := by
    unfold sortedSet
    apply List.filter_congr
    intro b hb
    have := h b (List.mem_range.mp hb)
    rw [List.contains_eq_mem]
    exact decide_eq_decide.mpr this
  rw [e, List.range_eq_range']
  have : n = k + (n - k) := by omega
  rw [this, ← List.range'_append_1, List.filter_append]
  have h1 : (List.range' 0 k).filter (fun b => decide (b < k)) = List.range' 0 k := by
    rw [List.filter_eq_self]; intro b hb; simp at hb; simpa using hb
  have h2 : (List.range' (0 + k) (n - k)).filter (fun b => decide (b < k)) = [] := by
    rw [List.filter_eq_nil_iff]; intro b hb; simp at hb ⊢; omega
  rw [h1, h2, List.append_nil]

theorem writeMetadataCommon_post {epb n max k : Nat} (he : 0 < epb) (hn : 0 < n) {S0 : SSt} (hi : S0.bt.sm.Inv n max) (hp : Prefix n k S0.bt) :
    Post (writeMetadataCommon epb S0) (fun r => ∃ l bms, ∃ (h : Nat) (t : Tree SVal h),
      Done n max S0 r.2.2 (ovf 0 ((List.range k).map S0.bt.sm.abs)) bms r.2.1 h t ∧
      Grow n max { S0.bt with allocs := [] } r.2.2.bt l ∧ VRows epb S0.bt.sm.abs l k (divUp n epb) r.1 bms) := by
  unfold writeMetadataCommon
  simp only [hi.len]
  rw [sortedSet_prefix hp.le hp.mem]
  have hi' : ({ S0 with bt := { S0.bt with allocs := [] } } : SSt).bt.sm.Inv n max := hi
  refine (metaLoop_post he k 0 _ _ [] [] (by have := hp.le; omega) (mi_new hi')).bind ?_
  rintro ⟨row, S⟩ ⟨l, bms, h⟩
  rw [Nat.zero_add] at h
  simp only at h ⊢
  refine (out_post h).bind ?_
  rintro ⟨ies, S1⟩ ⟨l1, bms1, g1, g2, g3⟩
  simp only at g1 g2 g3 ⊢
  have hb1 : row.bm < divUp n epb := by
    rw [Arr.lt_divUp he, h.bm]
    have := Nat.div_mul_le_self (k - 1) epb
    have := hp.le
    omega
  have hb2 : k ≤ (row.bm + 1) * epb := by
    rw [h.bm, Nat.succ_mul, Nat.mul_comm]
    have := Nat.div_add_mod (k - 1) epb
    have := Nat.mod_lt (k - 1) he
    omega
  refine (fillLoop_post (divUp n epb - ies.length) (row.bm + 1) ies S1 l1 bms1 hb2 g1 g2 g3).bind ?_
  rintro ⟨ies2, S2⟩ ⟨l2, bms2, q1, q2, q3⟩
  rw [g3.nies, show row.bm + 1 + (divUp n epb - (row.bm + 1)) = divUp n epb by omega] at q3
  simp only at q1 q2 q3 ⊢
  refine (Post.and (mid_complete q1) (fun r hr => completeTree_grow q2.sm h.fed hr)).bind ?_
  rintro ⟨root, s⟩ ⟨⟨ht, t, D⟩, l3, q4⟩
  refine ⟨l2 ++ l3, bms2, ht, t, ?_, q2.trans q4, q3.map (fun j es _ hr => hr.mono l3)⟩
  exact ⟨D.blk, D.stored, D.contents, D.ordered, D.filled, D.bm, D.rc, D.fresh, D.bnd, D.nodup, D.mem, D.log, D.sm⟩

end Verif.SMD
