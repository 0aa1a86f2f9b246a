import Verif.Prop.SpaceMapAdjust

/-!
# C19 for the metadata space map: the result
-/

namespace Verif.SMD

open Verif.Bld (St Err NB NIO NodeRec Post Inv Sorted Result RootFilled Summary)
open Verif.BT (Blk Tree)
open Verif.Arr (divUp)

/-- What `write_metadata_sm` leaves behind: the overflow tree `to` and the bitmaps under the entries `ies` of the index block describe
the whole device, including the blocks that they occupy themselves. -/
structure MetaSM (epb n max k : Nat) (S0 S : SSt) (root : SMRoot) (ies : List IndexEntry) (ho : Nat) (to : Tree SVal ho) : Prop where
  /-- there is an index entry for every `epb` blocks -/
  nies : ies.length = divUp n epb
  /-- the overflow tree -/
  oblk : to.blk ho = root.ref_count_root
  ostored : to.Stored (fun _ b => S.bt.mem b) true ho
  oordered : to.Ordered ho 0 none
  ofilled : Bld.RootFilled capOv capI ho to
  /-- the count on disk is the count in core at the end, for every block -/
  count : ∀ b, b < n → ∀ c, DiskCount epb S.readBm ies (to.contents ho) b c ↔ c = S.bt.sm.abs b
  /-- the bitmaps are there, and full -/
  bitmaps : ∀ ie ∈ ies, ∃ es, S.readBm ie.blocknr = some es ∧ es.length = epb ∧ ∀ n, BE.small n ∈ es → n ≤ 2
  /-- nothing else is in the overflow tree -/
  only : ∀ e ∈ to.contents ho, e.1 < n ∧ 3 ≤ S.bt.sm.abs e.1 ∧ e.2 = .rc (S.bt.sm.abs e.1)
  /-- no free block before the position in an index entry -/
  first : ∀ ie ∈ ies, ∀ es, S.readBm ie.blocknr = some es → ∀ i, i < ie.none_free_before → es[i]? ≠ some (.small 0)
  /-- the number of free blocks in an index entry is right, unless one of the first `k` blocks was free and is used again -/
  free : (∀ b, b < k → S0.bt.sm.abs b = 0 → S.bt.sm.abs b = 0) → ∀ ie ∈ ies, ∀ es, S.readBm ie.blocknr = some es →
    ie.nr_free = (es.filter fun e => e = .small 0).length
  nr : root.nr_blocks = n
  nrAlloc : root.nr_allocated = S.bt.sm.abs.allocated n
  /-- the blocks used were free, and each has one reference now -/
  rc : ∀ b, S.bt.sm.abs b = S0.bt.sm.abs b + (root.bitmap_root :: (to.blocks ho ++ ies.map (·.blocknr))).count b
  fresh : ∀ b ∈ root.bitmap_root :: (to.blocks ho ++ ies.map (·.blocknr)), S0.bt.sm.abs b = 0
  /-- nothing that was in use is changed -/
  mem : ∀ b, 0 < S0.bt.sm.abs b → S.bt.mem b = S0.bt.mem b ∧ S.bm b = S0.bm b
  sm : S.bt.sm.Inv n max
  nodup : (root.bitmap_root :: (to.blocks ho ++ ies.map (·.blocknr))).Nodup

theorem vrows_view {epb : Nat} {a0 : Nat → Nat} {l : List Nat} {p m : Nat} {ies : List IndexEntry} {bms : Bms}
    (h : VRows epb a0 l p m ies bms) : ∃ vs : List V, ies = vs.map (·.1) ∧ bms = vs.map (fun v => (v.1.blocknr, v.2)) ∧ vs.length = m ∧
      ∀ j v, vs[j]? = some v → v.1.nr_free = free v.2 ∧ (∀ i, i < v.1.none_free_before → v.2[i]? ≠ some (.small 0)) ∧ RowOK epb a0 l p j v.2 := by
  refine ⟨ies.zip (bms.map (·.2)), ?_, ?_, ?_, ?_⟩
  · rw [List.map_fst_zip]; simp [h.nies, h.nbms]
  · apply List.ext_getElem?
    intro j
    rw [List.getElem?_map]
    by_cases hj : j < m
    · obtain ⟨ie, bm, h1, h2, h3⟩ := h.row j hj
      have hz : (ies.zip (bms.map (·.2)))[j]? = some (ie, bm.2) :=
        List.getElem?_zip_eq_some.mpr ⟨h1, by rw [List.getElem?_map, h2]; rfl⟩
      rw [hz, h2, Option.map_some, h3.blk]
    · rw [List.getElem?_eq_none (by rw [h.nbms]; omega), List.getElem?_eq_none (by simp [h.nies, h.nbms]; omega)]; rfl
  · simp [h.nies, h.nbms]
  · intro j v hv
    rw [List.getElem?_zip_eq_some] at hv
    obtain ⟨hv1, hv2⟩ := hv
    have hj : j < m := by
      have := (List.getElem?_eq_some_iff.mp hv1).1
      rw [h.nies] at this; exact this
    obtain ⟨ie, bm, h1, h2, h3⟩ := h.row j hj
    rw [h1] at hv1
    rw [List.getElem?_map, h2] at hv2
    simp only [Option.map_some, Option.some.injEq] at hv1 hv2
    rw [← hv1, ← hv2]
    exact ⟨h3.nr, h3.first, h3.ok⟩

/-- **C19** for the metadata space map.  If the batcher's record of allocations is complete (`Prefix`), `write_metadata_sm` either
runs out of blocks or writes a space map whose count of every block of the device, including those of the space map itself, is the
in-core count at the end. -/
theorem writeMetadataSm_correct_partial {epb n max k : Nat} (he : 0 < epb) (hE : epb < 2 ^ 32) (hn : 0 < n) (hm : divUp n epb ≤ MAX_METADATA_BITMAPS) {S0 : SSt}
    (hi : S0.bt.sm.Inv n max) (hp : Prefix n k S0.bt) :
    Post (writeMetadataSm epb S0) (fun r => ∃ (ho : Nat) (to : Tree SVal ho), MetaSM epb n max k S0 r.2.2 r.1 r.2.1 ho to) := by
  unfold writeMetadataSm
  refine (writeMetadataCommon_post he hn hi hp).bind ?_
  rintro ⟨ies, oroot, S1⟩ ⟨l, bms, ho, to, D, G, R⟩
  simp only at D G R ⊢
  refine (Post.and (Bld.alloc_post D.sm) (fun r hr => alloc_grow D.sm hr)).bind ?_
  rintro ⟨xb, s2⟩ ⟨⟨a1, a2, a3, a4, a5, a6⟩, G2⟩
  simp only at a1 a2 a3 a4 a5 a6 G2 ⊢
  have GG := G.trans G2
  have hal : s2.allocs = l ++ [xb] := by rw [GG.allocs]; simp
  obtain ⟨vs, e1, e2, e3, hvs⟩ := vrows_view R
  obtain ⟨r1, r2, r3, -⟩ := ranges_spec _ (sortedSet_sorted s2.sm.counts.length s2.allocs)
  have hlen : s2.sm.counts.length = n := a3.len
  have hX : ∀ x, x < n → (inRanges (ranges (sortedSet s2.sm.counts.length s2.allocs)) x = true ↔ x ∈ l ++ [xb]) := by
    intro x hx
    rw [r3, mem_sortedSet, hlen, hal]
    exact ⟨fun h => h.2, fun h => ⟨hx, h⟩⟩
  have hrl : ∀ v ∈ vs, v.2.length = epb := by
    intro v hv
    obtain ⟨j, hj, rfl⟩ := List.mem_iff_getElem.mp hv
    exact (hvs j _ (List.getElem?_eq_getElem hj)).2.2.len
  have hreads : Reads epb { S1 with bt := { s2 with allocs := [] } } vs := by
    intro v hv
    refine ⟨?_, hrl v hv⟩
    have := D.bm (v.1.blocknr, v.2) (by rw [e2]; exact List.mem_map.mpr ⟨v, hv, rfl⟩)
    simp only [SSt.readBm, a5] at this ⊢
    exact this
  have hblk : vs.map (·.1.blocknr) = bms.map (·.1) := by rw [e2]; simp
  have hcnt : ∀ b, (to.blocks ho ++ bms.map (·.1)).count b = l.count b := by
    intro b
    have := D.rc b
    have := G.abs b
    simp only at this
    omega
  have hnd : (vs.map (·.1.blocknr)).Nodup := by
    rw [hblk, List.nodup_iff_count]
    intro b
    have := hcnt b
    rw [List.count_append] at this
    have := List.nodup_iff_count.mp G.nodup b
    omega
  rw [e1]
  refine (adjustAll_post he hE _ vs _ (fun r hr => Nat.le_of_lt (r1 r hr)) r2 hreads hnd).bind ?_
  rintro ⟨ies3, S3⟩ ⟨vs3, q1, q2, q3, q4, q5⟩
  simp only at q1 q2 q4 q5 ⊢
  obtain ⟨t1, t2⟩ := adjRows_get q3
  have hl3 : vs3.length = divUp n epb := t1.trans e3
  have t3 : ∀ (j : Nat) (v' : V), vs3[j]? = some v' → ∃ v : V, vs[j]? = some v ∧ AdjRow epb (inRanges (ranges (sortedSet s2.sm.counts.length s2.allocs))) j v v' := by
    intro j v' hv'
    have hj : j < vs.length := by rw [← t1]; exact (List.getElem?_eq_some_iff.mp hv').1
    obtain ⟨w, g1, g2⟩ := t2 j _ (List.getElem?_eq_getElem hj)
    rw [hv'] at g1
    cases g1
    exact ⟨_, List.getElem?_eq_getElem hj, by simpa using g2⟩
  rw [q1, if_pos (by rw [List.length_map, hl3]; exact hm)]
  have habs : ∀ b, S3.bt.sm.abs b = S0.bt.sm.abs b + (l ++ [xb]).count b := by
    intro b
    rw [q4.sm]
    exact GG.abs b
  have hsmInv : S3.bt.sm.Inv n max := by rw [q4.sm]; exact a3
  have hin : ∀ b, b ∈ l ++ [xb] → S0.bt.sm.abs b = 0 ∧ S3.bt.sm.abs b = 1 := by
    intro b hb
    have h1 : S0.bt.sm.abs b = 0 := GG.zero b hb
    have h2 := List.nodup_iff_count.mp GG.nodup b
    have h3 := List.count_pos_iff.mpr hb
    have := habs b
    exact ⟨h1, by omega⟩
  have hout : ∀ b, b ∉ l ++ [xb] → S3.bt.sm.abs b = S0.bt.sm.abs b := by
    intro b hb
    have := habs b
    rw [List.count_eq_zero.mpr hb] at this
    exact this
  -- the entry of a block in the end
  have hent : ∀ b, b < n → ∃ v', vs3[b / epb]? = some v' ∧ v'.2[b % epb]? = some (entryOf (S3.bt.sm.abs b)) := by
    intro b hb
    have hj : b / epb < divUp n epb := by
      rw [Arr.lt_divUp he]
      have := Nat.div_mul_le_self b epb
      omega
    have hmod := Nat.mod_lt b he
    have eb : b / epb * epb + b % epb = b := by rw [Nat.mul_comm]; exact Nat.div_add_mod b epb
    have hv := List.getElem?_eq_getElem (l := vs) (i := b / epb) (by omega)
    obtain ⟨v', g1, g2⟩ := t2 _ _ hv
    obtain ⟨-, -, g3⟩ := hvs _ _ hv
    refine ⟨v', g1, ?_⟩
    rw [Nat.zero_add] at g2
    rw [g2.ent _ hmod, eb]
    by_cases hx : b ∈ l ++ [xb]
    · rw [if_pos ((hX b hb).mpr hx), (hin b hx).2]; rfl
    · rw [if_neg (fun h => hx ((hX b hb).mp h)), hout b hx]
      by_cases hk : b < k
      · obtain ⟨e, k1, k2⟩ := g3.seen _ hmod (by omega)
        rw [eb] at k2
        rcases k2 with k2 | ⟨-, k2⟩
        · rw [k1, k2]
        · exact absurd (List.mem_append.mpr (.inl k2)) hx
      · rw [g3.rest _ hmod (by omega), hp.free b (by omega)]; rfl
  have hov : ∀ e : Nat × SVal, e ∈ to.contents ho ↔ e.1 < k ∧ 3 ≤ S3.bt.sm.abs e.1 ∧ e.2 = .rc (S3.bt.sm.abs e.1) := by
    rintro ⟨b, v⟩
    rw [D.contents]
    have := mem_ovf ((List.range k).map S0.bt.sm.abs) 0 b v
    rw [Nat.zero_add] at this
    rw [this]
    simp only [List.getElem?_map]
    constructor
    · rintro ⟨c, h1, h2, h3⟩
      by_cases hbk : b < k
      · rw [List.getElem?_range hbk] at h1
        simp only [Option.map_some, Option.some.injEq] at h1
        subst h1
        have hno : b ∉ l ++ [xb] := by intro h; have := (hin b h).1; omega
        rw [hout b hno]
        exact ⟨hbk, h2, h3⟩
      · rw [List.getElem?_eq_none (by simpa using hbk)] at h1; cases h1
    · rintro ⟨h1, h2, h3⟩
      have hno : b ∉ l ++ [xb] := by intro h; have := (hin b h).2; omega
      rw [hout b hno] at h2 h3
      exact ⟨S0.bt.sm.abs b, by rw [List.getElem?_range h1]; rfl, h2, h3⟩
  have hk3 : ∀ b, 3 ≤ S3.bt.sm.abs b → b < k := by
    intro b h3
    by_cases hbk : b < k
    · exact hbk
    · have h0 := hp.free b (by omega)
      by_cases hx : b ∈ l ++ [xb]
      · have := (hin b hx).2; omega
      · have := hout b hx; omega
  have hblk3 : (vs3.map (·.1)).map (·.blocknr) = bms.map (·.1) := by
    rw [← hblk, ← adjRows_blk q3]; simp
  refine ⟨ho, to, ?_⟩
  refine { nies := by simp only [List.length_map]; exact hl3, oblk := D.blk, ostored := ?_, oordered := D.ordered, ofilled := D.filled, count := ?_, bitmaps := ?_, only := ?_, first := ?_, free := ?_,
           nr := hsmInv.len, nrAlloc := hsmInv.nr, rc := ?_, fresh := ?_, mem := ?_, sm := hsmInv, nodup := ?_ }
  · refine Bld.stored_frame _ _ ho to ?_ D.stored
    intro b _
    simp only
    rw [q4.mem]
    exact congrFun a5 b
  · intro b hb c
    obtain ⟨v', g1, g2⟩ := hent b hb
    have hie : (vs3.map (·.1))[b / epb]? = some v'.1 := by rw [List.getElem?_map, g1]; rfl
    have hrd : S3.readBm v'.1.blocknr = some v'.2 := (q2 v' (List.mem_of_getElem? g1)).1
    constructor
    · intro h
      cases h with
      | small ie es h1 h2 h3 =>
        simp only at h1 h2
        rw [hie] at h1; cases h1
        rw [hrd] at h2; cases h2
        rw [g2, entryOf] at h3
        split at h3
        · cases h3; rfl
        · cases h3
      | overflow ie es h1 h2 h3 h4 =>
        have := (hov (b, .rc c)).mp h4
        have h5 := this.2.2
        simp only at h5
        cases h5; rfl
    · intro hc
      subst hc
      rw [entryOf] at g2
      by_cases h3 : S3.bt.sm.abs b < 3
      · rw [if_pos h3] at g2
        exact .small v'.1 v'.2 hie hrd g2
      · rw [if_neg h3] at g2
        exact .overflow v'.1 v'.2 hie hrd g2 ((hov _).mpr ⟨hk3 b (by omega), by simp only; omega, rfl⟩)
  · intro ie hie
    obtain ⟨v', hv', rfl⟩ := List.mem_map.mp hie
    obtain ⟨u1, u2⟩ := q2 v' hv'
    refine ⟨v'.2, u1, u2, ?_⟩
    intro x hx
    obtain ⟨j, hj, rfl⟩ := List.mem_iff_getElem.mp hv'
    obtain ⟨v, g1, g2⟩ := t3 j _ (List.getElem?_eq_getElem hj)
    obtain ⟨-, -, k3⟩ := hvs j v g1
    obtain ⟨i, hi', hix⟩ := List.mem_iff_getElem.mp hx
    rw [u2] at hi'
    have hx' := g2.ent i hi'
    rw [List.getElem?_eq_getElem (by rw [u2]; exact hi'), hix] at hx'
    by_cases hX' : inRanges (ranges (sortedSet s2.sm.counts.length s2.allocs)) (j * epb + i) = true
    · rw [if_pos hX'] at hx'; cases hx'; omega
    · rw [if_neg hX'] at hx'
      by_cases hp' : j * epb + i < k
      · obtain ⟨e, k1, k2⟩ := k3.seen i hi' hp'
        rw [k1] at hx'
        cases hx'
        rcases k2 with k2 | ⟨k2, -⟩
        · unfold entryOf at k2
          split at k2
          · cases k2; omega
          · cases k2
        · cases k2; omega
      · rw [k3.rest i hi' (by omega)] at hx'; cases hx'; omega
  · intro e he'
    have := (hov e).mp he'
    have hk := hp.le
    exact ⟨by omega, this.2⟩
  · intro ie hie es hes
    obtain ⟨v', hv', rfl⟩ := List.mem_map.mp hie
    have hrd := (q2 v' hv').1
    rw [hrd] at hes; cases hes
    obtain ⟨j, hj, rfl⟩ := List.mem_iff_getElem.mp hv'
    obtain ⟨v, g1, g2⟩ := t3 j _ (List.getElem?_eq_getElem hj)
    exact g2.first (hvs j v g1).2.1
  · intro hno ie hie es hes
    obtain ⟨v', hv', rfl⟩ := List.mem_map.mp hie
    have hrd := (q2 v' hv').1
    rw [hrd] at hes; cases hes
    obtain ⟨j, hj, rfl⟩ := List.mem_iff_getElem.mp hv'
    obtain ⟨v, g1, g2⟩ := t3 j _ (List.getElem?_eq_getElem hj)
    obtain ⟨k1, -, k3⟩ := hvs j v g1
    refine g2.nr ?_ k1
    intro i hi' hX'
    have hmem := (r3 _).mp hX'
    rw [mem_sortedSet, hlen, hal] at hmem
    obtain ⟨z1, z2⟩ := hin _ hmem.2
    refine k3.rest i hi' ?_
    by_cases hc : j * epb + i < k
    · have := hno _ hc z1; simp only at this; omega
    · omega
  · intro b
    rw [habs b, hblk3]
    have := hcnt b
    rw [List.count_append, ← this, List.count_cons, List.count_cons]
    simp only [List.count_nil]
    omega
  · intro b hb
    rw [hblk3] at hb
    rcases List.mem_cons.mp hb with rfl | hb
    · exact (hin _ (by simp)).1
    · exact D.fresh b hb
  · intro b hb
    have h1 := D.mem b hb
    refine ⟨?_, ?_⟩
    · simp only
      rw [q4.mem]
      exact (congrFun a5 b).trans h1.1
    · simp only
      rw [q5 b]
      · exact h1.2
      · rw [hblk]
        intro hmem
        have := D.fresh b (List.mem_append.mpr (.inr hmem))
        omega
  · rw [hblk3, List.nodup_iff_count]
    intro b
    have h1 := hcnt b
    have h2 := List.nodup_iff_count.mp GG.nodup b
    rw [List.count_cons, h1]
    simp only [List.nil_append, List.count_append, List.count_singleton] at h2
    exact h2

/-! ## The record of allocations is complete -/

/-- What the tools do with the space map of a device they create: allocate through the batcher, take and drop references to blocks in
use, write. -/
inductive Hist (n max : Nat) : St SVal → Prop
  | init (mem : Nat → Option (Blk SVal)) : Hist n max ⟨mem, SM.Core.new max n, [], []⟩
  | alloc {s : St SVal} {r : Nat × St SVal} : Hist n max s → Bld.alloc s = .ok r → Hist n max r.2
  | inc {s t : St SVal} {b : Nat} : Hist n max s → 0 < s.sm.abs b → Bld.incBlock b s = .ok t → Hist n max t
  | dec {s : St SVal} {r : Bool × St SVal} {b : Nat} : Hist n max s → Bld.decBlock b s = .ok r → Hist n max r.2
  | write {s : St SVal} (mem : Nat → Option (Blk SVal)) (log : List Nat) : Hist n max s → Hist n max { s with mem := mem, log := log }

/-- **C19**: so for every history of a device created by the tools the hypothesis of `writeMetadataSm_correct_partial` holds. -/
theorem hist_prefix {n max : Nat} (hn : n < 2 ^ 64 - 1) (hm : 1 ≤ max) {s : St SVal} (h : Hist n max s) : s.sm.Inv n max ∧ ∃ k, Prefix n k s := by
  suffices hc : Cursor n max s by
    obtain ⟨h1, k, h2, -⟩ := hc
    exact ⟨h1, k, h2⟩
  induction h with
  | init mem =>
    exact cursor_new hm rfl rfl
  | alloc _ h ih => exact cursor_alloc ih h
  | inc _ hb h ih => exact cursor_inc hn ih hb h
  | dec _ h ih => exact cursor_dec ih h
  | write mem log _ ih =>
    exact cursor_frame ih rfl rfl

/-! ## Examples and limits -/

/-- a device of ten blocks, of which the first three were allocated; the third has three more references -/
def exampleSt : SSt :=
  ⟨⟨fun _ => none, ⟨100, 3, 3, [1, 1, 4, 0, 0, 0, 0, 0, 0, 0]⟩, [], [0, 1, 2]⟩, fun _ => none⟩

/-- not vacuous: three bitmaps of four entries; afterwards eight blocks are in use, and the bitmaps say so -/
example : ∃ r, writeMetadataSm 4 exampleSt = .ok r ∧ r.1 = ⟨10, 8, 7, 6⟩ ∧ r.2.1 = [⟨3, 0, 4⟩, ⟨4, 0, 4⟩, ⟨5, 4, 0⟩] ∧
    r.2.2.readBm 3 = some [.small 1, .small 1, .overflow, .small 1] ∧ r.2.2.readBm 4 = some [.small 1, .small 1, .small 1, .small 1] ∧
    r.2.2.bt.mem 6 = some (.leaf [(2, .rc 4)]) := by
  refine ⟨_, rfl, rfl, rfl, rfl, rfl, rfl⟩

example : Prefix 10 3 exampleSt.bt where
  le := by decide
  mem := by decide
  free := by
    intro b hb
    simp only [SM.Core.abs, exampleSt]
    match b, hb with
    | 3, _ | 4, _ | 5, _ | 6, _ | 7, _ | 8, _ | 9, _ => rfl
    | b + 10, _ => rfl

/-- The hypothesis is needed.  If the recorded allocations leave out a whole bitmap, the index entries that follow are at the wrong
positions: block 4 is in use, but the entry of its bitmap says it is free (it describes the empty bitmap added at the end). -/
theorem writeMetadataSm_gap_refuted : ∃ (S0 : SSt) (r : SMRoot × List IndexEntry × SSt), S0.bt.sm.Inv 12 100 ∧ writeMetadataSm 2 S0 = .ok r ∧
    0 < r.2.2.bt.sm.abs 4 ∧ ∃ ie es, r.2.1[4 / 2]? = some ie ∧ r.2.2.readBm ie.blocknr = some es ∧ es[4 % 2]? = some (.small 0) := by
  refine ⟨⟨⟨fun _ => none, ⟨100, 2, 5, [1, 0, 0, 0, 1, 0, 0, 0, 0, 0, 0, 0]⟩, [], [0, 4]⟩, fun _ => none⟩, _, ?_, rfl, by decide, _, _, rfl, rfl, rfl⟩
  refine ⟨rfl, rfl, by decide, rfl, by decide, ?_⟩
  intro b
  simp only [SM.Core.abs]
  match b with
  | 0 | 1 | 2 | 3 | 4 | 5 | 6 | 7 | 8 | 9 | 10 | 11 => decide
  | b + 12 => exact Nat.zero_le _

/-- Nor is the number of free blocks right in all cases.  When a device is so full that the search wraps around and the space map's
own bitmap goes into a block that was free among those already recorded, that block is subtracted twice (and the number wraps
around zero). -/
theorem writeMetadataSm_free_refuted : ∃ (S0 : SSt) (k : Nat) (r : SMRoot × List IndexEntry × SSt), S0.bt.sm.Inv 16 100 ∧ Prefix 16 k S0.bt ∧
    writeMetadataSm 2 S0 = .ok r ∧ ∃ ie ∈ r.2.1, ∃ es, r.2.2.readBm ie.blocknr = some es ∧
      ie.nr_free ≠ (es.filter fun e => e = .small 0).length := by
  refine ⟨⟨⟨fun _ => none, ⟨100, 4, 16, [1, 1, 1, 1, 0, 0, 0, 0, 0, 0, 0, 0, 0, 0, 0, 0]⟩, [], List.range 16⟩, fun _ => none⟩, 16, _, ?_, ?_, rfl, ⟨6, 2 ^ 32 - 2, 2⟩, by decide, _, rfl, by decide⟩
  · refine ⟨rfl, rfl, by decide, rfl, by decide, ?_⟩
    intro b
    simp only [SM.Core.abs]
    match b with
    | 0 | 1 | 2 | 3 | 4 | 5 | 6 | 7 | 8 | 9 | 10 | 11 | 12 | 13 | 14 | 15 => decide
    | b + 16 => exact Nat.zero_le _
  · refine ⟨by decide, by decide, ?_⟩
    intro b hb
    simp only [SM.Core.abs]
    match b, hb with
    | b + 16, _ => rfl

end Verif.SMD
