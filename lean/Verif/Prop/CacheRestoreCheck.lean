import Verif.Prop.CacheRoundTrip
import Verif.Prop.CacheCheckCounts
import Verif.Prop.Records

/-!
# C56: what `cache_restore` writes, `cache_check` accepts

For every accepted document (hints of four bytes, 48-bit origin blocks) the restored metadata passes a full check exactly if no two mappings
of the document have the same origin block.  In particular the metadata space map that `cache_restore` writes is exact.
-/

namespace Verif.CacheM

open Verif.BT (Tree)
open Verif.Arr (ASt arrayOf divUp Grown)
open Verif.SMD (MetaSM)

/-! ## The space map writer -/

/-- what the metadata device must be like for its space map to be written: bitmaps have entries, their positions fit in 32 bits, and there are no more
of them than fit in the index block -/
structure SmSize (epb n : Nat) : Prop where
  epb0 : 0 < epb
  epb32 : epb < 2 ^ 32
  n0 : 0 < n
  max : divUp n epb ≤ MAX_METADATA_BITMAPS
  n64 : n < 2 ^ 64

theorem bound_of {epb n max k : Nat} {S0 S : SMD.SSt} {root : SMRoot} {ho : Nat} {to : Tree SMD.SVal ho} {ies : List IndexEntry}
    (h : MetaSM epb n max k S0 S root ies ho to) {b : Nat} (hb : b ∈ root.bitmap_root :: (to.blocks ho ++ ies.map (·.blocknr))) : b < n := by
  have h0 := h.fresh b hb
  have h1 := h.rc b
  have h2 := List.count_pos_iff.mpr hb
  exact SMC.lt_of_pos h.sm (by omega)

theorem allocated_le (c : SM.Counts) : ∀ n, c.allocated n ≤ n
  | 0 => Nat.le_refl _
  | n + 1 => by
    have := allocated_le c n
    unfold SM.Counts.allocated
    split <;> omega

theorem root_fits {epb n max k : Nat} (hn : n < 2 ^ 64) {S0 S : SMD.SSt} {root : SMRoot} {ho : Nat} {to : Tree SMD.SVal ho} {ies : List IndexEntry}
    (h : MetaSM epb n max k S0 S root ies ho to) : root.Fits := by
  have h1 := bound_of h (b := root.bitmap_root) (by simp)
  have h2 : root.ref_count_root < n := by
    rw [← h.oblk]
    exact bound_of h (by cases ho <;> simp [Tree.blk, Tree.blocks])
  have h3 : root.nr_allocated ≤ n := by
    rw [h.nrAlloc]
    exact allocated_le _ n
  exact ⟨by rw [h.nr]; exact hn, by omega, by omega, by omega⟩

/-- `build_metadata_sm` on a device that was only allocated from: it runs out of space or writes a right space map, in free blocks -/
theorem smWriter_post {epb n max : Nat} (hz : SmSize epb n) {dev : ASt Nat} (hc : SMD.Cursor n max dev.bt) :
    RPost (smWriter epb dev) (fun r => ∃ (k : Nat) (root : SMRoot) (ies : List IndexEntry) (S : SMD.SSt) (ho : Nat) (to : Tree SMD.SVal ho),
      MetaSM epb n max k (smStart dev) S root ies ho to ∧ packRoot root 128 = some r.1 ∧
      r.2.1 = ⟨S.bt.mem, S.readBm, fun x => if x = root.bitmap_root then some ies else none⟩ ∧ r.2.2 = smOver root S dev) := by
  obtain ⟨hi, k, hp, -⟩ := hc
  have := SMD.writeMetadataSm_correct_partial hz.epb0 hz.epb32 hz.n0 hz.max (S0 := smStart dev) hi ⟨hp.le, hp.mem, hp.free⟩
  unfold smWriter
  cases e : SMD.writeMetadataSm epb (smStart dev) with
  | error err => rw [e] at this; exact this
  | ok r =>
    rw [e] at this
    obtain ⟨root, ies, S⟩ := r
    obtain ⟨ho, to, hM⟩ := this
    obtain ⟨b, hb⟩ := Option.isSome_iff_exists.mp (packRoot_128 root)
    simp only at hM ⊢
    rw [hb]
    exact ⟨k, root, ies, S, ho, to, hM, hb, rfl, rfl⟩

theorem smOver_grown {epb n max k : Nat} {dev : ASt Nat} {S : SMD.SSt} {root : SMRoot} {ho : Nat} {to : Tree SMD.SVal ho} {ies : List IndexEntry}
    (h : MetaSM epb n max k (smStart dev) S root ies ho to) :
    Grown n max dev (smOver root S dev) (root.bitmap_root :: (to.blocks ho ++ ies.map (·.blocknr))) := by
  refine ⟨h.sm, h.rc, fun b hb => ?_, h.fresh⟩
  have h1 := h.mem b hb
  have h2 : ((S.bt.mem b).isSome || (S.bm b).isSome || b == root.bitmap_root) = false := by
    rw [h1.1, h1.2]
    have : b ≠ root.bitmap_root := by
      rintro rfl
      have h3 : dev.bt.sm.abs root.bitmap_root = 0 := h.fresh root.bitmap_root (by simp)
      omega
    simpa [smStart] using this
  unfold smOver
  simp only [h2, Bool.false_eq_true, if_false, and_self]

/-- **C19**, **C26**: the assumption of C33 on the space map writer holds of `build_metadata_sm`. -/
theorem smWriter_ok {epb n : Nat} (hz : SmSize epb n) (max : Nat) {cfg : Cfg} (hw : cfg.writeSm = smWriter epb) : SmOk n max cfg := by
  intro dev hc
  rw [hw]
  refine (smWriter_post hz hc).mono ?_
  rintro r ⟨k, root, ies, S, ho, to, hM, -, -, hr⟩
  rw [hr]
  exact ⟨_, smOver_grown hM⟩

/-! ## Consistency of the restored mappings -/

theorem entryOk_zero (k lim : Nat) (hk : 0 < k) : EntryOk k lim (ofWord 0) false :=
  ⟨by simpa [ofWord] using hk, fun _ => ⟨by decide, rfl⟩, fun h => by rw [word_zero] at h; cases h⟩

theorem pairwise_distinct {ms : List (Nat × Nat × Bool)} (hp : ms.Pairwise fun a b => a.1 < b.1) :
    (ms.Pairwise fun a b => a.2.1 ≠ b.2.1) ↔ ∀ m ∈ ms, ∀ m' ∈ ms, m.2.1 = m'.2.1 → m.1 = m'.1 := by
  rw [List.pairwise_iff_getElem] at hp ⊢
  constructor
  · intro h m hm m' hm' he
    obtain ⟨i, hi, rfl⟩ := List.mem_iff_getElem.mp hm
    obtain ⟨j, hj, rfl⟩ := List.mem_iff_getElem.mp hm'
    rcases Nat.lt_trichotomy i j with hij | hij | hij
    · exact absurd he (h i j hi hj hij)
    · subst hij; rfl
    · exact absurd he.symm (h j i hj hi hij)
  · intro h i j hi hj hij he
    have := h _ (List.getElem_mem hi) _ (List.getElem_mem hj) he
    have := hp i j hi hj hij
    omega

/-- the mappings of a restored cache are consistent if no two have the same origin block -/
theorem consistent_restored {version nr : Nat} (hv : version = 1 ∨ version = 2) {ms : List (Nat × Nat × Bool)} (hp : ms.Pairwise fun a b => a.1 < b.1)
    (hm : ∀ m ∈ ms, m.1 < nr) (ho : ∀ m ∈ ms, m.2.1 < 2 ^ 48) {ad : Nat → Nat}
    (hd : version = 2 → ∀ c, (ad (c / 64)).testBit (c % 64) = true ↔ dirtyIn ms c) :
    Consistent (flagsOf version) (2 ^ 48) nr (arrayOf (ms.map (wordOf version))) (dirtyOf version (arrayOf (ms.map (wordOf version))) ad) ↔
      ms.Pairwise fun a b => a.2.1 ≠ b.2.1 := by
  rw [pairwise_distinct hp]
  have hval : ∀ c, (ofWord (arrayOf (ms.map (wordOf version)) c)).isValid = true →
      ∃ m ∈ ms, m.1 = c ∧ (ofWord (arrayOf (ms.map (wordOf version)) c)).oblock = m.2.1 := by
    intro c hc
    rw [arrayOf_map (wordOf version) (·.1) (fun _ => rfl)] at hc ⊢
    cases e : ms.find? (fun x => x.1 == c) with
    | none => rw [e] at hc; simp only [word_zero] at hc; cases hc
    | some m => exact ⟨m, find_mem e, by simpa using List.find?_some e, (word_of_mapping (ho m (find_mem e))).2.1⟩
  have hval' : ∀ m ∈ ms, (ofWord (arrayOf (ms.map (wordOf version)) m.1)).isValid = true ∧ (ofWord (arrayOf (ms.map (wordOf version)) m.1)).oblock = m.2.1 := by
    intro m hmem
    rw [arrayOf_map (wordOf version) (·.1) (fun _ => rfl), find_self hp hmem]
    obtain ⟨h1, h2, -⟩ := word_of_mapping (version := version) (ho m hmem)
    exact ⟨h1, h2⟩
  constructor
  · intro h m hmem m' hmem' he
    obtain ⟨a1, a2⟩ := hval' m hmem
    obtain ⟨b1, b2⟩ := hval' m' hmem'
    exact h.distinct m.1 m'.1 (hm m hmem) (hm m' hmem') a1 b1 (by rw [a2, b2, he])
  · intro h
    refine ⟨fun c hc => ?_, fun c c' _ _ h1 h2 he => ?_⟩
    · have key : arrayOf (ms.map (wordOf version)) c = 0 ∨ ∃ m ∈ ms, m.1 = c ∧ arrayOf (ms.map (wordOf version)) c = (wordOf version m).2 := by
        rw [arrayOf_map (wordOf version) (·.1) (fun _ => rfl)]
        cases e : ms.find? (fun x => x.1 == c) with
        | none => exact Or.inl rfl
        | some m => exact Or.inr ⟨m, find_mem e, by simpa using List.find?_some e, rfl⟩
      rcases key with h0 | ⟨m, hmem, hmc, hw⟩
      · have hnd : dirtyOf version (arrayOf (ms.map (wordOf version))) ad c = false := by
          unfold dirtyOf
          rcases hv with hv | hv
          · rw [if_pos hv, h0]; decide
          · rw [if_neg (by omega)]
            rw [Bool.eq_false_iff]
            intro hb
            obtain ⟨m, hmem, hmc, -⟩ := (hd hv c).mp hb
            have := (hval' m hmem).1
            rw [hmc, h0, word_zero] at this
            cases this
        rw [h0, hnd]
        exact entryOk_zero _ _ (by unfold flagsOf; split <;> omega)
      · rw [hw]
        obtain ⟨v1, v2, -⟩ := word_of_mapping (version := version) (ho m hmem)
        refine ⟨?_, (fun hx => by rw [v1] at hx; cases hx), fun _ => by rw [v2]; exact ho m hmem⟩
        unfold wordOf
        simp only
        rw [word_roundtrip (ho m hmem) (by split <;> omega)]
        unfold flagsOf
        rcases hv with hv | hv
        · subst hv; rw [if_pos rfl]; simp only; split <;> omega
        · subst hv; simp
    · obtain ⟨m, hmem, e1, e2⟩ := hval c h1
      obtain ⟨m', hmem', e1', e2'⟩ := hval c' h2
      rw [← e1, ← e1']
      exact h m hmem m' hmem' (by rw [← e2, ← e2', he])

/-! ## The check -/

/-- the metadata device after a restore, as `cache_check` reads it -/
def imageOf (cfg : Cfg) (n : Nat) (r : RSt) : CDev where
  dev := devOf cfg.epb8 cfg.epb4 n r.dev
  rdn := fun _ b => r.sm.nodes b
  bm := fun b => (r.sm.bitmaps b).map fun es => (true, es)
  index := r.sm.index
  sb := r.out

/-- `unpack_root`: the root in the superblock -/
def rootIn (b : Bytes) : Option SMRoot := (SMRoot.unpack b).map (·.1)

theorem nodup_of_count {l : List Nat} {f : Nat → Nat} (h : ∀ b, f b = l.count b) (h1 : ∀ b, f b ≤ 1) : l.Nodup :=
  List.nodup_iff_count.mpr fun b => by rw [← h b]; exact h1 b

theorem root_mem {epb nr n : Nat} {a : Nat → Nat} {root : Nat} {s : ASt Nat} {B : List Nat} (h : InBlocks epb nr n a root s B) : root ∈ B := by
  obtain ⟨h, t, bs, hs, rfl⟩ := h
  rw [← hs.blk]
  exact List.mem_append.mpr (Or.inl (by cases h <;> simp [Tree.blk, Tree.blocks]))

/-- the metadata space map written by a restore is exact: the check finds the counts it expects -/
theorem sm_restored {epb n max k : Nat} (hz : SmSize epb n) {dev : ASt Nat} {B : List Nat} (hB : ∀ b, dev.bt.sm.abs b = B.count b) (hnd : B.Nodup)
    {S : SMD.SSt} {root : SMRoot} {ies : List IndexEntry} {ho : Nat} {to : Tree SMD.SVal ho} (hM : MetaSM epb n max k (smStart dev) S root ies ho to)
    {d : CDev} (hnr : d.dev.nr = n) (hn : d.rdn = fun _ b => S.bt.mem b) (hbm : d.bm = SMC.view S) (hix : d.index root.bitmap_root = some ies) :
    ∃ exp, checkMetaSm d root (counted B fun _ => 0) = .ok ([], exp) := by
  have hmemU : ∀ x, x ∈ to.blocks ho ++ (root.bitmap_root :: ies.map (·.blocknr)) → x ∈ root.bitmap_root :: (to.blocks ho ++ ies.map (·.blocknr)) := by
    intro x hx
    simp only [List.mem_append, List.mem_cons] at hx ⊢
    rcases hx with hx | hx | hx
    · exact Or.inr (Or.inl hx)
    · exact Or.inl hx
    · exact Or.inr (Or.inr hx)
  have hcnt : ∀ x, (to.blocks ho ++ (root.bitmap_root :: ies.map (·.blocknr))).count x = (root.bitmap_root :: (to.blocks ho ++ ies.map (·.blocknr))).count x := by
    intro x
    simp only [List.count_append, List.count_cons]
    omega
  have hUnd : (to.blocks ho ++ (root.bitmap_root :: ies.map (·.blocknr))).Nodup := by
    rw [List.nodup_iff_count]
    intro x
    rw [hcnt]
    exact List.nodup_iff_count.mp hM.nodup x
  have hfree : ∀ x, x ∈ to.blocks ho ++ (root.bitmap_root :: ies.map (·.blocknr)) → x ∉ B := by
    intro x hx hxB
    have h1 : dev.bt.sm.abs x = 0 := hM.fresh x (hmemU x hx)
    rw [hB] at h1
    have := List.count_pos_iff.mpr hxB
    omega
  have hS : SmLayout d root ies ho to (to.blocks ho ++ (root.bitmap_root :: ies.map (·.blocknr))) := by
    refine ⟨⟨S.bt.mem, hn, ?_⟩, hM.oblk, hix, rfl, ?_, hUnd⟩
    · exact ⟨hM.ostored, hM.oordered, SMC.rootFilled_noEmpty (by decide) (by decide) ho to hM.ofilled,
        fun b hb => by rw [hnr]; exact bound_of hM (by simp [hb])⟩
    · intro x hx
      rw [hnr]
      exact bound_of hM (hmemU x hx)
  have hcl := hS.tree
  obtain ⟨mem, hmem, hclean⟩ := hcl
  have hexp : (List.range n).map (counted (to.blocks ho ++ (root.bitmap_root :: ies.map (·.blocknr))) (counted B fun _ => 0)) = S.bt.sm.counts := by
    apply List.ext_getElem?
    intro b
    rw [SM.Core.getElem?_abs, hM.sm.len, List.getElem?_map]
    by_cases hb : b < n
    · rw [List.getElem?_range hb, if_pos hb, hM.rc b, show (smStart dev).bt.sm.abs b = B.count b from hB b]
      simp only [Option.map_some, Option.some.injEq, counted]
      have e1 := List.nodup_iff_count.mp hM.nodup b
      have e2 := List.nodup_iff_count.mp hnd b
      by_cases hx : b ∈ to.blocks ho ++ (root.bitmap_root :: ies.map (·.blocknr))
      · rw [if_pos hx, List.count_eq_zero.mpr (hfree b hx)]
        have := List.count_pos_iff.mpr (hmemU b hx)
        omega
      · rw [if_neg hx, ← hcnt, List.count_eq_zero.mpr hx]
        by_cases hy : b ∈ B
        · rw [if_pos hy]
          have := List.count_pos_iff.mpr hy
          omega
        · rw [if_neg hy, List.count_eq_zero.mpr hy]
    · rw [if_neg hb, List.getElem?_eq_none (by simpa using hb)]; rfl
  rw [checkMetaSm_spec hS (fun x hx => counted_zero (hfree x hx) rfl), hnr, hexp, hn, hbm]
  rw [SMC.checkMeta_written hz.epb0 hM (by have := hclean.height; omega) (by
    rw [← hM.oblk]
    simpa using bound_of hM (b := to.blk ho) (by cases ho <;> simp [Tree.blk, Tree.blocks]))]
  exact ⟨_, rfl⟩

/-- **C56**: whatever document `cache_restore` accepts (in either metadata version, with hints of four bytes), a full `cache_check` of what it wrote
succeeds exactly if no two mappings of the document have the same origin block; it changes nothing. -/
theorem restore_check {epb : Nat} {cfg : Cfg} (hv : cfg.version = 1 ∨ cfg.version = 2) {n max : Nat} (he8 : 0 < cfg.epb8) (he4 : 0 < cfg.epb4)
    (hL : 2 ≤ cfg.capL) (hI : 4 ≤ cfg.capI) (hz : SmSize epb n) (hw : cfg.writeSm = smWriter epb) {clean : Bool} {body : List Ev} {dev : ASt Nat}
    (hdev : New n max dev) {r : RSt} (hr : restore cfg clean (body ++ [.eof]) dev = .ok r) {sb : SbIr} (hsb : sbsIn body = [sb])
    (h4 : sb.hintWidth = 4) (h32 : sb.nrCacheBlocks < 2 ^ 32) (ho : ∀ m ∈ mapsIn body, m.2.1 < 2 ^ 48)
    {wr : Nat → Bool} {sbWr : Bool} {o : COpts} (hfull : o.full) :
    ((check wr sbWr o rootIn (imageOf cfg n r)).2 = none ↔ (mapsIn body).Pairwise fun a b => a.2.1 ≠ b.2.1) ∧
    ((mapsIn body).Pairwise (fun a b => a.2.1 ≠ b.2.1) → (check wr sbWr o rootIn (imageOf cfg n r)).1 = imageOf cfg n r) := by
  obtain ⟨sb', hsb', hD⟩ := restored_done hv he8 he4 hL hI hz.n64 (smWriter_ok hz max hw) hdev hr
  rw [hsb] at hsb'; cases hsb'
  obtain ⟨out, ad, h1, -, k1, k2, o1, o2, o3, o4, o5, o6, o7, d1, d2, Bd, Bm, Bh, Bw, dev3, b1, b2, b3, b4, b5, ⟨mx, b6⟩, b7, b8, b9⟩ := hD.out
  have hnd := nodup_of_count b7 b8
  rw [o5] at b1 b2 b4
  have hnot0 : ∀ x ∈ Bd ++ Bm ++ Bh ++ Bw, x ≠ 0 := by
    rintro x hx rfl
    exact (List.nodup_cons.mp hnd).1 hx
  have hh0 : out.hint_root ≠ 0 := hnot0 _ (by simp [root_mem b4])
  have hd0 : out.discard_root ≠ 0 := hnot0 _ (by simp [root_mem b5])
  have L : Layout cfg.epb8 cfg.epb4 n out r.dev (arrayOf ((mapsIn body).map (wordOf cfg.version))) ad Bd Bm Bh Bw :=
    { version := by rw [o1]; exact hv
      size := by rw [o5]; exact h32
      maps := by rw [o5]; exact b1
      dirty := by rw [o1, o5]; exact b2
      noDirty := by rw [o1]; exact b3
      hints := fun _ => ⟨by rw [o3]; exact h4, _, by rw [o5]; exact b4⟩
      noHints := fun h => absurd ⟨hh0, by rw [o3, h4]; decide⟩ h
      discards := fun _ => ⟨_, by rw [d2]; exact b5⟩
      noDiscards := fun h => absurd h hd0
      nodup := hnd }
  have hor : nrOrigin out = .ok none := by
    unfold nrOrigin
    rw [d1]
    simp
  have hcons : MapsConsistent out none (arrayOf ((mapsIn body).map (wordOf cfg.version))) ad ↔ (mapsIn body).Pairwise fun a b => a.2.1 ≠ b.2.1 := by
    unfold MapsConsistent
    rw [o1, o5]
    exact consistent_restored hv hD.order.1 hD.order.2.2.1 ho o7
  rw [hw] at b9
  have hsmw := smWriter_post hz b6
  rw [b9] at hsmw
  obtain ⟨k, root, ies, S, hto, to, hM, hpk, himg, -⟩ := hsmw
  simp only at hpk himg
  have hroot : rootIn out.metadata_sm_root = some root := by
    obtain ⟨-, rest, h⟩ := packRoot_roundtrip root (root_fits hz.n64 hM) 128 _ hpk
    unfold rootIn
    rw [show SMRoot.unpack out.metadata_sm_root = some (root, rest) from h]
    rfl
  obtain ⟨exp, hexp⟩ := sm_restored hz b7 hnd hM (d := imageOf cfg n r) rfl (by unfold imageOf; rw [himg]) (by unfold imageOf; rw [himg]; rfl)
    (by unfold imageOf; rw [himg]; simp)
  have hpass : (mapsIn body).Pairwise (fun a b => a.2.1 ≠ b.2.1) → _ := fun hc =>
    check_of_sm he8 L (d := imageOf cfg n r) rfl h1 hroot hexp hor (hcons.mpr hc) (wr := wr) (sbWr := sbWr) hfull
  refine ⟨⟨fun hok => ?_, fun hc => (hpass hc).1 (Or.inr (Or.inr k2))⟩, fun hc => ?_⟩
  · obtain ⟨origin, e, hc⟩ := check_sound he8 L (d := imageOf cfg n r) rfl h1 hfull.1 hfull.2.1 hok
    rw [hor] at e
    cases e
    exact hcons.mp hc
  · rw [(hpass hc).2, if_neg (by rw [k2]; simp)]

/-- C56, other hint widths: whatever else the document says, the restored metadata of a cache whose hints are not of four bytes (nor of none) is rejected. -/
theorem restore_check_width {epb : Nat} {cfg : Cfg} (hv : cfg.version = 1 ∨ cfg.version = 2) {n max : Nat} (he8 : 0 < cfg.epb8) (he4 : 0 < cfg.epb4)
    (hL : 2 ≤ cfg.capL) (hI : 4 ≤ cfg.capI) (hz : SmSize epb n) (hw : cfg.writeSm = smWriter epb) {clean : Bool} {body : List Ev} {dev : ASt Nat}
    (hdev : New n max dev) {r : RSt} (hr : restore cfg clean (body ++ [.eof]) dev = .ok r) {sb : SbIr} (hsb : sbsIn body = [sb])
    (h4 : sb.hintWidth ≠ 4) (h0 : sb.hintWidth ≠ 0) {wr : Nat → Bool} {sbWr : Bool} {o : COpts} (hfull : o.full) :
    (check wr sbWr o rootIn (imageOf cfg n r)).2 ≠ none := by
  intro hok
  obtain ⟨sb', hsb', hD⟩ := restored_done hv he8 he4 hL hI hz.n64 (smWriter_ok hz max hw) hdev hr
  rw [hsb] at hsb'; cases hsb'
  obtain ⟨out, ad, h1, -, k1, k2, o1, o2, o3, o4, o5, o6, o7, d1, d2, Bd, Bm, Bh, Bw, dev3, b1, b2, b3, b4, b5, ⟨mx, b6⟩, b7, b8, b9⟩ := hD.out
  have hnd := nodup_of_count b7 b8
  have hh0 : out.hint_root ≠ 0 := by
    intro h
    have := root_mem b4
    rw [h] at this
    exact (List.nodup_cons.mp hnd).1 (by simp [this])
  rcases check_hint_size (d := imageOf cfg n r) h1 hfull.1 hfull.2.2.1 hok with h | h | h
  · exact hh0 h
  · exact h0 (by rw [← o3, h])
  · exact h4 (by rw [← o3, h])

/-! ## Examples, and documents whose restored metadata is rejected -/

/-- small blocks and nodes, and the real space map writer -/
def fullCfg (version : Nat) : Cfg := { epb8 := 3, epb4 := 3, capL := 4, capI := 4, version, writeSm := smWriter 8 }

/-- a device of 24 blocks that nothing was allocated on -/
def newDev : ASt Nat := { Arr.demoSt with bt := { Arr.demoSt.bt with sm := SM.Core.new 100 24 } }

def checkOpts : COpts := ⟨false, false, false, false, false, false, false⟩

/-- what a check says of a restored document -/
def restoredCheck (version : Nat) (doc : List Ev) : Option Outcome :=
  match restore (fullCfg version) true doc newDev with
  | .ok r => some (check (fun _ => true) true checkOpts rootIn (imageOf (fullCfg version) 24 r)).2
  | .error _ => none

def smallSb (width : Nat) : SbIr := { uuid := [], blockSize := 128, nrCacheBlocks := 5, policy := [109, 113], hintWidth := width }

example : SmSize 8 24 := ⟨by decide, by decide, by decide, by decide, by decide⟩
example : New 24 100 newDev := ⟨rfl, rfl, by decide⟩
example : (fullCfg 2).writeSm = smWriter 8 ∧ checkOpts.full := ⟨rfl, rfl, rfl, rfl, rfl⟩

/-- not vacuous: in both versions a document is restored, and what was written passes -/
example : restoredCheck 1 (docOf (smallSb 4) [(0, 9, true), (4, 7, false)] [(0, [1, 2, 3, 4]), (4, [4, 3, 2, 1])]) = some none ∧
    restoredCheck 2 (docOf (smallSb 4) [(0, 9, true), (4, 7, false)] [(0, [1, 2, 3, 4]), (4, [4, 3, 2, 1])]) = some none := by decide +kernel

/-- Two cache blocks for one origin block: `cache_restore` takes the document, `cache_check` rejects what it wrote. -/
theorem restore_duplicate_refuted : restoredCheck 2 (docOf (smallSb 4) [(0, 9, true), (4, 9, false)] []) = some (some .err) := by decide +kernel

/-- A policy without hints (`hint_width="0"`): `cache_restore` writes a hint array all the same, which `cache_check` does not look at and reports as
leaked blocks. -/
theorem restore_hintless_refuted : restoredCheck 2 (docOf (smallSb 0) [(0, 9, true), (4, 7, false)] []) = some (some .err) := by decide +kernel

/-- Hints of eight bytes: the restore succeeds if the document has none, but the check does not know such hints. -/
theorem restore_wide_hints_refuted : restoredCheck 2 (docOf (smallSb 8) [(0, 9, true), (4, 7, false)] []) = some (some .err) := by decide +kernel

end Verif.CacheM
