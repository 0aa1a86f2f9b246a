import Verif.Prop.EraTool

/-!
# C61: what `era_restore` writes, `era_check` accepts

For every accepted document the check of the restored metadata succeeds exactly if no era of the document lies after the current one.  The metadata
space map is exact if no two writesets have the same era, and it is not if two have.  Documents of the right form are accepted.
-/

namespace Verif.EraT

open Verif.BT (Tree)
open Verif.Bld (Sorted)
open Verif.Arr (ASt AB pushList divUp Part Ext Grown arrayOf)
open Verif.CacheM (RErr RPost InBlocks At posOf New SmSize smWriter smWriter_post rootIn counted nodup_of_count root_fits sm_restored)
open Verif.Xml (EEv ESb)
open Verif.EraC (wsWord wsBits wsRoot wsBits_word wsRoot_word)

/-- the metadata device after a restore, as `era_check` reads it -/
def imageOf (cfg : Cfg) (n : Nat) (r : RSt) : EraC.EDev := EraC.eraImage cfg.epb8 cfg.epb4 n r.out r.dev

theorem flatMap_blks (S : List (Nat × WS)) : ((S.map fun p => (WS.entry p, p.2.blks)).flatMap (·.2)) = S.flatMap fun p => p.2.blks := by
  rw [List.flatMap_map]

theorem Wrote.layout {cfg : Cfg} {n max : Nat} {sb : ESb} {d : Doc} {smRoot : Bytes} {tree eras : Nat} {sm : CacheM.SmImage} {fin : ASt Nat}
    {S : List (Nat × WS)} {h : Nat} {t : Tree Nat h} {Be dead left : List Nat} {dev mid : ASt Nat}
    (w : Wrote cfg n max sb d smRoot tree eras sm fin S h t Be dead left dev mid) (hbits : ∀ w ∈ d.sets, w.2.1 < 2 ^ 32)
    (hsize : sb.nrBlocks + cfg.epb4 ≤ 2 ^ 32) :
    EraC.ELayout cfg.epb8 cfg.epb4 n sb.nrBlocks (newSb sb smRoot tree eras) fin (S.map fun p => (WS.entry p, p.2.blks)) (arrayOf d.eras) Be := by
  have hb : ∀ p ∈ S, p.2.bits < 2 ^ 32 := fun p hp =>
    hbits _ ((byEra_keys d.sets).2 _ (by rw [← w.sets.said]; exact List.mem_map_of_mem hp))
  have hnd := nodup_of_count w.rc w.one
  refine ⟨by show 1 ≤ 1; omega, ⟨h, t, w.clean, w.blk, ?_⟩, ?_, w.eras, hsize, ?_⟩
  · rw [w.contents, List.map_map]; rfl
  · intro q hq
    obtain ⟨p, hp, rfl⟩ := List.mem_map.mp hq
    simp only [WS.entry]
    rw [wsBits_word (hb p hp), wsRoot_word (hb p hp)]
    exact ⟨_, w.sets.stored p hp⟩
  · rw [flatMap_blks, List.nodup_iff_count]
    intro x
    have := List.nodup_iff_count.mp hnd x
    simp only [List.count_cons, List.count_append] at this ⊢
    omega

/-- **C61**: whatever document `era_restore` accepts, `era_check` of what it wrote succeeds exactly if no era of the document is after the current one. -/
theorem restore_check {cfg : Cfg} {n max : Nat} (hc : CfgOk cfg n) (hsm : SmOk n max cfg) {body : List EEv} {dev : ASt Nat} (hdev : New n max dev)
    {r : RSt} (hr : restore cfg (body ++ [.eof]) dev = .ok r) {sb : ESb} (hsb : (docOf body).sbs = [sb])
    (hbits : ∀ w ∈ (docOf body).sets, w.2.1 < 2 ^ 32) (hsize : sb.nrBlocks + cfg.epb4 ≤ 2 ^ 32) :
    EraC.check false (imageOf cfg n r) = none ↔ ∀ e ∈ (docOf body).eras, e.2 ≤ sb.currentEra := by
  obtain ⟨sb', hsb', hD⟩ := restored_done hc hsm hdev hr
  rw [hsb] at hsb'; cases hsb'
  obtain ⟨smRoot, tree, eras, S, h, t, Be, dead, left, d2, mid, o1, w⟩ := hD.out
  have L := w.layout hbits hsize
  unfold imageOf
  rw [o1, EraC.check_exact hc.e8 hc.e4 L]
  have : (∀ b, b < sb.nrBlocks → arrayOf (docOf body).eras b ≤ (newSb sb smRoot tree eras).current_era) ↔ ∀ e ∈ (docOf body).eras, e.2 ≤ sb.currentEra := by
    constructor
    · intro hall e he
      have := hall e.1 (hD.order.2 e he)
      rw [Arr.arrayOf_pushed hD.order.1 he] at this
      exact this
    · intro hall b _
      by_cases hx : ∃ e ∈ (docOf body).eras, e.1 = b
      · obtain ⟨e, he, rfl⟩ := hx
        rw [Arr.arrayOf_pushed hD.order.1 he]
        exact hall e he
      · rw [Arr.arrayOf_default fun e he h => hx ⟨e, he, h⟩]
        exact Nat.zero_le _
  by_cases hall : ∀ e ∈ (docOf body).eras, e.2 ≤ sb.currentEra
  · rw [if_pos (this.mpr hall)]
    exact ⟨fun _ => hall, fun _ => rfl⟩
  · rw [if_neg (fun hx => hall (this.mp hx))]
    exact ⟨fun hx => (by cases hx), fun hx => absurd hx hall⟩

/-- what can be read back: superblock, writesets and eras -/
theorem restore_contents {cfg : Cfg} {n max : Nat} (hc : CfgOk cfg n) (hsm : SmOk n max cfg) {body : List EEv} {dev : ASt Nat} (hdev : New n max dev)
    {r : RSt} (hr : restore cfg (body ++ [.eof]) dev = .ok r) :
    ∃ sb out, (docOf body).sbs = [sb] ∧ r.out = some out ∧ out.data_block_size = sb.blockSize ∧ out.nr_blocks = sb.nrBlocks ∧
      out.current_era = sb.currentEra ∧ out.current_writeset = ⟨sb.nrBlocks, 0⟩ ∧ out.version = 1 ∧ out.clean_shutdown = true ∧
      Sorted (docOf body).eras ∧ (∀ e ∈ (docOf body).eras, e.1 < sb.nrBlocks) ∧
      (∃ Be, InBlocks cfg.epb4 sb.nrBlocks n (arrayOf (docOf body).eras) out.era_array_root r.dev Be) ∧
      ∃ m : List (Nat × Nat), LW.btreeToMap (fun _ b => r.dev.bt.mem b) n out.writeset_tree_root = some m ∧
        m.length = (byEra (docOf body).sets).length ∧
        ∀ p ∈ (byEra (docOf body).sets).zip m, ∃ root B, p.2 = (p.1.1, wsWord p.1.2.1 root) ∧
          (∀ q ∈ pushesW p.1.2.2, q.1 < divUp p.1.2.1 64) ∧
          InBlocks cfg.epb8 (divUp p.1.2.1 64) n (arrayOf (pushesW p.1.2.2)) root r.dev B := by
  obtain ⟨sb, hsb, hD⟩ := restored_done hc hsm hdev hr
  obtain ⟨smRoot, tree, eras, S, h, t, Be, dead, left, d2, mid, o1, w⟩ := hD.out
  refine ⟨sb, _, hsb, o1, rfl, rfl, rfl, rfl, rfl, rfl, hD.order.1, hD.order.2, ⟨Be, w.eras⟩, S.map WS.entry, ?_, ?_, ?_⟩
  · show LW.btreeToMap _ n tree = _
    rw [← w.blk, LW.btreeToMap_contents w.clean, w.contents]
  · rw [← w.sets.said, List.length_map, List.length_map]
  · intro p hp
    rw [← w.sets.said, List.zip_map'] at hp
    obtain ⟨q, hq, rfl⟩ := List.mem_map.mp hp
    exact ⟨q.2.root, q.2.blks, rfl, w.sets.fits q hq, w.sets.stored q hq⟩

/-- the space map as the checker of `cache_check` and `thin_check` reads it -/
def smDev (cfg : Cfg) (n : Nat) (r : RSt) : CacheM.CDev where
  dev := CacheM.devOf cfg.epb8 cfg.epb4 n r.dev
  rdn := fun _ b => r.sm.nodes b
  bm := fun b => (r.sm.bitmaps b).map fun es => (true, es)
  index := r.sm.index
  sb := none

/-- **C61**: if no two writesets have the same era, the metadata space map written by `era_restore` is exact: a space map check that has counted the
superblock and the blocks of the tree of writesets, of the bitsets and of the era array finds no wrong count. -/
theorem restore_counts {epb : Nat} {cfg : Cfg} {n max : Nat} (hc : CfgOk cfg n) (hz : SmSize epb n) (hw : cfg.writeSm = smWriter epb) {body : List EEv}
    {dev : ASt Nat} (hdev : New n max dev) {r : RSt} (hr : restore cfg (body ++ [.eof]) dev = .ok r) {sb : ESb} (hsb : (docOf body).sbs = [sb])
    (hbits : ∀ w ∈ (docOf body).sets, w.2.1 < 2 ^ 32) (hsize : sb.nrBlocks + cfg.epb4 ≤ 2 ^ 32)
    (hera : ((docOf body).sets.map (·.1)).Nodup) (hopn : (docOf body).opn = none) :
    ∃ out sets Be h, ∃ t : Tree Nat h, ∃ (root : SMRoot) (exp : List Nat), r.out = some out ∧
      EraC.ELayout cfg.epb8 cfg.epb4 n sb.nrBlocks out r.dev sets (arrayOf (docOf body).eras) Be ∧
      LW.Clean r.dev.bt.mem n h t ∧ t.blk h = out.writeset_tree_root ∧ t.contents h = sets.map (·.1) ∧
      rootIn out.metadata_sm_root = some root ∧
      CacheM.checkMetaSm (smDev cfg n r) root (counted (0 :: (t.blocks h ++ (sets.flatMap (·.2) ++ Be))) fun _ => 0) = .ok ([], exp) := by
  obtain ⟨sb', hsb', hD⟩ := restored_done hc (smWriter_sm hz max hw) hdev hr
  rw [hsb] at hsb'; cases hsb'
  obtain ⟨smRoot, tree, eras, S, h, t, Be, dead, left, d2, mid, o1, w⟩ := hD.out
  have L := w.layout hbits hsize
  have hmem := w.written
  rw [hw] at hmem
  have hsmw := smWriter_post hz w.cur
  rw [hmem] at hsmw
  obtain ⟨k, root, ies, T, hto, to, hM, hpk, himg, -⟩ := hsmw
  simp only at hpk himg
  have hroot : rootIn smRoot = some root := by
    obtain ⟨-, rest, h⟩ := packRoot_roundtrip root (root_fits hz.n64 hM) 128 _ hpk
    unfold rootIn
    rw [show SMRoot.unpack smRoot = some (root, rest) from h]
    rfl
  have hrc := w.rc
  rw [w.dead hera, (w.left hopn).1, List.append_nil, List.append_nil] at hrc
  obtain ⟨exp, hexp⟩ := sm_restored hz hrc (nodup_of_count hrc w.one) hM (d := smDev cfg n r) rfl (by unfold smDev; rw [himg]) (by unfold smDev; rw [himg]; rfl)
    (by unfold smDev; rw [himg]; simp)
  exact ⟨_, _, Be, h, t, root, exp, o1, L, w.clean, w.blk, by rw [w.contents, List.map_map]; rfl, hroot, by rw [flatMap_blks]; exact hexp⟩

/-! ## Accepted documents -/

/-- the events of a writeset -/
def wsEvents (w : Nat × Nat × List (Nat × Nat)) : List EEv := .wsB w.1 w.2.1 :: (w.2.2.map (fun r => .blocks r.1 r.2) ++ [.wsE])

/-- a document without its end: superblock, writesets, eras -/
def eraDoc (sb : ESb) (sets : List (Nat × Nat × List (Nat × Nat))) (eras : List (Nat × Nat)) : List EEv :=
  .sbB sb :: (sets.flatMap wsEvents ++ (.eraB :: (eras.map (fun e => .era e.1 e.2) ++ [.eraE, .sbE])))

theorem foldl_blocks (rs : List (Nat × Nat)) : ∀ (d : Doc) (w : Nat × Nat × List (Nat × Nat)), d.opn = some w →
    (rs.map (fun r => EEv.blocks r.1 r.2)).foldl Doc.add d = { d with opn := some (w.1, w.2.1, w.2.2 ++ rs) } := by
  induction rs with
  | nil => intro d w h; rw [List.append_nil, ← h]; rfl
  | cons r rs ih =>
    intro d w h
    rw [List.map_cons, List.foldl_cons, ih _ (w.1, w.2.1, w.2.2 ++ [r])]
    · show ({ d with opn := _ } : Doc) = _
      simp
    · show d.opn.map _ = _
      rw [h]
      rfl

theorem foldl_ws (w : Nat × Nat × List (Nat × Nat)) (d : Doc) :
    (wsEvents w).foldl Doc.add d = { d with sets := d.sets ++ [w], opn := none } := by
  unfold wsEvents
  rw [List.foldl_cons, List.foldl_append, foldl_blocks w.2.2 _ (w.1, w.2.1, []) rfl]
  rfl

theorem foldl_sets (sets : List (Nat × Nat × List (Nat × Nat))) : ∀ (d : Doc), d.opn = none →
    (sets.flatMap wsEvents).foldl Doc.add d = { d with sets := d.sets ++ sets } := by
  induction sets with
  | nil => intro d h; simp
  | cons w sets ih =>
    intro d h
    rw [List.flatMap_cons, List.foldl_append, foldl_ws, ih _ rfl]
    simp [h]

theorem foldl_eras (eras : List (Nat × Nat)) : ∀ (d : Doc), (eras.map (fun e => EEv.era e.1 e.2)).foldl Doc.add d = { d with eras := d.eras ++ eras } := by
  induction eras with
  | nil => intro d; simp
  | cons e eras ih =>
    intro d
    rw [List.map_cons, List.foldl_cons, ih]
    simp [Doc.add]

/-- what such a document says -/
theorem docOf_eraDoc (sb : ESb) (sets : List (Nat × Nat × List (Nat × Nat))) (eras : List (Nat × Nat)) :
    docOf (eraDoc sb sets eras) = ⟨[sb], eras, sets, none⟩ := by
  unfold docOf eraDoc
  rw [List.foldl_cons, List.foldl_append, foldl_sets _ _ rfl, List.foldl_cons, List.foldl_append]
  show List.foldl Doc.add (List.foldl Doc.add _ (eras.map _)) _ = _
  rw [foldl_eras]
  rfl

theorem RPost.step {cfg : Cfg} {e : EEv} {es : List EEv} {s : RSt} {Q Q' : RSt → Prop} (h : RPost (step cfg s e) Q)
    (hf : ∀ a, Q a → RPost (run cfg es a) Q') : RPost (run cfg (e :: es) s) Q' := by
  rw [run]
  cases e1 : EraT.step cfg s e with
  | ok a => rw [e1] at h; exact hf a h
  | error err => rw [e1] at h; exact h.err

theorem RPost.app {cfg : Cfg} {a b : List EEv} {s : RSt} {Q Q' : RSt → Prop} (h : RPost (run cfg a s) Q)
    (hf : ∀ x, Q x → RPost (run cfg b x) Q') : RPost (run cfg (a ++ b) s) Q' := by
  rw [run_append]
  cases e1 : run cfg a s with
  | ok x => rw [e1] at h; exact hf x h
  | error err => rw [e1] at h; exact h.err

theorem RPost.with {α : Type} {r : Except RErr α} {Q P : α → Prop} (h : RPost r Q) (hp : ∀ a, r = .ok a → P a) : RPost r P := by
  cases e : r with
  | ok a => exact hp a e
  | error err => rw [e] at h; exact h.err

theorem foldW_pushes (rs more : List (Nat × Nat)) : ∃ new, ((rs ++ more).foldl EraR.blocksW ⟨0, 0, []⟩).pushes = (rs.foldl EraR.blocksW ⟨0, 0, []⟩).pushes ++ new := by
  rw [List.foldl_append]
  generalize rs.foldl EraR.blocksW ⟨0, 0, []⟩ = s
  induction more generalizing s with
  | nil => exact ⟨[], by simp⟩
  | cons r more ih =>
    obtain ⟨new, hn⟩ := ih (EraR.blocksW s r)
    rw [List.foldl_cons, hn, blocksW_after]
    exact ⟨(EraR.blocksW ⟨s.ei, s.buf, []⟩ r).pushes ++ new, by unfold after; simp only [List.append_assoc]⟩

/-- `writeset_blocks` does not fail for the document's sake -/
theorem blocks_post {cfg : Cfg} {n max : Nat} (hc : CfgOk cfg n) {sb : ESb} {d : Doc} {s : RSt} (h : Open cfg n max sb d s) {w : Nat × Nat × List (Nat × Nat)}
    (eo : d.opn = some w) {b len : Nat} (hq : ∀ q ∈ ((w.2.2 ++ [(b, len)]).foldl EraR.blocksW ⟨0, 0, []⟩).pushes, q.1 < divUp w.2.1 64) :
    RPost (writesetBlocks b len s) (Open cfg n max sb (d.add (.blocks b len))) := by
  refine RPost.with (Q := fun _ => True) ?_ (fun r hr => blocks_ok hc h hr)
  have hw := h.ws
  rw [eo] at hw
  obtain ⟨ab, h1, h2, h3, h4, h5, h6, h7⟩ := hw
  have hok := foldW_ok (w.2.2 ++ [(b, len)]) _ EraR.ok_init
  rw [List.foldl_append, List.foldl_cons, List.foldl_nil, blocksW_after, ← h5, ← h6] at hok hq
  have hs : Sorted ((w.2.2.foldl EraR.blocksW ⟨0, 0, []⟩).pushes ++ (EraR.blocksW ⟨s.ei, s.buf, []⟩ (b, len)).pushes) := hok.1
  have hs' := List.pairwise_append.mp hs
  have := pushAll_post hc.e8 h3 h.sm h4 (fun q hq' => hq q (List.mem_append.mpr (Or.inr hq'))) hs'.2.1 (fun q hq' p hp => hs'.2.2 p hp q hq')
  unfold writesetBlocks
  rw [h1]
  simp only
  cases e1 : pushAll (EraR.blocksW ⟨s.ei, s.buf, []⟩ (b, len)).pushes (some ab) s.dev with
  | error err => rw [e1] at this; exact this.err
  | ok q => trivial

/-- `writeset_e` does not fail for the document's sake -/
theorem writesetE_post {cfg : Cfg} {n max : Nat} (hc : CfgOk cfg n) {sb : ESb} {d : Doc} {s : RSt} (h : Open cfg n max sb d s)
    {w : Nat × Nat × List (Nat × Nat)} (eo : d.opn = some w) (hq : ∀ q ∈ pushesW w.2.2, q.1 < divUp w.2.1 64) :
    RPost (writesetE cfg s) (fun r => Open cfg n max sb (d.add .wsE) r ∧ r.sect = .superblock) := by
  have hw := h.ws
  have hsect := h.sect
  rw [eo] at hw hsect
  obtain ⟨ab, h1, h2, h3, h4, h5, h6, h7⟩ := hw
  have hpw : pushesW w.2.2 = (w.2.2.foldl EraR.blocksW ⟨0, 0, []⟩).pushes ++ [(s.ei, s.buf)] := by
    rw [h5, h6]; rfl
  have hok := foldW_ok w.2.2 _ EraR.ok_init
  have hp := pushAll_post hc.e8 (qs := [(s.ei, s.buf)]) h3 h.sm h4 (fun q hq' => hq q (by rw [hpw]; exact List.mem_append.mpr (Or.inr hq')))
    (List.pairwise_singleton _ _) (fun q hq' p hp => by rw [List.mem_singleton.mp hq', h5]; exact hok.2 p hp)
  have key : RPost (writesetE cfg s) (fun r => r.sect = .superblock) := by
    unfold writesetE
    rw [if_neg (by simp only at hsect; rw [hsect]; decide), h1, h2]
    simp only
    cases e1 : pushAll [(s.ei, s.buf)] (some ab) s.dev with
    | error err => rw [e1] at hp; exact hp.err
    | ok q =>
      rw [e1] at hp
      obtain ⟨ab1, dev1⟩ := q
      obtain ⟨p1, p2, new, pb, p3⟩ := hp
      simp only at p1 p3 ⊢
      have hcm := complete_post (cfg := cfg) hc.e8 hc.L hc.I hc.n64 p1 p3.sm
      cases e2 : complete cfg ab1 dev1 with
      | error err => rw [e2] at hcm; exact hcm.err
      | ok q2 => exact rfl
  refine RPost.with key (fun r hr => ⟨writesetE_ok hc h hr, ?_⟩)
  rw [hr] at key
  exact key

/-- `era` does not fail for the document's sake -/
theorem era_post {cfg : Cfg} {n max : Nat} (hc : CfgOk cfg n) {sb : ESb} {d : Doc} {s : RSt} (h : Open cfg n max sb d s) {b e : Nat}
    (hb : b < sb.nrBlocks) (hl : ∀ x ∈ d.eras, x.1 < b) :
    RPost (era b e s) (fun r => Open cfg n max sb (d.add (.era b e)) r ∧ r.sect = s.sect) := by
  obtain ⟨ab, h1, h2, h3, h4, h5⟩ := h.eras
  have hp := pushAll_post hc.e4 (qs := [(b, e)]) h2 h.sm h3 (fun q hq => by rw [List.mem_singleton.mp hq]; exact hb)
    (List.pairwise_singleton _ _) (fun q hq p hp => by rw [List.mem_singleton.mp hq]; exact hl p hp)
  have key : RPost (era b e s) (fun r => r.sect = s.sect) := by
    unfold era
    rw [h1]
    cases e1 : pushAll [(b, e)] (some ab) s.dev with
    | error err => rw [e1] at hp; exact hp.err
    | ok q => exact rfl
  refine RPost.with key (fun r hr => ⟨(era_ok hc h hr).2, ?_⟩)
  rw [hr] at key
  exact key

theorem runBlocks_post {cfg : Cfg} {n max : Nat} (hc : CfgOk cfg n) {sb : ESb} (rs : List (Nat × Nat)) : ∀ {d : Doc} {s : RSt} {w : Nat × Nat × List (Nat × Nat)},
    Open cfg n max sb d s → d.opn = some w → (∀ q ∈ pushesW (w.2.2 ++ rs), q.1 < divUp w.2.1 64) →
    RPost (run cfg (rs.map fun r => .blocks r.1 r.2) s) (Open cfg n max sb { d with opn := some (w.1, w.2.1, w.2.2 ++ rs) }) := by
  induction rs with
  | nil => intro d s w h eo _; rw [List.append_nil, ← eo]; exact h
  | cons r rs ih =>
    intro d s w h eo hq
    have hq1 : ∀ q ∈ ((w.2.2 ++ [r]).foldl EraR.blocksW ⟨0, 0, []⟩).pushes, q.1 < divUp w.2.1 64 := by
      intro q hq'
      obtain ⟨new, hn⟩ := foldW_pushes (w.2.2 ++ [r]) rs
      rw [List.append_assoc] at hn
      refine hq q ?_
      show q ∈ ((w.2.2 ++ ([r] ++ rs)).foldl EraR.blocksW ⟨0, 0, []⟩).pushes ++ _
      rw [hn]
      exact List.mem_append.mpr (Or.inl (List.mem_append.mpr (Or.inl hq')))
    refine RPost.step (e := .blocks r.1 r.2) (blocks_post hc h eo hq1) (fun a ha => ?_)
    have hadd : d.add (.blocks r.1 r.2) = { d with opn := some (w.1, w.2.1, w.2.2 ++ [r]) } := by
      show ({ d with opn := d.opn.map _ } : Doc) = _
      rw [eo]; rfl
    rw [hadd] at ha
    have := ih ha (w := (w.1, w.2.1, w.2.2 ++ [r])) rfl (by simp only; rw [List.append_assoc]; exact hq)
    simp only [List.append_assoc] at this
    exact this

theorem runWs_post {cfg : Cfg} {n max : Nat} (hc : CfgOk cfg n) {sb : ESb} {d : Doc} {s : RSt} (h : Open cfg n max sb d s) (hs : s.sect = .superblock)
    (w : Nat × Nat × List (Nat × Nat)) (hq : ∀ q ∈ pushesW w.2.2, q.1 < divUp w.2.1 64) :
    RPost (run cfg (wsEvents w) s) (fun r => Open cfg n max sb { d with sets := d.sets ++ [w], opn := none } r ∧ r.sect = .superblock) := by
  unfold wsEvents
  refine RPost.step (e := .wsB w.1 w.2.1) (Q := Open cfg n max sb (d.add (.wsB w.1 w.2.1))) ?_ (fun a ha => ?_)
  · refine RPost.with (Q := fun _ => True) ?_ (fun r hr => writesetB_ok h hr)
    show RPost (writesetB cfg w.1 w.2.1 s) _
    unfold writesetB
    rw [if_neg (by simpa using hs)]
    trivial
  · refine RPost.app (runBlocks_post hc w.2.2 ha (w := (w.1, w.2.1, [])) rfl hq) (fun x hx => ?_)
    refine RPost.step (e := .wsE) (writesetE_post hc hx rfl hq) (fun y hy => ?_)
    exact hy

theorem runSets_post {cfg : Cfg} {n max : Nat} (hc : CfgOk cfg n) {sb : ESb} (sets : List (Nat × Nat × List (Nat × Nat))) : ∀ {d : Doc} {s : RSt},
    Open cfg n max sb d s → s.sect = .superblock → d.opn = none → (∀ w ∈ sets, ∀ q ∈ pushesW w.2.2, q.1 < divUp w.2.1 64) →
    RPost (run cfg (sets.flatMap wsEvents) s) (fun r => Open cfg n max sb { d with sets := d.sets ++ sets } r ∧ r.sect = .superblock) := by
  induction sets with
  | nil => intro d s h hs ho _; rw [List.append_nil]; exact ⟨h, hs⟩
  | cons w sets ih =>
    intro d s h hs ho hq
    rw [List.flatMap_cons]
    refine RPost.app (runWs_post hc h hs w (hq w (by simp))) (fun x hx => ?_)
    have := ih hx.1 hx.2 rfl (fun v hv => hq v (by simp [hv]))
    simp only [List.append_assoc] at this
    rw [ho]
    exact this

theorem runEras_post {cfg : Cfg} {n max : Nat} (hc : CfgOk cfg n) {sb : ESb} (eras : List (Nat × Nat)) : ∀ {d : Doc} {s : RSt},
    Open cfg n max sb d s → Sorted (d.eras ++ eras) → (∀ e ∈ eras, e.1 < sb.nrBlocks) →
    RPost (run cfg (eras.map fun e => .era e.1 e.2) s) (fun r => Open cfg n max sb { d with eras := d.eras ++ eras } r ∧ r.sect = s.sect) := by
  induction eras with
  | nil => intro d s h _ _; rw [List.append_nil]; exact ⟨h, rfl⟩
  | cons e eras ih =>
    intro d s h hs hb
    have hs' := List.pairwise_append.mp hs
    refine RPost.step (e := .era e.1 e.2) (era_post hc h (hb e (by simp)) (fun x hx => hs'.2.2 x hx e (by simp))) (fun a ha => ?_)
    have := ih ha.1 (by show Sorted ((d.eras ++ [e]) ++ eras); rw [List.append_assoc]; exact hs) (fun x hx => hb x (by simp [hx]))
    refine this.mono (fun r hr => ?_)
    rw [ha.2] at hr
    have h1 := hr.1
    simp only [Doc.add, List.append_assoc] at h1
    exact ⟨h1, hr.2⟩

/-- **C61**: a document of the right form is restored, or the space on the metadata device does not suffice: eras of blocks of the device in increasing
order, and writesets all of whose marked words are within their size. -/
theorem restore_accepts {cfg : Cfg} {n max : Nat} (hc : CfgOk cfg n) (hsm : SmOk n max cfg) {dev : ASt Nat} (hdev : New n max dev) (sb : ESb)
    {sets : List (Nat × Nat × List (Nat × Nat))} {eras : List (Nat × Nat)} (hq : ∀ w ∈ sets, ∀ q ∈ pushesW w.2.2, q.1 < divUp w.2.1 64)
    (hs : Sorted eras) (hb : ∀ e ∈ eras, e.1 < sb.nrBlocks) :
    RPost (restore cfg (eraDoc sb sets eras ++ [.eof]) dev) (Done cfg n max sb ⟨[sb], eras, sets, none⟩) := by
  unfold restore eraDoc
  rw [List.cons_append]
  refine RPost.step (e := .sbB sb) (Q := fun r => Open cfg n max sb (Doc.empty.add (.sbB sb)) r ∧ r.sect = .superblock) ?_ (fun a ha => ?_)
  · rcases superblockB_post (cfg := cfg) hdev sb with h | h
    · exfalso
      unfold superblockB at h
      rw [if_neg (by simp [RSt.new])] at h
      cases e : Bld.alloc dev.bt with
      | error err => rw [show (RSt.new dev).dev.bt = dev.bt from rfl, e] at h; cases h
      | ok r =>
        obtain ⟨b, bt⟩ := r
        rw [show (RSt.new dev).dev.bt = dev.bt from rfl, e] at h
        simp only at h
        rw [if_neg (by simpa using CacheM.alloc_new hdev.sm e)] at h
        cases h
    · exact h
  · rw [List.append_assoc]
    refine RPost.app (runSets_post hc sets ha.1 ha.2 rfl hq) (fun x hx => ?_)
    rw [List.cons_append]
    refine RPost.step (e := .eraB) (Q := fun r => Open cfg n max sb ⟨[sb], [], sets, none⟩ r ∧ r.sect = .eraArray) ?_ (fun y hy => ?_)
    · show RPost (if x.sect = .superblock then .ok { x with sect := .eraArray } else .error .section) _
      rw [if_pos hx.2]
      exact ⟨hx.1.sect' (Or.inl hx.2) (Or.inr rfl), rfl⟩
    · rw [List.append_assoc]
      refine RPost.app (runEras_post hc eras hy.1 hs hb) (fun z hz => ?_)
      rw [hy.2] at hz
      refine RPost.step (e := .eraE) (Q := fun r => Open cfg n max sb ⟨[sb], eras, sets, none⟩ r ∧ r.sect = .superblock) ?_ (fun u hu => ?_)
      · show RPost (if z.sect = .eraArray then .ok { z with sect := .superblock } else .error .section) _
        rw [if_pos hz.2]
        exact ⟨hz.1.sect' (Or.inr hz.2) (Or.inl rfl), rfl⟩
      · refine RPost.step (e := .sbE) (Q := Done cfg n max sb ⟨[sb], eras, sets, none⟩) (finalize_post hc hsm hu.1) (fun v hv => ?_)
        refine RPost.step (e := .eof) (Q := Done cfg n max sb ⟨[sb], eras, sets, none⟩) ?_ (fun w hw => hw)
        show RPost (if v.sect = .finalized then .ok v else .error .section) _
        rw [if_pos hv.sect]
        exact hv

/-! ## Writesets by what they mark -/

theorem blocksW_eq {s : EraR.RSt} {r : Nat × Nat} (h0 : 0 < r.2) (h : r.1 + r.2 ≤ 2 ^ 32) : EraR.blocksW s r = EraR.blocks s r := by
  unfold EraR.blocksW EraR.blocks
  have : (r.1 + r.2 + (2 ^ 32 - 1)) % 2 ^ 32 = r.1 + r.2 - 1 := by omega
  rw [this]

theorem pushesW_eq {rs : List (Nat × Nat)} (h : ∀ r ∈ rs, 0 < r.2 ∧ r.1 + r.2 ≤ 2 ^ 32) : pushesW rs = EraR.pushesOf rs := by
  have : ∀ (rs : List (Nat × Nat)) (s : EraR.RSt), (∀ r ∈ rs, 0 < r.2 ∧ r.1 + r.2 ≤ 2 ^ 32) → rs.foldl EraR.blocksW s = rs.foldl EraR.blocks s := by
    intro rs
    induction rs with
    | nil => intro s _; rw [List.foldl_nil, List.foldl_nil]
    | cons r rs ih =>
      intro s h
      rw [List.foldl_cons, List.foldl_cons, blocksW_eq (h r (by simp)).1 (h r (by simp)).2]
      exact ih _ (fun x hx => h x (by simp [hx]))
  unfold pushesW EraR.pushesOf
  rw [this rs _ h]

/-- ranges of one word each, in order, within the size: the words fit, and exactly the blocks of the ranges are marked -/
theorem pushesW_inWord {bits : Nat} (h0 : 0 < bits) (h32 : bits ≤ 2 ^ 32) {rs : List (Nat × Nat)} (hr : ∀ r ∈ rs, EraR.InWord r ∧ r.1 + r.2 ≤ bits)
    (hp : rs.Pairwise fun a b => a.1 ≤ b.1) :
    (∀ q ∈ pushesW rs, q.1 < divUp bits 64) ∧ ∀ i, EraR.bitAt (arrayOf (pushesW rs)) i = true ↔ EraR.Marked rs i := by
  rw [pushesW_eq (fun r h => ⟨(hr r h).1.1, Nat.le_trans (hr r h).2 h32⟩)]
  obtain ⟨g1, g2⟩ := EraR.fold_inWord rs _ EraR.ok_init (fun r hr' => ⟨(hr r hr').1, Nat.zero_le _⟩) (hp.imp fun h => Nat.div_le_div_right h)
  refine ⟨fun p hp => ?_, fun i => ?_⟩
  · have := EraR.pushes_le rs p hp
    rw [Arr.lt_divUp (by omega)]
    rcases g1 with g1 | ⟨r, hr', g1⟩
    · rw [g1] at this
      simp only at this
      omega
    · obtain ⟨⟨h1, h2⟩, h3⟩ := hr r hr'
      rw [g1] at this
      omega
  · unfold EraR.bitAt
    rw [EraR.pushes_words]
    have := g2 i
    unfold EraR.bitAt at this
    rw [this]
    simp [EraR.RSt.words, arrayOf]

/-! ## Examples, and a document whose restored space map is wrong -/

/-- small blocks and nodes, and the real space map writer -/
def smallCfg : Cfg := { epb8 := 2, epb4 := 50, capL := 2, capI := 4, capW := 2, writeSm := smWriter 8 }

def smallSb : ESb := { uuid := [], blockSize := 128, nrBlocks := 200, currentEra := 7 }

/-- two writesets and some eras -/
def smallDoc : List EEv := eraDoc smallSb [(5, 200, [(0, 3), (64, 1), (190, 2)]), (6, 200, [])] [(0, 4), (1, 7), (199, 2)]

theorem smallCfg_ok : CfgOk smallCfg 60 := ⟨by decide, by decide, by decide, by decide, by decide, by decide⟩
theorem small_size : SmSize 8 60 := ⟨by decide, by decide, by decide, by decide, by decide⟩

/-- a device of 60 blocks that nothing was allocated on -/
def smallDev : ASt Nat := { Arr.demoSt with bt := { Arr.demoSt.bt with sm := SM.Core.new 100 60 } }

theorem small_new : New 60 100 smallDev := ⟨rfl, rfl, by decide⟩

/-- not vacuous: the document is restored, and passes -/
example : (match restore smallCfg (smallDoc ++ [.eof]) smallDev with
    | .ok r => some (EraC.check false (imageOf smallCfg 60 r))
    | .error _ => none) = some none := by decide +kernel

example : (docOf smallDoc).sbs = [smallSb] ∧ (∀ w ∈ (docOf smallDoc).sets, w.2.1 < 2 ^ 32) ∧ smallSb.nrBlocks + smallCfg.epb4 ≤ 2 ^ 32 ∧
    ((docOf smallDoc).sets.map (·.1)).Nodup ∧ (docOf smallDoc).opn = none ∧ smallCfg.writeSm = smWriter 8 :=
  ⟨by decide +kernel, by decide +kernel, by decide +kernel, by decide +kernel, by decide +kernel, rfl⟩

/-- the hypotheses of `restore_accepts` and `pushesW_inWord` hold of it -/
example : (∀ w ∈ [(5, 200, [(0, 3), (64, 1), (190, 2)]), (6, 200, [])], ∀ q ∈ pushesW w.2.2, q.1 < divUp w.2.1 64) ∧
    Sorted [(0, 4), (1, 7), (199, 2)] ∧ (∀ r ∈ [(0, 3), (64, 1), (190, 2)], EraR.InWord r ∧ r.1 + r.2 ≤ 200) := by
  unfold Sorted EraR.InWord
  decide +kernel

/-- an era after the current one: restored, but the check rejects it -/
theorem restore_future_refuted : (match restore smallCfg (eraDoc smallSb [] [(0, 8)] ++ [.eof]) smallDev with
    | .ok r => some (EraC.check false (imageOf smallCfg 60 r))
    | .error _ => none) = some (some .err) := by decide +kernel

/-- the blocks in use according to the restored space map, less those of the space map itself -/
def inUse (doc : List EEv) : Option Nat :=
  match restore smallCfg doc smallDev with
  | .ok r => some (((List.range 60).filter fun b => decide (0 < r.dev.bt.sm.counts.getD b 0) && (r.sm.nodes b).isNone && (r.sm.bitmaps b).isNone &&
      (r.sm.index b).isNone).length)
  | .error _ => none

/-- two writesets of one era: the second replaces the first -/
def twiceDoc : List EEv := eraDoc smallSb [(5, 200, [(0, 3)]), (5, 200, [(64, 1)])] []
def onceDoc : List EEv := eraDoc smallSb [(5, 200, [(64, 1)])] []

/-- C61 needs the writesets to have different eras: with two writesets of one era the restore succeeds and the check passes, but the blocks of the bitset
that was replaced stay allocated (here three: two array blocks and the node of their index) although nothing refers to them. -/
theorem restore_same_era_leaks_refuted :
    (docOf twiceDoc).sets.map (·.1) = [5, 5] ∧ byEra (docOf twiceDoc).sets = byEra (docOf onceDoc).sets ∧
    inUse (onceDoc ++ [.eof]) = some 12 ∧ inUse (twiceDoc ++ [.eof]) = some 15 := by decide +kernel

end Verif.EraT
