import Verif.Prop.EraDump
import Verif.Prop.Xml

/-!
# C62, C63: era metadata through a document, and `era_repair`

The dump of what `era_restore` makes of a dump is that dump.  `era_repair` hands the ranges to the restorer as they are: it keeps the marks if no
range crosses a word of 64 blocks.
-/

namespace Verif.EraD

open Verif.BT (Blk Tree)
open Verif.Arr (ASt divUp arrayOf)
open Verif.Bld (Sorted)
open Verif.CacheM (devOf InBlocks RErr RPost New)
open Verif.EraC (wsWord wsBits wsRoot wsBits_word wsRoot_word eraImage)
open Verif.EraR (bitAt Marked InWord)
open Verif.EraT (eraDoc pushesW WS Done Wrote byEra Cfg CfgOk SmOk RSt imageOf)
open Verif.Xml (EEv ESb)
open Verif.Rng (Exactly)

/-! ## Words of a restored bitset -/

/-- all words are 64-bit words -/
def Fit (s : EraR.RSt) : Prop := s.buf < 2 ^ 64 ∧ ∀ p ∈ s.pushes, p.2 < 2 ^ 64

theorem Fit.push {s : EraR.RSt} (h : Fit s) {e b : Nat} (hb : b < 2 ^ 64) : Fit { s.push with ei := e, buf := b } := by
  refine ⟨hb, fun p hp => ?_⟩
  rcases List.mem_append.mp hp with hp | hp
  · exact h.2 p hp
  · rw [List.mem_singleton.mp hp]; exact h.1

theorem maskFrom_lt (n : Nat) : EraR.maskFrom n < 2 ^ 64 := Nat.mod_lt _ (Nat.two_pow_pos 64)
theorem maskTo_lt (n : Nat) : EraR.maskTo n < 2 ^ 64 :=
  Nat.xor_lt_two_pow (Nat.mod_lt _ (Nat.two_pow_pos 64)) (Nat.mod_lt _ (Nat.two_pow_pos 64))

theorem loop_fit (k : Nat) : ∀ s : EraR.RSt, Fit s → Fit (EraR.loop k s) := by
  induction k with
  | zero => intro s h; exact h
  | succ k ih => intro s h; exact ih _ (h.push (by unfold EraR.ALL; decide))

theorem move_fit {s : EraR.RSt} (h : Fit s) (i : Nat) : Fit (EraR.move s i) := by
  unfold EraR.move
  split
  · exact h.push (by decide)
  · exact h

theorem blocksTo_fit {s : EraR.RSt} (h : Fit s) (first last : Nat) : Fit (EraR.blocksTo s first last) := by
  rw [EraT.blocksTo_eq]
  have hm := move_fit h (first / 64)
  split
  · exact ⟨Nat.or_lt_two_pow hm.1 (Nat.lt_of_le_of_lt Nat.and_le_left (maskTo_lt _)), hm.2⟩
  · have hl := loop_fit (last / 64 - first / 64) _ (⟨Nat.or_lt_two_pow hm.1 (maskFrom_lt (first % 64)), hm.2⟩ :
      Fit { EraR.move s (first / 64) with buf := (EraR.move s (first / 64)).buf ||| EraR.maskFrom (first % 64) })
    exact hl.push (Nat.or_lt_two_pow hl.1 (maskTo_lt _))

theorem pushesW_lt (rs : List (Nat × Nat)) (k : Nat) : arrayOf (pushesW rs) k < 2 ^ 64 := by
  have hf : ∀ (rs : List (Nat × Nat)) (s : EraR.RSt), Fit s → Fit (rs.foldl EraR.blocksW s) := by
    intro rs
    induction rs with
    | nil => intro s h; exact h
    | cons r rs ih => intro s h; exact ih _ (blocksTo_fit h _ _)
  have h := hf rs ⟨0, 0, []⟩ ⟨Nat.two_pow_pos 64, by simp⟩
  have h := (h.push (e := 0) (b := 0) (Nat.two_pow_pos 64)).2
  have hall : ∀ p ∈ pushesW rs, p.2 < 2 ^ 64 := h
  unfold arrayOf
  cases e : (pushesW rs).find? (fun p => p.1 == k) with
  | none => exact Nat.two_pow_pos 64
  | some p => exact hall p (List.mem_of_find?_eq_some e)

/-! ## Dumping what was restored -/

theorem byEra_sorted (l : List (Nat × Nat × List (Nat × Nat))) (h : l.Pairwise fun a b => a.1 < b.1) : byEra l = l := by
  have : ∀ (l m : List (Nat × Nat × List (Nat × Nat))), (m ++ l).Pairwise (fun a b => a.1 < b.1) →
      l.foldl (fun m w => Rst.insertId w.1 w.2 m) m = m ++ l := by
    intro l
    induction l with
    | nil => intro m _; rw [List.append_nil]; rfl
    | cons w l ih =>
      intro m hm
      have h1 := (List.pairwise_append.mp hm).2.2
      rw [List.foldl_cons, LW.insertId_last w.1 w.2 m (fun p hp => h1 p hp w (by simp)), ih]
      · rw [List.append_assoc]; rfl
      · rw [List.append_assoc]; exact hm
  have := this l [] (by simpa using h)
  simpa [byEra] using this

/-- the words restored for an era of the document -/
def wordsOf (dsets : List (Nat × Nat × List (Nat × Nat))) (e : Nat) : Nat → Nat :=
  match dsets.find? (fun w => w.1 == e) with
  | some w => arrayOf (pushesW w.2.2)
  | none => fun _ => 0

theorem wordsOf_mem {dsets : List (Nat × Nat × List (Nat × Nat))} (h : dsets.Pairwise fun a b => a.1 < b.1) {w : Nat × Nat × List (Nat × Nat)}
    (hw : w ∈ dsets) : wordsOf dsets w.1 = arrayOf (pushesW w.2.2) := by
  unfold wordsOf
  have : dsets.find? (fun x => x.1 == w.1) = some w := by
    induction dsets with
    | nil => cases hw
    | cons x l ih =>
      have hp := List.pairwise_cons.mp h
      rcases List.mem_cons.mp hw with rfl | hw
      · rw [List.find?_cons_of_pos (by simp)]
      · have := hp.1 w hw
        rw [List.find?_cons_of_neg (by simp; omega), ih hp.2 hw]
  rw [this]

/-- a document whose writesets have consecutive eras that end with the current one, with numbers that fit -/
structure Regular (sb : ESb) (sets : List (Nat × Nat × List (Nat × Nat))) (eras : List (Nat × Nat)) : Prop where
  keys : sets.map (·.1) = List.range' (sb.currentEra + 1 - sets.length) sets.length
  few : sets.length ≤ sb.currentEra + 1
  era32 : sb.currentEra < 2 ^ 32
  bits32 : ∀ w ∈ sets, w.2.1 < 2 ^ 32
  size : sb.nrBlocks < 2 ^ 32
  eras32 : ∀ e ∈ eras, e.2 < 2 ^ 32

theorem Regular.sorted {sb : ESb} {sets : List (Nat × Nat × List (Nat × Nat))} {eras : List (Nat × Nat)} (h : Regular sb sets eras) :
    sets.Pairwise fun a b => a.1 < b.1 := by
  have : (sets.map (·.1)).Pairwise (· < ·) := by rw [h.keys]; exact List.pairwise_lt_range'
  rwa [List.pairwise_map] at this

theorem arrayOf_lt {eras : List (Nat × Nat)} (h : ∀ e ∈ eras, e.2 < 2 ^ 32) (b : Nat) : arrayOf eras b < 2 ^ 32 := by
  unfold arrayOf
  cases e : eras.find? (fun p => p.1 == b) with
  | none => exact Nat.two_pow_pos 32
  | some p => exact h p (List.mem_of_find?_eq_some e)

/-- what was restored is metadata again -/
theorem done_metadata {cfg : Cfg} {n max : Nat} {sb : ESb} {sets : List (Nat × Nat × List (Nat × Nat))} {eras : List (Nat × Nat)} {r : RSt}
    (R : Regular sb sets eras) (hD : Done cfg n max sb ⟨[sb], eras, sets, none⟩ r) :
    ∃ out, r.out = some out ∧ out.data_block_size = sb.blockSize ∧ out.nr_blocks = sb.nrBlocks ∧ out.current_era = sb.currentEra ∧
      ∃ S : List (Nat × Nat), S.map (fun p => (p.1, wsBits p.2)) = sets.map (fun w => (w.1, w.2.1)) ∧
        Metadata cfg.epb8 cfg.epb4 n sb.nrBlocks out r.dev S S (wordsOf sets) (arrayOf eras) := by
  obtain ⟨smRoot, tree, ert, S, h, t, Be, dead, left, d2, mid, o1, w⟩ := hD.out
  have hsaid : S.map WS.said = sets := by rw [w.sets.said]; exact byEra_sorted _ R.sorted
  have hbits : ∀ p ∈ S, p.2.bits < 2 ^ 32 := by
    intro p hp
    exact R.bits32 (WS.said p) (by rw [← hsaid]; exact List.mem_map_of_mem hp)
  have hfst : (S.map WS.entry).map (·.1) = sets.map (·.1) := by
    rw [← hsaid, List.map_map, List.map_map]; rfl
  have hlen : (S.map WS.entry).length = sets.length := by rw [← hsaid, List.length_map, List.length_map]
  refine ⟨_, o1, rfl, rfl, rfl, S.map WS.entry, ?_, ?_⟩
  · rw [← hsaid, List.map_map, List.map_map]
    apply List.map_congr_left
    intro p hp
    show (p.1, wsBits (wsWord p.2.bits p.2.root)) = (p.1, p.2.bits)
    rw [wsBits_word (hbits p hp)]
  · have hcur : openSet (EraT.newSb sb smRoot tree ert) = none := rfl
    refine
      { archived := ⟨h, t, w.clean, w.blk, w.contents⟩
        all := ⟨fun p => by rw [hcur]; simp, by rw [hfst, hlen]; exact R.keys⟩
        few := by rw [hlen]; exact R.few
        fresh := fun hx => absurd hcur hx
        era32 := R.era32
        bitsets := ?_, wordsFit := ?_
        eras := ⟨Be, w.eras⟩
        size := R.size
        eras32 := fun b _ => arrayOf_lt R.eras32 b }
    · intro q hq
      obtain ⟨p, hp, rfl⟩ := List.mem_map.mp hq
      refine ⟨p.2.blks, ?_⟩
      show InBlocks _ (divUp (wsBits (wsWord p.2.bits p.2.root)) 64) n (wordsOf sets p.1) (wsRoot (wsWord p.2.bits p.2.root)) r.dev _
      rw [wsBits_word (hbits p hp), wsRoot_word (hbits p hp)]
      have := wordsOf_mem R.sorted (w := WS.said p) (by rw [← hsaid]; exact List.mem_map_of_mem hp)
      rw [show p.1 = (WS.said p).1 from rfl, this]
      exact w.sets.stored p hp
    · intro q hq k _
      obtain ⟨p, hp, rfl⟩ := List.mem_map.mp hq
      have := wordsOf_mem R.sorted (w := WS.said p) (by rw [← hsaid]; exact List.mem_map_of_mem hp)
      show wordsOf sets p.1 k < _
      rw [show p.1 = (WS.said p).1 from rfl, this]
      exact pushesW_lt _ _

/-- C62: the dump of a restored document: the same writesets, with the ranges of the restored bits, and every block with its era -/
theorem done_dump {cfg : Cfg} {n max : Nat} (hc : CfgOk cfg n) {sb : ESb} {sets : List (Nat × Nat × List (Nat × Nat))} {eras : List (Nat × Nat)} {r : RSt}
    (R : Regular sb sets eras) (h0 : 0 < sb.nrBlocks) (hD : Done cfg n max sb ⟨[sb], eras, sets, none⟩ r) (rs : Nat → List (Nat × Nat))
    (hrs : ∀ w ∈ sets, Exactly (fun i => i < w.2.1 ∧ bitAt (arrayOf (pushesW w.2.2)) i = true) (rs w.1)) :
    dump false (imageOf cfg n r) = .ok (eraDoc ⟨[], sb.blockSize, sb.nrBlocks, sb.currentEra⟩ (sets.map fun w => (w.1, w.2.1, rs w.1))
      (eraList sb.nrBlocks (arrayOf eras)) ++ [.eof]) := by
  obtain ⟨out, o1, o2, o3, o4, S, hS, M⟩ := done_metadata R hD
  have key : ∀ p ∈ S, ∃ w ∈ sets, w.1 = p.1 ∧ w.2.1 = wsBits p.2 := by
    intro p hp
    have : (p.1, wsBits p.2) ∈ sets.map (fun w => (w.1, w.2.1)) := by rw [← hS]; exact List.mem_map_of_mem (f := fun p => (p.1, wsBits p.2)) hp
    obtain ⟨w, hw, e⟩ := List.mem_map.mp this
    exact ⟨w, hw, congrArg (fun q => q.1) e, congrArg (fun q => q.2) e⟩
  have hx := dump_exact hc.e8 hc.e4 h0 M rs (fun p hp => by
    obtain ⟨w, hw, e1, e2⟩ := key p hp
    have := hrs w hw
    rw [← wordsOf_mem R.sorted hw, e1, e2] at this
    exact this)
  unfold imageOf
  rw [o1, hx, o2, o3, o4]
  congr 3
  have := congrArg (List.map fun q : Nat × Nat => (q.1, q.2, rs q.1)) hS
  rw [List.map_map, List.map_map] at this
  exact this

/-! ## Through a document -/

/-- the blocks of ranges, one by one -/
def unrolled (rs : List (Nat × Nat)) : List (Nat × Nat) := rs.flatMap fun r => (List.range r.2).map fun i => (r.1 + i, 1)

theorem unrolled_marked (rs : List (Nat × Nat)) (i : Nat) : Marked (unrolled rs) i ↔ Marked rs i := by
  unfold Marked unrolled
  constructor
  · rintro ⟨q, hq, h1, h2⟩
    obtain ⟨r, hr, hq⟩ := List.mem_flatMap.mp hq
    obtain ⟨j, hj, rfl⟩ := List.mem_map.mp hq
    have := List.mem_range.mp hj
    simp only at h1 h2
    exact ⟨r, hr, by omega, by omega⟩
  · rintro ⟨r, hr, h1, h2⟩
    exact ⟨(i, 1), List.mem_flatMap.mpr ⟨r, hr, List.mem_map.mpr ⟨i - r.1, List.mem_range.mpr (by omega), by simp; omega⟩⟩,
      Nat.le_refl _, Nat.lt_succ_self _⟩

theorem unrolled_mem {rs : List (Nat × Nat)} {q : Nat × Nat} (h : q ∈ unrolled rs) : q.2 = 1 ∧ ∃ r ∈ rs, r.1 ≤ q.1 ∧ q.1 + 1 ≤ r.1 + r.2 := by
  obtain ⟨r, hr, hq⟩ := List.mem_flatMap.mp h
  obtain ⟨j, hj, rfl⟩ := List.mem_map.mp hq
  have := List.mem_range.mp hj
  exact ⟨rfl, r, hr, by simp, by simp only; omega⟩

theorem unrolled_sorted {P : Nat → Prop} {rs : List (Nat × Nat)} (h : Exactly P rs) : (unrolled rs).Pairwise fun a b => a.1 ≤ b.1 := by
  have hs := h.sep
  clear h
  unfold unrolled
  induction rs with
  | nil => exact List.Pairwise.nil
  | cons r rs ih =>
    have hp := List.pairwise_cons.mp hs
    rw [List.flatMap_cons, List.pairwise_append]
    refine ⟨?_, ih hp.2, ?_⟩
    · rw [List.pairwise_map]
      exact List.pairwise_lt_range.imp fun h => by simp only; omega
    · intro a ha b hb
      obtain ⟨j, hj, rfl⟩ := List.mem_map.mp ha
      have := List.mem_range.mp hj
      obtain ⟨-, q, hq, h1, h2⟩ := unrolled_mem hb
      have := hp.1 q hq
      simp only
      omega

/-- ranges of blocks below `bits`, restored one by one -/
theorem unrolled_restores {bits : Nat} (h0 : 0 < bits) (h32 : bits ≤ 2 ^ 32) {P : Nat → Prop} {rs : List (Nat × Nat)}
    (h : Exactly (fun i => i < bits ∧ P i) rs) :
    (∀ q ∈ pushesW (unrolled rs), q.1 < divUp bits 64) ∧ Exactly (fun i => i < bits ∧ bitAt (arrayOf (pushesW (unrolled rs))) i = true) rs := by
  obtain ⟨g1, g2⟩ := EraT.pushesW_inWord h0 h32 (rs := unrolled rs) (fun q hq => by
    obtain ⟨e, r, hr, h1, h2⟩ := unrolled_mem hq
    have := ((h.cover q.1).mpr ⟨r, hr, h1, by omega⟩).1
    rw [InWord, e]
    exact ⟨⟨by omega, by rw [Nat.add_sub_cancel]⟩, by omega⟩) (unrolled_sorted h)
  refine ⟨g1, h.congr fun i => ?_⟩
  rw [g2, unrolled_marked]
  constructor
  · intro hi; exact ⟨hi.1, (h.cover i).mp hi⟩
  · intro hi; exact (h.cover i).mpr hi.2

/-- `Restorer` as a visitor (`src/era/restore.rs:136-273`) -/
def restorer (cfg : Cfg) : Xml.Visitor EEv RSt := fun s e =>
  match EraT.step cfg s e with
  | .ok s => .ok (s, .continue)
  | .error _ => .error .err

theorem feed_run (cfg : Cfg) (es : List EEv) : ∀ s, Xml.feed .eof (restorer cfg) s es =
    match EraT.run cfg (es ++ [.eof]) s with | .ok s => .ok s | .error _ => .error .err := by
  induction es with
  | nil =>
    intro s
    rw [Xml.feed, List.nil_append, EraT.run]
    unfold restorer
    cases EraT.step cfg s .eof <;> rfl
  | cons e es ih =>
    intro s
    rw [Xml.feed, List.cons_append, EraT.run]
    unfold restorer
    cases h : EraT.step cfg s e with
    | error e => rfl
    | ok s' => exact ih s'

theorem flatMap_unroll (sb : ESb) (sets : List (Nat × Nat × List (Nat × Nat))) (eras : List (Nat × Nat)) :
    (eraDoc sb sets eras).flatMap (EEv.unroll false) = eraDoc sb (sets.map fun w => (w.1, w.2.1, unrolled w.2.2)) eras := by
  have hb : ∀ rs : List (Nat × Nat), (rs.map fun r => EEv.blocks r.1 r.2).flatMap (EEv.unroll false) = (unrolled rs).map fun r => EEv.blocks r.1 r.2 := by
    intro rs
    unfold unrolled
    induction rs with
    | nil => rfl
    | cons r rs ih =>
      rw [List.map_cons, List.flatMap_cons, List.flatMap_cons, List.map_append, ih, List.map_map]
      rfl
  have hs : ∀ sets : List (Nat × Nat × List (Nat × Nat)), (sets.flatMap EraT.wsEvents).flatMap (EEv.unroll false) =
      (sets.map fun w => (w.1, w.2.1, unrolled w.2.2)).flatMap EraT.wsEvents := by
    intro sets
    induction sets with
    | nil => rfl
    | cons w sets ih =>
      rw [List.flatMap_cons, List.flatMap_append, ih, List.map_cons, List.flatMap_cons]
      congr 1
      unfold EraT.wsEvents
      rw [List.flatMap_cons, List.flatMap_append, hb]
      rfl
  have he : ∀ l : List (Nat × Nat), (l.map fun e => EEv.era e.1 e.2).flatMap (EEv.unroll false) = l.map fun e => EEv.era e.1 e.2 := by
    intro l
    induction l with
    | nil => rfl
    | cons e l ih => rw [List.map_cons, List.flatMap_cons, ih]; rfl
  unfold eraDoc
  rw [List.flatMap_cons, List.flatMap_append, hs, List.flatMap_cons, List.flatMap_append, he]
  rfl

theorem nested_doc (sb : ESb) (sets : List (Nat × Nat × List (Nat × Nat))) (eras : List (Nat × Nat)) :
    Xml.Nested EEv.opens EEv.closes [] (eraDoc sb sets eras) := by
  have hb : ∀ (rs : List (Nat × Nat)) (st : List String) (rest : List EEv), Xml.Nested EEv.opens EEv.closes st rest →
      Xml.Nested EEv.opens EEv.closes st ((rs.map fun r => EEv.blocks r.1 r.2) ++ rest) := by
    intro rs
    induction rs with
    | nil => intro st rest h; exact h
    | cons r rs ih => intro st rest h; exact ih st rest h
  have he : ∀ (l : List (Nat × Nat)) (st : List String) (rest : List EEv), Xml.Nested EEv.opens EEv.closes st rest →
      Xml.Nested EEv.opens EEv.closes st ((l.map fun e => EEv.era e.1 e.2) ++ rest) := by
    intro l
    induction l with
    | nil => intro st rest h; exact h
    | cons r rs ih => intro st rest h; exact ih st rest h
  have hs : ∀ (sets : List (Nat × Nat × List (Nat × Nat))) (st : List String) (rest : List EEv), Xml.Nested EEv.opens EEv.closes st rest →
      Xml.Nested EEv.opens EEv.closes st (sets.flatMap EraT.wsEvents ++ rest) := by
    intro sets
    induction sets with
    | nil => intro st rest h; exact h
    | cons w sets ih =>
      intro st rest h
      rw [List.flatMap_cons, List.append_assoc]
      show Xml.Nested _ _ ("writeset" :: st) ((w.2.2.map (fun r => EEv.blocks r.1 r.2) ++ [.wsE]) ++ _)
      rw [List.append_assoc]
      exact hb _ _ _ ⟨st, rfl, ih st rest h⟩
  unfold eraDoc
  refine hs _ ["superblock"] _ ?_
  show Xml.Nested _ _ ["era_array", "superblock"] _
  exact he _ _ _ ⟨_, rfl, _, rfl, trivial⟩

theorem writeAll_eof (es : List EEv) : ∀ w, Xml.eraWriteAll w (es ++ [.eof]) = Xml.eraWriteAll w es := by
  induction es with
  | nil => intro w; rfl
  | cons e es ih => intro w; rw [List.cons_append, Xml.eraWriteAll, Xml.eraWriteAll, ih]

theorem sets_regular {sb : Era.Superblock} {sets : List (Nat × Nat)} {rs : Nat → List (Nat × Nat)} {epb8 epb4 n : Nat} {s : ASt Nat}
    {tree : List (Nat × Nat)} {words : Nat → Nat → Nat} {ae : Nat → Nat}
    (M : Metadata epb8 epb4 n sb.nr_blocks sb s tree sets words ae) (f : List (Nat × Nat) → List (Nat × Nat)) :
    Regular (xmlSb sb) (sets.map fun p => (p.1, wsBits p.2, f (rs p.1))) (eraList sb.nr_blocks ae) := by
  refine ⟨?_, by rw [List.length_map]; exact M.few, M.era32, ?_, M.size, ?_⟩
  · rw [List.map_map, List.length_map]; exact M.all.keys
  · intro w hw
    obtain ⟨p, -, rfl⟩ := List.mem_map.mp hw
    exact Nat.mod_lt _ (Nat.two_pow_pos 32)
  · intro e he
    obtain ⟨b, hb, rfl⟩ := List.mem_map.mp he
    exact M.eras32 b (List.mem_range.mp hb)

theorem eraList_sorted (nr : Nat) (ae : Nat → Nat) : Sorted (eraList nr ae) := by
  unfold Sorted eraList
  rw [List.pairwise_map]
  exact List.pairwise_lt_range

theorem eraList_self (nr : Nat) (ae : Nat → Nat) : eraList nr (arrayOf (eraList nr ae)) = eraList nr ae := by
  unfold eraList
  apply List.map_congr_left
  intro b hb
  have hmem : (b, ae b) ∈ (List.range nr).map fun b => (b, ae b) := List.mem_map.mpr ⟨b, hb, rfl⟩
  have hs : Sorted ((List.range nr).map fun b => (b, ae b)) := eraList_sorted nr ae
  have := Arr.arrayOf_pushed hs hmem
  rw [this]

/-- **C62** (round trip): for undamaged era metadata with at least one block and no writeset without bits, writing the dump as XML and restoring the
document succeeds (or runs out of space), and the dump of the restored metadata is the dump of the original: same superblock fields, eras, writesets
and marks. -/
theorem roundtrip {epb8 epb4 n : Nat} (he8 : 0 < epb8) (he4 : 0 < epb4) {sb : Era.Superblock} {s : ASt Nat} {tree sets : List (Nat × Nat)}
    {words : Nat → Nat → Nat} {ae : Nat → Nat} (M : Metadata epb8 epb4 n sb.nr_blocks sb s tree sets words ae) (h0 : 0 < sb.nr_blocks)
    (hbs : sb.data_block_size < 2 ^ 32) (hbits : ∀ p ∈ sets, 0 < wsBits p.2) {cfg : Cfg} {m max : Nat} (hc : CfgOk cfg m) (hsm : SmOk m max cfg)
    {dev : ASt Nat} (hdev : New m max dev) :
    ∃ evs, dump false (eraImage epb8 epb4 n (some sb) s) = .ok evs ∧
      match Xml.eraRead (restorer cfg) (RSt.new dev) (Xml.eraWriteAll (Xml.EW.new false) evs) with
      | .ok r => dump false (imageOf cfg m r) = .ok evs
      | .error _ => ∃ e, EraT.restore cfg (evs.flatMap (EEv.unroll false)) dev = .error (.arr (.io e)) ∧ e.Resource := by
  let rs : Nat → List (Nat × Nat) := fun e =>
    match sets.find? (fun p => p.1 == e) with | some p => Rng.fin (bitAt (words e)) (wsBits p.2) | none => []
  have hrs : ∀ p ∈ sets, Exactly (fun i => i < wsBits p.2 ∧ bitAt (words p.1) i = true) (rs p.1) := by
    intro p hp
    have hk := M.keys
    have : sets.find? (fun q => q.1 == p.1) = some p := by
      clear hbits M
      induction sets with
      | nil => cases hp
      | cons x l ih =>
        have hq := List.pairwise_cons.mp hk
        rcases List.mem_cons.mp hp with rfl | hp
        · rw [List.find?_cons_of_pos (by simp)]
        · have := hq.1 p hp
          rw [List.find?_cons_of_neg (by simp; omega), ih hp hq.2]
    show Exactly _ (match sets.find? (fun q => q.1 == p.1) with | some p' => Rng.fin (bitAt (words p.1)) (wsBits p'.2) | none => [])
    rw [this]
    exact Rng.fin_exactly _ _
  refine ⟨_, dump_exact he8 he4 h0 M rs hrs, ?_⟩
  generalize hdsets : sets.map (fun p => (p.1, wsBits p.2, rs p.1)) = dsets
  have hun : dsets.map (fun w => (w.1, w.2.1, unrolled w.2.2)) = sets.map fun p => (p.1, wsBits p.2, unrolled (rs p.1)) := by
    rw [← hdsets, List.map_map]; rfl
  have R := sets_regular M (rs := rs) unrolled
  rw [← hun] at R
  have R0 := sets_regular M (rs := rs) id
  have hw : ∀ p ∈ sets, (∀ q ∈ pushesW (unrolled (rs p.1)), q.1 < divUp (wsBits p.2) 64) ∧
      Exactly (fun i => i < wsBits p.2 ∧ bitAt (arrayOf (pushesW (unrolled (rs p.1)))) i = true) (rs p.1) := fun p hp =>
    unrolled_restores (hbits p hp) (Nat.le_of_lt (Nat.mod_lt _ (Nat.two_pow_pos 32))) (hrs p hp)
  have hmem : ∀ w ∈ dsets.map (fun w => (w.1, w.2.1, unrolled w.2.2)), ∃ p ∈ sets, w = (p.1, wsBits p.2, unrolled (rs p.1)) := by
    intro w hw
    rw [hun] at hw
    obtain ⟨p, hp, rfl⟩ := List.mem_map.mp hw
    exact ⟨p, hp, rfl⟩
  have hacc := EraT.restore_accepts hc hsm hdev (xmlSb sb) (sets := dsets.map fun w => (w.1, w.2.1, unrolled w.2.2)) (eras := eraList sb.nr_blocks ae)
    (fun w hw' => by
      obtain ⟨p, hp, rfl⟩ := hmem w hw'
      exact (hw p hp).1) (eraList_sorted _ _) (fun e he => by
      obtain ⟨b, hb, rfl⟩ := List.mem_map.mp he
      exact List.mem_range.mp hb)
  have hok : ∀ e ∈ eraDoc (xmlSb sb) dsets (eraList sb.nr_blocks ae), e.Ok := by
    intro e he
    unfold eraDoc at he
    rcases List.mem_cons.mp he with rfl | he
    · exact ⟨fun c hc => (by cases hc), hbs, M.size, M.era32⟩
    rcases List.mem_append.mp he with he | he
    · obtain ⟨w, hw', he⟩ := List.mem_flatMap.mp he
      rw [← hdsets] at hw'
      obtain ⟨p, hp, rfl⟩ := List.mem_map.mp hw'
      have hlt : wsBits p.2 < 2 ^ 32 := Nat.mod_lt _ (Nat.two_pow_pos 32)
      rcases List.mem_cons.mp he with rfl | he
      · refine ⟨?_, hlt⟩
        have : p.1 ∈ sets.map (·.1) := List.mem_map_of_mem hp
        rw [M.all.keys, List.mem_range'_1] at this
        have := M.era32
        have := M.few
        show p.1 < 2 ^ 32
        omega
      rcases List.mem_append.mp he with he | he
      · obtain ⟨r, hr, rfl⟩ := List.mem_map.mp he
        have hpos := (hrs p hp).pos r hr
        have := ((hrs p hp).cover (r.1 + r.2 - 1)).mpr ⟨r, hr, by omega, by omega⟩
        show r.1 + r.2 < 2 ^ 32
        omega
      · rw [List.mem_singleton.mp he]; exact trivial
    rcases List.mem_cons.mp he with rfl | he
    · exact trivial
    rcases List.mem_append.mp he with he | he
    · obtain ⟨e', he', rfl⟩ := List.mem_map.mp he
      obtain ⟨b, hb, rfl⟩ := List.mem_map.mp he'
      have hb := List.mem_range.mp hb
      exact ⟨Nat.lt_trans hb M.size, M.eras32 b hb⟩
    · simp only [List.mem_cons, List.not_mem_nil, or_false] at he
      rcases he with rfl | rfl <;> exact trivial
  rw [show (⟨[], sb.data_block_size, sb.nr_blocks, sb.current_era⟩ : ESb) = xmlSb sb from rfl, writeAll_eof,
    Xml.era_roundtrip false (restorer cfg) (RSt.new dev) _ hok (nested_doc _ _ _), flatMap_unroll, feed_run]
  show match (match EraT.restore cfg (eraDoc (xmlSb sb) (dsets.map fun w => (w.1, w.2.1, unrolled w.2.2)) (eraList sb.nr_blocks ae) ++ [.eof]) dev with
    | .ok s => .ok s | .error _ => .error .err : Except Xml.XErr RSt) with | .ok r => _ | .error _ => _
  cases hr : EraT.restore cfg (eraDoc (xmlSb sb) (dsets.map fun w => (w.1, w.2.1, unrolled w.2.2)) (eraList sb.nr_blocks ae) ++ [.eof]) dev with
  | error e =>
    rw [hr] at hacc
    match e, hacc with
    | .arr (.io e), h => exact ⟨e, by rw [List.flatMap_append, flatMap_unroll]; exact hr, h⟩
  | ok r =>
    rw [hr] at hacc
    have := done_dump hc R h0 hacc rs (fun w hw' => by
      obtain ⟨p, hp, rfl⟩ := hmem w hw'
      exact (hw p hp).2)
    simp only
    rw [this, List.map_map, show (xmlSb sb).nrBlocks = sb.nr_blocks from rfl, eraList_self]
    congr 3
    rw [← hdsets, List.map_map]
    rfl

end Verif.EraD
