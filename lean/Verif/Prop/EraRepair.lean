import Verif.Prop.EraRoundTrip

/-!
# C63: `era_repair`

`era_repair` is a dump fed into a restore, with whole ranges of marked blocks.  Marks are never lost; they are kept exactly if no range crosses a
word of 64 blocks.  Otherwise the restorer's handling of ranges (C37) marks more blocks, or fails.
-/

namespace Verif.EraD

open Verif.BT (Blk Tree)
open Verif.Arr (ASt divUp arrayOf)
open Verif.Bld (Sorted)
open Verif.CacheM (devOf InBlocks RErr RPost New)
open Verif.EraC (EDev wsWord wsBits wsRoot eraImage)
open Verif.EraR (bitAt Marked InWord)
open Verif.EraT (eraDoc pushesW Done Cfg CfgOk SmOk RSt imageOf docOf)
open Verif.Xml (EEv ESb)
open Verif.Rng (Exactly)

/-- the dump that `repair` starts from -/
theorem repair_inv {cfg : Cfg} {d : EDev} {dev : ASt Nat} {r : RSt} (h : repair cfg d dev = .ok r) :
    ∃ sb evs, d.sb = some sb ∧ dumpMetadata d sb = .ok evs ∧ EraT.restore cfg evs dev = .ok r := by
  unfold repair at h
  cases hs : d.sb with
  | none => rw [hs] at h; cases h
  | some sb =>
    rw [hs] at h
    simp only at h
    cases hd : dumpMetadata d sb with
    | error e => rw [hd] at h; cases h
    | ok evs =>
      rw [hd] at h
      simp only at h
      cases hr : EraT.restore cfg evs dev with
      | error e => rw [hr] at h; cases h
      | ok r' => rw [hr] at h; cases h; exact ⟨sb, evs, rfl, hd, hr⟩

/-- without `--logical` the dump is `dump_metadata` -/
theorem dump_false {d : EDev} {sb : Era.Superblock} (h : d.sb = some sb) : dump false d = dumpMetadata d sb := by
  unfold dump dumpMetadata
  rw [h]
  simp only
  cases writesets d sb with
  | none => rfl
  | some sets => rfl

theorem dumpMetadata_shape {d : EDev} {sb : Era.Superblock} {evs : List EEv} (h : dumpMetadata d sb = .ok evs) :
    ∃ ws es, evs = (.sbB (xmlSb sb) :: (ws ++ (.eraB :: (es ++ [.eraE, .sbE])))) ++ [.eof] ∧ (∀ e ∈ ws, ∀ x, e ≠ .sbB x) ∧ (∀ e ∈ es, ∀ x, e ≠ .sbB x) := by
  have hws : ∀ (d : CacheM.Dev) (sets : List (Nat × Nat)) (ws : List EEv), dumpWritesets d sets = .ok ws → ∀ e ∈ ws, ∀ x, e ≠ .sbB x := by
    intro d sets
    induction sets with
    | nil => intro ws h; cases h; intro e he; cases he
    | cons p sets ih =>
      intro ws h
      unfold dumpWritesets at h
      cases h1 : dumpWriteset d p.1 p.2 with
      | error e => rw [h1] at h; cases h
      | ok a =>
        rw [h1] at h
        simp only at h
        cases h2 : dumpWritesets d sets with
        | error e => rw [h2] at h; cases h
        | ok b =>
          rw [h2] at h
          cases h
          intro e he x
          rcases List.mem_append.mp he with he | he
          · unfold dumpWriteset at h1
            cases h3 : readSet d p.2 with
            | none => rw [h3] at h1; cases h1
            | some w =>
              rw [h3] at h1
              simp only at h1
              cases h4 : Scan.markedRanges 32 (wsBits p.2) w with
              | none => rw [h4] at h1; cases h1
              | some rs =>
                rw [h4] at h1
                cases h1
                rcases List.mem_cons.mp he with rfl | he
                · intro e; cases e
                rcases List.mem_append.mp he with he | he
                · obtain ⟨r, -, rfl⟩ := List.mem_map.mp he; intro e; cases e
                · rw [List.mem_singleton.mp he]; intro e; cases e
          · exact ih b h2 e he x
  unfold dumpMetadata at h
  cases h1 : writesets d sb with
  | none => rw [h1] at h; cases h
  | some sets =>
    rw [h1] at h
    simp only at h
    cases h2 : dumpWritesets d.dev sets with
    | error e => rw [h2] at h; cases h
    | ok ws =>
      rw [h2] at h
      simp only at h
      cases h3 : dumpEras d.dev visitEras sb.era_array_root with
      | error e => rw [h3] at h; cases h
      | ok es =>
        rw [h3] at h
        cases h
        refine ⟨ws, es, by simp, hws _ _ _ h2, ?_⟩
        unfold dumpEras at h3
        cases h4 : CacheM.collectBlocks d.dev sb.era_array_root with
        | error e => rw [h4] at h3; cases h3
        | ok bs =>
          rw [h4] at h3
          simp only at h3
          intro e he x
          obtain ⟨b, -, ab, evs', -, h5, h6⟩ := (CacheM.walkBlocks_sound h3).2 e he
          cases h5
          obtain ⟨q, -, rfl⟩ := List.mem_map.mp h6
          intro e; cases e

theorem sbs_of {l : List EEv} : ∀ (d : EraT.Doc), (∀ e ∈ l, ∀ x, e ≠ .sbB x) → (l.foldl EraT.Doc.add d).sbs = d.sbs := by
  induction l with
  | nil => intro d _; rfl
  | cons e l ih =>
    intro d h
    rw [List.foldl_cons, ih _ (fun x hx => h x (by simp [hx]))]
    cases e with
    | sbB x => exact absurd rfl (h _ (by simp) x)
    | wsE => unfold EraT.Doc.add; cases d.opn <;> rfl
    | _ => rfl

/-- **C63**: whatever the input device holds, if `era_repair` succeeds, then `era_check` accepts what it wrote exactly if no era of the dump it started
from lies after the current era. -/
theorem repair_checked {cfg : Cfg} {m max : Nat} (hc : CfgOk cfg m) (hsm : SmOk m max cfg) {dev : ASt Nat} (hdev : New m max dev) {d : EDev} {r : RSt}
    (h : repair cfg d dev = .ok r) :
    ∃ sb evs, d.sb = some sb ∧ dump false d = .ok evs ∧
      ((∀ w ∈ (docOf evs).sets, w.2.1 < 2 ^ 32) → sb.nr_blocks + cfg.epb4 ≤ 2 ^ 32 →
        (EraC.check false (imageOf cfg m r) = none ↔ ∀ e ∈ (docOf evs).eras, e.2 ≤ sb.current_era)) := by
  obtain ⟨sb, evs, h1, h2, h3⟩ := repair_inv h
  refine ⟨sb, evs, h1, by rw [dump_false h1]; exact h2, fun h4 h5 => ?_⟩
  obtain ⟨ws, es, rfl, k1, k2⟩ := dumpMetadata_shape h2
  have hdoc : docOf ((.sbB (xmlSb sb) :: (ws ++ (.eraB :: (es ++ [.eraE, .sbE])))) ++ [.eof]) = docOf (.sbB (xmlSb sb) :: (ws ++ (.eraB :: (es ++ [.eraE, .sbE])))) := by
    unfold docOf
    rw [List.foldl_append]
    rfl
  have hsbs : (docOf (.sbB (xmlSb sb) :: (ws ++ (.eraB :: (es ++ [.eraE, .sbE]))))).sbs = [xmlSb sb] := by
    unfold docOf
    rw [List.foldl_cons, sbs_of _ (by
      intro e he x
      rcases List.mem_append.mp he with he | he
      · exact k1 e he x
      rcases List.mem_cons.mp he with rfl | he
      · intro e; cases e
      rcases List.mem_append.mp he with he | he
      · exact k2 e he x
      · simp only [List.mem_cons, List.not_mem_nil, or_false] at he
        rcases he with rfl | rfl <;> (intro e; cases e))]
    rfl
  rw [hdoc] at h4 ⊢
  exact EraT.restore_check hc hsm hdev h3 hsbs h4 h5

theorem exactly_pairwise {P : Nat → Prop} {rs : List (Nat × Nat)} (h : Exactly P rs) :
    (rs.Pairwise fun a b => a.1 + a.2 ≤ b.1) ∧ rs.Pairwise fun a b => a.1 ≤ b.1 :=
  ⟨h.sep.imp fun h => by omega, h.sep.imp fun h => by omega⟩

/-- the ranges of the marked blocks, chosen -/
theorem ranges_exist {epb8 epb4 n nr : Nat} {sb : Era.Superblock} {s : ASt Nat} {tree sets : List (Nat × Nat)}
    {words : Nat → Nat → Nat} {ae : Nat → Nat} (M : Metadata epb8 epb4 n nr sb s tree sets words ae) :
    ∃ rs : Nat → List (Nat × Nat), ∀ p ∈ sets, Exactly (fun i => i < wsBits p.2 ∧ bitAt (words p.1) i = true) (rs p.1) := by
  refine ⟨fun e => match sets.find? (fun p => p.1 == e) with | some p => Rng.fin (bitAt (words e)) (wsBits p.2) | none => [], fun p hp => ?_⟩
  have hk := M.keys
  have : sets.find? (fun q => q.1 == p.1) = some p := by
    clear M
    induction sets with
    | nil => cases hp
    | cons x l ih =>
      have hq := List.pairwise_cons.mp hk
      rcases List.mem_cons.mp hp with rfl | hp
      · rw [List.find?_cons_of_pos (by simp)]
      · have := hq.1 p hp
        rw [List.find?_cons_of_neg (by simp; omega), ih hp hq.2]
  simp only [this]
  exact Rng.fin_exactly _ _

/-- **C63**: repairing undamaged metadata loses nothing.  If `era_repair` succeeds, a dump of the output has the superblock fields and eras of the
input, the same writesets, and in each of them all blocks marked in the input. -/
theorem repair_keeps {epb8 epb4 n : Nat} (he8 : 0 < epb8) (he4 : 0 < epb4) {sb : Era.Superblock} {s : ASt Nat} {tree sets : List (Nat × Nat)}
    {words : Nat → Nat → Nat} {ae : Nat → Nat} (M : Metadata epb8 epb4 n sb.nr_blocks sb s tree sets words ae) (h0 : 0 < sb.nr_blocks)
    {cfg : Cfg} {m max : Nat} (hc : CfgOk cfg m) (hsm : SmOk m max cfg) {dev : ASt Nat} (hdev : New m max dev) {r : RSt}
    (h : repair cfg (eraImage epb8 epb4 n (some sb) s) dev = .ok r) :
    ∃ rs : Nat → List (Nat × Nat), (∀ p ∈ sets, ∀ i, i < wsBits p.2 → bitAt (words p.1) i = true → Marked (rs p.1) i) ∧
      dump false (imageOf cfg m r) = .ok (eraDoc ⟨[], sb.data_block_size, sb.nr_blocks, sb.current_era⟩
        (sets.map fun p => (p.1, wsBits p.2, rs p.1)) (eraList sb.nr_blocks ae) ++ [.eof]) := by
  obtain ⟨rs, hrs⟩ := ranges_exist M
  have hdump := dump_exact he8 he4 h0 M rs hrs
  obtain ⟨sb', evs, e1, e2, e3⟩ := repair_inv h
  cases e1
  rw [dump_false rfl, e2] at hdump
  cases hdump
  obtain ⟨sb1, hsb1, hD⟩ := EraT.restored_done hc hsm hdev e3
  rw [EraT.docOf_eraDoc] at hsb1 hD
  cases hsb1
  have R := sets_regular M (rs := rs) id
  have R : Regular (xmlSb sb) (sets.map fun p => (p.1, wsBits p.2, rs p.1)) (eraList sb.nr_blocks ae) := R
  let rs' : Nat → List (Nat × Nat) := fun e =>
    match (sets.map fun p => (p.1, wsBits p.2, rs p.1)).find? (fun w => w.1 == e) with
    | some w => Rng.fin (bitAt (arrayOf (pushesW w.2.2))) w.2.1
    | none => []
  have hrs' : ∀ w ∈ sets.map (fun p => (p.1, wsBits p.2, rs p.1)),
      Exactly (fun i => i < w.2.1 ∧ bitAt (arrayOf (pushesW w.2.2)) i = true) (rs' w.1) := by
    intro w hw
    have hk := R.sorted
    have : (sets.map fun p => (p.1, wsBits p.2, rs p.1)).find? (fun q => q.1 == w.1) = some w := by
      generalize (sets.map fun p => (p.1, wsBits p.2, rs p.1)) = l at hw hk
      induction l with
      | nil => cases hw
      | cons x l ih =>
        have hq := List.pairwise_cons.mp hk
        rcases List.mem_cons.mp hw with rfl | hw
        · rw [List.find?_cons_of_pos (by simp)]
        · have := hq.1 w hw
          rw [List.find?_cons_of_neg (by simp; omega), ih hw hq.2]
    show Exactly _ (match (sets.map fun p => (p.1, wsBits p.2, rs p.1)).find? (fun q => q.1 == w.1) with
      | some w => Rng.fin (bitAt (arrayOf (pushesW w.2.2))) w.2.1 | none => [])
    rw [this]
    exact Rng.fin_exactly _ _
  refine ⟨rs', fun p hp i hi hb => ?_, ?_⟩
  · have hp' : (p.1, wsBits p.2, rs p.1) ∈ sets.map (fun p => (p.1, wsBits p.2, rs p.1)) := List.mem_map_of_mem (f := fun p : Nat × Nat => (p.1, wsBits p.2, rs p.1)) hp
    have := hrs' _ hp'
    refine (this.cover i).mp ⟨hi, ?_⟩
    have hx := hrs p hp
    have hlt : wsBits p.2 < 2 ^ 32 := Nat.mod_lt _ (Nat.two_pow_pos 32)
    simp only
    rw [EraT.pushesW_eq (fun r hr => ⟨hx.pos r hr, by
      have := hx.pos r hr
      have := ((hx.cover (r.1 + r.2 - 1)).mpr ⟨r, hr, by omega, by omega⟩).1
      omega⟩)]
    exact EraR.restore_keeps_marks _ hx.pos (exactly_pairwise hx).1 i ((hx.cover i).mp ⟨hi, hb⟩)
  · have := done_dump hc R h0 hD rs' hrs'
    rw [this, List.map_map, show (xmlSb sb).nrBlocks = sb.nr_blocks from rfl, eraList_self]
    rfl

/-- **C63** (partial: ranges within words): if moreover no writeset is without bits and no maximal range of marked blocks crosses a multiple of 64,
`era_repair` succeeds (or runs out of space) and the dump of the output is the dump of the input. -/
theorem repair_exact_partial {epb8 epb4 n : Nat} (he8 : 0 < epb8) (he4 : 0 < epb4) {sb : Era.Superblock} {s : ASt Nat} {tree sets : List (Nat × Nat)}
    {words : Nat → Nat → Nat} {ae : Nat → Nat} (M : Metadata epb8 epb4 n sb.nr_blocks sb s tree sets words ae) (h0 : 0 < sb.nr_blocks)
    (hbits : ∀ p ∈ sets, 0 < wsBits p.2)
    (hcross : ∀ p ∈ sets, ∀ i, i + 1 < wsBits p.2 → i % 64 = 63 → ¬ (bitAt (words p.1) i = true ∧ bitAt (words p.1) (i + 1) = true))
    {cfg : Cfg} {m max : Nat} (hc : CfgOk cfg m) (hsm : SmOk m max cfg) {dev : ASt Nat} (hdev : New m max dev) :
    match repair cfg (eraImage epb8 epb4 n (some sb) s) dev with
    | .ok r => dump false (imageOf cfg m r) = dump false (eraImage epb8 epb4 n (some sb) s)
    | .error (.restore (.arr (.io e))) => e.Resource
    | .error _ => False := by
  obtain ⟨rs, hrs⟩ := ranges_exist M
  have hdump := dump_exact he8 he4 h0 M rs hrs
  have hd' := hdump
  rw [dump_false rfl] at hd'
  have hin : ∀ p ∈ sets, ∀ q ∈ rs p.1, InWord q ∧ q.1 + q.2 ≤ wsBits p.2 := by
    intro p hp q hq
    have hx := hrs p hp
    have hpos := hx.pos q hq
    have hc : ∀ i, q.1 ≤ i → i < q.1 + q.2 → i < wsBits p.2 ∧ bitAt (words p.1) i = true := fun i h1 h2 => (hx.cover i).mpr ⟨q, hq, h1, h2⟩
    have hlast := (hc (q.1 + q.2 - 1) (by omega) (by omega)).1
    refine ⟨⟨hpos, ?_⟩, by omega⟩
    apply Classical.byContradiction
    intro hne
    have h1 : q.1 / 64 < (q.1 + q.2 - 1) / 64 := by
      have := Nat.div_le_div_right (c := 64) (show q.1 ≤ q.1 + q.2 - 1 by omega)
      omega
    have c1 := hc (q.1 / 64 * 64 + 63) (by omega) (by omega)
    have c2 := hc (q.1 / 64 * 64 + 63 + 1) (by omega) (by omega)
    exact hcross p hp (q.1 / 64 * 64 + 63) c2.1 (by omega) ⟨c1.2, c2.2⟩
  have hw : ∀ p ∈ sets, (∀ q ∈ pushesW (rs p.1), q.1 < divUp (wsBits p.2) 64) ∧
      Exactly (fun i => i < wsBits p.2 ∧ bitAt (arrayOf (pushesW (rs p.1))) i = true) (rs p.1) := by
    intro p hp
    have hx := hrs p hp
    obtain ⟨g1, g2⟩ := EraT.pushesW_inWord (hbits p hp) (Nat.le_of_lt (Nat.mod_lt _ (Nat.two_pow_pos 32))) (hin p hp) (exactly_pairwise hx).2
    refine ⟨g1, hx.congr fun i => ?_⟩
    rw [g2]
    constructor
    · intro hi; exact ⟨hi.1, (hx.cover i).mp hi⟩
    · intro hi; exact (hx.cover i).mpr hi.2
  have hacc := EraT.restore_accepts hc hsm hdev (xmlSb sb) (sets := sets.map fun p => (p.1, wsBits p.2, rs p.1)) (eras := eraList sb.nr_blocks ae)
    (fun w hw' => by
      obtain ⟨p, hp, rfl⟩ := List.mem_map.mp hw'
      exact (hw p hp).1) (eraList_sorted _ _) (fun e he => by
      obtain ⟨b, hb, rfl⟩ := List.mem_map.mp he
      exact List.mem_range.mp hb)
  have R : Regular (xmlSb sb) (sets.map fun p => (p.1, wsBits p.2, rs p.1)) (eraList sb.nr_blocks ae) := sets_regular M (rs := rs) id
  rw [hdump]
  unfold repair
  simp only [eraImage] at hd' ⊢
  rw [hd']
  simp only
  rw [show (⟨[], sb.data_block_size, sb.nr_blocks, sb.current_era⟩ : ESb) = xmlSb sb from rfl]
  cases hr : EraT.restore cfg (eraDoc (xmlSb sb) (sets.map fun p => (p.1, wsBits p.2, rs p.1)) (eraList sb.nr_blocks ae) ++ [.eof]) dev with
  | error e =>
    rw [hr] at hacc
    match e, hacc with
    | .arr (.io e), h => exact h
  | ok r =>
    rw [hr] at hacc
    have := done_dump hc R h0 hacc rs (fun w hw' => by
      obtain ⟨p, hp, rfl⟩ := List.mem_map.mp hw'
      exact (hw p hp).2)
    simp only
    rw [this, List.map_map, show (xmlSb sb).nrBlocks = sb.nr_blocks from rfl, eraList_self]
    rfl

/-! ## Not vacuous, and what is false -/

/-- restore a document onto a small device, and hand the result to a tool -/
def after {α : Type} (doc : List EEv) (f : EDev → Option α) : Option α :=
  match EraT.restore EraT.smallCfg (doc ++ [.eof]) EraT.smallDev with
  | .ok r => f (imageOf EraT.smallCfg 60 r)
  | .error _ => none

/-- 200 blocks, the current era is the sixth -/
def demoSb : ESb := ⟨[], 128, 200, 6⟩

/-- two writesets, of the eras 5 and 6; no range crosses a word -/
def demoDoc : List EEv := eraDoc demoSb [(5, 200, [(0, 3), (64, 1), (190, 2)]), (6, 200, [])] [(0, 4), (1, 6), (199, 2)]

/-- the metadata restored from it -/
theorem demo_metadata : ∃ r out S, EraT.restore EraT.smallCfg (demoDoc ++ [.eof]) EraT.smallDev = .ok r ∧ r.out = some out ∧
    S.map (fun p => (p.1, wsBits p.2)) = [(5, 200), (6, 200)] ∧
    Metadata 2 50 60 200 out r.dev S S (wordsOf [(5, 200, [(0, 3), (64, 1), (190, 2)]), (6, 200, [])]) (arrayOf [(0, 4), (1, 6), (199, 2)]) := by
  have hacc := EraT.restore_accepts (cfg := EraT.smallCfg) EraT.smallCfg_ok (EraT.smWriter_sm EraT.small_size 100 rfl) EraT.small_new demoSb
    (sets := [(5, 200, [(0, 3), (64, 1), (190, 2)]), (6, 200, [])]) (eras := [(0, 4), (1, 6), (199, 2)]) (by decide +kernel)
    (by unfold Sorted; decide +kernel) (by decide +kernel)
  have hok : (match EraT.restore EraT.smallCfg (demoDoc ++ [.eof]) EraT.smallDev with | .ok _ => true | .error _ => false) = true := by decide +kernel
  unfold demoDoc at hok ⊢
  cases hr : EraT.restore EraT.smallCfg (eraDoc demoSb [(5, 200, [(0, 3), (64, 1), (190, 2)]), (6, 200, [])] [(0, 4), (1, 6), (199, 2)] ++ [.eof]) EraT.smallDev with
  | error e => rw [hr] at hok; cases hok
  | ok r =>
    rw [hr] at hacc
    obtain ⟨out, o1, -, -, -, S, hS, M⟩ := done_metadata ⟨by decide, by decide, by decide, by decide, by decide, by decide⟩ hacc
    exact ⟨r, out, S, rfl, o1, hS, M⟩

/-- a dump of it, a logical one, and the dump after a repair -/
def dumped (doc : List EEv) : Option (List EEv) := after doc fun d => (match dump false d with | .ok e => some e | .error _ => none)
def dumpedLogical (doc : List EEv) : Option (List EEv) := after doc fun d => (match dump true d with | .ok e => some e | .error _ => none)
def repaired (doc : List EEv) : Option (List EEv) := after doc fun d =>
  (match repair EraT.smallCfg d EraT.smallDev with
    | .ok r => (match dump false (imageOf EraT.smallCfg 60 r) with | .ok e => some e | .error _ => none)
    | .error _ => none)

/-- the eras of a dump that are not zero -/
def nonzero (evs : List EEv) : List (Nat × Nat) := (docOf evs).eras.filter fun e => e.2 != 0

/-- the writesets of a dump, and the eras that are not zero -/
def shown (o : Option (List EEv)) : List (Nat × Nat × List (Nat × Nat)) × List (Nat × Nat) :=
  match o with | some e => ((docOf e).sets, nonzero e) | none => ([], [])

example : shown (dumped demoDoc) =
    ([(5, 200, [(0, 3), (64, 1), (190, 2)]), (6, 200, [])], [(0, 4), (1, 6), (199, 2)]) := by decide +kernel
example : shown (dumpedLogical demoDoc) =
    ([], [(0, 5), (1, 5), (2, 5), (64, 5), (190, 5), (191, 5), (199, 2)]) := by decide +kernel
example : repaired demoDoc = dumped demoDoc := by decide +kernel

/-- with a current writeset: the superblock's, here with the bitset of era 5 -/
def withCurrent (d : EDev) : EDev :=
  match d.sb with
  | none => d
  | some sb =>
    match LW.btreeToMap d.wsRd d.dev.nr sb.writeset_tree_root with
    | some [_, (_, w)] => { d with sb := some { sb with current_era := 6, current_writeset := ⟨wsBits w, wsRoot w⟩ } }
    | _ => d

def currentDoc : List EEv := eraDoc { demoSb with currentEra := 5 } [(4, 200, []), (5, 200, [(0, 3), (190, 2)])] []

example : (shown (after currentDoc fun d => (match dump false (withCurrent d) with | .ok e => some e | .error _ => none))).1 =
    [(4, 200, []), (5, 200, [(0, 3), (190, 2)]), (6, 200, [(0, 3), (190, 2)])] := by decide +kernel

/-- blocks 63 and 64, which are in different words; restored one by one, as they come from a document of `era_dump` -/
def crossDoc (bits : Nat) : List EEv := eraDoc ⟨[], 128, bits, 6⟩ [(6, bits, [(63, 1), (64, 1)])] []

/-- C63 is false if a range crosses a multiple of 64: repairing marks all blocks of the next word … -/
theorem repair_crossing_refuted : (shown (dumped (crossDoc 200))).1 = [(6, 200, [(63, 2)])] ∧
    (shown (repaired (crossDoc 200))).1 = [(6, 200, [(63, 129)])] := by decide +kernel

/-- … or fails, here because there is no next word. -/
theorem repair_crossing_fails_refuted : (shown (dumped (crossDoc 128))).1 = [(6, 128, [(63, 2)])] ∧
    repaired (crossDoc 128) = none := by decide +kernel

/-- C62 needs consecutive eras: metadata without a writeset for the current era, which `era_restore` writes and `era_check` accepts, cannot be dumped
(nor repaired). -/
theorem dump_gap_refuted : dumped (eraDoc ⟨[], 128, 200, 7⟩ [(5, 200, [])] []) = none ∧
    after (eraDoc ⟨[], 128, 200, 7⟩ [(5, 200, [])] []) (fun d => some (EraC.check false d)) = some none := by decide +kernel

/-- and no blocks at all is a panic: the era array has no entries. -/
theorem dump_empty_refuted : after (eraDoc ⟨[], 128, 0, 7⟩ [] []) (fun d => some (match dump false d with | .ok _ => none | .error e => some e)) =
    some (some .panic) := by decide +kernel

end Verif.EraD
