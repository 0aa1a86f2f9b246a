import Verif.Model.EraDump
import Verif.Prop.Damage
import Verif.Prop.EraLogical
import Verif.Prop.BitScan
import Verif.Prop.EraRestoreCheck

/-!
# C62: `era_dump` reports the era metadata exactly

`Metadata` says what is on the device: the writesets, the marks of each, and the era of each block.  `dump_exact` says what is dumped.
-/

namespace Verif.EraD

open Verif.BT (Blk Tree KeyRange)
open Verif.Arr (ASt divUp chunk Stored)
open Verif.Bits (ABlock readBitset goodLeaf visitCollect collectWords)
open Verif.CacheM (Dev DErr devOf InBlocks walkIndex leavesOf collectBlocks walkBlocks walk_stored collect_stored walk_array)
open Verif.EraC (EDev wsWord wsBits wsRoot eraImage)
open Verif.EraR (bitAt)
open Verif.EraT (eraDoc)
open Verif.Xml (EEv ESb)
open Verif.Rng (Exactly)

/-! ## Reading a bitset -/

theorem visitEntries_inv {read : Nat → Option ABlock} {S : Type} {visit : Nat → ABlock → S → Bool × S} {P : S → Prop} (es : List (Nat × Nat)) :
    ∀ (n : Nat) (s : S), P s → (∀ e ∈ es, ∃ b, read e.2 = some b ∧ ∀ s, P s → (visit e.1 b s).1 = true ∧ P (visit e.1 b s).2) →
    (Bits.visitEntries read visit es (n, s)).1 = n ∧ P (Bits.visitEntries read visit es (n, s)).2 := by
  induction es with
  | nil => intro n s h _; exact ⟨rfl, h⟩
  | cons e es ih =>
    intro n s hs h
    obtain ⟨k, v⟩ := e
    obtain ⟨b, hb, hv⟩ := h (k, v) (by simp)
    simp only at hb hv
    unfold Bits.visitEntries
    simp only [hb, (hv s hs).1, if_true]
    exact ih _ _ (hv s hs).2 (fun e he => h e (by simp [he]))

theorem walkLeaves_inv {read : Nat → Option ABlock} {S : Type} {visit : Nat → ABlock → S → Bool × S} {P : S → Prop}
    (ls : List (KeyRange × List (Nat × Nat))) : ∀ (n : Nat) (s : S), P s → (∀ l ∈ ls, goodLeaf l.1 l.2 = true) →
    (∀ e ∈ ls.flatMap (·.2), ∃ b, read e.2 = some b ∧ ∀ s, P s → (visit e.1 b s).1 = true ∧ P (visit e.1 b s).2) →
    (Bits.walkLeaves read visit ls (n, s)).1 = n ∧ P (Bits.walkLeaves read visit ls (n, s)).2 := by
  induction ls with
  | nil => intro n s h _ _; exact ⟨rfl, h⟩
  | cons l ls ih =>
    intro n s hs hg h
    obtain ⟨kr, es⟩ := l
    have g : goodLeaf kr es = true := hg (kr, es) (by simp)
    unfold Bits.walkLeaves
    rw [if_pos g]
    have h1 := visitEntries_inv (read := read) (visit := visit) (P := P) es n s hs (fun e he => h e (by simp [he]))
    generalize Bits.visitEntries read visit es (n, s) = r at h1
    obtain ⟨m, s'⟩ := r
    obtain ⟨h1, h2⟩ := h1
    simp only at h1 h2
    subst h1
    exact ih _ _ h2 (fun l hl => hg l (by simp [hl])) (fun e he => h e (by rw [List.flatMap_cons, List.mem_append]; exact Or.inr he))

/-- a list of words under construction -/
def Words (m : Nat) (ws : List Nat) : Prop := ws.length = m ∧ ∀ w ∈ ws, w < 2 ^ 32

theorem Words.set {m : Nat} {ws : List Nat} (h : Words m ws) (i : Nat) {v : Nat} (hv : v < 2 ^ 32) : Words m (ws.set i v) :=
  ⟨by rw [List.length_set]; exact h.1, fun w hw => by
    rcases List.mem_or_eq_of_mem_set hw with hw | rfl
    · exact h.2 w hw
    · exact hv⟩

theorem collectWords_some (idxEnd : Nat) (es : List Nat) : ∀ idx ws, Words idxEnd ws → (∀ e ∈ es, e < 2 ^ 64) → idx + 2 * es.length ≤ idxEnd + 1 →
    ∃ ws', collectWords idxEnd es idx ws = some ws' ∧ Words idxEnd ws' := by
  induction es with
  | nil => intro idx ws h _ _; exact ⟨ws, rfl, h⟩
  | cons e es ih =>
    intro idx ws h he hl
    rw [List.length_cons] at hl
    have he1 : e >>> 32 < 2 ^ 32 := by
      have := he e (by simp)
      rw [Nat.shiftRight_eq_div_pow]
      omega
    unfold collectWords Bits.putWord
    rw [if_pos (by rw [h.1]; omega)]
    simp only
    have h1 := h.set idx (Nat.mod_lt e (Nat.two_pow_pos 32))
    by_cases hend : idx + 1 = idxEnd
    · rw [if_pos hend]; exact ⟨_, rfl, h1⟩
    · rw [if_neg hend, if_pos (by rw [h1.1]; omega)]
      exact ih _ _ (h1.set _ he1) (fun x hx => he x (by simp [hx])) (by omega)

/-- the bits of the blocks of a bitset -/
theorem stored_bits {epb nrBits n : Nat} (he : 0 < epb) {a : Nat → Nat} {root : Nat} {s : ASt Nat} {h : Nat} {t : Tree Nat h}
    {blocks : List Nat} (hs : Stored epb (divUp nrBits 64) n a root s h t blocks) {i : Nat} (hi : i / 64 < divUp nrBits 64) :
    Bits.stored (fun b => (s.readArr b).map (ABlock.mk epb)) epb ((List.range blocks.length).zip blocks) i = some (bitAt a i) := by
  have hk : i / (64 * epb) < blocks.length := by
    rw [hs.count, Arr.lt_divUp he, ← Nat.div_div_eq_div_mul]
    exact Nat.lt_of_le_of_lt (Nat.div_mul_le_self _ _) hi
  unfold Bits.stored
  have hf : ((List.range blocks.length).zip blocks).find? (fun e => e.1 == i / (64 * epb)) = some (i / (64 * epb), blocks[i / (64 * epb)]) := by
    cases hfe : ((List.range blocks.length).zip blocks).find? (fun e => e.1 == i / (64 * epb)) with
    | none =>
      have := List.find?_eq_none.mp hfe (i / (64 * epb), blocks[i / (64 * epb)]) (by
        rw [List.mem_iff_getElem]
        exact ⟨i / (64 * epb), by simpa using hk, by simp⟩)
      simp at this
    | some e =>
      have h1 := List.find?_some hfe
      have h2 := List.mem_of_find?_eq_some hfe
      obtain ⟨k, hk', rfl⟩ := List.mem_iff_getElem.mp h2
      have h1 : k = i / (64 * epb) := by simpa using h1
      subst h1
      simp
  rw [hf]
  simp only [hs.values _ hk, Option.map_some]
  have hdiv : i / (64 * epb) = i / 64 / epb := by rw [Nat.div_div_eq_div_mul]
  rw [hdiv, Arr.chunk_get a hi he]
  rfl

/-- C62: a stored bitset of 64-bit words is read, and its bits are those stored -/
theorem readSet_stored {epb epb4 n : Nat} (he : 0 < epb) {w : Nat} {a : Nat → Nat} {s : ASt Nat} {B : List Nat}
    (hs : InBlocks epb (divUp (wsBits w) 64) n a (wsRoot w) s B) (hw : ∀ k, k < divUp (wsBits w) 64 → a k < 2 ^ 64) :
    ∃ words, readSet (devOf epb epb4 n s) w = some words ∧ words.length = divUp (wsBits w) 32 ∧ (∀ x ∈ words, x < 2 ^ 32) ∧
      ∀ i, i < divUp (wsBits w) 32 * 32 → Scan.bitOf 32 words i = bitAt a i := by
  obtain ⟨h, t, bs, hs, -⟩ := hs
  have W := walk_stored hs (devOf epb epb4 n s) rfl rfl
  have hread : ∀ k (hk : k < bs.length), (devOf epb epb4 n s).words bs[k] = some ⟨epb, chunk epb (divUp (wsBits w) 64) a k⟩ := by
    intro k hk
    show (s.readArr _).map _ = _
    rw [hs.values k hk]; rfl
  have hmem : ∀ e ∈ (List.range bs.length).zip bs, ∃ hk : e.1 < bs.length, e.2 = bs[e.1] := by
    intro e he
    obtain ⟨k, hk, rfl⟩ := List.mem_iff_getElem.mp he
    simp only [List.length_zip, List.length_range, Nat.min_self] at hk
    exact ⟨by simpa using hk, by simp⟩
  have hinv := walkLeaves_inv (read := (devOf epb epb4 n s).words) (visit := visitCollect (wsBits w)) (P := Words (divUp (wsBits w) 32))
    (leavesOf (walkIndex (devOf epb epb4 n s) (wsRoot w)).1.log) 0 (List.replicate (divUp (wsBits w) 32) 0)
    ⟨List.length_replicate, fun x hx => by rw [(List.mem_replicate.mp hx).2]; exact Nat.two_pow_pos 32⟩ W.good (by
      rw [W.flat]
      intro e he'
      obtain ⟨hk, e2⟩ := hmem e he'
      refine ⟨_, by rw [e2]; exact hread _ hk, fun ws hws => ?_⟩
      have hlt : e.1 * epb < divUp (wsBits w) 64 := by rw [hs.count] at hk; exact (Arr.lt_divUp he).mp hk
      obtain ⟨ws', c1, c2⟩ := collectWords_some (divUp (wsBits w) 32) (chunk epb (divUp (wsBits w) 64) a e.1) ((e.1 * epb) <<< 1) ws hws
        (by
          intro x hx
          unfold chunk at hx
          obtain ⟨j, hj, rfl⟩ := List.mem_map.mp hx
          have hj := List.mem_range.mp hj
          exact hw _ (by omega))
        (by
          rw [Arr.chunk_length, Nat.shiftLeft_eq]
          have : 2 * divUp (wsBits w) 64 ≤ divUp (wsBits w) 32 + 1 := by unfold divUp; omega
          omega)
      unfold visitCollect
      simp only [c1]
      exact ⟨trivial, c2⟩)
  obtain ⟨ws, hws⟩ : ∃ ws, Bits.walkLeaves (devOf epb epb4 n s).words (visitCollect (wsBits w))
      (leavesOf (walkIndex (devOf epb epb4 n s) (wsRoot w)).1.log) (0, List.replicate (divUp (wsBits w) 32) 0) = (0, ws) := ⟨_, Prod.ext hinv.1 rfl⟩
  rw [hws] at hinv
  have hrb : readBitset (devOf epb epb4 n s).words (wsBits w) (leavesOf (walkIndex (devOf epb epb4 n s) (wsRoot w)).1.log) = some ws := by
    unfold readBitset
    simp only [hws]
  refine ⟨ws, ?_, hinv.2.1, hinv.2.2, fun i hi => ?_⟩
  · unfold readSet
    simp only [W.ok, if_true, hrb]
  · -- the words are read to the end, also beyond the last bit
    have hd : divUp (divUp (wsBits w) 32 * 32) 32 = divUp (wsBits w) 32 := by unfold divUp; omega
    have hrb' : readBitset (devOf epb epb4 n s).words (divUp (wsBits w) 32 * 32) (leavesOf (walkIndex (devOf epb epb4 n s) (wsRoot w)).1.log) = some ws := by
      rw [← hrb]
      unfold readBitset visitCollect
      rw [hd]
    obtain ⟨-, -, hb⟩ := Bits.readBitset_exact _ (divUp (wsBits w) 32 * 32) epb he _ (by
      rw [W.flat]
      intro e he' b hb
      obtain ⟨hk, e2⟩ := hmem e he'
      rw [e2, hread _ hk] at hb
      cases hb
      refine ⟨rfl, ?_⟩
      rw [Arr.chunk_length]
      omega) (by rw [W.flat, CacheM.zip_keys]; exact List.nodup_range') ws hrb'
    have := hb i hi
    rw [W.flat] at this
    rw [show Scan.bitOf 32 ws i = Bits.bit ws i from rfl, this]
    show (Bits.stored (fun b => (s.readArr b).map (ABlock.mk epb)) epb _ i).getD false = _
    rw [stored_bits he hs (by unfold divUp at hi ⊢; omega)]
    rfl

/-- C62: the dump of one writeset -/
theorem dumpWriteset_stored {epb epb4 n : Nat} (he : 0 < epb) {w : Nat} {a : Nat → Nat} {s : ASt Nat} {B : List Nat}
    (hs : InBlocks epb (divUp (wsBits w) 64) n a (wsRoot w) s B) (hw : ∀ k, k < divUp (wsBits w) 64 → a k < 2 ^ 64) (era : Nat) :
    ∃ rs, dumpWriteset (devOf epb epb4 n s) era w = .ok (EraT.wsEvents (era, wsBits w, rs)) ∧
      Exactly (fun i => i < wsBits w ∧ bitAt a i = true) rs := by
  obtain ⟨words, h1, h2, h3, h4⟩ := readSet_stored (epb4 := epb4) he hs hw
  obtain ⟨rs, g1, g2⟩ := Scan.markedRanges_exact 32 (wsBits w) (by decide) words h3 (by
    rw [h2]; exact Scan.words_enough 32 _ (by decide))
  have hle : ∀ i, i < wsBits w → i < divUp (wsBits w) 32 * 32 := fun i hi => by unfold divUp; omega
  refine ⟨rs, ?_, g2.congr fun i => ?_⟩
  · unfold dumpWriteset
    simp only [h1, g1]
    rfl
  · constructor
    · rintro ⟨h, h'⟩; exact ⟨h, by rw [← h4 i (hle i h)]; exact h'⟩
    · rintro ⟨h, h'⟩; exact ⟨h, by rw [h4 i (hle i h)]; exact h'⟩

/-! ## Metadata -/

/-- the writeset of the current era, if the superblock has a root for it: bits and root in the form of an archived one -/
def openSet (sb : Era.Superblock) : Option Nat :=
  if sb.current_writeset.root = 0 then none else some (sb.current_writeset.nr_bits + sb.current_writeset.root * 2 ^ 32)

theorem currentSet_open (sb : Era.Superblock) : currentSet sb = openSet sb := by
  unfold currentSet openSet
  by_cases h : sb.current_writeset.root = 0
  · rw [if_neg (by simpa using h), if_pos h]
  · rw [if_pos h, if_neg h]; rfl

/-- Era metadata on a device of `n` blocks: `tree` are the archived writesets (era, and bits and root as stored), `sets` all writesets, with the
current one if there is one, their eras are consecutive and end with the current one; `words e` are the 64-bit words of the bitset of era `e`; the
era array has `nr` entries `ae`. -/
structure Metadata (epb8 epb4 n nr : Nat) (sb : Era.Superblock) (s : ASt Nat) (tree sets : List (Nat × Nat)) (words : Nat → Nat → Nat)
    (ae : Nat → Nat) : Prop where
  archived : ∃ (h : Nat) (t : Tree Nat h), LW.Clean s.bt.mem n h t ∧ t.blk h = sb.writeset_tree_root ∧ t.contents h = tree
  all : EraL.AllSets tree sb.current_era (openSet sb) sets
  few : sets.length ≤ sb.current_era + 1
  fresh : openSet sb ≠ none → ∀ p ∈ tree, p.1 ≠ sb.current_era
  era32 : sb.current_era < 2 ^ 32
  bitsets : ∀ p ∈ sets, ∃ B, InBlocks epb8 (divUp (wsBits p.2) 64) n (words p.1) (wsRoot p.2) s B
  wordsFit : ∀ p ∈ sets, ∀ k, k < divUp (wsBits p.2) 64 → words p.1 k < 2 ^ 64
  eras : ∃ Be, InBlocks epb4 nr n ae sb.era_array_root s Be
  size : nr < 2 ^ 32
  eras32 : ∀ b, b < nr → ae b < 2 ^ 32

theorem Metadata.keys {epb8 epb4 n nr : Nat} {sb : Era.Superblock} {s : ASt Nat} {tree sets : List (Nat × Nat)} {words : Nat → Nat → Nat}
    {ae : Nat → Nat} (M : Metadata epb8 epb4 n nr sb s tree sets words ae) : EraL.Keys sets := by
  have : (sets.map (·.1)).Pairwise (· < ·) := by rw [M.all.keys]; exact List.pairwise_lt_range'
  rwa [List.pairwise_map] at this

/-- the writesets are found, in order -/
theorem writesets_stored {epb8 epb4 n nr : Nat} {sb : Era.Superblock} {s : ASt Nat} {tree sets : List (Nat × Nat)} {words : Nat → Nat → Nat}
    {ae : Nat → Nat} (M : Metadata epb8 epb4 n nr sb s tree sets words ae) (osb : Option Era.Superblock) :
    writesets (eraImage epb8 epb4 n osb s) sb = some sets := by
  obtain ⟨h, t, t1, t2, t3⟩ := M.archived
  have ht : EraL.Keys tree := by rw [← t3]; exact LW.ordered_sorted h t 0 none t1.ordered
  have hm : LW.btreeToMap (eraImage epb8 epb4 n osb s).wsRd (eraImage epb8 epb4 n osb s).dev.nr sb.writeset_tree_root = some tree := by
    rw [← t2, ← t3]; exact LW.btreeToMap_contents t1
  have hlen : sets.length = tree.length + (openSet sb).toList.length := by
    have k := M.keys
    have hall := M.all.mem
    have hfr := M.fresh
    cases hc : openSet sb with
    | none =>
      rw [hc] at hall
      have h1 := EraL.subset_length k (m := tree) (fun p hp => by simpa using (hall p).mp hp)
      have h2 := EraL.subset_length ht (m := sets) (fun p hp => (hall p).mpr (Or.inl hp))
      simp; omega
    | some w =>
      rw [hc] at hall hfr
      have hi := EraL.keys_insertKey sb.current_era w tree ht (hfr (by simp))
      have hmem : ∀ p, p ∈ sets ↔ p ∈ EraL.insertKey sb.current_era w tree := by
        intro p
        rw [hall, EraL.mem_insertKey]
        constructor
        · rintro (h | ⟨h1, h2⟩)
          · exact Or.inr h
          · left; cases h2; rw [← h1]
        · rintro (rfl | h)
          · exact Or.inr ⟨rfl, rfl⟩
          · exact Or.inl h
      have h1 := EraL.subset_length k (m := EraL.insertKey sb.current_era w tree) (fun p hp => (hmem p).mp hp)
      have h2 := EraL.subset_length hi (m := sets) (fun p hp => (hmem p).mpr hp)
      rw [EraL.length_insertKey] at h1 h2
      simp; omega
  unfold writesets
  rw [hm, currentSet_open]
  simp only
  exact (EraL.ordered_iff ht M.era32 (openSet sb) (by have := M.few; omega) sets).mpr ⟨M.keys, hlen, M.all⟩

theorem dumpWritesets_stored {epb8 epb4 n : Nat} (he : 0 < epb8) {s : ASt Nat} {words : Nat → Nat → Nat} : ∀ (sets : List (Nat × Nat)),
    (∀ p ∈ sets, ∃ B, InBlocks epb8 (divUp (wsBits p.2) 64) n (words p.1) (wsRoot p.2) s B) →
    (∀ p ∈ sets, ∀ k, k < divUp (wsBits p.2) 64 → words p.1 k < 2 ^ 64) → ∀ (rs : Nat → List (Nat × Nat)),
    (∀ p ∈ sets, Exactly (fun i => i < wsBits p.2 ∧ bitAt (words p.1) i = true) (rs p.1)) →
    dumpWritesets (devOf epb8 epb4 n s) sets = .ok ((sets.map fun p => (p.1, wsBits p.2, rs p.1)).flatMap EraT.wsEvents) := by
  intro sets
  induction sets with
  | nil => intro _ _ _ _; rfl
  | cons p sets ih =>
    intro h1 h2 rs h3
    obtain ⟨B, hB⟩ := h1 p (by simp)
    obtain ⟨rs', g1, g2⟩ := dumpWriteset_stored (epb4 := epb4) he hB (h2 p (by simp)) p.1
    have : rs' = rs p.1 := g2.unique (h3 p (by simp))
    subst this
    unfold dumpWritesets
    simp only [g1, ih (fun q hq => h1 q (by simp [hq])) (fun q hq => h2 q (by simp [hq])) rs (fun q hq => h3 q (by simp [hq]))]
    rw [List.map_cons, List.flatMap_cons]

theorem dumpEras_stored {epb8 epb4 n nr : Nat} (he : 0 < epb4) (h0 : 0 < nr) (h32 : nr < 2 ^ 32) {s : ASt Nat} {ae : Nat → Nat} {root : Nat} {Be : List Nat}
    (hs : InBlocks epb4 nr n ae root s Be) {visit : Nat → ABlock → Except DErr (List EEv)} (F : Nat → Nat → EEv)
    (hv : ∀ k b, visit k b = .ok ((b.values.zip (CacheM.cblocks k b.maxEntries b.values.length)).map fun p => F p.2 p.1)) :
    dumpEras (devOf epb8 epb4 n s) visit root = .ok ((List.range nr).map fun b => F b (ae b)) := by
  obtain ⟨h, t, bs, hs, -⟩ := hs
  have hb : bs ≠ [] := by
    intro e
    have := hs.count
    rw [e] at this
    have := (Arr.lt_divUp (i := 0) he).mpr (by omega : 0 * epb4 < nr)
    simp at *
    omega
  have hm : ∀ l : List Nat, (l.map fun b => F b (ae b)) = l.flatMap fun b => [F b (ae b)] := fun l => by
    induction l with
    | nil => rfl
    | cons x l ih => rw [List.map_cons, List.flatMap_cons, ih]; rfl
  unfold dumpEras
  rw [collect_stored hs (devOf epb8 epb4 n s) rfl rfl hb, hm]
  refine walk_array he h32 hs ?_
  intro k b _ hz _
  rw [hv, hz, List.map_map, ← hm]
  rfl

/-- what is said about the eras -/
def eraList (nr : Nat) (ae : Nat → Nat) : List (Nat × Nat) := (List.range nr).map fun b => (b, ae b)

/-- **C62**: `era_dump` of undamaged metadata with at least one block succeeds and reports exactly what is there: the superblock fields, every
writeset (archived and current) in the order of the eras with exactly the maximal ranges of marked blocks, and the era of every block in order. -/
theorem dump_exact {epb8 epb4 n nr : Nat} (he8 : 0 < epb8) (he4 : 0 < epb4) (h0 : 0 < nr) {sb : Era.Superblock} {s : ASt Nat}
    {tree sets : List (Nat × Nat)} {words : Nat → Nat → Nat} {ae : Nat → Nat} (M : Metadata epb8 epb4 n nr sb s tree sets words ae)
    (rs : Nat → List (Nat × Nat)) (hrs : ∀ p ∈ sets, Exactly (fun i => i < wsBits p.2 ∧ bitAt (words p.1) i = true) (rs p.1)) :
    dump false (eraImage epb8 epb4 n (some sb) s) =
      .ok (eraDoc ⟨[], sb.data_block_size, sb.nr_blocks, sb.current_era⟩ (sets.map fun p => (p.1, wsBits p.2, rs p.1)) (eraList nr ae) ++ [.eof]) := by
  obtain ⟨Be, hBe⟩ := M.eras
  have hw := writesets_stored M (some sb)
  have h1 := dumpWritesets_stored (epb4 := epb4) he8 sets M.bitsets M.wordsFit rs hrs
  have h2 := dumpEras_stored (epb8 := epb8) he4 h0 M.size hBe (visit := visitEras) (fun b e => .era b e) (fun k b => rfl)
  unfold dump
  simp only [eraImage] at hw ⊢
  rw [hw]
  simp only [Bool.false_and, Bool.false_eq_true, if_false]
  unfold dumpMetadata
  rw [hw]
  simp only [h1, h2]
  unfold eraDoc eraList
  rw [List.map_map]
  simp [xmlSb, Function.comp_def]

/-- the era of the last writeset that marks block `b` -/
def lastMark (sets : List (Nat × Nat)) (words : Nat → Nat → Nat) (b : Nat) : Option Nat :=
  ((sets.filter fun p => decide (b < wsBits p.2) && bitAt (words p.1) b).getLast?).map (·.1)

theorem collate_get {W : Type} {rd : W → Option (List Nat)} {nrBlocks cur : Nat} {sets : List (Nat × W)} (hc : cur < 2 ^ 32) (hl : sets.length ≤ cur + 1)
    (hb : ∀ w ∈ sets, ∀ bits, rd w.2 = some bits → ∀ n ∈ bits, n < 2 ^ 32) (hk : sets.map (·.1) = List.range' (cur + 1 - sets.length) sets.length)
    (h0 : sets ≠ []) {a : EraL.Archive} (h : EraL.collate rd nrBlocks sets = some a) (x : Nat) : a.get x = EraL.lastSet rd sets x := by
  unfold EraL.collate at h
  have hpos : 0 < sets.length := List.length_pos_iff.mpr h0
  have hhead : (sets.head?.map (·.1)).getD 0 = cur + 1 - sets.length := by
    cases sets with
    | nil => exact absurd rfl h0
    | cons w ws =>
      rw [List.length_cons, List.range'_succ, List.map_cons, List.cons.injEq] at hk
      simp only [List.head?_cons, Option.map_some, Option.getD_some, List.length_cons]
      exact hk.1
  rw [hhead] at h
  have := EraL.collateFrom_spec (begin' := cur + 1 - sets.length) sets 0 _ a hb (by simpa using hk) (by omega) (EraL.newArchive_digested _ _ _) h x
  rw [this, EraL.newArchive_get, Option.or_none]

theorem filter_congr' {α : Type} {p q : α → Bool} : ∀ {l : List α}, (∀ a ∈ l, p a = q a) → l.filter p = l.filter q := by
  intro l
  induction l with
  | nil => intro _; rfl
  | cons a l ih =>
    intro h
    rw [List.filter_cons, List.filter_cons, h a (by simp), ih fun b hb => h b (by simp [hb])]

/-- **C62**, C51: `era_dump --logical`: for every block the era of the last writeset that marks it, or else the era recorded in the array.  The
bitsets must have no bits set after their end, and mark only blocks of the device. -/
theorem dumpLogical_exact {epb8 epb4 n nr : Nat} (he8 : 0 < epb8) (he4 : 0 < epb4) (h0 : 0 < nr) {sb : Era.Superblock} {s : ASt Nat}
    {tree sets : List (Nat × Nat)} {words : Nat → Nat → Nat} {ae : Nat → Nat} (M : Metadata epb8 epb4 n nr sb s tree sets words ae) (hne : sets ≠ [])
    (hmany : sets.length < 2 ^ 32 - 1) (hin : ∀ p ∈ sets, wsBits p.2 ≤ sb.nr_blocks)
    (hend : ∀ p ∈ sets, ∀ i, wsBits p.2 ≤ i → i < divUp (wsBits p.2) 32 * 32 → bitAt (words p.1) i = false) :
    dump true (eraImage epb8 epb4 n (some sb) s) =
      .ok (eraDoc ⟨[], sb.data_block_size, sb.nr_blocks, sb.current_era⟩ []
        (eraList nr fun b => (lastMark sets words b).getD (ae b)) ++ [.eof]) := by
  obtain ⟨Be, hBe⟩ := M.eras
  have hw := writesets_stored M (some sb)
  have hrd : ∀ p ∈ sets, ∃ bits, readSet (devOf epb8 epb4 n s) p.2 = some bits ∧ (∀ x ∈ bits, x < 2 ^ 32) ∧
      ∀ i, Scan.bitOf 32 bits i = (decide (i < wsBits p.2) && bitAt (words p.1) i) := by
    intro p hp
    obtain ⟨B, hB⟩ := M.bitsets p hp
    obtain ⟨ws, r1, r2, r3, r4⟩ := readSet_stored (epb4 := epb4) he8 hB (M.wordsFit p hp)
    refine ⟨ws, r1, r3, fun i => ?_⟩
    by_cases hi : i < divUp (wsBits p.2) 32 * 32
    · rw [r4 i hi]
      by_cases hi' : i < wsBits p.2
      · simp [hi']
      · rw [hend p hp i (by omega) hi]; simp
    · have : ¬ i < wsBits p.2 := by unfold divUp at hi; omega
      unfold Scan.bitOf
      rw [List.getElem?_eq_none (by rw [r2]; unfold divUp at hi ⊢; omega)]
      simp [this]
  obtain ⟨a, ha⟩ : ∃ a, EraL.collate (readSet (devOf epb8 epb4 n s)) sb.nr_blocks sets = some a := by
    have h1 := EraL.newArchive_len sb.nr_blocks ((sets.head?.map (·.1)).getD 0) sets.length
    have h2 := EraL.newArchive_wmax (nr := sb.nr_blocks) (b := (sets.head?.map (·.1)).getD 0) hmany
    unfold EraL.collate
    generalize EraL.newArchive sb.nr_blocks ((sets.head?.map (·.1)).getD 0) sets.length = A at h1 h2
    refine EraL.collateFrom_ok (nr := sb.nr_blocks) sets 0 A (fun p hp => ?_) h1 (by rw [Nat.zero_add]; exact h2)
    obtain ⟨bits, r1, r2, r3⟩ := hrd p hp
    refine ⟨bits, r1, r2, fun x hx => ?_⟩
    rw [r3] at hx
    have := hin p hp
    simp only [Bool.and_eq_true, decide_eq_true_eq] at hx
    omega
  have hget : ∀ x, a.get x = lastMark sets words x := by
    intro x
    rw [collate_get M.era32 M.few (fun p hp bits hb => by
      obtain ⟨bits', r1, r2, -⟩ := hrd p hp
      rw [r1] at hb; cases hb; exact r2) M.all.keys hne ha x]
    unfold EraL.lastSet lastMark
    congr 2
    apply filter_congr'
    intro p hp
    obtain ⟨bits, r1, -, r3⟩ := hrd p hp
    unfold EraL.inSet
    simp only [r1, r3]
  have h2 := dumpEras_stored (epb8 := epb8) he4 h0 M.size hBe (visit := visitLogical a) (fun b e => .era b ((lastMark sets words b).getD e)) (fun k b => by
    unfold visitLogical
    congr 1
    apply List.map_congr_left
    intro p _
    rw [hget]
    cases lastMark sets words p.2 <;> rfl)
  unfold dump
  simp only [eraImage] at hw ⊢
  rw [hw]
  have hemp : sets.isEmpty = false := by cases sets with | nil => exact absurd rfl hne | cons _ _ => rfl
  simp only [hemp, Bool.true_and, Bool.not_false, if_true]
  unfold dumpMetadataLogical
  rw [hw]
  simp only [ha, h2]
  unfold eraDoc eraList
  rw [List.map_map]
  simp [xmlSb, Function.comp_def]

/-! ## Any metadata -/

theorem readSet_sound {d : Dev} (hrd : ∀ b n, d.rd false b = some n → d.rd true b = some n) {w : Nat} {ws : List Nat} (h : readSet d w = some ws) :
    CacheM.ArrayRead d d.words (wsRoot w) := by
  unfold readSet at h
  simp only at h
  by_cases hok : (CacheM.walkIndex d (wsRoot w)).2 = .ok
  · rw [if_pos hok] at h
    unfold Bits.readBitset at h
    split at h
    · next ws' hw =>
      have h0 := congrArg Prod.fst hw
      unfold CacheM.walkIndex at hok h0
      have hcov := BT.walk_ok_covers (fun b => decide (b < d.nr)) d.rd hrd CacheM.arrayVis d.nr 1 (by omega) true (d.nr + 1) [0] (wsRoot w) hok
      have hz := CacheM.walkLeaves_zero h0
      refine ⟨(LW.walk_accepted hrd hok).readable, fun b es hb hl e he => ⟨b, es, e.2, hb, hl, he, ?_⟩⟩
      have := hcov b hb
      unfold BT.Covered at this
      rw [hl] at this
      obtain ⟨pre, post, path, kr, hlog, -⟩ := this
      exact hz (kr, es) (CacheM.leavesOf_mem (p := path ++ [b]) (by rw [hlog]; simp)) e he
    · cases h
  · rw [if_neg hok] at h; cases h

theorem dumpWritesets_sound {d : Dev} (hrd : ∀ b n, d.rd false b = some n → d.rd true b = some n) : ∀ (sets : List (Nat × Nat)) (evs : List EEv),
    dumpWritesets d sets = .ok evs → ∀ p ∈ sets, CacheM.ArrayRead d d.words (wsRoot p.2) := by
  intro sets
  induction sets with
  | nil => intro _ _ p hp; cases hp
  | cons e l ih =>
    intro evs h p hp
    unfold dumpWritesets at h
    cases h1 : dumpWriteset d e.1 e.2 with
    | error x => rw [h1] at h; cases h
    | ok evs1 =>
      rw [h1] at h
      simp only at h
      cases h2 : dumpWritesets d l with
      | error x => rw [h2] at h; cases h
      | ok evs2 =>
        rcases List.mem_cons.mp hp with rfl | hp
        · unfold dumpWriteset at h1
          cases h3 : readSet d p.2 with
          | none => rw [h3] at h1; cases h1
          | some ws => exact readSet_sound hrd h3
        · exact ih evs2 h2 p hp

theorem dumpEras_sound {d : Dev} (hrd : ∀ b n, d.rd false b = some n → d.rd true b = some n) {visit : Nat → ABlock → Except CacheM.DErr (List EEv)}
    {root : Nat} {evs : List EEv} (h : dumpEras d visit root = .ok evs) : CacheM.ArrayRead d d.hints root := by
  unfold dumpEras at h
  cases hc : CacheM.collectBlocks d root with
  | error e => rw [hc] at h; cases h
  | ok m => simp only [hc] at h; exact CacheM.walked_read hrd hc h

/-- **C62**, damaged metadata: `era_dump` succeeds only if everything it dumps can be read: superblock, the tree of writesets, the index and all blocks
of every writeset's bitset, and those of the era array.  (`sets` are all writesets, with the current one.) -/
theorem dump_sound {d : EDev} (hrd : ∀ b n, d.dev.rd false b = some n → d.dev.rd true b = some n)
    (hwr : ∀ b n, d.wsRd false b = some n → d.wsRd true b = some n) {evs : List EEv} (h : dump false d = .ok evs) :
    ∃ sb m sets, d.sb = some sb ∧ LW.ReadFrom d.wsRd d.dev.nr sb.writeset_tree_root m ∧ EraL.ordered m sb.current_era (openSet sb) = some sets ∧
      (∀ p ∈ sets, CacheM.ArrayRead d.dev d.dev.words (wsRoot p.2)) ∧ CacheM.ArrayRead d.dev d.dev.hints sb.era_array_root := by
  unfold dump at h
  cases hsb : d.sb with
  | none => rw [hsb] at h; cases h
  | some sb =>
    rw [hsb] at h
    simp only at h
    cases hw : writesets d sb with
    | none => rw [hw] at h; cases h
    | some sets =>
      rw [hw] at h
      simp only [Bool.false_and, Bool.false_eq_true, if_false] at h
      unfold dumpMetadata at h
      rw [hw] at h
      simp only at h
      unfold writesets at hw
      cases hm : LW.btreeToMap d.wsRd d.dev.nr sb.writeset_tree_root with
      | none => rw [hm] at hw; cases hw
      | some m =>
        rw [hm] at hw
        simp only [currentSet_open] at hw
        cases h1 : dumpWritesets d.dev sets with
        | error x => rw [h1] at h; cases h
        | ok ws =>
          rw [h1] at h
          simp only at h
          cases h2 : dumpEras d.dev visitEras sb.era_array_root with
          | error x => rw [h2] at h; cases h
          | ok es => exact ⟨sb, m, sets, rfl, LW.btreeToMap_sound hwr hm, hw, dumpWritesets_sound hrd sets ws h1, dumpEras_sound hrd h2⟩

end Verif.EraD
