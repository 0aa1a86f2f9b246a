import Verif.Prop.CacheCheck

/-!
# C34 and C53: `cache_check` as a whole

`Layout` says what undamaged cache metadata looks like; its arrays do not share blocks.  `Consistent` (of `Prop/CacheCheck.lean`) says when
the mappings in it make sense.
-/

namespace Verif.CacheM

open Verif.BT (Blk Tree KeyRange Event WSt)
open Verif.Bits (ABlock goodLeaf Checked walkLeaves visitChecked)
open Verif.Arr (Stored ASt chunk divUp)
open Verif.SMD (SVal)

/-- the flag values and the dirty bits of a version -/
def flagsOf (version : Nat) : Nat := if version = 1 then 4 else 2

theorem maps1_stored {epb8 epb4 nr n : Nat} (he : 0 < epb8) {am : Nat → Nat} {root : Nat} {s : ASt Nat} {Bm : List Nat}
    (hm : InBlocks epb8 nr n am root s Bm) (origin : Option Nat) {seen : Nat → Nat} (hnd : Bm.Nodup) (hz : ∀ x ∈ Bm, seen x = 0) :
    (Consistent 4 (origin.getD (2 ^ 48)) nr am (fun c => (ofWord (am c)).isDirty) →
      ∃ b, walkArray (devOf epb8 epb4 n s) (devOf epb8 epb4 n s).maps (visitMap1 (newChecker origin).1) root (newChecker origin).2 seen = .ok (b, counted Bm seen) ∧
        b.bad = false) ∧
    (¬ Consistent 4 (origin.getD (2 ^ 48)) nr am (fun c => (ofWord (am c)).isDirty) →
      walkArray (devOf epb8 epb4 n s) (devOf epb8 epb4 n s).maps (visitMap1 (newChecker origin).1) root (newChecker origin).2 seen = .error .err) := by
  obtain ⟨h, t, bs, hs, rfl⟩ := hm
  obtain ⟨ls, l1, l2, l3, l4, l5⟩ := walkArray_stored hs (devOf epb8 epb4 n s) rfl rfl hnd hz
  have ex := maps1_exact (devOf epb8 epb4 n s) origin root seen
  have hr : Readable (devOf epb8 epb4 n s) (devOf epb8 epb4 n s).maps root seen := by
    refine ⟨l4, by rw [l1]; exact l2, ?_⟩
    rw [l1, l3]
    exact readable_stored hs
  have hsh : shown (devOf epb8 epb4 n s).maps cont1 ((seenLeaves (devOf epb8 epb4 n s) root seen).flatMap (·.2)) = (List.range nr).map fun c => (am c, 0) := by
    rw [l1, l3]
    refine shown_stored he hs (g := fun _ => 0) ?_
    intro k b _ _ hv
    unfold cont1
    rw [hv]
    unfold chunk
    rw [List.range'_eq_map_range, List.map_map, List.map_map]
    rfl
  rw [hsh, listOk_iff (g := fun _ => 0)] at ex
  have l5 := l5 (devOf epb8 epb4 n s).maps _ (visitMap1 (newChecker origin).1) (newChecker origin).2
  constructor
  · intro hc
    have hne := ex.mpr ⟨hr, hc⟩
    rw [l5] at hne
    split at l5
    · refine ⟨_, l5, maps1_notBad l5⟩
    · next h0 => rw [if_neg h0] at hne; exact absurd rfl hne
  · intro hc
    apply Classical.byContradiction
    intro hne
    exact hc (ex.mp hne).2

theorem maps2_stored {epb8 epb4 nr n : Nat} (he : 0 < epb8) (h32 : nr < 2 ^ 32) {am : Nat → Nat} {root : Nat} {s : ASt Nat} {Bm : List Nat}
    (hm : InBlocks epb8 nr n am root s Bm) (origin : Option Nat) {bits : Checked} {dirty : Nat → Bool} (hb : ∀ c, c < nr → bits c = some (dirty c))
    {seen : Nat → Nat} (hnd : Bm.Nodup) (hz : ∀ x ∈ Bm, seen x = 0) :
    (Consistent 2 (origin.getD (2 ^ 48)) nr am dirty →
      ∃ b, walkArray (devOf epb8 epb4 n s) (devOf epb8 epb4 n s).maps (visitMap2 (newChecker origin).1 bits) root (newChecker origin).2 seen = .ok (b, counted Bm seen) ∧
        b.bad = false) ∧
    (¬ Consistent 2 (origin.getD (2 ^ 48)) nr am dirty →
      walkArray (devOf epb8 epb4 n s) (devOf epb8 epb4 n s).maps (visitMap2 (newChecker origin).1 bits) root (newChecker origin).2 seen = .error .err) := by
  obtain ⟨h, t, bs, hs, rfl⟩ := hm
  obtain ⟨ls, l1, l2, l3, l4, l5⟩ := walkArray_stored hs (devOf epb8 epb4 n s) rfl rfl hnd hz
  have ex := maps2_exact (devOf epb8 epb4 n s) origin bits root seen
  have hr : Readable (devOf epb8 epb4 n s) (devOf epb8 epb4 n s).maps root seen := by
    refine ⟨l4, by rw [l1]; exact l2, ?_⟩
    rw [l1, l3]
    exact readable_stored hs
  have hsh : shown (devOf epb8 epb4 n s).maps cont2 ((seenLeaves (devOf epb8 epb4 n s) root seen).flatMap (·.2)) = (List.range nr).map fun c => (am c, c) := by
    rw [l1, l3]
    refine shown_stored he hs (g := fun c => c) ?_
    intro k b hk hm hv
    unfold cont2
    rw [hv, hm]
    exact chunk_zip epb8 nr k am he hk h32
  rw [hsh, listOk_iff (g := fun c => c)] at ex
  have hcc : Consistent 2 (origin.getD (2 ^ 48)) nr am (fun c => (bits c).getD false) ↔ Consistent 2 (origin.getD (2 ^ 48)) nr am dirty := by
    have hd : ∀ c, c < nr → (bits c).getD false = dirty c := fun c hc => by rw [hb c hc]; rfl
    constructor
    · intro h; exact ⟨fun c hc => by rw [← hd c hc]; exact h.each c hc, h.distinct⟩
    · intro h; exact ⟨fun c hc => by rw [hd c hc]; exact h.each c hc, h.distinct⟩
  rw [hcc] at ex
  have l5 := l5 (devOf epb8 epb4 n s).maps _ (visitMap2 (newChecker origin).1 bits) (newChecker origin).2
  constructor
  · intro hc
    have hne := ex.mpr ⟨hr, hc⟩
    rw [l5] at hne
    split at l5
    · refine ⟨_, l5, maps2_notBad l5⟩
    · next h0 => rw [if_neg h0] at hne; exact absurd rfl hne
  · intro hc
    apply Classical.byContradiction
    intro hne
    exact hc (ex.mp hne).2

theorem bits_stored {epb8 epb4 nrBits n : Nat} (he : 0 < epb8) {ad : Nat → Nat} {root : Nat} {s : ASt Nat} {B : List Nat}
    (hm : InBlocks epb8 (divUp nrBits 64) n ad root s B) {seen : Nat → Nat} (hnd : B.Nodup) (hz : ∀ x ∈ B, seen x = 0) :
    ∃ bits : Checked, walkArray (devOf epb8 epb4 n s) (devOf epb8 epb4 n s).words (visitChecked nrBits) root (fun _ => none) seen = .ok (bits, counted B seen) ∧
      ∀ c, c < nrBits → bits c = some ((ad (c / 64)).testBit (c % 64)) := by
  obtain ⟨h, t, bs, hs, rfl⟩ := hm
  obtain ⟨ls, l1, l2, l3, l4, l5⟩ := walkArray_stored hs (devOf epb8 epb4 n s) rfl rfl hnd hz
  obtain ⟨r1, r2⟩ := readChecked_leaves he hs (words := (devOf epb8 epb4 n s).words) rfl l2 l3
  unfold Bits.readChecked at r1 r2
  rw [l5, if_pos r1]
  exact ⟨_, rfl, r2⟩

theorem hints_stored {epb8 epb4 nr n : Nat} {ah : Nat → Nat} {root : Nat} {s : ASt Nat} {B : List Nat}
    (hm : InBlocks epb4 nr n ah root s B) {seen : Nat → Nat} (hnd : B.Nodup) (hz : ∀ x ∈ B, seen x = 0) :
    walkArray (devOf epb8 epb4 n s) (devOf epb8 epb4 n s).hints visitHint root () seen = .ok ((), counted B seen) := by
  obtain ⟨h, t, bs, hs, rfl⟩ := hm
  obtain ⟨ls, l1, l2, l3, l4, l5⟩ := walkArray_stored hs (devOf epb8 epb4 n s) rfl rfl hnd hz
  rw [l5, if_pos]
  refine walkLeaves_ok _ 0 _ l2 ?_
  rw [l3]
  intro e he
  have := readable_stored hs e he
  obtain ⟨b, hb⟩ := Option.isSome_iff_exists.mp this
  exact ⟨b, hb, fun _ => rfl⟩

/-- Undamaged cache metadata whose arrays do not share blocks, neither among each other nor with the superblock.  `am` are the mapping
words, `ad` the words of the dirty bitset; `Bd`, `Bm`, `Bh`, `Bw` are the blocks of the dirty bitset, mappings, hints, discards. -/
structure Layout (epb8 epb4 n : Nat) (sb : Cache.Superblock) (s : ASt Nat) (am ad : Nat → Nat) (Bd Bm Bh Bw : List Nat) : Prop where
  version : sb.version = 1 ∨ sb.version = 2
  size : sb.cache_blocks < 2 ^ 32
  maps : InBlocks epb8 sb.cache_blocks n am sb.mapping_root s Bm
  dirty : sb.version = 2 → ∃ dr, sb.dirty_root = some dr ∧ InBlocks epb8 (divUp sb.cache_blocks 64) n ad dr s Bd
  noDirty : sb.version = 1 → Bd = []
  hints : sb.hint_root ≠ 0 ∧ sb.policy_hint_size ≠ 0 → sb.policy_hint_size = 4 ∧ ∃ ah, InBlocks epb4 sb.cache_blocks n ah sb.hint_root s Bh
  noHints : ¬ (sb.hint_root ≠ 0 ∧ sb.policy_hint_size ≠ 0) → Bh = []
  discards : sb.discard_root ≠ 0 → ∃ aw, InBlocks epb8 (divUp sb.discard_nr_blocks 64) n aw sb.discard_root s Bw
  noDiscards : sb.discard_root = 0 → Bw = []
  nodup : (0 :: (Bd ++ Bm ++ Bh ++ Bw)).Nodup

/-- the mappings of the cache are consistent; `origin` is the number of origin blocks if the superblock tells -/
def MapsConsistent (sb : Cache.Superblock) (origin : Option Nat) (am ad : Nat → Nat) : Prop :=
  Consistent (flagsOf sb.version) (origin.getD (2 ^ 48)) sb.cache_blocks am (dirtyOf sb.version am ad)

theorem counted_zero {B : List Nat} {seen : Nat → Nat} {x : Nat} (h1 : x ∉ B) (h2 : seen x = 0) : counted B seen x = 0 := by
  unfold counted; rw [if_neg h1, h2]

/-- **C34**: on undamaged metadata the check of the mappings succeeds exactly if they are consistent. -/
theorem checkMappings_exact {epb8 epb4 n : Nat} (he8 : 0 < epb8) {sb : Cache.Superblock} {s : ASt Nat} {am ad : Nat → Nat} {Bd Bm Bh Bw : List Nat}
    (L : Layout epb8 epb4 n sb s am ad Bd Bm Bh Bw) (origin : Option Nat) {seen : Nat → Nat} (hz : ∀ x ∈ Bd ++ Bm, seen x = 0) :
    (MapsConsistent sb origin am ad → checkMappings (devOf epb8 epb4 n s) sb origin seen = .ok (counted (Bd ++ Bm) seen)) ∧
    (¬ MapsConsistent sb origin am ad → checkMappings (devOf epb8 epb4 n s) sb origin seen = .error .err) := by
  have hnd := L.nodup
  rw [List.nodup_cons, List.append_assoc, List.nodup_append] at hnd
  have hnd := hnd.2.1
  have hnd' := List.nodup_append.mp hnd
  unfold MapsConsistent checkMappings
  rcases L.version with hv | hv
  · have hBd := L.noDirty hv
    subst hBd
    have hdirty : dirtyOf sb.version am ad = fun c => (ofWord (am c)).isDirty := by
      funext c; unfold dirtyOf; rw [if_pos hv]
    have hfl : flagsOf sb.version = 4 := by unfold flagsOf; rw [if_pos hv]
    rw [hdirty, hfl]
    obtain ⟨a1, a2⟩ := maps1_stored (epb4 := epb4) he8 L.maps origin hnd'.2.1 (fun x hx => hz x (by simp [hx]))
    simp only [hv, if_true]
    constructor
    · intro h
      obtain ⟨b, hb, hbad⟩ := a1 h
      rw [hb]
      simp only [hbad, Bool.false_eq_true, if_false, List.nil_append]
    · intro h
      rw [a2 h]
  · obtain ⟨dr, hdr, hin⟩ := L.dirty hv
    have hdirty : dirtyOf sb.version am ad = fun c => (ad (c / 64)).testBit (c % 64) := by
      funext c; unfold dirtyOf; rw [if_neg (by omega)]
    have hfl : flagsOf sb.version = 2 := by unfold flagsOf; rw [if_neg (by omega)]
    rw [hdirty, hfl]
    obtain ⟨bits, hb, hbits⟩ := bits_stored (epb4 := epb4) he8 hin hnd'.1 (fun x hx => hz x (by simp [hx]))
    obtain ⟨a1, a2⟩ := maps2_stored (epb4 := epb4) he8 L.size L.maps origin hbits (seen := counted Bd seen) hnd'.2.1
      (fun x hx => counted_zero (fun hx' => hnd'.2.2 x hx' x hx rfl) (hz x (by simp [hx])))
    simp only [hv, show ¬ ((2 : Nat) = 1) by decide, if_true, if_false, hdr, hb]
    constructor
    · intro h
      obtain ⟨b, hb', hbad⟩ := a1 h
      rw [hb']
      simp only [hbad, Bool.false_eq_true, if_false, counted_append]
    · intro h
      rw [a2 h]


theorem checkHints_ok {epb8 epb4 n : Nat} {sb : Cache.Superblock} {s : ASt Nat} {am ad : Nat → Nat} {Bd Bm Bh Bw : List Nat}
    (L : Layout epb8 epb4 n sb s am ad Bd Bm Bh Bw) {seen : Nat → Nat} (hz : ∀ x ∈ Bh, seen x = 0) :
    checkHints (devOf epb8 epb4 n s) sb seen = .ok (counted Bh seen) := by
  have hnd := (List.nodup_cons.mp L.nodup).2
  have hnd := (List.nodup_append.mp (List.nodup_append.mp hnd).1).2.1
  unfold checkHints
  by_cases h : sb.hint_root ≠ 0 ∧ sb.policy_hint_size ≠ 0
  · obtain ⟨h4, ah, hin⟩ := L.hints h
    rw [if_pos h, if_neg (by omega), hints_stored hin hnd hz]
  · rw [if_neg h, L.noHints h]
    rfl

theorem checkDiscards_ok {epb8 epb4 n : Nat} (he8 : 0 < epb8) {sb : Cache.Superblock} {s : ASt Nat} {am ad : Nat → Nat} {Bd Bm Bh Bw : List Nat}
    (L : Layout epb8 epb4 n sb s am ad Bd Bm Bh Bw) {seen : Nat → Nat} (hz : ∀ x ∈ Bw, seen x = 0) :
    checkDiscards (devOf epb8 epb4 n s) sb seen = .ok (counted Bw seen) := by
  have hnd := (List.nodup_append.mp (List.nodup_cons.mp L.nodup).2).2.1
  unfold checkDiscards
  by_cases h : sb.discard_root ≠ 0
  · obtain ⟨aw, hin⟩ := L.discards h
    obtain ⟨bits, hb, -⟩ := bits_stored (epb4 := epb4) he8 hin hnd hz
    rw [if_pos h, hb]
  · rw [if_neg h, L.noDiscards (by simpa using h)]
    rfl

theorem first_counted : (fun b : Nat => if b = 0 then 1 else 0) = counted [0] (fun _ => 0) := by
  funext b; unfold counted; simp

/-- no option to skip something was given -/
def COpts.full (o : COpts) : Prop := o.sbOnly = false ∧ o.skipMappings = false ∧ o.skipHints = false ∧ o.skipDiscards = false

/-- the arrays of undamaged metadata pass exactly if the mappings are consistent, and every block is counted once -/
theorem checkArrays_exact {epb8 epb4 n : Nat} (he8 : 0 < epb8) {sb : Cache.Superblock} {s : ASt Nat} {am ad : Nat → Nat} {Bd Bm Bh Bw : List Nat}
    (L : Layout epb8 epb4 n sb s am ad Bd Bm Bh Bw) {d : CDev} (hd : d.dev = devOf epb8 epb4 n s) {o : COpts} (hskip : o.skipMappings = false)
    {origin : Option Nat} (ho : nrOrigin sb = .ok origin) :
    (MapsConsistent sb origin am ad → o.skipHints = false → o.skipDiscards = false →
      checkArrays d o sb = .ok (counted (0 :: (Bd ++ Bm ++ Bh ++ Bw)) fun _ => 0)) ∧
    (¬ MapsConsistent sb origin am ad → checkArrays d o sb = .error .err) := by
  have hnd := List.nodup_cons.mp L.nodup
  have hnd1 := List.nodup_append.mp hnd.2
  have hnd2 := List.nodup_append.mp hnd1.1
  have h0 : ∀ x ∈ Bd ++ Bm ++ Bh ++ Bw, x ∉ [0] := by
    intro x hx h
    rw [List.mem_singleton.mp h] at hx
    exact hnd.1 hx
  obtain ⟨a1, a2⟩ := checkMappings_exact (epb4 := epb4) he8 L origin (seen := counted [0] fun _ => 0)
    (fun x hx => counted_zero (h0 x (List.mem_append.mpr (Or.inl (List.mem_append.mpr (Or.inl hx))))) rfl)
  unfold checkArrays
  rw [ho]
  simp only [hskip, Bool.false_eq_true, if_false, hd, first_counted]
  constructor
  · intro hc hh hw
    rw [a1 hc]
    simp only [hh, hw, Bool.false_eq_true, if_false]
    rw [checkHints_ok L (seen := counted (Bd ++ Bm) (counted [0] fun _ => 0)) (fun x hx => counted_zero (fun hx' => hnd2.2.2 x hx' x hx rfl)
      (counted_zero (h0 x (by simp [hx])) rfl))]
    simp only
    rw [checkDiscards_ok he8 L]
    · rw [counted_append, counted_append, counted_append]
      simp
    · intro x hx
      refine counted_zero (fun hx' => hnd1.2.2 x (List.mem_append.mpr (Or.inr hx')) x hx rfl)
        (counted_zero (fun hx' => hnd1.2.2 x (List.mem_append.mpr (Or.inl hx')) x hx rfl) (counted_zero (h0 x (by simp [hx])) rfl))
  · intro hc
    rw [a2 hc]

/-- **C34**: if `cache_check` succeeds and was not told to skip the mappings, then the mappings are consistent: no two cache blocks
map the same origin block, all origin blocks are in range, no unmapped block is dirty or has an origin block, and there are no
unknown flags. -/
theorem check_sound {epb8 epb4 n : Nat} (he8 : 0 < epb8) {sb : Cache.Superblock} {s : ASt Nat} {am ad : Nat → Nat} {Bd Bm Bh Bw : List Nat}
    (L : Layout epb8 epb4 n sb s am ad Bd Bm Bh Bw) {d : CDev} (hd : d.dev = devOf epb8 epb4 n s) (hsb : d.sb = some sb)
    {wr : Nat → Bool} {sbWr : Bool} {o : COpts} {unpackRoot : Bytes → Option SMRoot} (h1 : o.sbOnly = false) (h2 : o.skipMappings = false)
    (hok : (check wr sbWr o unpackRoot d).2 = none) : ∃ origin, nrOrigin sb = .ok origin ∧ MapsConsistent sb origin am ad := by
  cases hor : nrOrigin sb with
  | error e =>
    exfalso
    unfold check at hok
    rw [hsb] at hok
    simp only [h1, Bool.false_eq_true, if_false] at hok
    split at hok
    · cases hok
    · unfold checkArrays at hok
      rw [hor] at hok
      cases hok
  | ok origin =>
    refine ⟨origin, rfl, Classical.byContradiction fun hc => ?_⟩
    have := (checkArrays_exact he8 L hd h2 hor).2 hc
    unfold check at hok
    rw [hsb] at hok
    simp only [h1, Bool.false_eq_true, if_false, this] at hok
    split at hok <;> cases hok

/-! ## The metadata space map -/

/-- The metadata space map of the device: its overflow tree `t`, its index block with the entries `ies`, all in the blocks `U`. -/
structure SmLayout (d : CDev) (root : SMRoot) (ies : List IndexEntry) (h : Nat) (t : Tree SVal h) (U : List Nat) : Prop where
  tree : ∃ mem, d.rdn = (fun _ b => mem b) ∧ LW.Clean mem d.dev.nr h t
  blk : t.blk h = root.ref_count_root
  index : d.index root.bitmap_root = some ies
  blocks : U = t.blocks h ++ (root.bitmap_root :: ies.map (·.blocknr))
  bound : ∀ x ∈ U, x < d.dev.nr
  nodup : U.Nodup

theorem smInc_fresh {V : Type} {st : WSt V} {b : Nat} (h1 : b < st.nr) (h2 : st.seen b = 0) (h3 : 0 < st.mx) :
    st.smInc b = some (0, { st with seen := counted [b] st.seen }) := by
  unfold WSt.smInc
  rw [if_pos h1, if_pos (by omega), h2]
  congr 3
  funext x
  unfold counted
  simp

theorem incEntries_fresh : ∀ (ies : List IndexEntry) (st : WSt SVal), 0 < st.mx → (ies.map (·.blocknr)).Nodup →
    (∀ x ∈ ies.map (·.blocknr), x < st.nr ∧ st.seen x = 0) →
    ∃ st', SMC.incEntries ies st = some st' ∧ st'.seen = counted (ies.map (·.blocknr)) st.seen := by
  intro ies
  induction ies with
  | nil => intro st _ _ _; exact ⟨st, rfl, by funext x; unfold counted; simp⟩
  | cons ie ies ih =>
    intro st hm hnd hx
    rw [List.map_cons, List.nodup_cons] at hnd
    have hb := hx ie.blocknr (by simp)
    obtain ⟨st', h1, h2⟩ := ih { st with seen := counted [ie.blocknr] st.seen } hm hnd.2 (fun x hx' => by
      have := hx x (by simp only [List.map_cons, List.mem_cons]; exact Or.inr hx')
      refine ⟨this.1, counted_zero ?_ this.2⟩
      intro h
      rw [List.mem_singleton.mp h] at hx'
      exact hnd.1 hx')
    unfold SMC.incEntries
    rw [smInc_fresh hb.1 hb.2 hm]
    simp only
    refine ⟨st', h1, ?_⟩
    rw [h2, counted_append]
    rfl

/-- the counts against which the space map is compared: every block counted once -/
theorem checkMetaSm_spec {d : CDev} {root : SMRoot} {ies : List IndexEntry} {h : Nat} {t : Tree SVal h} {U : List Nat} (S : SmLayout d root ies h t U)
    {seen : Nat → Nat} (hz : ∀ x ∈ U, seen x = 0) :
    checkMetaSm d root seen =
      match SMC.checkMeta (fun b => decide (b < d.dev.nr)) d.rdn d.bm (d.dev.nr + 1) d.dev.nr root ((List.range d.dev.nr).map (counted U seen)) ies with
      | none => .error .err
      | some leaks => .ok (leaks, (List.range d.dev.nr).map (counted U seen)) := by
  obtain ⟨mem, hrdn, hc⟩ := S.tree
  have hU := S.blocks
  have hnd := S.nodup
  have hbd := S.bound
  subst hU
  have hnd' := List.nodup_append.mp hnd
  have hnd2 := List.nodup_cons.mp hnd'.2.1
  have hroot : t.blk h < d.dev.nr := hc.bound _ (by cases h <;> simp [Tree.blk, Tree.blocks])
  obtain ⟨h1, h2, h3, h4, h5, h6⟩ := BT.walk_counts (fun b => decide (b < d.dev.nr)) d.rdn (fun _ _ => true) h t (coreSt d.dev.nr seen)
    (by show 0 < 255; omega) (d.dev.nr + 1)
    (by have := hc.height; omega) [0] (fun _ _ _ => rfl)
    (by simpa using hroot) (by rw [hrdn]; exact hc.stored) hc.ordered hc.noEmpty hnd'.1
    (fun x hx => ⟨by show x < d.dev.nr; exact hc.bound x hx, hz x (by simp [hx])⟩)
  rw [S.blk] at h1 h2 h3 h4 h5 h6
  unfold checkMetaSm
  simp only [h1, if_true, S.index]
  generalize BT.walk (fun b => decide (b < d.dev.nr)) d.rdn (fun _ _ => true) (d.dev.nr + 1) [0] root.ref_count_root (coreSt d.dev.nr seen) = r at h3 h4 h5 h6
  have hmx : 0 < r.1.mx := by rw [h6]; show 0 < 255; omega
  have hnr : r.1.nr = d.dev.nr := h5
  have hrseen : r.1.seen = counted (t.blocks h) seen := by
    funext x
    unfold counted
    by_cases hx : x ∈ t.blocks h
    · rw [if_pos hx, h4 x hx]
    · rw [if_neg hx, h3 x hx]; rfl
  have hbr : r.1.seen root.bitmap_root = 0 := by
    rw [hrseen]
    exact counted_zero (fun hx => hnd'.2.2 _ hx _ (by simp) rfl) (hz _ (by simp))
  rw [smInc_fresh (by rw [hnr]; exact hbd _ (by simp)) hbr hmx]
  simp only
  obtain ⟨st', g1, g2⟩ := incEntries_fresh ies { r.1 with seen := counted [root.bitmap_root] r.1.seen } hmx hnd2.2 (fun x hx => by
    refine ⟨by simp only; rw [hnr]; exact hbd x (by simp only [List.mem_append, List.mem_cons]; exact Or.inr (Or.inr hx)), ?_⟩
    simp only
    refine counted_zero (fun h => ?_) ?_
    · rw [List.mem_singleton.mp h] at hx
      exact hnd2.1 hx
    · rw [hrseen]
      exact counted_zero (fun h => hnd'.2.2 x h x (List.mem_cons_of_mem _ hx) rfl)
        (hz x (List.mem_append.mpr (Or.inr (List.mem_cons_of_mem _ hx)))))
  rw [g1]
  simp only
  rw [g2, hrseen, counted_append, counted_append]
  rfl

/-- … if the space map is right -/
theorem check_of_sm {epb8 epb4 n : Nat} (he8 : 0 < epb8) {sb : Cache.Superblock} {s : ASt Nat} {am ad : Nat → Nat} {Bd Bm Bh Bw : List Nat}
    (L : Layout epb8 epb4 n sb s am ad Bd Bm Bh Bw) {d : CDev} (hd : d.dev = devOf epb8 epb4 n s) (hsb : d.sb = some sb)
    {unpackRoot : Bytes → Option SMRoot} {root : SMRoot} (hroot : unpackRoot sb.metadata_sm_root = some root) {exp : List Nat}
    (hsm : checkMetaSm d root (counted (0 :: (Bd ++ Bm ++ Bh ++ Bw)) fun _ => 0) = .ok ([], exp)) {origin : Option Nat} (hor : nrOrigin sb = .ok origin)
    (hc : MapsConsistent sb origin am ad) {wr : Nat → Bool} {sbWr : Bool} {o : COpts} (hfull : o.full) :
    (sbWr = true ∨ (o.autoRepair || o.clearNeedsCheck) = false ∨ sb.needs_check = false →
      (check wr sbWr o unpackRoot d).2 = none) ∧
    (check wr sbWr o unpackRoot d).1 = (if (o.autoRepair || o.clearNeedsCheck) = true ∧ sb.needs_check = true ∧ sbWr = true then clearNeedsCheck d else d) := by
  obtain ⟨f1, f2, f3, f4⟩ := hfull
  have harr := (checkArrays_exact he8 L hd f2 hor).1 hc f3 f4
  have hver : ¬ (sb.version ≥ 2 ∧ sb.dirty_root.getD 0 = 0) := by
    rintro ⟨hv, h0⟩
    rcases L.version with hv1 | hv2
    · omega
    · obtain ⟨dr, hdr, hh, tt, bs, hst, hB⟩ := L.dirty hv2
      rw [hdr] at h0
      have h0 : dr = 0 := h0
      have : dr ∈ Bd := by
        rw [hB, ← hst.blk]
        exact List.mem_append.mpr (Or.inl (by cases hh <;> simp [Tree.blk, Tree.blocks]))
      exact (List.nodup_cons.mp L.nodup).1 (by rw [← h0]; simp [this])
  unfold check
  rw [hsb]
  simp only [hver, f1, f2, f3, f4, Bool.or_self, Bool.false_eq_true, if_false, harr, hroot, hsm]
  unfold finish
  simp only [List.isEmpty_nil, if_true, hsb]
  cases (o.autoRepair || o.clearNeedsCheck) <;> cases sb.needs_check <;> cases sbWr <;> simp

/-- **C34**, the other half, for the whole tool: undamaged metadata with consistent mappings, whose space map has one reference for every block
in use and none for the others, passes; nothing is written but the cleared `needs_check` flag, if that was asked for. -/
theorem check_complete {epb epb8 epb4 n : Nat} (he : 0 < epb) (he8 : 0 < epb8) {sb : Cache.Superblock} {s : ASt Nat} {am ad : Nat → Nat} {Bd Bm Bh Bw : List Nat}
    (L : Layout epb8 epb4 n sb s am ad Bd Bm Bh Bw) {d : CDev} (hd : d.dev = devOf epb8 epb4 n s) (hsb : d.sb = some sb)
    {unpackRoot : Bytes → Option SMRoot} {root : SMRoot} {ies : List IndexEntry} {h : Nat} {t : Tree SVal h} {U : List Nat}
    (hroot : unpackRoot sb.metadata_sm_root = some root) (S : SmLayout d root ies h t U)
    (hdisj : ∀ x ∈ U, x ∉ 0 :: (Bd ++ Bm ++ Bh ++ Bw)) {origin : Option Nat} (hor : nrOrigin sb = .ok origin)
    (hc : MapsConsistent sb origin am ad)
    (hrows : ∀ loc tag es, d.bm loc = some (tag, es) → es.length = epb) (hread : ∀ ie ∈ ies, ∃ es, d.bm ie.blocknr = some (true, es))
    (hbm : ∀ b, b < n → SMC.EntryAt epb d.bm (ies.map (·.blocknr)) b (.small (if b ∈ (0 :: (Bd ++ Bm ++ Bh ++ Bw)) ++ U then 1 else 0)))
    (hov : t.contents h = []) {wr : Nat → Bool} {sbWr : Bool} {o : COpts} (hfull : o.full) :
    (sbWr = true ∨ (o.autoRepair || o.clearNeedsCheck) = false ∨ sb.needs_check = false →
      (check wr sbWr o unpackRoot d).2 = none) ∧
    (check wr sbWr o unpackRoot d).1 = (if (o.autoRepair || o.clearNeedsCheck) = true ∧ sb.needs_check = true ∧ sbWr = true then clearNeedsCheck d else d) := by
  have hnr : d.dev.nr = n := by rw [hd]; rfl
  have hex : ∀ b, b < n → ((List.range n).map (counted U (counted (0 :: (Bd ++ Bm ++ Bh ++ Bw)) fun _ => 0)))[b]? =
      some (if b ∈ (0 :: (Bd ++ Bm ++ Bh ++ Bw)) ++ U then 1 else 0) := by
    intro b hb
    rw [List.getElem?_map, List.getElem?_range hb, counted_append]
    rfl
  have hex' : ∀ (b c : Nat), ((List.range n).map (counted U (counted (0 :: (Bd ++ Bm ++ Bh ++ Bw)) fun _ => 0)))[b]? = some c →
      b < n ∧ c = if b ∈ (0 :: (Bd ++ Bm ++ Bh ++ Bw)) ++ U then 1 else 0 := by
    intro b c hbc
    have hb : b < n := by
      have := (List.getElem?_eq_some_iff.mp hbc).1
      simpa using this
    rw [hex b hb] at hbc
    exact ⟨hb, (Option.some.inj hbc).symm⟩
  have hsm : checkMetaSm d root (counted (0 :: (Bd ++ Bm ++ Bh ++ Bw)) fun _ => 0) =
      .ok ([], (List.range n).map (counted U (counted (0 :: (Bd ++ Bm ++ Bh ++ Bw)) fun _ => 0))) := by
    rw [checkMetaSm_spec S (fun x hx => counted_zero (hdisj x hx) rfl), hnr]
    have hmeta : SMC.checkMeta (fun b => decide (b < n)) d.rdn d.bm (n + 1) n root
        ((List.range n).map (counted U (counted (0 :: (Bd ++ Bm ++ Bh ++ Bw)) fun _ => 0))) ies = some [] := by
      obtain ⟨mem, hrdn, hcl⟩ := S.tree
      rw [hnr] at hcl
      have hr : t.blk h < n := hcl.bound _ (by cases h <;> simp [Tree.blk, Tree.blocks])
      unfold SMC.checkMeta
      simp only
      rw [← S.blk, hrdn]
      rw [if_pos (SMC.overflow_complete (s := WSt.fresh n 1 true) Nat.one_pos hcl (by have := hcl.height; omega)
        (fun b hb => ⟨hcl.bound b hb, rfl⟩) (fun e he => by rw [hov] at he; cases he) (by simpa using hr))]
      refine SMC.checkLow_complete he hrows hread ?_ ?_
      · intro b c hbc _
        obtain ⟨hb, rfl⟩ := hex' b c hbc
        exact hbm b hb
      · intro b c hbc h3
        obtain ⟨-, rfl⟩ := hex' b c hbc
        split at h3 <;> omega
    rw [hmeta]
  exact check_of_sm he8 L hd hsb hroot hsm hor hc hfull

/-! ## C53: what the check writes -/

/-- **C53**: whatever the metadata, `cache_check` changes nothing but bitmaps of the metadata space map and the superblock.  If it changes
anything it was asked to (`--auto-repair` or `--clear-needs-check`), nothing was skipped, and no errors other than leaks were found. -/
theorem check_writes (wr : Nat → Bool) (sbWr : Bool) (o : COpts) (unpackRoot : Bytes → Option SMRoot) (d : CDev) :
    (check wr sbWr o unpackRoot d).1.dev = d.dev ∧ (check wr sbWr o unpackRoot d).1.rdn = d.rdn ∧
    (check wr sbWr o unpackRoot d).1.index = d.index ∧
    ((check wr sbWr o unpackRoot d).1 ≠ d → (o.autoRepair || o.clearNeedsCheck) = true ∧ o.full ∧
      ∃ sb root seen leaks exp, d.sb = some sb ∧ checkArrays d o sb = .ok seen ∧ unpackRoot sb.metadata_sm_root = some root ∧
        checkMetaSm d root seen = .ok (leaks, exp)) := by
  have hfin : ∀ leaks exp, (finish wr sbWr o d leaks exp).1.dev = d.dev ∧ (finish wr sbWr o d leaks exp).1.rdn = d.rdn ∧
      (finish wr sbWr o d leaks exp).1.index = d.index ∧
      ((finish wr sbWr o d leaks exp).1 ≠ d → (o.autoRepair || o.clearNeedsCheck) = true) := by
    intro leaks exp
    unfold finish
    cases hfix : (o.autoRepair || o.clearNeedsCheck)
    · cases leaks.isEmpty <;> cases o.ignoreNonFatal <;> simp
    · cases hl : leaks.isEmpty
      · cases hrep : SMC.repair wr d.bm exp leaks with
        | none => simp [hrep]
        | some bm =>
          cases (List.range leaks.length).all wr <;> cases d.sb with
          | none => simp [hrep]
          | some sb => cases hn : sb.needs_check <;> cases sbWr <;> simp [hrep, hn, clearNeedsCheck]
      · cases d.sb with
        | none => simp
        | some sb => cases hn : sb.needs_check <;> cases sbWr <;> simp [hn, clearNeedsCheck]
  unfold check
  cases hsb : d.sb with
  | none => simp
  | some sb =>
    simp only
    by_cases h1 : sb.version ≥ 2 ∧ sb.dirty_root.getD 0 = 0
    · rw [if_pos h1]; simp
    rw [if_neg h1]
    by_cases h2 : o.sbOnly = true
    · rw [if_pos h2]; simp
    rw [if_neg h2]
    cases harr : checkArrays d o sb with
    | error e => simp
    | ok seen =>
      simp only
      by_cases h3 : (o.skipMappings || o.skipHints || o.skipDiscards) = true
      · rw [if_pos h3]; simp
      rw [if_neg h3]
      cases hr : unpackRoot sb.metadata_sm_root with
      | none => simp
      | some root =>
        simp only
        cases hm : checkMetaSm d root seen with
        | error e => simp
        | ok p =>
          obtain ⟨leaks, exp⟩ := p
          simp only
          obtain ⟨a1, a2, a3, a4⟩ := hfin leaks exp
          refine ⟨a1, a2, a3, fun hne => ⟨a4 hne, ⟨by simpa using h2, ?_⟩, sb, root, seen, leaks, exp, rfl, harr, hr, hm⟩⟩
          simp only [Bool.or_eq_true, not_or] at h3
          exact ⟨by simpa using h3.1.1, by simpa using h3.1.2, by simpa using h3.2⟩

/-- **C53**: if the superblock changes, the tool succeeded, all leaks there were are repaired, and the change is that `needs_check` is
cleared, which was set. -/
theorem check_clears (wr : Nat → Bool) (sbWr : Bool) (o : COpts) (unpackRoot : Bytes → Option SMRoot) (d : CDev)
    (hne : (check wr sbWr o unpackRoot d).1.sb ≠ d.sb) :
    (check wr sbWr o unpackRoot d).2 = none ∧
    ∃ sb root seen leaks exp, d.sb = some sb ∧ sb.needs_check = true ∧
      (check wr sbWr o unpackRoot d).1.sb = some { sb with needs_check := false } ∧
      checkArrays d o sb = .ok seen ∧ unpackRoot sb.metadata_sm_root = some root ∧ checkMetaSm d root seen = .ok (leaks, exp) ∧
      (leaks ≠ [] → (∀ i, i < leaks.length → wr i = true) ∧
        SMC.repair wr d.bm exp leaks = some (check wr sbWr o unpackRoot d).1.bm) := by
  obtain ⟨-, -, -, hch⟩ := check_writes wr sbWr o unpackRoot d
  obtain ⟨hfix, ⟨f1, f2, f3, f4⟩, sb, root, seen, leaks, exp, hsb, harr, hr, hm⟩ := hch (fun e => hne (by rw [e]))
  have hfin : check wr sbWr o unpackRoot d = finish wr sbWr o d leaks exp := by
    unfold check
    unfold check at hne
    rw [hsb] at hne ⊢
    simp only at hne ⊢
    by_cases h1 : sb.version ≥ 2 ∧ sb.dirty_root.getD 0 = 0
    · rw [if_pos h1] at hne; exact absurd hsb hne
    rw [if_neg h1]
    simp only [f1, f2, f3, f4, Bool.or_self, Bool.false_eq_true, if_false, harr, hr, hm]
  rw [hfin] at hne ⊢
  have hgoal : (finish wr sbWr o d leaks exp).2 = none ∧ sb.needs_check = true ∧
      (finish wr sbWr o d leaks exp).1.sb = some { sb with needs_check := false } ∧
      (leaks ≠ [] → (∀ i, i < leaks.length → wr i = true) ∧ SMC.repair wr d.bm exp leaks = some (finish wr sbWr o d leaks exp).1.bm) := by
    unfold finish at hne ⊢
    simp only [hfix, hsb, if_true] at hne ⊢
    cases hl : leaks.isEmpty
    · simp only [hl, Bool.false_eq_true, if_false] at hne ⊢
      cases hrep : SMC.repair wr d.bm exp leaks with
      | none => simp [hrep, hsb] at hne
      | some bm =>
        simp only [hrep] at hne ⊢
        cases hall : (List.range leaks.length).all wr
        · simp [hall, hsb] at hne
        · simp only [hall, if_true] at hne ⊢
          cases hn : sb.needs_check
          · simp [hn, hsb] at hne
          · cases sbWr
            · simp [hn, hsb] at hne
            · simp only [if_true, clearNeedsCheck, hsb, Option.map_some]
              refine ⟨trivial, trivial, trivial, fun _ => ⟨?_, trivial⟩⟩
              intro i hi
              exact List.all_eq_true.mp hall i (List.mem_range.mpr hi)
    · simp only [hl, if_true] at hne ⊢
      have hnil : leaks = [] := List.isEmpty_iff.mp hl
      cases hn : sb.needs_check
      · simp [hn, hsb] at hne
      · cases sbWr
        · simp [hn, hsb] at hne
        · simp only [if_true, clearNeedsCheck, hsb, Option.map_some]
          exact ⟨trivial, trivial, trivial, fun h => absurd hnil h⟩
  obtain ⟨g1, g2, g3, g4⟩ := hgoal
  exact ⟨g1, sb, root, seen, leaks, exp, hsb, g2, g3, harr, hr, hm, g4⟩

/-- **C53**: and if it was asked to repair or clear, nothing was skipped and it succeeded, then `needs_check` is clear afterwards. -/
theorem check_cleared (wr : Nat → Bool) (sbWr : Bool) (o : COpts) (unpackRoot : Bytes → Option SMRoot) (d : CDev)
    (hfix : (o.autoRepair || o.clearNeedsCheck) = true) (hfull : o.full) (hok : (check wr sbWr o unpackRoot d).2 = none) :
    ∃ sb, (check wr sbWr o unpackRoot d).1.sb = some sb ∧ sb.needs_check = false := by
  obtain ⟨f1, f2, f3, f4⟩ := hfull
  have hfin : ∀ sb leaks exp, d.sb = some sb → (finish wr sbWr o d leaks exp).2 = none →
      ∃ sb, (finish wr sbWr o d leaks exp).1.sb = some sb ∧ sb.needs_check = false := by
    intro sb leaks exp hsb
    unfold finish
    simp only [hfix, hsb, if_true]
    cases hl : leaks.isEmpty
    · simp only [Bool.false_eq_true, if_false]
      cases hrep : SMC.repair wr d.bm exp leaks with
      | none => simp
      | some bm =>
        simp only
        cases hall : (List.range leaks.length).all wr
        · simp
        · cases hn : sb.needs_check <;> cases sbWr <;> simp [clearNeedsCheck, hsb, hn]
    · cases hn : sb.needs_check <;> cases sbWr <;> simp [clearNeedsCheck, hsb, hn]
  unfold check at hok ⊢
  cases hsb : d.sb with
  | none => rw [hsb] at hok; cases hok
  | some sb =>
    rw [hsb] at hok
    simp only [f1, f2, f3, f4, Bool.or_self, Bool.false_eq_true, if_false] at hok ⊢
    split at hok
    · cases hok
    next h1 =>
    rw [if_neg h1]
    cases harr : checkArrays d o sb with
    | error e => rw [harr] at hok; cases hok
    | ok seen =>
      simp only [harr] at hok ⊢
      cases hr : unpackRoot sb.metadata_sm_root with
      | none => rw [hr] at hok; cases hok
      | some root =>
        simp only [hr] at hok ⊢
        cases hm : checkMetaSm d root seen with
        | error e => rw [hm] at hok; cases hok
        | ok p =>
          obtain ⟨leaks, exp⟩ := p
          simp only [hm] at hok ⊢
          exact hfin sb leaks exp hsb hok


/-! ## A concrete device

Three cache blocks, two mapped (the first dirty): index of the mapping array in block 1, array blocks 2 and 3, overflow tree in 4, index of the
space map in 5, bitmap in 6. -/

def ckDemoWord (c : Nat) : Nat := if c = 0 then 7 * 65536 + 3 else if c = 2 then 9 * 65536 + 1 else 0

def ckDemoS : ASt Nat :=
  { bt := { mem := fun b => if b = 1 then some (.leaf [(0, 2), (1, 3)]) else none
            sm := ⟨255, 7, 7, [1, 1, 1, 1, 1, 1, 1, 0]⟩
            log := [] }
    arr := fun b => if b = 2 then some [ckDemoWord 0, ckDemoWord 1] else if b = 3 then some [ckDemoWord 2] else none }

def ckDemoSb : Cache.Superblock :=
  { clean_shutdown := true, needs_check := true, block := 0, version := 1, policy_name := [], policy_version := [], policy_hint_size := 0,
    metadata_sm_root := [], mapping_root := 1, dirty_root := none, hint_root := 0, discard_root := 0, discard_block_size := 64,
    discard_nr_blocks := 10, data_block_size := 64, cache_blocks := 3, compat_flags := 0, compat_ro_flags := 0, incompat_flags := 0,
    read_hits := 0, read_misses := 0, write_hits := 0, write_misses := 0 }

def ckDemoRoot : SMRoot := ⟨8, 7, 5, 4⟩

def ckDemoDev : CDev :=
  { dev := devOf 2 4 8 ckDemoS
    rdn := fun _ b => if b = 4 then some (.leaf []) else none
    bm := fun b => if b = 6 then some (true, [.small 1, .small 1, .small 1, .small 1, .small 1, .small 1, .small 1, .small 0]) else none
    index := fun b => if b = 5 then some [⟨6, 1, 7⟩] else none
    sb := some ckDemoSb }

theorem ckDemo_stored : Stored 2 3 8 ckDemoWord 1 ckDemoS 0 (1, [(0, 2), (1, 3)]) [2, 3] :=
  { blk := rfl
    tree := rfl
    ordered := by simp [Tree.Ordered, BT.Chain, BT.Below]
    keys := trivial
    noEmpty := Or.inl rfl
    contents := rfl
    count := rfl
    values := by intro i hi; match i, hi with | 0, _ => rfl | 1, _ => rfl
    live := by decide
    liveT := by decide
    sm := ⟨255, ⟨rfl, rfl, by decide, by decide, by decide, by
      intro b
      by_cases h : b < 8
      · have : ∀ b < 8, SM.Core.abs ckDemoS.bt.sm b ≤ 255 := by decide
        exact this b h
      · have h8 : 8 ≤ b := by omega
        show ([1, 1, 1, 1, 1, 1, 1, 0] : List Nat).getD b 0 ≤ 255
        rw [List.getD_eq_getElem?_getD, List.getElem?_eq_none (by simpa using h8)]
        simp⟩⟩ }

theorem ckDemo_layout : Layout 2 4 8 ckDemoSb ckDemoS ckDemoWord (fun _ => 0) [] [1, 2, 3] [] [] :=
  { version := Or.inl rfl
    size := by decide
    maps := ⟨0, _, _, ckDemo_stored, rfl⟩
    dirty := by intro h; cases h
    noDirty := fun _ => rfl
    hints := by intro h; exact absurd rfl h.1
    noHints := fun _ => rfl
    discards := by intro h; exact absurd rfl h
    noDiscards := fun _ => rfl
    nodup := by decide }

theorem ckDemo_sm : SmLayout ckDemoDev ckDemoRoot [⟨6, 1, 7⟩] 0 (4, []) [4, 5, 6] :=
  { tree := ⟨_, rfl, ⟨rfl, by simp [Tree.Ordered, BT.Chain, BT.Below], Or.inl rfl, by decide⟩⟩
    blk := rfl
    index := rfl
    blocks := rfl
    bound := by decide
    nodup := by decide }

/-- ten origin blocks of 64 sectors, says the superblock -/
theorem ckDemo_origin : nrOrigin ckDemoSb = .ok (some 10) := rfl

theorem ckDemo_consistent : MapsConsistent ckDemoSb (some 10) ckDemoWord (fun _ => 0) :=
  ⟨by
    intro c hc
    have hc : c < 3 := hc
    match c, hc with
    | 0, _ => exact ⟨by decide, by decide, by decide⟩
    | 1, _ => exact ⟨by decide, by decide, by decide⟩
    | 2, _ => exact ⟨by decide, by decide, by decide⟩,
   by
    show ∀ c c', c < 3 → c' < 3 → _
    have : ∀ c < 3, ∀ c' < 3, (ofWord (ckDemoWord c)).isValid = true → (ofWord (ckDemoWord c')).isValid = true →
      (ofWord (ckDemoWord c)).oblock = (ofWord (ckDemoWord c')).oblock → c = c' := by decide
    exact fun c c' h1 h2 => this c h1 c' h2⟩

/-- the demo device passes, and `--clear-needs-check` clears the flag -/
example : (check (fun _ => true) true ⟨false, false, false, false, false, false, true⟩ (fun _ => some ckDemoRoot) ckDemoDev).2 = none ∧
    (check (fun _ => true) true ⟨false, false, false, false, false, false, true⟩ (fun _ => some ckDemoRoot) ckDemoDev).1 = clearNeedsCheck ckDemoDev := by
  obtain ⟨h1, h2⟩ := check_complete (epb := 8) (wr := fun _ => true) (sbWr := true) (o := ⟨false, false, false, false, false, false, true⟩)
    (unpackRoot := fun _ => some ckDemoRoot) (by decide) (by decide) ckDemo_layout (d := ckDemoDev) rfl rfl rfl ckDemo_sm (by decide) ckDemo_origin
    ckDemo_consistent (by
      intro loc tag es h
      simp only [ckDemoDev] at h
      split at h
      · cases h; rfl
      · cases h) (by intro ie h; rw [List.mem_singleton.mp h]; exact ⟨_, rfl⟩) (by
      intro b hb
      refine ⟨6, true, _, ?_, rfl, ?_⟩
      · rw [Nat.div_eq_of_lt hb]; rfl
      · rw [Nat.mod_eq_of_lt hb]
        match b, hb with
        | 0, _ | 1, _ | 2, _ | 3, _ | 4, _ | 5, _ | 6, _ | 7, _ => decide) rfl ⟨rfl, rfl, rfl, rfl⟩
  exact ⟨h1 (Or.inl rfl), by rw [h2, if_pos (by decide)]⟩

/-- two cache blocks of the same origin block are found -/
example : (check (fun _ => true) true ⟨false, false, false, false, false, false, true⟩ (fun _ => some ckDemoRoot)
    { ckDemoDev with dev := devOf 2 4 8 { ckDemoS with arr := fun b => if b = 2 then some [ckDemoWord 0, 0] else if b = 3 then some [ckDemoWord 0] else none } }).2 = some .err := by
  decide

/-! ## What the check does not notice -/

/-- metadata whose dirty bitset and mapping array have the same index block -/
def sharedDev : Dev :=
  { nr := 8
    rd := fun _ b => if b = 1 then some (.leaf [(0, 2)]) else none
    maps := fun b => if b = 2 then some ⟨4, [7 * 65536 + 1, 7 * 65536 + 9]⟩ else none
    words := fun b => if b = 2 then some ⟨4, [0]⟩ else none
    hints := fun _ => none }

def sharedSb : Cache.Superblock := { ckDemoSb with version := 2, dirty_root := some 1, cache_blocks := 2 }

/-- C34 is about metadata whose arrays do not share blocks.  If the index of the mapping array is also that of the dirty bitset, the mappings
are not looked at: here both cache blocks map origin block 7, one with an unknown flag, and the array check reports nothing. -/
theorem check_shared_root_refuted : ∃ (d : Dev) (sb : Cache.Superblock), sb.version = 2 ∧ sb.cache_blocks = 2 ∧
    d.maps 2 = some ⟨4, [7 * 65536 + 1, 7 * 65536 + 9]⟩ ∧ d.rd true sb.mapping_root = some (.leaf [(0, 2)]) ∧
    (∃ seen, checkMappings d sb none (fun b => if b = 0 then 1 else 0) = .ok seen) ∧ 
    ¬ ListOk 2 (2 ^ 48) (fun _ _ => false) [(7 * 65536 + 1, 0), (7 * 65536 + 9, 1)] := by
  refine ⟨sharedDev, sharedSb, rfl, rfl, rfl, rfl, ?_, ?_⟩
  · have : (match checkMappings sharedDev sharedSb none (fun b => if b = 0 then 1 else 0) with | .ok _ => true | .error _ => false) = true := by decide
    cases h : checkMappings sharedDev sharedSb none (fun b => if b = 0 then 1 else 0) with
    | error e => rw [h] at this; cases this
    | ok seen => exact ⟨seen, rfl⟩
  · intro h
    have := h.distinct
    simp only [List.pairwise_cons] at this
    exact this.1 (7 * 65536 + 9, 1) (by simp) (by decide) (by decide) (by decide)

/-- A data block size of zero with a discard bitset makes the tool panic instead of reporting the damage. -/
theorem check_block_size_refuted : (check (fun _ => true) true ⟨false, false, false, false, false, false, false⟩ (fun _ => some ckDemoRoot)
    { ckDemoDev with sb := some { ckDemoSb with data_block_size := 0 } }).2 = some .panic := by
  decide

/-- A mapping array that is shorter than the cache is not noticed: nothing says that the third cache block is unmapped. -/
theorem check_short_array_refuted :
    (match checkMappings (devOf 2 4 8 { ckDemoS with bt := { ckDemoS.bt with mem := fun b => if b = 1 then some (.leaf [(0, 2)]) else none } }) ckDemoSb (some 10)
      (fun b => if b = 0 then 1 else 0) with | .ok _ => true | .error _ => false) = true := by
  decide


set_option maxRecDepth 4000 in
/-- Clearing the flag rewrites the superblock and loses the uuid, which a superblock may have: it is parsed over and always written as zeros. -/
theorem clear_uuid_refuted :
    (∃ i sb rest, Cache.unpackSb i = some (sb, rest) ∧ (i.drop 16).take 16 ≠ List.replicate 16 0) ∧
    ∀ sb b, Cache.packSb sb = some b → (b.drop 16).take 16 = List.replicate 16 0 := by
  constructor
  · have h : (Cache.unpackSb (List.replicate 400 1)).isSome = true := by decide
    obtain ⟨p, hp⟩ := Option.isSome_iff_exists.mp h
    exact ⟨_, p.1, p.2, hp, by decide⟩
  · intro sb b h
    unfold Cache.packSb at h
    split at h
    · split at h
      · cases h
        unfold Cache.packFields
        simp only [w32, w64, leBytes, List.cons_append, List.nil_append, List.drop_succ_cons, List.drop_zero]
        rw [List.take_left' (by simp)]
      · cases h
    · cases h

end Verif.CacheM
