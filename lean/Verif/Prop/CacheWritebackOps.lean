import Verif.Prop.CacheCheck
import Verif.Model.CacheWriteback

/-!
# `cache_writeback`: what is selected for copying
-/

namespace Verif.Wb

open Verif.CacheM
open Verif.Bits (ABlock walkLeaves visitEntries goodLeaf)
open Verif.BT (Tree KeyRange WSt)
open Verif.Arr (Stored ASt chunk divUp)
open Verif.Cop (CopyOp Stats)

/-! ## Bitmaps -/

/-- increasing -/
abbrev Inc (l : List Nat) : Prop := l.Pairwise (· < ·)

theorem mem_ins (x y : Nat) (l : RB) : y ∈ ins x l ↔ y = x ∨ y ∈ l := by
  induction l with
  | nil => simp [ins]
  | cons z l ih =>
    unfold ins
    by_cases h1 : x < z
    · rw [if_pos h1]; simp
    · rw [if_neg h1]
      by_cases h2 : x = z
      · rw [if_pos h2, h2]; simp
      · rw [if_neg h2, List.mem_cons, ih, List.mem_cons]
        constructor
        · rintro (h | h | h) <;> simp [h]
        · rintro (h | h | h) <;> simp [h]

theorem ins_inc (x : Nat) (l : RB) (h : Inc l) : Inc (ins x l) := by
  induction l with
  | nil => simp [ins, Inc]
  | cons z l ih =>
    obtain ⟨h1, h2⟩ := List.pairwise_cons.mp h
    unfold ins
    by_cases hx : x < z
    · rw [if_pos hx]
      refine List.pairwise_cons.mpr ⟨?_, h⟩
      intro y hy
      rcases List.mem_cons.mp hy with rfl | hy
      · exact hx
      · exact Nat.lt_trans hx (h1 y hy)
    · rw [if_neg hx]
      by_cases h3 : x = z
      · rw [if_pos h3]; exact h
      · rw [if_neg h3]
        refine List.pairwise_cons.mpr ⟨?_, ih h2⟩
        intro y hy
        rcases (mem_ins x y l).mp hy with rfl | hy
        · omega
        · exact h1 y hy

theorem mem_del (x y : Nat) (l : RB) : y ∈ del x l ↔ y ∈ l ∧ y ≠ x := by simp [del]

theorem del_inc (x : Nat) (l : RB) (h : Inc l) : Inc (del x l) := h.sublist List.filter_sublist

theorem mem_union (a b : RB) (y : Nat) : y ∈ union a b ↔ y ∈ a ∨ y ∈ b := by
  induction b generalizing a with
  | nil => simp [union]
  | cons x b ih =>
    have : union a (x :: b) = union (ins x a) b := rfl
    rw [this, ih, mem_ins, List.mem_cons]
    constructor
    · rintro ((h | h) | h) <;> simp [h]
    · rintro (h | h | h) <;> simp [h]

theorem union_inc (a b : RB) (h : Inc a) : Inc (union a b) := by
  induction b generalizing a with
  | nil => exact h
  | cons x b ih => exact ih (ins x a) (ins_inc x a h)

theorem Inc.nodup {l : List Nat} (h : Inc l) : l.Nodup := h.imp (fun h => Nat.ne_of_lt h)

/-! ## Walking the mappings -/

theorem visitEntries_fold {read : Nat → Option ABlock} {S : Type} {visit : Nat → ABlock → S → Bool × S} {cont : Nat → ABlock → List (Nat × Nat)}
    {f : S → Nat × Nat → S} (hv : ∀ k b s, visit k b s = (true, (cont k b).foldl f s)) : ∀ (es : List (Nat × Nat)) (n : Nat) (s : S),
    (∀ e ∈ es, (read e.2).isSome) → visitEntries read visit es (n, s) = (n, (shown read cont es).foldl f s) := by
  intro es
  induction es with
  | nil => intro n s _; rfl
  | cons e es ih =>
    intro n s h
    obtain ⟨k, v⟩ := e
    have hr := h (k, v) (by simp)
    obtain ⟨b, hb⟩ := Option.isSome_iff_exists.mp hr
    simp only at hb
    unfold visitEntries
    simp only [hb, hv, if_true]
    rw [ih _ _ (fun e he => h e (by simp [he]))]
    simp [shown, hb, List.foldl_append]

theorem walkLeaves_fold {read : Nat → Option ABlock} {S : Type} {visit : Nat → ABlock → S → Bool × S} {cont : Nat → ABlock → List (Nat × Nat)}
    {f : S → Nat × Nat → S} (hv : ∀ k b s, visit k b s = (true, (cont k b).foldl f s)) : ∀ (ls : List (KeyRange × List (Nat × Nat))) (n : Nat) (s : S),
    (∀ l ∈ ls, goodLeaf l.1 l.2 = true) → (∀ e ∈ ls.flatMap (·.2), (read e.2).isSome) →
    walkLeaves read visit ls (n, s) = (n, (shown read cont (ls.flatMap (·.2))).foldl f s) := by
  intro ls
  induction ls with
  | nil => intro n s _ _; rfl
  | cons l ls ih =>
    intro n s hg h
    obtain ⟨kr, es⟩ := l
    have g : goodLeaf kr es = true := hg (kr, es) (by simp)
    unfold walkLeaves
    rw [if_pos g, visitEntries_fold hv es n s (fun e he => h e (by simp [he])), ih _ _ (fun l hl => hg l (by simp [hl])) (fun e he => h e (by
      rw [List.flatMap_cons]; exact List.mem_append_right _ he))]
    simp [shown, List.foldl_append]

section
variable {epb epb4 nr n : Nat} {a : Nat → Nat} {root : Nat} {s : ASt Nat} {h : Nat} {t : Tree Nat h} {blocks : List Nat}

theorem walkMaps_fold (hs : Stored epb nr n a root s h t blocks) {S : Type} {visit : Nat → ABlock → S → Bool × S}
    {cont : Nat → ABlock → List (Nat × Nat)} {f : S → Nat × Nat → S} (hv : ∀ k b s, visit k b s = (true, (cont k b).foldl f s)) (s0 : S) :
    walkMaps (devOf epb epb4 n s) visit root s0 =
      .ok ((shown (fun b => (s.readArr b).map (ABlock.mk epb)) cont ((List.range blocks.length).zip blocks)).foldl f s0) := by
  have w := walk_stored hs (devOf epb epb4 n s) rfl rfl
  unfold walkMaps
  simp only
  rw [walkLeaves_fold hv _ _ _ w.good (by rw [w.flat]; exact readable_stored hs), w.ok, w.flat]
  simp only [and_self, if_true]
  rfl

theorem count_fold (pred : Nat → Bool) (l : List Nat) (n : Nat) :
    l.foldl (fun n w => if pred w then n + 1 else n) n = n + (l.filter pred).length := by
  induction l generalizing n with
  | nil => rfl
  | cons x l ih =>
    simp only [List.foldl_cons, List.filter_cons]
    rw [ih]
    by_cases h : pred x
    · simp [h]; omega
    · simp [h]

/-- counting mappings counts the valid ones for which the predicate holds -/
theorem countMappings_stored (he : 0 < epb) (hs : Stored epb nr n a root s h t blocks) (h32 : nr < 2 ^ 32) (pred : Mapping → Bool) :
    countMappings (devOf epb epb4 n s) root pred = .ok ((List.range nr).filter fun c => (ofWord (a c)).isValid && pred (ofWord (a c))).length := by
  unfold countMappings
  rw [walkMaps_fold (epb4 := epb4) hs (cont := fun _ b => b.values.map fun w => (w, 0)) (f := fun n (e : Nat × Nat) => if (ofWord e.1).isValid && pred (ofWord e.1) then n + 1 else n)
    (by intro k b s; unfold visitCount; rw [List.foldl_map]) 0]
  simp only
  rw [shown_stored he hs (g := fun _ => 0) (by
    intro k b hk hb hv
    rw [hv]; unfold chunk
    rw [List.map_map, List.range'_eq_map_range, List.map_map]
    rfl), List.foldl_map]
  simp only
  rw [count_fold (fun c => (ofWord (a c)).isValid && pred (ofWord (a c)))]
  have := List.length_filter_le (fun c => (ofWord (a c)).isValid && pred (ofWord (a c))) (List.range nr)
  rw [List.length_range] at this
  rw [Nat.zero_add, Nat.mod_eq_of_lt (by omega)]

theorem pushOps_fold (sel : Selector) (l : List (Nat × Nat)) (ops : List CopyOp) :
    pushOps sel l ops = l.foldl (fun ops e => if (ofWord e.1).isValid && sel.needs e.2 (ofWord e.1) then ops ++ [⟨e.2, (ofWord e.1).oblock⟩] else ops) ops := by
  induction l generalizing ops with
  | nil => rfl
  | cons e l ih => obtain ⟨w, c⟩ := e; simp only [pushOps, List.foldl_cons]; rw [ih]

/-- the operation for cache block `c` -/
def opOf (a : Nat → Nat) (c : Nat) : CopyOp := ⟨c, (ofWord (a c)).oblock⟩

theorem ops_fold (a : Nat → Nat) (p : Nat → Bool) (l : List Nat) (ops : List CopyOp) :
    l.foldl (fun ops c => if p c then ops ++ [opOf a c] else ops) ops = ops ++ (l.filter p).map (opOf a) := by
  induction l generalizing ops with
  | nil => simp
  | cons x l ih =>
    simp only [List.foldl_cons, List.filter_cons]
    rw [ih]
    by_cases h : p x
    · simp [h]
    · simp [h]

/-- one operation for every valid mapping the selector wants, in order -/
theorem allOps_stored (he : 0 < epb) (hs : Stored epb nr n a root s h t blocks) (h32 : nr < 2 ^ 32) (sel : Selector) :
    allOps (devOf epb epb4 n s) root sel =
      .ok (((List.range nr).filter fun c => (ofWord (a c)).isValid && sel.needs c (ofWord (a c))).map (opOf a)) := by
  unfold allOps
  rw [walkMaps_fold (epb4 := epb4) hs (cont := cont2) (f := fun ops e => if (ofWord e.1).isValid && sel.needs e.2 (ofWord e.1) then ops ++ [⟨e.2, (ofWord e.1).oblock⟩] else ops)
    (by intro k b s; unfold visitBatch; rw [pushOps_fold]; rfl) []]
  rw [shown_stored he hs (g := fun c => c) (by
    intro k b hk hb hv
    unfold cont2
    rw [hb, hv]
    exact chunk_zip epb nr k a he hk h32), List.foldl_map]
  simp only
  have := ops_fold a (fun c => (ofWord (a c)).isValid && sel.needs c (ofWord (a c))) (List.range nr) []
  rw [List.nil_append] at this
  exact congrArg _ this

end

/-! ## The selector -/

/-- is cache block `c` to be written back: it is mapped, and it is dirty or the cache was not shut down cleanly -/
def Wanted (sb : Cache.Superblock) (am ad : Nat → Nat) (c : Nat) : Prop :=
  c < sb.cache_blocks ∧ (ofWord (am c)).isValid = true ∧ (sb.clean_shutdown = true → dirtyOf sb.version am ad c = true)

instance (sb : Cache.Superblock) (am ad : Nat → Nat) (c : Nat) : Decidable (Wanted sb am ad c) := inferInstanceAs (Decidable (_ ∧ _))

/-- the wanted blocks, in order -/
def wanted (sb : Cache.Superblock) (am ad : Nat → Nat) : List Nat := (List.range sb.cache_blocks).filter fun c => Wanted sb am ad c

/-- the number of blocks the tool sets out to copy: in version 2, after a clean shutdown, the dirty bits of unmapped blocks count as well -/
def target (sb : Cache.Superblock) (am ad : Nat → Nat) : Nat :=
  if sb.clean_shutdown = true ∧ sb.version = 2 then ((List.range sb.cache_blocks).filter fun c => dirtyOf 2 am ad c).length
  else (wanted sb am ad).length

theorem mem_wanted {sb : Cache.Superblock} {am ad : Nat → Nat} {c : Nat} : c ∈ wanted sb am ad ↔ Wanted sb am ad c := by
  unfold wanted
  rw [List.mem_filter, List.mem_range, decide_eq_true_eq]
  exact ⟨fun h => h.2, fun h => ⟨h.1, h⟩⟩

theorem wanted_inc (sb : Cache.Superblock) (am ad : Nat → Nat) : Inc (wanted sb am ad) := List.pairwise_lt_range.sublist List.filter_sublist

theorem wanted_le_target (sb : Cache.Superblock) (am ad : Nat → Nat) : (wanted sb am ad).length ≤ target sb am ad := by
  unfold target
  by_cases h : sb.clean_shutdown = true ∧ sb.version = 2
  · rw [if_pos h]
    refine List.Nodup.length_le_of_subset (wanted_inc sb am ad).nodup ?_
    intro c hc
    obtain ⟨h1, h2, h3⟩ := mem_wanted.mp hc
    rw [h.2] at h3
    exact List.mem_filter.mpr ⟨List.mem_range.mpr h1, h3 h.1⟩
  · rw [if_neg h]; exact Nat.le_refl _

theorem filter_wanted {sb : Cache.Superblock} {am ad : Nat → Nat} {p : Nat → Bool}
    (h : ∀ c, c < sb.cache_blocks → (p c = true ↔ Wanted sb am ad c)) : (List.range sb.cache_blocks).filter p = wanted sb am ad := by
  refine List.filter_congr ?_
  intro c hc
  have := h c (List.mem_range.mp hc)
  by_cases hw : Wanted sb am ad c
  · rw [this.mpr hw, decide_eq_true hw]
  · have hp : p c = false := by
      cases hpc : p c
      · rfl
      · exact absurd (this.mp hpc) hw
    rw [hp, decide_eq_false hw]

/-- the mappings and, in version 2, the dirty bits are on the device -/
structure MapsOnDisk (epb8 n : Nat) (sb : Cache.Superblock) (s : ASt Nat) (am ad : Nat → Nat) : Prop where
  maps : ∃ (h : Nat) (t : Tree Nat h) (bs : List Nat), Stored epb8 sb.cache_blocks n am sb.mapping_root s h t bs
  dirty : sb.version = 2 → ∃ dr, sb.dirty_root = some dr ∧
    ∃ (h : Nat) (t : Tree Nat h) (bs : List Nat), Stored epb8 (divUp sb.cache_blocks 64) n ad dr s h t bs

/-- the tool selects exactly the wanted blocks -/
theorem select_stored {epb8 epb4 n : Nat} (he : 0 < epb8) {sb : Cache.Superblock} {s : ASt Nat} {am ad : Nat → Nat}
    (hd : MapsOnDisk epb8 n sb s am ad) (hv : sb.version = 1 ∨ sb.version = 2) (h32 : sb.cache_blocks < 2 ^ 32) :
    ∃ sel, mkSelector (devOf epb8 epb4 n s) sb = .ok sel ∧ sel.nr = target sb am ad ∧
      allOps (devOf epb8 epb4 n s) sb.mapping_root sel = .ok ((wanted sb am ad).map (opOf am)) := by
  obtain ⟨h, t, bs, m⟩ := hd.maps
  unfold mkSelector
  by_cases hc : sb.clean_shutdown = true
  · rw [if_pos hc]
    by_cases h1 : sb.version = 1
    · rw [if_pos h1, countMappings_stored he m h32]
      have hw : (List.range sb.cache_blocks).filter (fun c => (ofWord (am c)).isValid && (ofWord (am c)).isDirty) = wanted sb am ad := by
        refine filter_wanted ?_
        intro c hlt
        unfold Wanted dirtyOf
        rw [if_pos h1, Bool.and_eq_true]
        exact ⟨fun h => ⟨hlt, h.1, fun _ => h.2⟩, fun h => ⟨h.2.1, h.2.2 hc⟩⟩
      refine ⟨_, rfl, ?_, ?_⟩
      · unfold target
        rw [if_neg (by omega)]
        show List.length _ = _
        rw [hw]
      · rw [allOps_stored he m h32]
        show Except.ok (List.map (opOf am) ((List.range sb.cache_blocks).filter fun c => (ofWord (am c)).isValid && (ofWord (am c)).isDirty)) = _
        rw [hw]
    · have h2 : sb.version = 2 := by omega
      rw [if_neg h1, if_pos h2]
      obtain ⟨dr, hdr, h', t', bs', q⟩ := hd.dirty h2
      obtain ⟨e1, e2⟩ := readDirty_stored he q (devOf epb8 epb4 n s) rfl rfl rfl
      unfold readDirtyV2
      rw [hdr]
      simp only
      rw [e1]
      simp only [Bool.false_eq_true, if_false]
      have hdirty : (List.range sb.cache_blocks).filter (fun i => ((readDirty (devOf epb8 epb4 n s) dr sb.cache_blocks).2 i).getD false) =
          (List.range sb.cache_blocks).filter fun c => dirtyOf 2 am ad c := by
        refine List.filter_congr ?_
        intro c hcm
        rw [e2 c (List.mem_range.mp hcm)]
        rfl
      rw [hdirty]
      refine ⟨_, rfl, ?_, ?_⟩
      · unfold target
        rw [if_pos ⟨hc, h2⟩]
        show List.length _ % _ = _
        have := List.length_filter_le (fun c => dirtyOf 2 am ad c) (List.range sb.cache_blocks)
        rw [List.length_range] at this
        rw [Nat.mod_eq_of_lt (by omega)]
      · rw [allOps_stored he m h32]
        refine congrArg (fun l => Except.ok (List.map (opOf am) l)) (filter_wanted ?_)
        intro c hlt
        unfold Wanted
        rw [Bool.and_eq_true, h2]
        show _ ∧ decide (c ∈ _) = true ↔ _
        rw [decide_eq_true_eq, List.mem_filter]
        exact ⟨fun h => ⟨hlt, h.1, fun _ => h.2.2⟩, fun h => ⟨h.2.1, List.mem_range.mpr hlt, h.2.2 hc⟩⟩
  · rw [if_neg hc, countMappings_stored he m h32]
    have hw : (List.range sb.cache_blocks).filter (fun c => (ofWord (am c)).isValid && true) = wanted sb am ad := by
      refine filter_wanted ?_
      intro c hlt
      unfold Wanted
      rw [Bool.and_true]
      exact ⟨fun h => ⟨hlt, h, fun h => absurd h hc⟩, fun h => h.2.1⟩
    refine ⟨_, rfl, ?_, ?_⟩
    · unfold target
      rw [if_neg (fun h => hc h.1)]
      show List.length _ = _
      rw [hw]
    · rw [allOps_stored he m h32]
      show Except.ok (List.map (opOf am) ((List.range sb.cache_blocks).filter fun c => (ofWord (am c)).isValid && true)) = _
      rw [hw]

/-! ## Looking up selected blocks -/

/-- the array blocks `bs` hold the array `a` of `nr` entries; other blocks are as in `mem0` -/
structure Holds (epb nr : Nat) (bs : List Nat) (mem0 mem : Nat → Option ABlock) (a : Nat → Nat) : Prop where
  each : ∀ (k : Nat) (b : Nat), bs[k]? = some b → mem b = some ⟨epb, chunk epb nr a k⟩
  frame : ∀ b, b ∉ bs → mem b = mem0 b

theorem Holds.load {epb nr : Nat} {bs : List Nat} {mem0 mem : Nat → Option ABlock} {a : Nat → Nat} (h : Holds epb nr bs mem0 mem a) {k b : Nat}
    (hb : bs[k]? = some b) : load mem bs k = .ok (b, ⟨epb, chunk epb nr a k⟩) := by
  unfold Wb.load
  rw [hb]
  simp only
  rw [h.each k b hb]

section
variable {epb epb4 nr n : Nat} {a : Nat → Nat} {root : Nat} {s : ASt Nat} {h : Nat} {t : Tree Nat h} {blocks : List Nat}

theorem stored_holds (hs : Stored epb nr n a root s h t blocks) :
    Holds epb nr blocks (devOf epb epb4 n s).maps (devOf epb epb4 n s).maps a := by
  refine ⟨?_, fun _ _ => rfl⟩
  intro k b hb
  obtain ⟨hk, rfl⟩ := List.getElem?_eq_some_iff.mp hb
  show (s.readArr _).map _ = _
  rw [hs.values k hk]
  rfl

theorem stored_at (he : 0 < epb) (hs : Stored epb nr n a root s h t blocks) {c : Nat} (hc : c < nr) : ∃ b, blocks[c / epb]? = some b := by
  have : c / epb < blocks.length := by
    rw [hs.count, Arr.lt_divUp he]
    have := Nat.div_mul_le_self c epb
    omega
  exact ⟨blocks[c / epb], List.getElem?_eq_getElem this⟩

theorem valueVec_stored (hs : Stored epb nr n a root s h t blocks) : valueVec (devOf epb epb4 n s) root = some blocks := by
  have hc := Stored.clean hs
  have hroot : t.blk h < n := hc.bound _ (by cases h <;> simp [Tree.blk, Tree.blocks])
  obtain ⟨h1, h2⟩ := BT.walk_clean (fun b => decide (b < n)) (fun _ b => s.bt.mem b) (fun _ _ => true) (fun _ _ => rfl) h t n 1 (by omega) true
    (n + 1) (by have := hc.height; omega) [0] (by simpa using hroot) hc.stored hc.ordered hc.noEmpty hc.nodup hc.bound
  unfold valueVec
  rw [← hs.blk]
  show (let r := BT.walk (fun b => decide (b < n)) (fun _ b => s.bt.mem b) (fun _ _ => true) (n + 1) [0] (t.blk h) (WSt.fresh n 1 true)
    if r.2 = .ok then some (((leavesOf r.1.log).flatMap (·.2)).map (·.2)) else none) = _
  simp only [h1, h2, if_true]
  rw [leavesOf_append, show leavesOf [BT.Event.endWalk] = ([] : List (KeyRange × List (Nat × Nat))) from rfl, List.append_nil, (stored_leaves hs).2,
    List.map_snd_zip (by simp)]

theorem lookupOps_holds (he : 0 < epb) {mem0 mem : Nat → Option ABlock} {bs : List Nat} (hh : Holds epb nr bs mem0 mem a)
    (hat : ∀ c, c < nr → ∃ b, bs[c / epb]? = some b) : ∀ (cs : List Nat) (index : Nat) (ab : ABlock),
    (∀ c ∈ cs, c < nr) → ab = ⟨epb, chunk epb nr a index⟩ → lookupOps mem bs epb index ab cs = .ok (cs.map (opOf a)) := by
  intro cs
  induction cs with
  | nil => intro index ab _ _; rfl
  | cons c cs ih =>
    intro index ab hlt hab
    have hc : c < nr := hlt c (by simp)
    have hg : (chunk epb nr a (c / epb))[c % epb]? = some (a c) := Arr.chunk_get a hc he
    obtain ⟨b, hb⟩ := hat c hc
    have hn : (if c / epb ≠ index then (load mem bs (c / epb)).map fun r => (c / epb, r.2) else .ok (index, ab)) =
        .ok (c / epb, (⟨epb, chunk epb nr a (c / epb)⟩ : ABlock)) := by
      by_cases hi : c / epb = index
      · rw [if_neg (by simp [hi]), hab, hi]
      · rw [if_pos hi, hh.load hb]; rfl
    unfold lookupOps
    rw [hn]
    simp only [hg]
    rw [ih (c / epb) _ (fun x hx => hlt x (by simp [hx])) rfl]
    rfl

/-- the operations of a later pass are those of the first for the same blocks -/
theorem selectedOps_stored (he : 0 < epb) (hs : Stored epb nr n a root s h t blocks) (h0 : 0 < nr) (cs : List Nat) (hc : ∀ c ∈ cs, c < nr) :
    selectedOps (devOf epb epb4 n s) epb root cs = .ok (cs.map (opOf a)) := by
  unfold selectedOps
  rw [valueVec_stored hs]
  simp only
  obtain ⟨b, hb⟩ := stored_at he hs h0
  rw [Nat.zero_div] at hb
  rw [(stored_holds (epb4 := epb4) hs).load hb]
  simp only
  exact lookupOps_holds he (stored_holds (epb4 := epb4) hs) (fun c hc => stored_at he hs hc) cs 0 _ hc rfl

end
end Verif.Wb
