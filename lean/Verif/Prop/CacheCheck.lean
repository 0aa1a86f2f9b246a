import Verif.Prop.CacheDump
import Verif.Prop.SpaceMapCheck
import Verif.Model.CacheCheck

/-!
# C34: `cache_check` accepts mappings exactly when they are consistent

The specification, `Consistent`, is about a mapping word and a dirty flag for every cache block; the theorems about damaged devices
use `ListOk`, the same for the words the tool gets to see, in order.
-/

namespace Verif.CacheM

open Verif.BT (Tree KeyRange Event WSt)
open Verif.Bits (ABlock goodLeaf Checked walkLeaves visitEntries)
open Verif.Arr (Stored ASt chunk divUp)

/-! ## The specification -/

/-- An entry of the mapping array.  `k` is the number of flag values: 4 in version 1 (valid, dirty), 2 in version 2 (valid). -/
structure EntryOk (k lim : Nat) (m : Mapping) (dirty : Bool) : Prop where
  flags : m.flags < k
  unmapped : m.isValid = false → m.oblock = 0 ∧ dirty = false
  range : m.isValid = true → m.oblock < lim

/-- The mapping words of a cache of `nr` blocks make sense: `lim` is the number of origin blocks. -/
structure Consistent (k lim nr : Nat) (map : Nat → Nat) (dirty : Nat → Bool) : Prop where
  each : ∀ c, c < nr → EntryOk k lim (ofWord (map c)) (dirty c)
  distinct : ∀ c c', c < nr → c' < nr → (ofWord (map c)).isValid = true → (ofWord (map c')).isValid = true →
    (ofWord (map c)).oblock = (ofWord (map c')).oblock → c = c'

/-- the same of a list of words, each with a position for its dirty bit -/
structure ListOk (k lim : Nat) (dirty : Nat → Nat → Bool) (l : List (Nat × Nat)) : Prop where
  each : ∀ e ∈ l, EntryOk k lim (ofWord e.1) (dirty e.2 e.1)
  distinct : l.Pairwise fun a b => (ofWord a.1).isValid = true → (ofWord b.1).isValid = true → (ofWord a.1).oblock ≠ (ofWord b.1).oblock

theorem ListOk.left {k lim : Nat} {dirty : Nat → Nat → Bool} {p l : List (Nat × Nat)} (h : ListOk k lim dirty (p ++ l)) : ListOk k lim dirty p :=
  ⟨fun e he => h.each e (by simp [he]), (List.pairwise_append.mp h.distinct).1⟩

theorem listOk_iff {k lim nr : Nat} {map g : Nat → Nat} {dirty : Nat → Nat → Bool} :
    ListOk k lim dirty ((List.range nr).map fun c => (map c, g c)) ↔ Consistent k lim nr map (fun c => dirty (g c) (map c)) := by
  constructor
  · intro h
    have hp := List.pairwise_map.mp h.distinct
    refine ⟨fun c hc => h.each (map c, g c) (List.mem_map.mpr ⟨c, List.mem_range.mpr hc, rfl⟩), ?_⟩
    have key : ∀ c c', c < c' → c' < nr → (ofWord (map c)).isValid = true → (ofWord (map c')).isValid = true →
        (ofWord (map c)).oblock ≠ (ofWord (map c')).oblock := by
      intro c c' hlt hc' v v'
      have := List.pairwise_iff_getElem.mp hp c c' (by simp; omega) (by simp; omega) hlt
      simp only [List.getElem_range] at this
      exact this v v'
    intro c c' hc hc' v v' e
    rcases Nat.lt_trichotomy c c' with h1 | h1 | h1
    · exact absurd e (key c c' h1 hc' v v')
    · exact h1
    · exact absurd e.symm (key c' c h1 hc v' v)
  · intro h
    refine ⟨?_, ?_⟩
    · intro e he
      obtain ⟨c, hc, rfl⟩ := List.mem_map.mp he
      exact h.each c (List.mem_range.mp hc)
    · rw [List.pairwise_map]
      refine (List.pairwise_lt_range).imp_of_mem ?_
      intro a b ha hb hlt v v' e
      have := h.distinct a b (List.mem_range.mp ha) (List.mem_range.mp hb) v v' e
      omega

/-! ## Flags -/

theorem ofWord_flags (w : Nat) : (ofWord w).flags < 2 ^ 16 := by
  show w &&& (2 ^ 16 - 1) < 2 ^ 16
  rw [Nat.and_two_pow_sub_one_eq_mod]
  exact Nat.mod_lt _ (by decide)

theorem flags_mask {f j : Nat} (hf : f < 2 ^ 16) (hj : j ≤ 16) : f &&& (2 ^ 32 - 1 - (2 ^ j - 1)) = 0 ↔ f < 2 ^ j := by
  have hmask : ∀ i, (2 ^ 32 - 1 - (2 ^ j - 1)).testBit i = (decide (i < 32) && decide (j ≤ i)) := by
    intro i
    have h1 : 2 ^ 32 - 1 - (2 ^ j - 1) = 2 ^ 32 - 2 ^ j := by
      have : 0 < 2 ^ j := Nat.two_pow_pos j
      omega
    have h2 : 2 ^ 32 - 2 ^ j = (2 ^ (32 - j) - 1) * 2 ^ j := by
      rw [Nat.sub_mul, ← Nat.pow_add, Nat.one_mul]
      congr 2; omega
    rw [h1, h2, ← Nat.shiftLeft_eq, Nat.testBit_shiftLeft, Nat.testBit_two_pow_sub_one]
    by_cases h : j ≤ i
    · rw [show decide (i - j < 32 - j) = decide (i < 32) by by_cases h' : i < 32 <;> simp [h'] <;> omega]
      exact Bool.and_comm _ _
    · simp [h]
  constructor
  · intro h
    apply Nat.lt_pow_two_of_testBit
    intro i hi
    have := congrArg (fun x => x.testBit i) h
    simp only [Nat.testBit_and, hmask, Nat.zero_testBit] at this
    by_cases h32 : i < 32
    · simpa [h32, hi] using this
    · exact Nat.testBit_lt_two_pow (Nat.lt_of_lt_of_le hf (Nat.pow_le_pow_right (by decide) (by omega)))
  · intro h
    apply Nat.eq_of_testBit_eq
    intro i
    rw [Nat.testBit_and, hmask, Nat.zero_testBit]
    by_cases hi : j ≤ i
    · rw [Nat.testBit_lt_two_pow (Nat.lt_of_lt_of_le h (Nat.pow_le_pow_right (by decide) hi))]; rfl
    · simp [hi]

/-- what the flag checks of a format have to do -/
def FlagSpec (k : Nat) (dirty : Nat → Nat → Bool) (flags : Nat → Mapping → Bool) : Prop :=
  ∀ c w, flags c (ofWord w) = true ↔ (ofWord w).flags < k ∧ ((ofWord w).isValid = false → dirty c w = false)

theorem flagSpec1 : FlagSpec 4 (fun _ w => (ofWord w).isDirty) (fun _ m => checkFlags1 m) := by
  intro c w
  have := flags_mask (ofWord_flags w) (j := 2) (by decide)
  simp only
  unfold checkFlags1
  rw [show (1 ||| 2 : Nat) = 2 ^ 2 - 1 by decide]
  by_cases h : (ofWord w).flags < 2 ^ 2
  · rw [if_neg (by rw [this.mpr h]; simp)]
    cases (ofWord w).isValid <;> cases (ofWord w).isDirty <;> simp <;> omega
  · rw [if_pos (fun e => h (this.mp e))]
    simp only [Bool.false_eq_true, false_iff, not_and]
    intro h'; omega

theorem flagSpec2 (bits : Checked) : FlagSpec 2 (fun c _ => (bits c).getD false) (fun c m => checkFlags2 m (bits c)) := by
  intro c w
  have := flags_mask (ofWord_flags w) (j := 1) (by decide)
  simp only
  unfold checkFlags2
  rw [show (2 ^ 32 - 1 - 1 : Nat) = 2 ^ 32 - 1 - (2 ^ 1 - 1) by decide]
  by_cases h : (ofWord w).flags < 2 ^ 1
  · rw [if_neg (by rw [this.mpr h]; simp)]
    cases (ofWord w).isValid <;> cases bits c with
      | none => simp; omega
      | some b => cases b <;> simp <;> omega
  · rw [if_pos (fun e => h (this.mp e))]
    simp only [Bool.false_eq_true, false_iff, not_and]
    intro h'; omega

/-! ## The visitors -/

/-- the bitset holds exactly the origin blocks of the valid words of `p` -/
structure SeenIs (p : List (Nat × Nat)) (s : BitSet) : Prop where
  bad : s.bad = false
  len : ∀ i, s.bits i = true → i < s.len
  bits : ∀ i, s.bits i = true ↔ ∃ e ∈ p, (ofWord e.1).isValid = true ∧ (ofWord e.1).oblock = i

theorem checkOblock_spec {lim : Nat} {p : List (Nat × Nat)} {s : BitSet} (hs : SeenIs p s) (w c : Nat) :
    ((checkOblock lim (ofWord w) s).1 = true ↔ ((ofWord w).isValid = false → (ofWord w).oblock = 0) ∧
      ((ofWord w).isValid = true → (ofWord w).oblock < lim) ∧
      (∀ e ∈ p, (ofWord e.1).isValid = true → (ofWord w).isValid = true → (ofWord e.1).oblock ≠ (ofWord w).oblock)) ∧
    ((checkOblock lim (ofWord w) s).1 = true → SeenIs (p ++ [(w, c)]) (checkOblock lim (ofWord w) s).2) := by
  generalize hm : ofWord w = m
  unfold checkOblock
  cases hv : m.isValid
  · simp only [Bool.not_false, if_true]
    have keep : SeenIs (p ++ [(w, c)]) s := by
      refine ⟨hs.bad, hs.len, fun i => ?_⟩
      rw [hs.bits]
      constructor
      · rintro ⟨e, he, h⟩; exact ⟨e, by simp [he], h⟩
      · rintro ⟨e, he, h⟩
        rcases List.mem_append.mp he with he | he
        · exact ⟨e, he, h⟩
        · rw [List.mem_singleton.mp he] at h
          simp only [hm, hv] at h
          exact absurd h.1 (by simp)
    by_cases h0 : m.oblock > 0
    · rw [if_pos h0]; simp; omega
    · rw [if_neg h0]
      exact ⟨⟨fun _ => ⟨fun _ => by omega, (by simp), (by simp)⟩, fun _ => rfl⟩, fun _ => keep⟩
  · simp only [Bool.not_true, Bool.false_eq_true, if_false]
    have ins : ∀ s' : BitSet, s'.bits = s.bits → s'.bad = false → s.len ≤ s'.len → m.oblock < s'.len →
        SeenIs (p ++ [(w, c)]) (s'.insert m.oblock) := by
      intro s' h1 h2 h3 h4
      unfold BitSet.insert
      rw [if_pos h4]
      refine ⟨h2, ?_, ?_⟩
      · intro i hi
        simp only at hi ⊢
        by_cases e : i = m.oblock
        · rw [e]; exact h4
        · rw [if_neg e, h1] at hi
          exact Nat.lt_of_lt_of_le (hs.len i hi) h3
      · intro i
        simp only
        by_cases e : i = m.oblock
        · rw [if_pos e]
          exact ⟨fun _ => ⟨(w, c), by simp, by simp only [hm]; exact ⟨hv, e.symm⟩⟩, fun _ => rfl⟩
        · rw [if_neg e, h1, hs.bits]
          constructor
          · rintro ⟨x, hx, h⟩; exact ⟨x, by simp [hx], h⟩
          · rintro ⟨x, hx, h⟩
            rcases List.mem_append.mp hx with hx | hx
            · exact ⟨x, hx, h⟩
            · rw [List.mem_singleton.mp hx] at h
              simp only [hm] at h
              exact absurd h.2.symm e
    have fresh : (∀ e ∈ p, (ofWord e.1).isValid = true → (True → (ofWord e.1).oblock ≠ m.oblock)) ↔ s.bits m.oblock = false := by
      constructor
      · intro h
        cases hb : s.bits m.oblock
        · rfl
        · obtain ⟨e, he, h1, h2⟩ := (hs.bits _).mp hb
          exact absurd h2 (h e he h1 trivial)
      · intro hb e he h1 _ h2
        have := (hs.bits m.oblock).mpr ⟨e, he, h1, h2⟩
        rw [hb] at this
        cases this
    simp only [true_implies]
    rw [show (∀ e ∈ p, (ofWord e.1).isValid = true → (ofWord e.1).oblock ≠ m.oblock) ↔ s.bits m.oblock = false by
      rw [← fresh]; simp]
    by_cases h1 : m.oblock ≥ lim
    · rw [if_pos h1]; simp; omega
    rw [if_neg h1]
    by_cases h2 : m.oblock ≥ s.len
    · rw [if_pos h2]
      have hb : s.bits m.oblock = false := by
        cases hb : s.bits m.oblock
        · rfl
        · have := hs.len _ hb; omega
      refine ⟨⟨fun _ => ⟨by simp, by omega, hb⟩, fun _ => rfl⟩, fun _ => ?_⟩
      have hg : s.grow (m.oblock + 1) = { s with len := m.oblock + 1 } := by unfold BitSet.grow; rw [if_pos (by omega)]
      exact ins _ (by rw [hg]) (by rw [hg]; exact hs.bad) (by rw [hg]; simp only; omega) (by rw [hg]; simp)
    rw [if_neg h2]
    cases hb : s.bits m.oblock
    · rw [if_neg (by unfold BitSet.contains; simp [hb])]
      exact ⟨⟨fun _ => ⟨by simp, by omega, rfl⟩, fun _ => rfl⟩, fun _ => ins s rfl hs.bad (Nat.le_refl _) (by omega)⟩
    · rw [if_pos (by unfold BitSet.contains; rw [hb]; simp; omega)]
      simp

theorem checkMaps_spec {k lim : Nat} {dirty : Nat → Nat → Bool} {flags : Nat → Mapping → Bool} (hf : FlagSpec k dirty flags) :
    ∀ (l p : List (Nat × Nat)) (s : BitSet), SeenIs p s → ListOk k lim dirty p →
    ((checkMaps flags lim l s).1 = true ↔ ListOk k lim dirty (p ++ l)) ∧
    ((checkMaps flags lim l s).1 = true → SeenIs (p ++ l) (checkMaps flags lim l s).2) := by
  intro l
  induction l with
  | nil => intro p s hs hp; simp [checkMaps, hs, hp]
  | cons e l ih =>
    intro p s hs hp
    obtain ⟨w, c⟩ := e
    obtain ⟨h1, h2⟩ := checkOblock_spec (lim := lim) hs w c
    have hsnoc : (flags c (ofWord w) = true ∧ (checkOblock lim (ofWord w) s).1 = true) ↔ ListOk k lim dirty (p ++ [(w, c)]) := by
      rw [hf, h1]
      constructor
      · rintro ⟨⟨a1, a2⟩, a3, a4, a5⟩
        refine ⟨?_, ?_⟩
        · intro e he
          rcases List.mem_append.mp he with he | he
          · exact hp.each e he
          · rw [List.mem_singleton.mp he]
            exact ⟨a1, fun hv => ⟨a3 hv, a2 hv⟩, a4⟩
        · rw [List.pairwise_append]
          refine ⟨hp.distinct, List.pairwise_singleton _ _, ?_⟩
          intro a ha b hb
          rw [List.mem_singleton.mp hb]
          exact a5 a ha
      · intro h
        have he := h.each (w, c) (by simp)
        refine ⟨⟨he.flags, fun hv => (he.unmapped hv).2⟩, fun hv => (he.unmapped hv).1, he.range, ?_⟩
        intro a ha
        exact (List.pairwise_append.mp h.distinct).2.2 a ha (w, c) (by simp)
    unfold checkMaps
    simp only [Bool.and_eq_true]
    have happ : p ++ (w, c) :: l = (p ++ [(w, c)]) ++ l := by simp
    rw [happ]
    constructor
    · constructor
      · rintro ⟨⟨b1, b2⟩, b3⟩
        exact ((ih _ _ (h2 b2) (hsnoc.mp ⟨b1, b2⟩)).1).mp b3
      · intro h
        have hl := hsnoc.mpr h.left
        exact ⟨hl, ((ih _ _ (h2 hl.2) h.left).1).mpr h⟩
    · rintro ⟨⟨b1, b2⟩, b3⟩
      exact (ih _ _ (h2 b2) (hsnoc.mp ⟨b1, b2⟩)).2 b3

/-! ## Walking -/

/-- the words the leaves' entries lead to; unreadable blocks show nothing -/
def shown (read : Nat → Option ABlock) (cont : Nat → ABlock → List (Nat × Nat)) (es : List (Nat × Nat)) : List (Nat × Nat) :=
  es.flatMap fun e => match read e.2 with | some b => cont e.1 b | none => []

theorem visitEntries_mono {read : Nat → Option ABlock} {S : Type} {visit : Nat → ABlock → S → Bool × S} (es : List (Nat × Nat)) (n : Nat) (s : S) :
    n ≤ (visitEntries read visit es (n, s)).1 := (Bits.visitEntries_errs es n s).1

theorem visitEntries_spec {read : Nat → Option ABlock} {S : Type} {visit : Nat → ABlock → S → Bool × S} {cont : Nat → ABlock → List (Nat × Nat)}
    {J : List (Nat × Nat) → S → Prop} {good : List (Nat × Nat) → Prop} (hg : ∀ p q, good (p ++ q) → good p)
    (hv : ∀ k b p s, J p s → good p → ((visit k b s).1 = true ↔ good (p ++ cont k b)) ∧ ((visit k b s).1 = true → J (p ++ cont k b) (visit k b s).2)) :
    ∀ (es p : List (Nat × Nat)) (s : S), J p s → good p →
    ((visitEntries read visit es (0, s)).1 = 0 ↔ (∀ e ∈ es, (read e.2).isSome) ∧ good (p ++ shown read cont es)) ∧
    ((visitEntries read visit es (0, s)).1 = 0 → J (p ++ shown read cont es) (visitEntries read visit es (0, s)).2) := by
  intro es
  induction es with
  | nil => intro p s hj hp; simp [visitEntries, shown, hj, hp]
  | cons e es ih =>
    intro p s hj hp
    obtain ⟨k, v⟩ := e
    unfold visitEntries
    cases hr : read v with
    | none =>
      simp only
      have := visitEntries_mono (read := read) (visit := visit) es (0 + 1) s
      refine ⟨⟨fun h => by omega, fun h => ?_⟩, fun h => by omega⟩
      have := h.1 (k, v) (by simp)
      rw [hr] at this
      cases this
    | some b =>
      simp only
      obtain ⟨a1, a2⟩ := hv k b p s hj hp
      have hsh : shown read cont ((k, v) :: es) = cont k b ++ shown read cont es := by
        unfold shown; rw [List.flatMap_cons]; simp only [hr]
      rw [hsh, ← List.append_assoc]
      by_cases hok : (visit k b s).1 = true
      · rw [if_pos hok]
        obtain ⟨c1, c2⟩ := ih (p ++ cont k b) _ (a2 hok) (a1.mp hok)
        refine ⟨c1.trans ⟨fun h => ⟨?_, h.2⟩, fun h => ⟨fun e he => h.1 e (by simp [he]), h.2⟩⟩, c2⟩
        intro e he
        rcases List.mem_cons.mp he with rfl | he
        · simp [hr]
        · exact h.1 e he
      · rw [if_neg hok]
        have := visitEntries_mono (read := read) (visit := visit) es (0 + 1) (visit k b s).2
        refine ⟨⟨fun h => by omega, fun h => ?_⟩, fun h => by omega⟩
        exact absurd (a1.mpr (hg _ _ h.2)) hok

theorem walkLeaves_mono {read : Nat → Option ABlock} {S : Type} {visit : Nat → ABlock → S → Bool × S} (ls : List (KeyRange × List (Nat × Nat))) (n : Nat) (s : S) :
    n ≤ (walkLeaves read visit ls (n, s)).1 := (Bits.walkLeaves_errs ls n s).1

theorem walkLeaves_spec {read : Nat → Option ABlock} {S : Type} {visit : Nat → ABlock → S → Bool × S} {cont : Nat → ABlock → List (Nat × Nat)}
    {J : List (Nat × Nat) → S → Prop} {good : List (Nat × Nat) → Prop} (hg : ∀ p q, good (p ++ q) → good p)
    (hv : ∀ k b p s, J p s → good p → ((visit k b s).1 = true ↔ good (p ++ cont k b)) ∧ ((visit k b s).1 = true → J (p ++ cont k b) (visit k b s).2)) :
    ∀ (ls : List (KeyRange × List (Nat × Nat))) (p : List (Nat × Nat)) (s : S), J p s → good p →
    ((walkLeaves read visit ls (0, s)).1 = 0 ↔ (∀ l ∈ ls, goodLeaf l.1 l.2 = true) ∧ (∀ e ∈ ls.flatMap (·.2), (read e.2).isSome) ∧
      good (p ++ shown read cont (ls.flatMap (·.2)))) ∧
    ((walkLeaves read visit ls (0, s)).1 = 0 → J (p ++ shown read cont (ls.flatMap (·.2))) (walkLeaves read visit ls (0, s)).2) := by
  intro ls
  induction ls with
  | nil => intro p s hj hp; simp [walkLeaves, shown, hj, hp]
  | cons l ls ih =>
    intro p s hj hp
    obtain ⟨kr, es⟩ := l
    unfold walkLeaves
    by_cases hgl : goodLeaf kr es = true
    · rw [if_pos hgl]
      obtain ⟨a1, a2⟩ := visitEntries_spec (read := read) hg hv es p s hj hp
      have hsh : shown read cont (((kr, es) :: ls).flatMap (·.2)) = shown read cont es ++ shown read cont (ls.flatMap (·.2)) := by
        unfold shown; rw [List.flatMap_cons, List.flatMap_append]
      rw [hsh, ← List.append_assoc]
      by_cases h0 : (visitEntries read visit es (0, s)).1 = 0
      · have hp' := (a1.mp h0)
        have hpair : visitEntries read visit es (0, s) = (0, (visitEntries read visit es (0, s)).2) := Prod.ext h0 rfl
        obtain ⟨c1, c2⟩ := ih _ _ (a2 h0) hp'.2
        rw [hpair]
        refine ⟨c1.trans ⟨fun h => ⟨?_, ?_, h.2.2⟩, fun h => ⟨fun l hl => h.1 l (by simp [hl]), fun e he => h.2.1 e ?_, h.2.2⟩⟩, c2⟩
        · intro l hl
          rcases List.mem_cons.mp hl with rfl | hl
          · exact hgl
          · exact h.1 l hl
        · intro e he
          rw [List.flatMap_cons] at he
          rcases List.mem_append.mp he with he | he
          · exact hp'.1 e he
          · exact h.2.1 e he
        · rw [List.flatMap_cons]; exact List.mem_append.mpr (Or.inr he)
      · have hm := walkLeaves_mono (read := read) (visit := visit) ls (visitEntries read visit es (0, s)).1 (visitEntries read visit es (0, s)).2
        rw [show ((visitEntries read visit es (0, s)).1, (visitEntries read visit es (0, s)).2) = visitEntries read visit es (0, s) from rfl] at hm
        refine ⟨⟨fun h => by omega, fun h => absurd (a1.mpr ⟨fun e he => h.2.1 e ?_, hg _ _ h.2.2⟩) h0⟩, fun h => by omega⟩
        rw [List.flatMap_cons]; exact List.mem_append.mpr (Or.inl he)
    · rw [if_neg hgl]
      have := walkLeaves_mono (read := read) (visit := visit) ls (0 + 1) s
      exact ⟨⟨fun h => by omega, fun h => absurd (h.1 (kr, es) (by simp)) hgl⟩, fun h => by omega⟩


theorem seenIs_nil (origin : Option Nat) : SeenIs [] (newChecker origin).2 := by
  cases origin <;> exact ⟨rfl, fun i h => (by cases h), fun i => ⟨fun h => (by cases h), fun ⟨_, h, _⟩ => (by cases h)⟩⟩

theorem listOk_nil (k lim : Nat) (dirty : Nat → Nat → Bool) : ListOk k lim dirty [] := ⟨fun e h => (by cases h), List.Pairwise.nil⟩

/-- what the visitors of the mappings look at in an array block -/
def cont1 (_k : Nat) (b : ABlock) : List (Nat × Nat) := b.values.map fun w => (w, 0)
def cont2 (k : Nat) (b : ABlock) : List (Nat × Nat) := b.values.zip (cblocks k b.maxEntries b.values.length)

/-- the leaves a walk with the common space map shows -/
def seenLeaves (d : Dev) (root : Nat) (seen : Nat → Nat) : List (KeyRange × List (Nat × Nat)) :=
  leavesOf (BT.walk (fun b => decide (b < d.nr)) d.rd arrayVis (d.nr + 1) [0] root (coreSt d.nr seen)).1.log

/-- the index tree is fine as far as it was looked at, and so are the array blocks -/
def Readable (d : Dev) (read : Nat → Option ABlock) (root : Nat) (seen : Nat → Nat) : Prop :=
  (BT.walk (fun b => decide (b < d.nr)) d.rd arrayVis (d.nr + 1) [0] root (coreSt d.nr seen)).2 = .ok ∧
  (∀ l ∈ seenLeaves d root seen, goodLeaf l.1 l.2 = true) ∧ ∀ e ∈ (seenLeaves d root seen).flatMap (·.2), (read e.2).isSome

theorem walkArray_spec {d : Dev} {read : Nat → Option ABlock} {S : Type} {visit : Nat → ABlock → S → Bool × S} {cont : Nat → ABlock → List (Nat × Nat)}
    {J : List (Nat × Nat) → S → Prop} {good : List (Nat × Nat) → Prop} (hg : ∀ p q, good (p ++ q) → good p)
    (hv : ∀ k b p s, J p s → good p → ((visit k b s).1 = true ↔ good (p ++ cont k b)) ∧ ((visit k b s).1 = true → J (p ++ cont k b) (visit k b s).2))
    (root : Nat) (seen : Nat → Nat) (s : S) (hj : J [] s) (h0 : good []) :
    (walkArray d read visit root s seen ≠ .error .err ↔
      Readable d read root seen ∧ good (shown read cont ((seenLeaves d root seen).flatMap (·.2)))) ∧
    ∀ r, walkArray d read visit root s seen = .ok r → J (shown read cont ((seenLeaves d root seen).flatMap (·.2))) r.1 := by
  obtain ⟨a1, a2⟩ := walkLeaves_spec (read := read) hg hv (seenLeaves d root seen) [] s hj h0
  simp only [List.nil_append] at a1 a2
  unfold Readable
  unfold walkArray
  simp only
  rw [show leavesOf (BT.walk (fun b => decide (b < d.nr)) d.rd arrayVis (d.nr + 1) [0] root (coreSt d.nr seen)).1.log = seenLeaves d root seen from rfl]
  by_cases hc : (BT.walk (fun b => decide (b < d.nr)) d.rd arrayVis (d.nr + 1) [0] root (coreSt d.nr seen)).2 = .ok ∧
      (walkLeaves read visit (seenLeaves d root seen) (0, s)).1 = 0
  · rw [if_pos hc]
    obtain ⟨c1, c2, c3⟩ := a1.mp hc.2
    have hno : ∀ (bs : List Nat) (f : Nat → Nat), incBlocks d.nr bs f ≠ .error .err := by
      intro bs
      induction bs with
      | nil => intro f h; cases h
      | cons b bs ih =>
        intro f
        unfold incBlocks
        split
        · exact ih _
        · intro h; cases h
    refine ⟨⟨fun _ => ⟨⟨hc.1, c1, c2⟩, c3⟩, fun _ => ?_⟩, ?_⟩
    · cases hi : incBlocks d.nr (((seenLeaves d root seen).flatMap (·.2)).map (·.2)) (BT.walk (fun b => decide (b < d.nr)) d.rd arrayVis (d.nr + 1) [0] root (coreSt d.nr seen)).1.seen with
      | error e => simp only; intro h; cases h; exact hno _ _ hi
      | ok f => simp
    · intro r
      cases hi : incBlocks d.nr (((seenLeaves d root seen).flatMap (·.2)).map (·.2)) (BT.walk (fun b => decide (b < d.nr)) d.rd arrayVis (d.nr + 1) [0] root (coreSt d.nr seen)).1.seen with
      | error e => simp only; intro h; cases h
      | ok f => simp only; intro h; cases h; exact a2 hc.2
  · rw [if_neg hc]
    refine ⟨⟨fun h => absurd rfl h, fun h => absurd ⟨h.1.1, a1.mpr ⟨h.1.2.1, h.1.2.2, h.2⟩⟩ hc⟩, fun r h => by cases h⟩

/-- C34, version 1, for any device, damaged or not: walking the mapping array gives no error exactly if the index can be walked, the
array blocks can be read, and the mappings in them are consistent. -/
theorem maps1_exact (d : Dev) (origin : Option Nat) (root : Nat) (seen : Nat → Nat) :
    walkArray d d.maps (visitMap1 (newChecker origin).1) root (newChecker origin).2 seen ≠ .error .err ↔
      Readable d d.maps root seen ∧
      ListOk 4 (origin.getD (2 ^ 48)) (fun _ w => (ofWord w).isDirty) (shown d.maps cont1 ((seenLeaves d root seen).flatMap (·.2))) := by
  have hl : (newChecker origin).1 = origin.getD (2 ^ 48) := by cases origin <;> rfl
  rw [hl]
  exact (walkArray_spec (J := SeenIs) (good := ListOk 4 (origin.getD (2 ^ 48)) fun _ w => (ofWord w).isDirty) (cont := cont1)
    (fun _ _ h => h.left) (fun k b p s hj hp => checkMaps_spec flagSpec1 (cont1 k b) p s hj hp) root seen _ (seenIs_nil origin) (listOk_nil _ _ _)).1

/-- C34, version 2, where `bits` are the dirty bits that could be read. -/
theorem maps2_exact (d : Dev) (origin : Option Nat) (bits : Checked) (root : Nat) (seen : Nat → Nat) :
    walkArray d d.maps (visitMap2 (newChecker origin).1 bits) root (newChecker origin).2 seen ≠ .error .err ↔
      Readable d d.maps root seen ∧
      ListOk 2 (origin.getD (2 ^ 48)) (fun c _ => (bits c).getD false) (shown d.maps cont2 ((seenLeaves d root seen).flatMap (·.2))) := by
  have hl : (newChecker origin).1 = origin.getD (2 ^ 48) := by cases origin <;> rfl
  rw [hl]
  exact (walkArray_spec (J := SeenIs) (good := ListOk 2 (origin.getD (2 ^ 48)) fun c _ => (bits c).getD false) (cont := cont2)
    (fun _ _ h => h.left) (fun k b p s hj hp => checkMaps_spec (flagSpec2 bits) (cont2 k b) p s hj hp) root seen _ (seenIs_nil origin) (listOk_nil _ _ _)).1

/-- the bitset of the origin blocks never overflows -/
theorem maps1_notBad {d : Dev} {origin : Option Nat} {root : Nat} {seen : Nat → Nat} {r : BitSet × (Nat → Nat)}
    (h : walkArray d d.maps (visitMap1 (newChecker origin).1) root (newChecker origin).2 seen = .ok r) : r.1.bad = false :=
  ((walkArray_spec (J := SeenIs) (good := ListOk 4 (newChecker origin).1 fun _ w => (ofWord w).isDirty) (cont := cont1)
    (fun _ _ h => h.left) (fun k b p s hj hp => checkMaps_spec flagSpec1 (cont1 k b) p s hj hp) root seen _ (seenIs_nil origin) (listOk_nil _ _ _)).2 r h).bad

theorem maps2_notBad {d : Dev} {origin : Option Nat} {bits : Checked} {root : Nat} {seen : Nat → Nat} {r : BitSet × (Nat → Nat)}
    (h : walkArray d d.maps (visitMap2 (newChecker origin).1 bits) root (newChecker origin).2 seen = .ok r) : r.1.bad = false :=
  ((walkArray_spec (J := SeenIs) (good := ListOk 2 (newChecker origin).1 fun c _ => (bits c).getD false) (cont := cont2)
    (fun _ _ h => h.left) (fun k b p s hj hp => checkMaps_spec (flagSpec2 bits) (cont2 k b) p s hj hp) root seen _ (seenIs_nil origin) (listOk_nil _ _ _)).2 r h).bad

/-! ## Undamaged arrays -/

/-- the counts after visiting the blocks `B`, none of which was counted before -/
def counted (B : List Nat) (seen : Nat → Nat) : Nat → Nat := fun x => if x ∈ B then 1 else seen x

theorem counted_append (A B : List Nat) (seen : Nat → Nat) : counted B (counted A seen) = counted (A ++ B) seen := by
  funext x
  unfold counted
  by_cases h1 : x ∈ B <;> by_cases h2 : x ∈ A <;> simp [h1, h2]

theorem incBlocks_fresh {nr : Nat} : ∀ (bs : List Nat) (seen : Nat → Nat), bs.Nodup → (∀ b ∈ bs, b < nr ∧ seen b = 0) →
    incBlocks nr bs seen = .ok (counted bs seen) := by
  intro bs
  induction bs with
  | nil => intro seen _ _; unfold incBlocks counted; simp
  | cons b bs ih =>
    intro seen hnd h
    have hb := h b (by simp)
    have hnd := List.nodup_cons.mp hnd
    unfold incBlocks
    rw [if_pos ⟨hb.1, by omega⟩, ih _ hnd.2]
    · congr 1
      funext x
      unfold counted
      by_cases h1 : x ∈ bs
      · simp [h1]
      · by_cases h2 : x = b
        · subst h2; simp [h1, hb.2]
        · simp [h1, h2]
    · intro x hx
      have hne : x ≠ b := fun e => hnd.1 (e ▸ hx)
      exact ⟨(h x (by simp [hx])).1, by rw [if_neg hne]; exact (h x (by simp [hx])).2⟩

/-- walking a stored array whose blocks were not counted before -/
theorem walkArray_stored {epb nr n : Nat} {a : Nat → Nat} {root : Nat} {s : ASt Nat} {h : Nat} {t : Tree Nat h} {blocks : List Nat}
    (hs : Stored epb nr n a root s h t blocks) (d : Dev) (hn : d.nr = n) (hrd : d.rd = fun _ b => s.bt.mem b) {seen : Nat → Nat}
    (hnd : (t.blocks h ++ blocks).Nodup) (hz : ∀ x ∈ t.blocks h ++ blocks, seen x = 0) :
    ∃ ls : List (KeyRange × List (Nat × Nat)), seenLeaves d root seen = ls ∧
      (∀ l ∈ ls, goodLeaf l.1 l.2 = true) ∧ ls.flatMap (·.2) = (List.range blocks.length).zip blocks ∧
      (BT.walk (fun b => decide (b < d.nr)) d.rd arrayVis (d.nr + 1) [0] root (coreSt d.nr seen)).2 = .ok ∧
      ∀ (read : Nat → Option ABlock) (S : Type) (visit : Nat → ABlock → S → Bool × S) (s0 : S),
        walkArray d read visit root s0 seen =
          if (walkLeaves read visit ls (0, s0)).1 = 0 then .ok ((walkLeaves read visit ls (0, s0)).2, counted (t.blocks h ++ blocks) seen)
          else .error .err := by
  have hc := Stored.clean hs
  have hroot : t.blk h < n := hc.bound _ (by cases h <;> simp [Tree.blk, Tree.blocks])
  obtain ⟨max, hsm⟩ := hs.sm
  obtain ⟨hmem, hflat⟩ := stored_leaves hs
  obtain ⟨h1, h2, h3, h4, -⟩ := BT.walk_counts (fun b => decide (b < d.nr)) d.rd arrayVis h t (coreSt d.nr seen) (by show 0 < 255; omega) (d.nr + 1)
    (by rw [hn]; have := hc.height; omega) [0]
    (fun l e he => by obtain ⟨p, k, es, h1, h2, -⟩ := stored_good hs e he; rw [h1]; exact h2)
    (by rw [hn]; simpa using hroot) (by rw [hrd]; exact hs.tree) hs.ordered hs.noEmpty hc.nodup
    (fun x hx => ⟨by show x < d.nr; rw [hn]; exact hc.bound x hx, hz x (by simp [hx])⟩)
  rw [hs.blk] at h1 h2 h3 h4
  have hl : seenLeaves d root seen = leavesOf (BT.leafEvents h [0] ⟨none, none⟩ t) := by
    unfold seenLeaves
    rw [h2]
    show leavesOf ([] ++ _ ++ _) = _
    rw [List.nil_append, leavesOf_append]; simp [leavesOf]
  have hnd' := List.nodup_append.mp hnd
  refine ⟨_, hl, fun l hl => (hmem l hl).1, hflat, h1, ?_⟩
  intro read S visit s0
  unfold walkArray
  simp only
  rw [show leavesOf (BT.walk (fun b => decide (b < d.nr)) d.rd arrayVis (d.nr + 1) [0] root (coreSt d.nr seen)).1.log = seenLeaves d root seen from rfl,
    hl, hflat, List.map_snd_zip (by simp), incBlocks_fresh blocks _ hnd'.2.1]
  · simp only [h1, true_and]
    split
    · congr 2
      funext x
      unfold counted
      by_cases hb : x ∈ blocks
      · simp [hb]
      · by_cases ht : x ∈ t.blocks h
        · simp [ht, hb, h4 x ht]
        · rw [if_neg hb, if_neg (by simp [ht, hb]), h3 x ht]; rfl
    · rfl
  · intro b hb
    refine ⟨by rw [hn]; exact SMC.lt_of_pos hsm (hs.live b hb), ?_⟩
    rw [h3 b (fun hh => hnd'.2.2 b hh b hb rfl)]
    exact hz b (by simp [hb])

theorem shown_stored {epb nr n : Nat} (he : 0 < epb) {a g : Nat → Nat} {root : Nat} {s : ASt Nat} {h : Nat} {t : Tree Nat h} {blocks : List Nat}
    (hs : Stored epb nr n a root s h t blocks) {cont : Nat → ABlock → List (Nat × Nat)}
    (hc : ∀ k b, k * epb < nr → b.maxEntries = epb → b.values = chunk epb nr a k →
      cont k b = (List.range' (k * epb) (min (nr - k * epb) epb)).map fun c => (a c, g c)) :
    shown (fun b => (s.readArr b).map (ABlock.mk epb)) cont ((List.range blocks.length).zip blocks) = (List.range nr).map fun c => (a c, g c) := by
  have hz : ∀ e ∈ (List.range blocks.length).zip blocks, (match (s.readArr e.2).map (ABlock.mk epb) with | some b => cont e.1 b | none => []) =
      (List.range' (e.1 * epb) (min (nr - e.1 * epb) epb)).map fun c => (a c, g c) := by
    intro e he'
    obtain ⟨k, hk, rfl⟩ := List.mem_iff_getElem.mp he'
    simp only [List.length_zip, List.length_range, Nat.min_self] at hk
    simp only [List.getElem_zip, List.getElem_range]
    have hlt : k * epb < nr := by rw [hs.count] at hk; exact (Arr.lt_divUp he).mp hk
    rw [hs.values k hk]
    exact hc k _ hlt rfl rfl
  unfold shown
  rw [Bld.flatMap_congr' hz, ← range_chunks he nr, ← hs.count, List.map_flatMap]
  rw [← List.flatMap_map (f := fun e : Nat × Nat => e.1) (g := fun k => (List.range' (k * epb) (min (nr - k * epb) epb)).map fun c => (a c, g c)),
    List.map_fst_zip (by simp)]

theorem readable_stored {epb nr n : Nat} {a : Nat → Nat} {root : Nat} {s : ASt Nat} {h : Nat} {t : Tree Nat h} {blocks : List Nat}
    (hs : Stored epb nr n a root s h t blocks) : ∀ e ∈ (List.range blocks.length).zip blocks, ((s.readArr e.2).map (ABlock.mk epb)).isSome := by
  intro e he'
  obtain ⟨k, hk, rfl⟩ := List.mem_iff_getElem.mp he'
  simp only [List.length_zip, List.length_range, Nat.min_self] at hk
  simp only [List.getElem_zip]
  rw [hs.values k hk]
  rfl

end Verif.CacheM
