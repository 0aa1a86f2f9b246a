import Verif.Model.EraLogical
import Verif.Prop.Bitset

/-!
# C51: the eras of a logical dump

The specification: the era emitted for a block is the era of the latest writeset (archived or current) that contains it,
and the era of the era array if none does.
-/

namespace Verif.EraL

open Verif.Bits (ABlock)
open Verif.Scan (bitOf)

variable {W : Type}

/-! ### Specification -/

/-- the writeset contains block `x` -/
def inSet (rd : W → Option (List Nat)) (x : Nat) (w : Nat × W) : Bool :=
  match rd w.2 with
  | none => false
  | some bits => bitOf 32 bits x

/-- the era of the last of the writesets that contain `x` -/
def lastSet (rd : W → Option (List Nat)) (sets : List (Nat × W)) (x : Nat) : Option Nat :=
  ((sets.filter (inSet rd x)).getLast?).map (·.1)

/-- `v` lists, in era order, the archived writesets and the current one, and their eras are consecutive up to `cur` -/
structure AllSets (tree : List (Nat × W)) (cur : Nat) (current : Option W) (v : List (Nat × W)) : Prop where
  mem : ∀ p, p ∈ v ↔ p ∈ tree ∨ (p.1 = cur ∧ current = some p.2)
  keys : v.map (·.1) = List.range' (cur + 1 - v.length) v.length

/-! ### The map of writesets -/

/-- keys increase -/
abbrev Keys (l : List (Nat × W)) : Prop := l.Pairwise (fun a b => a.1 < b.1)

theorem lookup_some {m : List (Nat × W)} (hm : Keys m) (k : Nat) (w : W) : lookup m k = some w ↔ (k, w) ∈ m := by
  unfold lookup
  induction m with
  | nil => simp
  | cons p m ih =>
    have hp := List.pairwise_cons.mp hm
    by_cases h : p.1 = k
    · rw [List.find?_cons_of_pos (by simpa using h)]
      simp only [Option.map_some, Option.some.injEq, List.mem_cons]
      constructor
      · intro hw; left; rw [← hw, ← h]
      · rintro (hw | hw)
        · rw [← hw]
        · have := hp.1 _ hw; simp only at this; omega
    · rw [List.find?_cons_of_neg (by simpa using h), ih hp.2]
      simp only [List.mem_cons]
      constructor
      · exact Or.inr
      · rintro (hw | hw)
        · exact absurd (by rw [← hw]) h
        · exact hw

theorem lookup_none {m : List (Nat × W)} (hm : Keys m) (k : Nat) (h : (lookup m k).isSome = false) : ∀ p ∈ m, p.1 ≠ k := by
  rintro ⟨k', w⟩ hp rfl
  rw [(lookup_some hm k' w).mpr hp] at h
  cases h

theorem mem_insertKey (k : Nat) (w : W) (m : List (Nat × W)) (p : Nat × W) : p ∈ insertKey k w m ↔ p = (k, w) ∨ p ∈ m := by
  induction m with
  | nil => simp [insertKey]
  | cons q m ih =>
    unfold insertKey
    split
    · simp
    · simp only [List.mem_cons, ih]
      constructor
      · rintro (h | h | h) <;> simp [h]
      · rintro (h | h | h) <;> simp [h]

theorem keys_insertKey (k : Nat) (w : W) (m : List (Nat × W)) (hm : Keys m) (hk : ∀ p ∈ m, p.1 ≠ k) : Keys (insertKey k w m) := by
  induction m with
  | nil => simp [insertKey, Keys]
  | cons q m ih =>
    have hq := List.pairwise_cons.mp hm
    unfold insertKey
    split
    · next h =>
      refine List.pairwise_cons.mpr ⟨fun p hp => ?_, hm⟩
      rcases List.mem_cons.mp hp with rfl | hp
      · exact h
      · have := hq.1 p hp; simp only; omega
    · next h =>
      refine List.pairwise_cons.mpr ⟨fun p hp => ?_, ih hq.2 (fun p hp => hk p (by simp [hp]))⟩
      rcases (mem_insertKey _ _ _ _).mp hp with rfl | hp
      · have := hk q (by simp); simp only; omega
      · exact hq.1 p hp

theorem length_insertKey (k : Nat) (w : W) (m : List (Nat × W)) : (insertKey k w m).length = m.length + 1 := by
  induction m with
  | nil => rfl
  | cons q m ih =>
    unfold insertKey
    split
    · rfl
    · rw [List.length_cons, ih, List.length_cons]

theorem collect_spec (m : List (Nat × W)) (n : Nat) : ∀ era v, collect m n era = some v ↔
    v.map (·.1) = List.range' era n ∧ ∀ p ∈ v, lookup m p.1 = some p.2 := by
  induction n with
  | zero =>
    intro era v
    simp only [collect, List.range'_zero, List.map_eq_nil_iff]
    constructor
    · intro h; cases h; exact ⟨rfl, by simp⟩
    · rintro ⟨rfl, _⟩; rfl
  | succ n ih =>
    intro era v
    unfold collect
    rw [List.range'_succ]
    constructor
    · intro h
      split at h
      · cases h
      · next w hw =>
        split at h
        · cases h
        · next v' hv' =>
          cases h
          obtain ⟨h1, h2⟩ := (ih _ _).mp hv'
          refine ⟨by rw [List.map_cons, h1], fun p hp => ?_⟩
          rcases List.mem_cons.mp hp with rfl | hp
          · exact hw
          · exact h2 p hp
    · rintro ⟨h1, h2⟩
      cases v with
      | nil => cases h1
      | cons p v =>
        rw [List.map_cons, List.cons.injEq] at h1
        have h3 := h2 p (by simp)
        rw [h1.1] at h3
        rw [h3, (ih (era + 1) v).mpr ⟨h1.2, fun q hq => h2 q (by simp [hq])⟩]
        simp only [Option.some.injEq, List.cons.injEq, and_true]
        rw [← h1.1]

theorem subset_length {v m : List (Nat × W)} (hv : Keys v) (h : ∀ p ∈ v, p ∈ m) : v.length ≤ m.length := by
  have h1 : (v.map (·.1)).Nodup := by
    rw [List.nodup_iff_pairwise_ne, List.pairwise_map]
    exact hv.imp (fun h => by omega)
  have h2 := h1.length_le_of_subset (l₂ := m.map (·.1)) (by
    intro k hk
    obtain ⟨p, hp, rfl⟩ := List.mem_map.mp hk
    exact List.mem_map.mpr ⟨p, h p hp, rfl⟩)
  simpa using h2

theorem keys_eq {v : List (Nat × W)} : ∀ {m : List (Nat × W)}, Keys v → Keys m → (∀ p ∈ v, p ∈ m) → m.length ≤ v.length →
    v = m := by
  induction v with
  | nil => intro m _ _ _ h; exact (List.eq_nil_of_length_eq_zero (by simpa using h)).symm
  | cons a v ih =>
    intro m hv hm hs hl
    cases m with
    | nil => exact absurd (hs a (by simp)) (by simp)
    | cons b m =>
      have hv' := List.pairwise_cons.mp hv
      have hm' := List.pairwise_cons.mp hm
      have hmem : ∀ p ∈ a :: v, p ≠ b → p ∈ m := by
        intro p hp hne
        rcases List.mem_cons.mp (hs p hp) with h | h
        · exact absurd h hne
        · exact h
      by_cases hab : a = b
      · subst hab
        rw [ih hv'.2 hm'.2 (fun p hp => hmem p (by simp [hp]) (by
          rintro rfl
          have := hv'.1 _ hp
          omega)) (by simpa using hl)]
      · have ham := hmem a (by simp) hab
        have hlt := hm'.1 a ham
        have := subset_length hv (m := m) (fun p hp => hmem p hp (by
          rintro rfl
          rcases List.mem_cons.mp hp with h | h
          · exact hab h.symm
          · have := hv'.1 _ h; omega))
        simp at this hl
        omega

theorem orderedOf_iff {m : List (Nat × W)} (hm : Keys m) {cur : Nat} (hc : cur < 2 ^ 32) (hl : m.length ≤ cur + 1)
    (v : List (Nat × W)) : orderedOf m cur = some v ↔ v = m ∧ m.map (·.1) = List.range' (cur + 1 - m.length) m.length := by
  unfold orderedOf
  split
  · next h =>
    subst h
    simp only [Option.some.injEq]
    constructor
    · rintro rfl; exact ⟨rfl, rfl⟩
    · rintro ⟨rfl, _⟩; rfl
  · next h =>
    have hpos : 0 < m.length := List.length_pos_iff.mpr h
    have e1 : (cur + 2 ^ 32 - (m.length - 1) % 2 ^ 32) % 2 ^ 32 = cur + 1 - m.length := by
      rw [Nat.mod_eq_of_lt (a := m.length - 1) (by omega)]
      rw [show cur + 2 ^ 32 - (m.length - 1) = (cur + 1 - m.length) + 2 ^ 32 by omega, Nat.add_mod_right]
      exact Nat.mod_eq_of_lt (by omega)
    simp only
    rw [e1, show cur + 1 - (cur + 1 - m.length) = m.length by omega, collect_spec]
    have hgoal : v.map (·.1) = List.range' (cur + 1 - m.length) m.length → Keys v ∧ v.length = m.length := by
      intro h1
      constructor
      · have : (v.map (·.1)).Pairwise (· < ·) := by rw [h1]; exact List.pairwise_lt_range'
        rwa [List.pairwise_map] at this
      · have := congrArg List.length h1
        simpa using this
    constructor
    · rintro ⟨h1, h2⟩
      obtain ⟨k1, k2⟩ := hgoal h1
      have : v = m := keys_eq k1 hm (fun p hp => (lookup_some hm p.1 p.2).mp (h2 p hp)) (by omega)
      subst this
      exact ⟨rfl, h1⟩
    · rintro ⟨rfl, h1⟩
      exact ⟨h1, fun p hp => (lookup_some hm p.1 p.2).mpr hp⟩

/-- The writesets are listed, in order, exactly when their eras are consecutive and end with the current era (and the
current writeset is not also archived). -/
theorem ordered_iff {tree : List (Nat × W)} (ht : Keys tree) {cur : Nat} (hc : cur < 2 ^ 32) (current : Option W)
    (hl : tree.length + current.toList.length ≤ cur + 1) (v : List (Nat × W)) :
    ordered tree cur current = some v ↔ Keys v ∧ v.length = tree.length + current.toList.length ∧ AllSets tree cur current v := by
  cases current with
  | none =>
    simp only [Option.toList_none, List.length_nil, Nat.add_zero] at hl ⊢
    unfold ordered
    rw [orderedOf_iff ht hc hl]
    constructor
    · rintro ⟨rfl, h⟩
      exact ⟨ht, rfl, fun p => by simp, h⟩
    · rintro ⟨k, l, m, h⟩
      have : v = tree := keys_eq k ht (fun p hp => by simpa using (m p).mp hp) (by omega)
      subst this
      exact ⟨rfl, h⟩
  | some w =>
    simp only [Option.toList_some, List.length_cons, List.length_nil] at hl ⊢
    unfold ordered
    simp only
    split
    · next h =>
      constructor
      · intro h; cases h
      · rintro ⟨k, l, m, -⟩
        exfalso
        obtain ⟨w', hw'⟩ := Option.isSome_iff_exists.mp h
        have h1 := (lookup_some ht cur w').mp hw'
        -- all elements of v are in tree apart from (cur, w); the keys are distinct
        have hsub : ∀ k ∈ v.map (·.1), k ∈ tree.map (·.1) := by
          intro k hk
          obtain ⟨p, hp, rfl⟩ := List.mem_map.mp hk
          rcases (m p).mp hp with hp | hp
          · exact List.mem_map.mpr ⟨p, hp, rfl⟩
          · exact List.mem_map.mpr ⟨(cur, w'), h1, hp.1.symm⟩
        have hnd : (v.map (·.1)).Nodup := by
          rw [List.nodup_iff_pairwise_ne, List.pairwise_map]
          exact k.imp (fun h => by omega)
        have := hnd.length_le_of_subset hsub
        simp at this
        omega
    · next h =>
      have hne := lookup_none ht cur (by simpa using h)
      have hi := keys_insertKey cur w tree ht hne
      have hil := length_insertKey cur w tree
      rw [orderedOf_iff hi hc (by omega)]
      constructor
      · rintro ⟨rfl, h⟩
        refine ⟨hi, hil, fun p => ?_, h⟩
        rw [mem_insertKey]
        constructor
        · rintro (rfl | hp)
          · exact Or.inr ⟨rfl, rfl⟩
          · exact Or.inl hp
        · rintro (hp | ⟨h1, h2⟩)
          · exact Or.inr hp
          · left; cases h2; rw [← h1]
      · rintro ⟨k, l, m, h⟩
        have : v = insertKey cur w tree := keys_eq k hi (fun p hp => by
          rw [mem_insertKey]
          rcases (m p).mp hp with hp | ⟨h1, h2⟩
          · exact Or.inr hp
          · left; cases h2; rw [← h1]) (by omega)
        subst this
        exact ⟨rfl, h⟩

/-! ### The archive -/

/-- `b` differs from `a` only in the deltas -/
structure Same (a b : Archive) : Prop where
  wmax : b.wmax = a.wmax
  digested : b.digested = a.digested
  len : b.deltas.length = a.deltas.length

theorem Same.rfl {a : Archive} : Same a a := ⟨Eq.refl _, Eq.refl _, Eq.refl _⟩

theorem Same.trans {a b c : Archive} (h : Same a b) (g : Same b c) : Same a c :=
  ⟨g.wmax.trans h.wmax, g.digested.trans h.digested, g.len.trans h.len⟩

theorem set_spec {a b : Archive} {bi delta : Nat} (h : a.set bi delta = some b) :
    Same a b ∧ ∀ x, b.deltas[x]? = if x = bi then some delta else a.deltas[x]? := by
  unfold Archive.set at h
  split at h
  · next hlt =>
    cases h
    refine ⟨⟨rfl, rfl, by simp⟩, fun x => ?_⟩
    simp only
    by_cases hx : x = bi
    · subst hx; rw [if_pos rfl, List.getElem?_set_self hlt.1]
    · rw [if_neg hx, List.getElem?_set_ne (fun h => hx h.symm)]
  · cases h

theorem testBit_shiftRight_one (n i : Nat) : (n >>> 1).testBit i = n.testBit (i + 1) := by
  rw [Nat.testBit_shiftRight, Nat.add_comm]

theorem shift_lt {n f : Nat} (h : n < 2 ^ (f + 1)) : n >>> 1 < 2 ^ f := by
  rw [Nat.shiftRight_eq_div_pow]
  rw [Nat.pow_succ] at h
  omega

theorem and_one_pos (n : Nat) : (n &&& 1 > 0) ↔ n.testBit 0 = true := by
  rw [Nat.and_one_is_mod, Nat.testBit_zero]
  simp only [decide_eq_true_eq]
  omega

theorem setWord_spec {delta : Nat} (fuel : Nat) : ∀ bi n a b, n < 2 ^ fuel → setWord delta fuel bi n a = some b →
    Same a b ∧ ∀ x, b.deltas[x]? = if bi ≤ x ∧ n.testBit (x - bi) = true then some delta else a.deltas[x]? := by
  induction fuel with
  | zero =>
    intro bi n a b hn h
    have : n = 0 := by simpa using hn
    subst this
    cases h
    exact ⟨Same.rfl, fun x => by simp⟩
  | succ fuel ih =>
    intro bi n a b hn h
    unfold setWord at h
    split at h
    · next h0 =>
      subst h0
      cases h
      exact ⟨Same.rfl, fun x => by simp⟩
    · have hshift : ∀ x, (bi + 1 ≤ x ∧ (n >>> 1).testBit (x - (bi + 1)) = true) ↔
          (bi ≤ x ∧ n.testBit (x - bi) = true ∧ x ≠ bi) := by
        intro x
        rw [testBit_shiftRight_one]
        constructor
        · rintro ⟨h1, h2⟩
          rw [show x - (bi + 1) + 1 = x - bi by omega] at h2
          exact ⟨by omega, h2, by omega⟩
        · rintro ⟨h1, h2, h3⟩
          rw [show x - (bi + 1) + 1 = x - bi by omega]
          exact ⟨by omega, h2⟩
      split at h
      · next hb =>
        rw [and_one_pos] at hb
        split at h
        · cases h
        · next a1 ha1 =>
          obtain ⟨s1, s2⟩ := set_spec ha1
          obtain ⟨g1, g2⟩ := ih _ _ _ _ (shift_lt hn) h
          refine ⟨s1.trans g1, fun x => ?_⟩
          rw [g2, s2]
          simp only [hshift]
          by_cases hx : x = bi
          · subst hx; simp [hb]
          · simp [hx]
      · next hb =>
        rw [and_one_pos] at hb
        obtain ⟨g1, g2⟩ := ih _ _ _ _ (shift_lt hn) h
        refine ⟨g1, fun x => ?_⟩
        rw [g2]
        simp only [hshift]
        by_cases hx : x = bi
        · subst hx; simp at hb; simp [hb]
        · simp [hx]

theorem setWords_spec {delta : Nat} (ns : List Nat) : ∀ i a b, (∀ n ∈ ns, n < 2 ^ 32) → setWords delta ns i a = some b →
    Same a b ∧ ∀ x, b.deltas[x]? = if i * 32 ≤ x ∧ bitOf 32 ns (x - i * 32) = true then some delta else a.deltas[x]? := by
  induction ns with
  | nil =>
    intro i a b _ h
    cases h
    exact ⟨Same.rfl, fun x => by simp [bitOf]⟩
  | cons n ns ih =>
    intro i a b hn h
    unfold setWords at h
    split at h
    · cases h
    · next a1 ha1 =>
      rw [Nat.shiftLeft_eq, show (2 : Nat) ^ 5 = 32 from rfl] at ha1
      obtain ⟨s1, s2⟩ := setWord_spec 32 _ _ _ _ (hn n (by simp)) ha1
      obtain ⟨g1, g2⟩ := ih _ _ _ (fun n h => hn n (by simp [h])) h
      refine ⟨s1.trans g1, fun x => ?_⟩
      rw [g2, s2]
      by_cases h1 : i * 32 ≤ x
      · by_cases h2 : x - i * 32 < 32
        · have e : bitOf 32 (n :: ns) (x - i * 32) = n.testBit (x - i * 32) := by
            unfold bitOf
            rw [Nat.div_eq_of_lt h2, Nat.mod_eq_of_lt h2]
            rfl
          rw [e, if_neg (by omega)]
        · have e : bitOf 32 (n :: ns) (x - i * 32) = bitOf 32 ns (x - (i + 1) * 32) := by
            unfold bitOf
            rw [show (x - i * 32) / 32 = (x - (i + 1) * 32) / 32 + 1 by omega, List.getElem?_cons_succ,
              show (x - i * 32) % 32 = (x - (i + 1) * 32) % 32 by omega]
          rw [e]
          have h3 : (i + 1) * 32 ≤ x := by omega
          have h4 : n.testBit (x - i * 32) = false := by
            apply Nat.testBit_lt_two_pow
            exact Nat.lt_of_lt_of_le (hn n (by simp)) (Nat.pow_le_pow_right (by omega) (by omega))
          simp [h1, h3, h4]
      · rw [if_neg (by omega), if_neg (by omega), if_neg (by omega)]

theorem get_eq {a b : Archive} (h : Same a b) {delta x : Nat} (hd : 0 < delta) (c : Prop) [Decidable c]
    (hx : b.deltas[x]? = if c then some delta else a.deltas[x]?) :
    b.get x = if c then some ((a.digested + delta) % 2 ^ 32) else a.get x := by
  unfold Archive.get
  rw [hx, h.digested]
  by_cases hc : c
  · rw [if_pos hc, if_pos hc]; simp only; rw [if_neg (by omega)]
  · rw [if_neg hc, if_neg hc]

theorem lastSet_cons (rd : W → Option (List Nat)) (w : Nat × W) (ws : List (Nat × W)) (x : Nat) :
    lastSet rd (w :: ws) x = (lastSet rd ws x).or (if inSet rd x w then some w.1 else none) := by
  unfold lastSet
  rw [List.filter_cons]
  split
  · rw [List.getLast?_cons]
    cases (List.filter (inSet rd x) ws).getLast? <;> simp
  · simp

theorem collateFrom_spec {rd : W → Option (List Nat)} {begin' : Nat} (ws : List (Nat × W)) : ∀ index a b,
    (∀ w ∈ ws, ∀ bits, rd w.2 = some bits → ∀ n ∈ bits, n < 2 ^ 32) →
    ws.map (·.1) = List.range' (begin' + index) ws.length → begin' + index + ws.length ≤ 2 ^ 32 →
    a.digested = (begin' + 2 ^ 32 - 1) % 2 ^ 32 → collateFrom rd ws index a = some b →
    ∀ x, b.get x = (lastSet rd ws x).or (a.get x) := by
  induction ws with
  | nil => intro index a b _ _ _ _ h x; cases h; simp [lastSet]
  | cons w ws ih =>
    intro index a b hb hk hlen hd h x
    rw [List.length_cons, List.range'_succ, List.map_cons, List.cons.injEq] at hk
    simp only [List.length_cons] at hlen
    unfold collateFrom at h
    split at h
    · cases h
    · next bits hbits =>
      split at h
      · cases h
      · next a1 ha1 =>
        obtain ⟨s1, s2⟩ := setWords_spec bits 0 a a1 (hb w (by simp) bits hbits) ha1
        have h1 := get_eq s1 (delta := index + 1) (x := x) (by omega) (bitOf 32 bits x = true) (by rw [s2]; simp)
        have hsum : (a.digested + (index + 1)) % 2 ^ 32 = w.1 := by
          rw [hk.1, hd, Nat.mod_add_mod, show begin' + 2 ^ 32 - 1 + (index + 1) = (begin' + index) + 2 ^ 32 by omega,
            Nat.add_mod_right]
          exact Nat.mod_eq_of_lt (by omega)
        rw [ih (index + 1) a1 b (fun w h => hb w (by simp [h])) hk.2 (by omega)
          (by rw [s1.digested]; exact hd) h x, h1, hsum, lastSet_cons, Option.or_assoc]
        congr 1
        unfold inSet
        rw [hbits]
        simp only
        split <;> simp

/-- an archive without writesets -/
theorem newArchive_get (nr b n x : Nat) : (newArchive nr b n).get x = none := by
  unfold newArchive Archive.get
  simp only
  rw [List.getElem?_replicate]
  split
  · rfl
  · next h =>
    split at h
    · cases h; rfl
    · cases h

theorem newArchive_digested (nr b n : Nat) : (newArchive nr b n).digested = (b + 2 ^ 32 - 1) % 2 ^ 32 := by
  unfold newArchive; simp only

theorem newArchive_wmax {nr b n : Nat} (h : n < 2 ^ 32 - 1) : n ≤ (newArchive nr b n).wmax := by
  unfold newArchive
  simp only
  rw [Nat.mod_eq_of_lt (a := n) (by omega), Nat.mod_eq_of_lt (a := n + 1) (by omega)]
  by_cases h1 : n + 1 ≤ 255
  · rw [if_pos h1]; omega
  · rw [if_neg h1]
    by_cases h2 : n + 1 ≤ 65535
    · rw [if_pos h2]; omega
    · rw [if_neg h2]; omega

theorem newArchive_len (nr b n : Nat) : (newArchive nr b n).deltas.length = nr := by
  unfold newArchive; exact List.length_replicate

theorem logicalEras_eq (a : Archive) (blocks : List (Nat × ABlock)) :
    logicalEras a blocks = (rawEras blocks).map (fun p => (p.1, (a.get p.1).getD p.2)) := by
  unfold logicalEras rawEras
  rw [List.map_flatMap]
  congr 1
  funext kb
  rw [List.map_map]
  congr 1
  funext p
  simp only [Function.comp]
  cases a.get p.2 <;> rfl

/-- C51: a logical dump that succeeds has found the writesets of consecutive eras ending with the current one, and emits
for every element of the era array the era of the latest writeset containing the block, or the recorded era if there is
none. -/
theorem dumpLogical_exact {rd : W → Option (List Nat)} {nrBlocks : Nat} {tree : List (Nat × W)} {cur : Nat}
    {current : Option W} {blocks : List (Nat × ABlock)} (ht : Keys tree) (hc : cur < 2 ^ 32)
    (hl : tree.length + current.toList.length ≤ cur + 1)
    (hb : ∀ w bits, rd w = some bits → ∀ n ∈ bits, n < 2 ^ 32) {out : List (Nat × Nat)}
    (h : dumpLogical rd nrBlocks tree cur current blocks = some out) :
    ∃ sets, AllSets tree cur current sets ∧
      out = (rawEras blocks).map (fun p => (p.1, (lastSet rd sets p.1).getD p.2)) := by
  unfold dumpLogical at h
  split at h
  · cases h
  · next sets hs =>
    obtain ⟨k1, k2, k3⟩ := (ordered_iff ht hc current hl sets).mp hs
    refine ⟨sets, k3, ?_⟩
    split at h
    · next h0 =>
      subst h0
      cases h
      rw [show (fun p : Nat × Nat => (p.1, (lastSet rd [] p.1).getD p.2)) = id from funext fun p => rfl, List.map_id]
    · next h0 =>
      split at h
      · cases h
      · next a ha =>
        cases h
        rw [logicalEras_eq]
        congr 1
        funext p
        unfold collate at ha
        have hpos : 0 < sets.length := List.length_pos_iff.mpr h0
        have hhead : (sets.head?.map (·.1)).getD 0 = cur + 1 - sets.length := by
          have := k3.keys
          cases sets with
          | nil => exact absurd rfl h0
          | cons w ws =>
            rw [List.length_cons, List.range'_succ, List.map_cons, List.cons.injEq] at this
            simp only [List.head?_cons, Option.map_some, Option.getD_some, List.length_cons]
            exact this.1
        rw [hhead] at ha
        have := collateFrom_spec (begin' := cur + 1 - sets.length) sets 0 _ a (fun w _ => hb w.2) (by simpa using k3.keys)
          (by omega) (newArchive_digested _ _ _) ha p.1
        rw [this, newArchive_get, Option.or_none]

/-! ### Success -/

theorem set_ok {a : Archive} {bi delta : Nat} (h1 : bi < a.deltas.length) (h2 : delta ≤ a.wmax) : ∃ b, a.set bi delta = some b :=
  ⟨_, by unfold Archive.set; rw [if_pos ⟨h1, h2⟩]⟩

theorem setWord_ok {delta : Nat} (fuel : Nat) : ∀ bi n a, delta ≤ a.wmax →
    (∀ i, n.testBit i = true → bi + i < a.deltas.length) → ∃ b, setWord delta fuel bi n a = some b := by
  induction fuel with
  | zero => intro bi n a _ _; exact ⟨a, rfl⟩
  | succ fuel ih =>
    intro bi n a hd hb
    have hsh : ∀ a' : Archive, a'.deltas.length = a.deltas.length →
        ∀ i, (n >>> 1).testBit i = true → bi + 1 + i < a'.deltas.length := by
      intro a' hl i hi
      rw [testBit_shiftRight_one] at hi
      have := hb (i + 1) hi
      omega
    unfold setWord
    split
    · exact ⟨a, rfl⟩
    · split
      · next hbit =>
        rw [and_one_pos] at hbit
        obtain ⟨b, hb'⟩ := set_ok (hb 0 hbit) hd
        rw [Nat.add_zero] at hb'
        rw [hb']
        have hs := (set_spec hb').1
        exact ih _ _ b (by rw [hs.wmax]; exact hd) (hsh b hs.len)
      · exact ih _ _ a hd (hsh a rfl)

theorem setWords_ok {delta : Nat} (ns : List Nat) : ∀ i a, (∀ n ∈ ns, n < 2 ^ 32) → delta ≤ a.wmax →
    (∀ x, bitOf 32 ns x = true → i * 32 + x < a.deltas.length) → ∃ b, setWords delta ns i a = some b := by
  induction ns with
  | nil => intro i a _ _ _; exact ⟨a, rfl⟩
  | cons n ns ih =>
    intro i a hn hd hb
    unfold setWords
    rw [Nat.shiftLeft_eq, show (2 : Nat) ^ 5 = 32 from rfl]
    obtain ⟨b, hb'⟩ := setWord_ok (delta := delta) 32 (i * 32) n a hd (fun j hj => by
      have hj32 : j < 32 := by
        apply Classical.byContradiction
        intro hge
        rw [Nat.testBit_lt_two_pow (Nat.lt_of_lt_of_le (hn n (by simp)) (Nat.pow_le_pow_right (by omega) (by omega)))] at hj
        cases hj
      apply hb j
      unfold bitOf
      rw [Nat.div_eq_of_lt hj32, Nat.mod_eq_of_lt hj32]
      exact hj)
    rw [hb']
    have hs := (setWord_spec 32 _ _ _ _ (hn n (by simp)) hb').1
    refine ih (i + 1) b (fun n h => hn n (by simp [h])) (by rw [hs.wmax]; exact hd) (fun x hx => ?_)
    rw [hs.len]
    have := hb (x + 32) (by
      unfold bitOf at hx ⊢
      rw [show (x + 32) / 32 = x / 32 + 1 by omega, List.getElem?_cons_succ, show (x + 32) % 32 = x % 32 by omega]
      exact hx)
    omega

theorem collateFrom_ok {rd : W → Option (List Nat)} {nr : Nat} (ws : List (Nat × W)) : ∀ index (a : Archive),
    (∀ w ∈ ws, ∃ bits, rd w.2 = some bits ∧ (∀ n ∈ bits, n < 2 ^ 32) ∧ ∀ x, bitOf 32 bits x = true → x < nr) →
    a.deltas.length = nr → index + ws.length ≤ a.wmax → ∃ b, collateFrom rd ws index a = some b := by
  induction ws with
  | nil => intro index a _ _ _; exact ⟨a, rfl⟩
  | cons w ws ih =>
    intro index a hb hl hi
    obtain ⟨bits, h1, h2, h3⟩ := hb w (by simp)
    simp only [List.length_cons] at hi
    obtain ⟨a1, ha1⟩ := setWords_ok (delta := index + 1) bits 0 a h2 (by omega) (fun x hx => by have := h3 x hx; omega)
    have hs := (setWords_spec bits 0 a a1 h2 ha1).1
    unfold collateFrom
    rw [h1]
    simp only
    rw [ha1]
    exact ih (index + 1) a1 (fun w h => hb w (by simp [h])) (by rw [hs.len]; exact hl) (by rw [hs.wmax]; omega)

/-- C51: the dump does succeed if the eras are consecutive up to the current one, every bitset is readable, and no bit
beyond the number of blocks is set. -/
theorem dumpLogical_ok {rd : W → Option (List Nat)} {nrBlocks : Nat} {tree : List (Nat × W)} {cur : Nat}
    {current : Option W} {blocks : List (Nat × ABlock)} (ht : Keys tree) (hc : cur < 2 ^ 32) {sets : List (Nat × W)}
    (hmax : sets.length < 2 ^ 32 - 1) (hs : Keys sets) (hlen : sets.length = tree.length + current.toList.length)
    (hall : AllSets tree cur current sets) (hl : sets.length ≤ cur + 1)
    (hb : ∀ w ∈ sets, ∃ bits, rd w.2 = some bits ∧ (∀ n ∈ bits, n < 2 ^ 32) ∧ ∀ x, bitOf 32 bits x = true → x < nrBlocks) :
    ∃ out, dumpLogical rd nrBlocks tree cur current blocks = some out := by
  have h := (ordered_iff ht hc current (by omega) sets).mpr ⟨hs, hlen, hall⟩
  have hA : ∃ a, collate rd nrBlocks sets = some a := by
    have h1 := newArchive_len nrBlocks ((sets.head?.map (·.1)).getD 0) sets.length
    have h2 := newArchive_wmax (nr := nrBlocks) (b := (sets.head?.map (·.1)).getD 0) hmax
    unfold collate
    generalize newArchive nrBlocks ((sets.head?.map (·.1)).getD 0) sets.length = A at h1 h2
    exact collateFrom_ok (nr := nrBlocks) sets 0 A hb h1 (by rw [Nat.zero_add]; exact h2)
  obtain ⟨a, ha⟩ := hA
  unfold dumpLogical
  rw [h]
  simp only
  by_cases h0 : sets = []
  · rw [if_pos h0]; exact ⟨_, rfl⟩
  · rw [if_neg h0, ha]; exact ⟨_, rfl⟩

/-! ### What is false, and non-vacuity -/

def demoRd : Nat → Option (List Nat) := fun w => if w = 0 then some [6, 1] else if w = 1 then some [4, 4] else none

def demoBlocks : List (Nat × ABlock) := [(0, ⟨3, [2, 1, 0]⟩), (1, ⟨3, [3]⟩)]

example : dumpLogical demoRd 40 [(5, 0)] 6 (some 1) demoBlocks = some [(0, 2), (1, 5), (2, 6), (3, 3)] := by decide

example : AllSets [(5, 0)] 6 (some 1) [(5, 0), (6, 1)] :=
  ⟨fun p => by
    simp only [List.mem_cons, List.not_mem_nil, or_false, Prod.ext_iff, Option.some.injEq]
    constructor
    · rintro (h | h)
      · exact Or.inl h
      · exact Or.inr ⟨h.1, h.2.symm⟩
    · rintro (h | h)
      · exact Or.inl h
      · exact Or.inr ⟨h.1, h.2.symm⟩, by decide⟩

/-- Without the bound on the number of writesets the claim fails: with more writesets than eras so far they are silently
left out, here those of eras 5 and 7 while the current era is 0. -/
theorem dumpLogical_too_many_refuted :
    ordered [(5, 0), (7, 1)] 0 (none : Option Nat) = some [] ∧
    dumpLogical demoRd 40 [(5, 0), (7, 1)] 0 none demoBlocks = some (rawEras demoBlocks) := by decide

/-- A bit beyond the number of blocks is an index out of bounds, not an error message. -/
theorem dumpLogical_extra_bit_refuted : dumpLogical demoRd 32 [(6, 0)] 6 none demoBlocks = none := by decide

end Verif.EraL
