import Verif.Model.EraInvalidate
import Verif.Prop.Bitset

/-!
# C38: what era_invalidate reports

The specification: the era of the last write of a block is the largest archived era whose writeset contains the block, or
else the era recorded for it in the era array.
-/

namespace Verif.EraI

open Verif.Bits (ABlock walkLeaves visitEntries stored Uniform)
open Verif.Scan (bitOf)
open Verif.Rng (Exactly)

/-! ### Specification -/

/-- entries of an array's index -/
abbrev entries (ls : Leaves) : List (Nat × Nat) := ls.flatMap (·.2)

/-- element `i` of an array kept in blocks of `M` values -/
def element (read : Nat → Option ABlock) (M : Nat) (es : List (Nat × Nat)) (i : Nat) : Option Nat :=
  match es.find? (fun e => e.1 == i / M) with
  | none => none
  | some e =>
    match read e.2 with
    | none => none
    | some b => b.values[i % M]?

/-- block `i` is in the writeset -/
def Contains (readW : Nat → Option ABlock) (MW : Nat) (ls : Leaves) (i : Nat) : Prop :=
  stored readW MW (entries ls) i = some true

/-- `e` is the era of the last write of block `i` -/
def LastWrite (readW readE : Nat → Option ABlock) (MW ME : Nat) (wsets : List (Nat × Leaves)) (eras : Leaves) (i e : Nat) : Prop :=
  (∃ w ∈ wsets, w.1 = e ∧ Contains readW MW w.2 i ∧ ∀ w' ∈ wsets, Contains readW MW w'.2 i → w'.1 ≤ e) ∨
  ((∀ w ∈ wsets, ¬ Contains readW MW w.2 i) ∧ element readE ME (entries eras) i = some e)

/-- an array of blocks of the same capacity, with distinct indices, whose values are below `B` -/
structure Array (read : Nat → Option ABlock) (M B : Nat) (ls : Leaves) : Prop where
  uniform : Uniform read M (entries ls)
  nodup : ((entries ls).map (·.1)).Nodup
  bound : ∀ e ∈ entries ls, ∀ b, read e.2 = some b → ∀ v ∈ b.values, v < B

/-! ### Visitors that set bits -/

/-- the words: `L` of 64 bits -/
structure Good (L : Nat) (ws : List Nat) : Prop where
  len : ws.length = L
  lt : ∀ n ∈ ws, n < 2 ^ 64

theorem bitOf_set {ws : List Nat} {i v x : Nat} (hi : i < ws.length) :
    bitOf 64 (ws.set i v) x = if x / 64 = i then v.testBit (x % 64) else bitOf 64 ws x := by
  unfold bitOf
  by_cases h : x / 64 = i
  · rw [if_pos h, h, List.getElem?_set_self hi]; rfl
  · rw [if_neg h, List.getElem?_set_ne (fun e => h e.symm)]

theorem good_set {L : Nat} {ws : List Nat} (h : Good L ws) {i v : Nat} (hv : v < 2 ^ 64) : Good L (ws.set i v) := by
  refine ⟨by rw [List.length_set]; exact h.len, fun n hn => ?_⟩
  rcases List.mem_or_eq_of_mem_set hn with hn | rfl
  · exact h.lt n hn
  · exact hv

theorem good_get {L : Nat} {ws : List Nat} (h : Good L ws) {i d : Nat} (hd : ws[i]? = some d) : d < 2 ^ 64 :=
  h.lt d (List.mem_of_getElem? hd)

/-- a visitor which, when it succeeds, sets the bits `f` says and keeps the others -/
def Sets (L : Nat) (visit : Nat → ABlock → List Nat → Bool × List Nat) (f : Nat → ABlock → Nat → Bool) (P : ABlock → Prop) : Prop :=
  ∀ k b ws, P b → Good L ws → (visit k b ws).1 = true →
    Good L (visit k b ws).2 ∧ ∀ x < L * 64, bitOf 64 (visit k b ws).2 x = (bitOf 64 ws x || f k b x)

/-- what entry `e` contributes -/
def contrib (read : Nat → Option ABlock) (f : Nat → ABlock → Nat → Bool) (x : Nat) (e : Nat × Nat) : Bool :=
  match read e.2 with
  | none => false
  | some b => f e.1 b x

theorem visitEntries_sets {L : Nat} {visit : Nat → ABlock → List Nat → Bool × List Nat} {f : Nat → ABlock → Nat → Bool}
    {P : ABlock → Prop} (hs : Sets L visit f P) {read : Nat → Option ABlock} (es : List (Nat × Nat)) : ∀ n ws,
    (∀ e ∈ es, ∀ b, read e.2 = some b → P b) → Good L ws → (visitEntries read visit es (n, ws)).1 = n →
    Good L (visitEntries read visit es (n, ws)).2 ∧ ∀ x < L * 64,
      bitOf 64 (visitEntries read visit es (n, ws)).2 x = (bitOf 64 ws x || es.any (contrib read f x)) := by
  induction es with
  | nil => intro n ws _ hg _; exact ⟨hg, fun x _ => by simp [visitEntries]⟩
  | cons e es ih =>
    intro n ws hP hg h0
    obtain ⟨k, v⟩ := e
    unfold visitEntries at h0 ⊢
    cases hr : read v with
    | none =>
      rw [hr] at h0
      simp only at h0
      have := (Bits.visitEntries_errs (read := read) (visit := visit) es (n + 1) ws).1
      omega
    | some b =>
      rw [hr] at h0
      simp only at h0 ⊢
      have hok : (visit k b ws).1 = true := by
        apply Classical.byContradiction
        intro hne
        rw [if_neg hne] at h0
        have := (Bits.visitEntries_errs (read := read) (visit := visit) es (n + 1) (visit k b ws).2).1
        omega
      rw [if_pos hok] at h0 ⊢
      obtain ⟨g1, g2⟩ := hs k b ws (hP (k, v) (by simp) b hr) hg hok
      obtain ⟨f1, f2⟩ := ih n _ (fun e he => hP e (by simp [he])) g1 h0
      refine ⟨f1, fun x hx => ?_⟩
      rw [f2 x hx, g2 x hx, List.any_cons, Bool.or_assoc]
      simp only [contrib, hr]

theorem walkLeaves_sets {L : Nat} {visit : Nat → ABlock → List Nat → Bool × List Nat} {f : Nat → ABlock → Nat → Bool}
    {P : ABlock → Prop} (hs : Sets L visit f P) {read : Nat → Option ABlock} (ls : Leaves) : ∀ n ws,
    (∀ e ∈ entries ls, ∀ b, read e.2 = some b → P b) → Good L ws → (walkLeaves read visit ls (n, ws)).1 = n →
    Good L (walkLeaves read visit ls (n, ws)).2 ∧ ∀ x < L * 64,
      bitOf 64 (walkLeaves read visit ls (n, ws)).2 x = (bitOf 64 ws x || (entries ls).any (contrib read f x)) := by
  induction ls with
  | nil => intro n ws _ hg _; exact ⟨hg, fun x _ => by simp [walkLeaves, entries]⟩
  | cons l ls ih =>
    intro n ws hP hg h0
    have hgl := ((Bits.walkLeaves_errs (l :: ls) n ws).2 h0 l (by simp)).1
    obtain ⟨kr, es⟩ := l
    have hent : entries ((kr, es) :: ls) = es ++ entries ls := by simp [entries]
    rw [hent] at hP ⊢
    unfold walkLeaves at h0 ⊢
    rw [if_pos hgl] at h0 ⊢
    have hev := (Bits.visitEntries_errs (read := read) (visit := visit) es n ws).1
    have hn0 : (visitEntries read visit es (n, ws)).1 = n := by
      have := (Bits.walkLeaves_errs (read := read) (visit := visit) ls
        (visitEntries read visit es (n, ws)).1 (visitEntries read visit es (n, ws)).2).1
      rw [show ((visitEntries read visit es (n, ws)).1, (visitEntries read visit es (n, ws)).2) =
        visitEntries read visit es (n, ws) from rfl] at this
      omega
    obtain ⟨g1, g2⟩ := visitEntries_sets hs es n ws (fun e he => hP e (by simp [he])) hg hn0
    rw [show visitEntries read visit es (n, ws) = (n, (visitEntries read visit es (n, ws)).2) from Prod.ext hn0 rfl] at h0 ⊢
    obtain ⟨f1, f2⟩ := ih n _ (fun e he => hP e (by simp [he])) g1 h0
    refine ⟨f1, fun x hx => ?_⟩
    rw [f2 x hx, g2 x hx, List.any_append, Bool.or_assoc]

/-! ### The two visitors -/

/-- bits a block of a writeset sets -/
def fW (M : Nat) (k : Nat) (b : ABlock) (x : Nat) : Bool :=
  decide (k * M ≤ x / 64) && ((b.values[x / 64 - k * M]?).getD 0).testBit (x % 64)

/-- bits a block of the era array sets -/
def fE (M threshold : Nat) (k : Nat) (b : ABlock) (x : Nat) : Bool :=
  decide (k * M ≤ x) && (match b.values[x - k * M]? with | some v => decide (threshold ≤ v) | none => false)

theorem orWords_spec {L : Nat} (vs : List Nat) : ∀ idx ws, (∀ v ∈ vs, v < 2 ^ 64) → Good L ws →
    Good L (orWords vs idx ws) ∧ ∀ x < L * 64, bitOf 64 (orWords vs idx ws) x =
      (bitOf 64 ws x || (decide (idx ≤ x / 64) && ((vs[x / 64 - idx]?).getD 0).testBit (x % 64))) := by
  induction vs with
  | nil => intro idx ws _ hg; exact ⟨hg, fun x _ => by simp [orWords]⟩
  | cons v vs ih =>
    intro idx ws hv hg
    unfold orWords
    cases hd : ws[idx]? with
    | none =>
      refine ⟨hg, fun x hx => ?_⟩
      have : ¬ idx ≤ x / 64 := by
        have := List.getElem?_eq_none_iff.mp hd
        have := hg.len
        omega
      simp [this]
    | some d =>
      simp only
      have hlt : idx < ws.length := (List.getElem?_eq_some_iff.mp hd).1
      have hd64 := good_get hg hd
      obtain ⟨g1, g2⟩ := ih (idx + 1) (ws.set idx (d ||| v)) (fun v h => hv v (by simp [h]))
        (good_set hg (Nat.or_lt_two_pow hd64 (hv v (by simp))))
      refine ⟨g1, fun x hx => ?_⟩
      rw [g2 x hx, bitOf_set hlt]
      by_cases h1 : x / 64 = idx
      · rw [if_pos h1]
        have : bitOf 64 ws x = d.testBit (x % 64) := by unfold bitOf; rw [h1, hd]; rfl
        have h2 : ¬ idx + 1 ≤ idx := by omega
        rw [this, h1]
        simp [Nat.testBit_or, h2]
      · rw [if_neg h1]
        by_cases h2 : idx + 1 ≤ x / 64
        · have h3 : idx ≤ x / 64 := by omega
          rw [show x / 64 - idx = (x / 64 - (idx + 1)) + 1 by omega, List.getElem?_cons_succ]
          simp [h2, h3]
        · have h3 : ¬ idx ≤ x / 64 := by omega
          simp [h2, h3]

theorem visitBits_sets (L M : Nat) :
    Sets L visitBits (fW M) (fun b => b.maxEntries = M ∧ ∀ v ∈ b.values, v < 2 ^ 64) := by
  intro k b ws hP hg _
  obtain ⟨rfl, hv⟩ := hP
  exact orWords_spec b.values (k * b.maxEntries) ws hv hg

theorem testBit_or_bit (d blk i : Nat) : (d ||| 1 <<< (blk &&& 63)).testBit i = (d.testBit i || decide (i = blk % 64)) := by
  rw [show blk &&& 63 = blk % 64 from Nat.and_two_pow_sub_one_eq_mod blk 6, Nat.testBit_or, Nat.shiftLeft_eq, Nat.one_mul,
    Nat.testBit_two_pow]
  congr 1
  rw [decide_eq_decide]
  exact eq_comm

theorem or_bit_lt {d : Nat} (blk : Nat) (h : d < 2 ^ 64) : d ||| 1 <<< (blk &&& 63) < 2 ^ 64 := by
  apply Nat.or_lt_two_pow h
  rw [show blk &&& 63 = blk % 64 from Nat.and_two_pow_sub_one_eq_mod blk 6, Nat.shiftLeft_eq, Nat.one_mul]
  exact Nat.pow_lt_pow_right (by omega) (Nat.mod_lt _ (by omega))

theorem eraLoop_spec {L threshold : Nat} (es : List Nat) : ∀ blk idx buf ws ws', Good L ws → idx < L → buf < 2 ^ 64 →
    idx ≤ blk / 64 → eraLoop threshold es blk idx buf ws = some ws' →
    Good L ws' ∧ ∀ x < L * 64, bitOf 64 ws' x = (bitOf 64 (ws.set idx buf) x ||
      (decide (blk ≤ x) && (match es[x - blk]? with | some v => decide (threshold ≤ v) | none => false))) := by
  induction es with
  | nil =>
    intro blk idx buf ws ws' hg hi hb _ h
    cases h
    exact ⟨good_set hg hb, fun x _ => by simp⟩
  | cons e es ih =>
    intro blk idx buf ws ws' hg hi hb hle h
    have hlen := hg.len
    unfold eraLoop at h
    have tail : ∀ (B : Bool) x, (B || (decide (blk + 1 ≤ x) && (match es[x - (blk + 1)]? with | some v => decide (threshold ≤ v) | none => false))) =
        if x = blk then B else (B || (decide (blk ≤ x) && (match (e :: es)[x - blk]? with | some v => decide (threshold ≤ v) | none => false))) := by
      intro B x
      by_cases h1 : x = blk
      · rw [if_pos h1]
        have : ¬ blk + 1 ≤ x := by omega
        simp [this]
      · rw [if_neg h1]
        by_cases h2 : blk + 1 ≤ x
        · rw [show x - blk = (x - (blk + 1)) + 1 by omega, List.getElem?_cons_succ]
          have h3 : blk ≤ x := by omega
          simp [h2, h3]
        · have h3 : ¬ blk ≤ x := by omega
          simp [h2, h3]
    split at h
    · next hlt =>
      obtain ⟨g1, g2⟩ := ih (blk + 1) idx buf ws ws' hg hi hb (by omega) h
      refine ⟨g1, fun x hx => ?_⟩
      rw [g2 x hx, tail]
      split
      · next hx' =>
        subst hx'
        have : ¬ threshold ≤ e := by omega
        simp [this]
      · rfl
    · next hge =>
      rw [Nat.shiftRight_eq_div_pow, show (2 : Nat) ^ 6 = 64 from rfl] at h
      simp only at h
      have hbit : ∀ x, x = blk → (match (e :: es)[x - blk]? with | some v => decide (threshold ≤ v) | none => false) = true := by
        intro x hx
        subst hx
        have : threshold ≤ e := by omega
        simp [this]
      split at h
      · next hst =>
        have hi' : idx + (blk / 64 - idx) = blk / 64 := by omega
        rw [hi'] at h
        split at h
        · cases h
        · next d hd =>
          have hL : blk / 64 < L := by
            have := (List.getElem?_eq_some_iff.mp hd).1
            rw [List.length_set] at this
            omega
          have hg' := good_set (i := idx) hg hb
          have hd64 := good_get hg' hd
          obtain ⟨g1, g2⟩ := ih (blk + 1) _ _ _ ws' hg' hL (or_bit_lt blk hd64) (by omega) h
          refine ⟨g1, fun x hx => ?_⟩
          rw [g2 x hx, tail, bitOf_set (by rw [List.length_set]; omega)]
          have hold : x / 64 = blk / 64 → bitOf 64 (ws.set idx buf) x = d.testBit (x % 64) := by
            intro hx'; unfold bitOf; rw [hx', hd]; rfl
          split
          · next hx' =>
            rw [hbit x hx']
            subst hx'
            rw [if_pos rfl, testBit_or_bit]
            simp
          · next hx' =>
            split
            · next hx2 =>
              rw [testBit_or_bit, hold hx2]
              have : ¬ x % 64 = blk % 64 := by omega
              simp [this]
            · rfl
      · next hst =>
        have hi' : idx = blk / 64 := by omega
        obtain ⟨g1, g2⟩ := ih (blk + 1) idx _ ws ws' hg hi (or_bit_lt blk hb) (by omega) h
        refine ⟨g1, fun x hx => ?_⟩
        rw [g2 x hx, tail, bitOf_set (by omega), bitOf_set (by omega)]
        split
        · next hx' =>
          rw [hbit x hx']
          subst hx'
          rw [if_pos hi'.symm, testBit_or_bit]
          simp
        · next hx' =>
          split
          · next hx2 =>
            rw [testBit_or_bit]
            have : ¬ x % 64 = blk % 64 := by omega
            simp [this]
          · rfl

theorem visitEras_sets (L M threshold : Nat) :
    Sets L (visitEras threshold) (fE M threshold) (fun b => b.maxEntries = M ∧ b.values.length ≤ M) := by
  intro k b ws hP hg hok
  obtain ⟨rfl, hv⟩ := hP
  unfold visitEras at hok ⊢
  simp only [Nat.shiftRight_eq_div_pow, show (2 : Nat) ^ 6 = 64 from rfl] at hok ⊢
  cases hd : ws[k * b.maxEntries / 64]? with
  | none => rw [hd] at hok; cases hok
  | some d =>
    rw [hd] at hok
    simp only at hok ⊢
    rw [List.take_of_length_le hv] at hok ⊢
    cases hl : eraLoop threshold b.values (k * b.maxEntries) (k * b.maxEntries / 64) d ws with
    | none => rw [hl] at hok; cases hok
    | some ws' =>
      simp only
      have hlt := (List.getElem?_eq_some_iff.mp hd).1
      have hlen := hg.len
      obtain ⟨g1, g2⟩ := eraLoop_spec b.values _ _ _ _ _ hg (by omega) (good_get hg hd) (Nat.le_refl _) hl
      refine ⟨g1, fun x hx => ?_⟩
      rw [g2 x hx, bitOf_set hlt]
      unfold fE
      congr 1
      split
      · next h => unfold bitOf; rw [h, hd]; rfl
      · rfl

/-! ### Contributions and stored elements -/

theorem any_find {es : List (Nat × Nat)} (hn : (es.map (·.1)).Nodup) (k : Nat) (g : Nat × Nat → Bool)
    (hg : ∀ e ∈ es, g e = true → e.1 = k) :
    es.any g = (match es.find? (fun e => e.1 == k) with | none => false | some e => g e) := by
  induction es with
  | nil => rfl
  | cons e es ih =>
    rw [List.map_cons, List.nodup_cons] at hn
    by_cases h : e.1 = k
    · rw [List.find?_cons_of_pos (by simpa using h), List.any_cons]
      simp only
      have : es.any g = false := by
        rw [List.any_eq_false]
        intro f hf hgf
        exact hn.1 (List.mem_map.mpr ⟨f, hf, (hg f (by simp [hf]) hgf).trans h.symm⟩)
      rw [this, Bool.or_false]
    · rw [List.find?_cons_of_neg (by simpa using h), List.any_cons, ← ih hn.2 (fun f hf => hg f (by simp [hf]))]
      have : g e = false := by
        apply Bool.eq_false_iff.mpr
        intro hge
        exact h (hg e (by simp) hge)
      rw [this, Bool.false_or]

theorem contrib_W {read : Nat → Option ABlock} {M B : Nat} (hM : 0 < M) {ls : Leaves} (ha : Array read M B ls) (x : Nat) :
    (entries ls).any (contrib read (fW M) x) = true ↔ Contains read M ls x := by
  have hk : ∀ e ∈ entries ls, contrib read (fW M) x e = true → e.1 = x / (64 * M) := by
    intro e he hc
    unfold contrib at hc
    cases hr : read e.2 with
    | none => rw [hr] at hc; cases hc
    | some b =>
      rw [hr] at hc
      simp only [fW, Bool.and_eq_true, decide_eq_true_eq] at hc
      obtain ⟨h1, h2⟩ := hc
      obtain ⟨-, h4⟩ := ha.uniform e he b hr
      have h5 : x / 64 - e.1 * M < M := by
        apply Classical.byContradiction
        intro hne
        rw [List.getElem?_eq_none (by omega)] at h2
        simp at h2
      exact (Bits.block_pos hM (k := e.1) (x := x) (by omega) (by omega)).1.symm
  rw [any_find ha.nodup (x / (64 * M)) _ hk]
  unfold Contains stored
  cases hf : (entries ls).find? (fun e => e.1 == x / (64 * M)) with
  | none => simp
  | some e =>
    simp only
    have he : e ∈ entries ls := List.mem_of_find?_eq_some hf
    have hek : e.1 = x / (64 * M) := by simpa using List.find?_some hf
    unfold contrib
    cases hr : read e.2 with
    | none => simp
    | some b =>
      simp only [fW]
      have hp := Bits.block_pos' hM hek.symm
      obtain ⟨-, p2, -⟩ := Bits.block_pos hM hp.1 hp.2
      have h1 : e.1 * M ≤ x / 64 := by omega
      rw [p2, show x / 64 - e.1 * M = (x - e.1 * M * 64) / 64 by omega]
      simp only [h1, decide_true, Bool.true_and]
      cases b.values[(x - e.1 * M * 64) / 64]? <;> simp

theorem pos_div {M k x : Nat} (hM : 0 < M) (h1 : k * M ≤ x) (h2 : x - k * M < M) : x / M = k ∧ x % M = x - k * M := by
  obtain ⟨y, rfl⟩ : ∃ y, x = k * M + y := ⟨x - k * M, by omega⟩
  rw [Nat.add_sub_cancel_left] at h2 ⊢
  rw [Nat.mul_comm k M, Nat.mul_add_div hM, Nat.mul_add_mod, Nat.div_eq_of_lt h2, Nat.mod_eq_of_lt h2]
  exact ⟨rfl, rfl⟩

theorem contrib_E {read : Nat → Option ABlock} {M B threshold : Nat} (hM : 0 < M) {ls : Leaves} (ha : Array read M B ls) (x : Nat) :
    (entries ls).any (contrib read (fE M threshold) x) = true ↔
      ∃ v, element read M (entries ls) x = some v ∧ threshold ≤ v := by
  have hk : ∀ e ∈ entries ls, contrib read (fE M threshold) x e = true → e.1 = x / M := by
    intro e he hc
    unfold contrib at hc
    cases hr : read e.2 with
    | none => rw [hr] at hc; cases hc
    | some b =>
      rw [hr] at hc
      simp only [fE, Bool.and_eq_true, decide_eq_true_eq] at hc
      obtain ⟨h1, h2⟩ := hc
      obtain ⟨-, h4⟩ := ha.uniform e he b hr
      have h5 : x - e.1 * M < M := by
        apply Classical.byContradiction
        intro hne
        rw [List.getElem?_eq_none (by omega)] at h2
        simp at h2
      exact (pos_div hM h1 h5).1.symm
  rw [any_find ha.nodup (x / M) _ hk]
  unfold element
  cases hf : (entries ls).find? (fun e => e.1 == x / M) with
  | none => simp
  | some e =>
    simp only
    have hek : e.1 = x / M := by simpa using List.find?_some hf
    unfold contrib
    cases hr : read e.2 with
    | none => simp
    | some b =>
      simp only [fE]
      have h1 : e.1 * M ≤ x := by rw [hek]; exact Nat.div_mul_le_self x M
      have h2 : x - e.1 * M = x % M := by
        have := Nat.div_add_mod x M
        rw [hek, Nat.mul_comm]
        omega
      rw [h2]
      simp only [h1, decide_true, Bool.true_and]
      cases b.values[x % M]? <;> simp

/-! ### Main theorem -/

theorem collateAll_spec {readW : Nat → Option ABlock} {MW L threshold : Nat} (hM : 0 < MW) (wsets : List (Nat × Leaves)) :
    ∀ ws ws', (∀ w ∈ wsets, w.1 < 2 ^ 32 ∧ Array readW MW (2 ^ 64) w.2) → Good L ws →
    collateAll readW threshold wsets ws = some ws' →
    Good L ws' ∧ ∀ x < L * 64, bitOf 64 ws' x = true ↔
      (bitOf 64 ws x = true ∨ ∃ w ∈ wsets, threshold ≤ w.1 ∧ Contains readW MW w.2 x) := by
  induction wsets with
  | nil => intro ws ws' _ hg h; cases h; exact ⟨hg, fun x _ => by simp⟩
  | cons w wsets ih =>
    intro ws ws' hw hg h
    have hw0 := hw w (by simp)
    have hmod : w.1 % 2 ^ 32 = w.1 := Nat.mod_eq_of_lt hw0.1
    unfold collateAll at h
    rw [hmod] at h
    split at h
    · next hlt =>
      obtain ⟨g1, g2⟩ := ih ws ws' (fun w h => hw w (by simp [h])) hg h
      refine ⟨g1, fun x hx => ?_⟩
      rw [g2 x hx]
      simp only [List.mem_cons, exists_eq_or_imp]
      have : ¬ threshold ≤ w.1 := by omega
      simp [this]
    · next hge =>
      unfold collateWriteset at h
      split at h
      · cases h
      · next ws1 hw1 =>
        split at hw1
        · next ws2 hw2 =>
          cases hw1
          have h0 : (walkLeaves readW visitBits w.2 (0, ws)).1 = 0 := by rw [hw2]
          obtain ⟨f1, f2⟩ := walkLeaves_sets (visitBits_sets L MW) w.2 0 ws
            (fun e he b hb => ⟨(hw0.2.uniform e he b hb).1, hw0.2.bound e he b hb⟩) hg h0
          rw [hw2] at f1 f2
          obtain ⟨g1, g2⟩ := ih ws1 ws' (fun w h => hw w (by simp [h])) f1 h
          refine ⟨g1, fun x hx => ?_⟩
          rw [g2 x hx, f2 x hx]
          simp only [List.mem_cons, exists_eq_or_imp]
          rw [Bool.or_eq_true, contrib_W hM hw0.2]
          have : threshold ≤ w.1 := by omega
          simp only [this, true_and]
          rw [or_assoc]
        · cases hw1

theorem markBlocksSince_spec {readW readE : Nat → Option ABlock} {MW ME nrBlocks threshold : Nat} (hW : 0 < MW) (hE : 0 < ME)
    {w0 : Nat × Leaves} {rest : List (Nat × Leaves)} {eras : Leaves}
    (hw : ∀ w ∈ w0 :: rest, w.1 < 2 ^ 32 ∧ Array readW MW (2 ^ 64) w.2) (hord : (w0 :: rest).Pairwise (fun a b => a.1 < b.1))
    (he : Array readE ME w0.1 eras) {ws : List Nat}
    (h : markBlocksSince readW readE nrBlocks threshold (w0 :: rest) eras = some ws) :
    Good (Arr.divUp nrBlocks 64) ws ∧ ∀ x < Arr.divUp nrBlocks 64 * 64, bitOf 64 ws x = true ↔
      ∃ e, LastWrite readW readE MW ME (w0 :: rest) eras x e ∧ threshold ≤ e := by
  have hg0 : Good (Arr.divUp nrBlocks 64) (List.replicate (Arr.divUp nrBlocks 64) 0) :=
    ⟨by simp, fun n hn => by rw [(List.mem_replicate.mp hn).2]; decide⟩
  have hz : ∀ x, bitOf 64 (List.replicate (Arr.divUp nrBlocks 64) 0) x = false := by
    intro x
    unfold bitOf
    rw [List.getElem?_replicate]
    split <;> simp
  have helem : ∀ x v, element readE ME (entries eras) x = some v → v < w0.1 := by
    intro x v hv
    unfold element at hv
    split at hv
    · cases hv
    · next e hf =>
      split at hv
      · cases hv
      · next b hb => exact he.bound e (List.mem_of_find?_eq_some hf) b hb v (List.mem_of_getElem? hv)
  -- some writeset not older than the threshold contains the block, or there is an era in the array
  have key : ∀ x, (∃ e, LastWrite readW readE MW ME (w0 :: rest) eras x e ∧ threshold ≤ e) ↔
      ((∃ w ∈ w0 :: rest, threshold ≤ w.1 ∧ Contains readW MW w.2 x) ∨
        ∃ v, element readE ME (entries eras) x = some v ∧ threshold ≤ v) := by
    intro x
    -- the last writeset containing x
    have hlast : (∃ w ∈ w0 :: rest, Contains readW MW w.2 x) →
        ∃ w ∈ w0 :: rest, Contains readW MW w.2 x ∧ ∀ w' ∈ w0 :: rest, Contains readW MW w'.2 x → w'.1 ≤ w.1 := by
      generalize w0 :: rest = l
      induction l with
      | nil => rintro ⟨w, hw, _⟩; cases hw
      | cons a l ih =>
        intro hex
        by_cases hl : ∃ w ∈ l, Contains readW MW w.2 x
        · obtain ⟨w, hw, hc, hm⟩ := ih hl
          by_cases hca : Contains readW MW a.2 x
          · by_cases hle : a.1 ≤ w.1
            · refine ⟨w, by simp [hw], hc, fun w' hw' hc' => ?_⟩
              rcases List.mem_cons.mp hw' with rfl | hw'
              · exact hle
              · exact hm w' hw' hc'
            · refine ⟨a, by simp, hca, fun w' hw' hc' => ?_⟩
              rcases List.mem_cons.mp hw' with rfl | hw'
              · omega
              · have := hm w' hw' hc'; omega
          · refine ⟨w, by simp [hw], hc, fun w' hw' hc' => ?_⟩
            rcases List.mem_cons.mp hw' with rfl | hw'
            · exact absurd hc' hca
            · exact hm w' hw' hc'
        · obtain ⟨w, hw, hc⟩ := hex
          rcases List.mem_cons.mp hw with rfl | hw
          · refine ⟨w, by simp, hc, fun w' hw' hc' => ?_⟩
            rcases List.mem_cons.mp hw' with rfl | hw'
            · omega
            · exact absurd ⟨w', hw', hc'⟩ hl
          · exact absurd ⟨w, hw, hc⟩ hl
    constructor
    · rintro ⟨e, h1 | h1, h2⟩
      · obtain ⟨w, hw, rfl, hc, -⟩ := h1
        exact Or.inl ⟨w, hw, h2, hc⟩
      · exact Or.inr ⟨e, h1.2, h2⟩
    · rintro (⟨w, hw, h1, h2⟩ | ⟨v, h1, h2⟩)
      · obtain ⟨m, hm, hc, hmax⟩ := hlast ⟨w, hw, h2⟩
        refine ⟨m.1, Or.inl ⟨m, hm, rfl, hc, hmax⟩, ?_⟩
        have := hmax w hw h2
        omega
      · by_cases hex : ∃ w ∈ w0 :: rest, Contains readW MW w.2 x
        · obtain ⟨m, hm, hc, hmax⟩ := hlast hex
          refine ⟨m.1, Or.inl ⟨m, hm, rfl, hc, hmax⟩, ?_⟩
          have h3 := helem x v h1
          have h4 : w0.1 ≤ m.1 := by
            rcases List.mem_cons.mp hm with rfl | hm
            · exact Nat.le_refl _
            · exact Nat.le_of_lt ((List.pairwise_cons.mp hord).1 m hm)
          omega
        · exact ⟨v, Or.inr ⟨fun w hw hc => hex ⟨w, hw, hc⟩, h1⟩, h2⟩
  unfold markBlocksSince at h
  split at h
  · cases h
  · next ws1 hw1 =>
    obtain ⟨g1, g2⟩ := collateAll_spec hW (w0 :: rest) _ _ hw hg0 hw1
    simp only [List.head?_cons] at h
    rw [Nat.mod_eq_of_lt (hw w0 (by simp)).1] at h
    split at h
    · next hgt =>
      unfold collateEraArray at h
      split at h
      · next ws2 hw2 =>
        cases h
        have h0 : (walkLeaves readE (visitEras threshold) eras (0, ws1)).1 = 0 := by rw [hw2]
        obtain ⟨f1, f2⟩ := walkLeaves_sets (visitEras_sets (Arr.divUp nrBlocks 64) ME threshold) eras 0 ws1
          (fun e h b hb => he.uniform e h b hb) g1 h0
        rw [hw2] at f1 f2
        refine ⟨f1, fun x hx => ?_⟩
        rw [f2 x hx, Bool.or_eq_true, g2 x hx, contrib_E hE he, hz, key]
        simp
      · cases h
    · next hgt =>
      cases h
      refine ⟨g1, fun x hx => ?_⟩
      rw [g2 x hx, hz, key]
      constructor
      · rintro (h | h)
        · cases h
        · exact Or.inl h
      · rintro (h | ⟨v, h1, h2⟩)
        · exact Or.inr h
        · have := helem x v h1
          omega

/-- C38, proved part: with at least one archived writeset and an era array whose eras all precede the archived ones, a
successful run reports, as maximal ranges, exactly the blocks whose last write is in an era at or after the threshold.
What is missing: metadata without archived writesets, and the current writeset, which is never looked at (see below). -/
theorem invalidate_exact_partial {readW readE : Nat → Option ABlock} {MW ME nrBlocks threshold : Nat} (hW : 0 < MW) (hE : 0 < ME)
    {w0 : Nat × Leaves} {rest : List (Nat × Leaves)} {eras : Leaves}
    (hw : ∀ w ∈ w0 :: rest, w.1 < 2 ^ 32 ∧ Array readW MW (2 ^ 64) w.2) (hord : (w0 :: rest).Pairwise (fun a b => a.1 < b.1))
    (he : Array readE ME w0.1 eras) {out : List (Nat × Nat)}
    (h : invalidate readW readE nrBlocks threshold (w0 :: rest) eras = some out) :
    Exactly (fun x => x < nrBlocks ∧ ∃ e, LastWrite readW readE MW ME (w0 :: rest) eras x e ∧ threshold ≤ e) out := by
  unfold invalidate at h
  split at h
  · cases h
  · next ws hws =>
    obtain ⟨g1, g2⟩ := markBlocksSince_spec hW hE hw hord he hws
    have hlen : nrBlocks ≤ ws.length * 64 := by
      rw [g1.len]
      unfold Arr.divUp
      omega
    obtain ⟨o, ho1, ho2⟩ := Scan.markedRanges_exact 64 nrBlocks (by omega) ws g1.lt hlen
    rw [ho1] at h
    cases h
    refine ⟨ho2.pos, ho2.sep, fun x => ?_⟩
    rw [← ho2.cover x]
    constructor
    · rintro ⟨h1, h2⟩; exact ⟨h1, (g2 x (by rw [g1.len] at hlen; omega)).mpr h2⟩
    · rintro ⟨h1, h2⟩; exact ⟨h1, (g2 x (by rw [g1.len] at hlen; omega)).mp h2⟩

/-! ### What is false, and non-vacuity -/

/-- Without archived writesets nothing is ever reported, whatever the era array says (metadata restored from a logical
dump has no writesets). -/
theorem invalidate_no_writesets_refuted (readW readE : Nat → Option ABlock) (nrBlocks threshold : Nat) (eras : Leaves) :
    invalidate readW readE nrBlocks threshold [] eras = some [] := by
  have hws : markBlocksSince readW readE nrBlocks threshold [] eras = some (List.replicate (Arr.divUp nrBlocks 64) 0) := rfl
  unfold invalidate
  rw [hws]
  simp only
  obtain ⟨o, ho1, ho2⟩ := Scan.markedRanges_exact 64 nrBlocks (by omega) (List.replicate (Arr.divUp nrBlocks 64) 0)
    (fun n hn => by rw [(List.mem_replicate.mp hn).2]; decide) (by rw [List.length_replicate]; unfold Arr.divUp; omega)
  rw [ho1]
  cases o with
  | nil => rfl
  | cons r o =>
    have h1 := ho2.pos r (by simp)
    have h2 := (ho2.cover r.1).mpr ⟨r, by simp, Nat.le_refl _, by omega⟩
    have : bitOf 64 (List.replicate (Arr.divUp nrBlocks 64) 0) r.1 = false := by
      unfold bitOf
      rw [List.getElem?_replicate]
      split <;> simp
    rw [this] at h2
    cases h2.2

/-- writesets of eras 5 and 6 and an era array, all in small blocks -/
def demoW (b : Nat) : Option ABlock :=
  if b = 1 then some ⟨2, [6]⟩ else if b = 2 then some ⟨2, [2 ^ 63, 1]⟩ else none

def demoE (b : Nat) : Option ABlock :=
  if b = 3 then some ⟨3, [4, 1, 0]⟩ else if b = 4 then some ⟨3, [2, 3]⟩ else none

def demoSets : List (Nat × Leaves) := [(5, [(⟨none, none⟩, [(0, 1)])]), (6, [(⟨none, none⟩, [(0, 2)])])]

def demoEras : Leaves := [(⟨none, none⟩, [(0, 3), (1, 4)])]

theorem demoW_ok : ∀ w ∈ demoSets, w.1 < 2 ^ 32 ∧ Array demoW 2 (2 ^ 64) w.2 := by
  have hb : ∀ n b, demoW n = some b → b.maxEntries = 2 ∧ b.values.length ≤ 2 ∧ ∀ v ∈ b.values, v < 2 ^ 64 := by
    intro n b h
    unfold demoW at h
    split at h
    · cases h; decide
    · split at h
      · cases h; decide
      · cases h
  intro w hw
  have hn : w.1 < 2 ^ 32 ∧ ((entries w.2).map (·.1)).Nodup := by
    rcases List.mem_cons.mp hw with rfl | hw
    · decide
    · rw [List.mem_singleton.mp hw]; decide
  exact ⟨hn.1, fun e _ b h => ⟨(hb _ _ h).1, (hb _ _ h).2.1⟩, hn.2, fun e _ b h => (hb _ _ h).2.2⟩

example : demoSets.Pairwise (fun a b => a.1 < b.1) ∧ Array demoE 3 5 demoEras := by
  have hb : ∀ n b, demoE n = some b → b.maxEntries = 3 ∧ b.values.length ≤ 3 ∧ ∀ v ∈ b.values, v < 5 := by
    intro n b h
    unfold demoE at h
    split at h
    · cases h; decide
    · split at h
      · cases h; decide
      · cases h
  exact ⟨by decide, fun e _ b h => ⟨(hb _ _ h).1, (hb _ _ h).2.1⟩, by decide, fun e _ b h => (hb _ _ h).2.2⟩

example : invalidate demoW demoE 70 3 demoSets demoEras = some [(0, 3), (4, 1), (63, 2)] ∧
    invalidate demoW demoE 70 6 demoSets demoEras = some [(63, 2)] := by decide

/-- The writes of the current era are missed: there is metadata in which the current writeset, of era 7, contains block 63
and nothing at all is reported for threshold 7. -/
theorem invalidate_current_refuted : ∃ (sb : Sb) (ls : Leaves), sb.current = some ls ∧ 7 ≤ sb.currentEra ∧
    Contains demoW 2 ls 63 ∧ (∀ w ∈ sb.wsets, w.1 < sb.currentEra) ∧ invalidateSb demoW demoE sb 7 = some [] :=
  ⟨⟨70, demoSets, demoEras, 7, some [(⟨none, none⟩, [(0, 2)])]⟩, _, rfl, by decide, by unfold Contains; decide, by decide, by decide⟩

end Verif.EraI
