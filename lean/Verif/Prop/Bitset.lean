import Verif.Model.Bitset
import Verif.Prop.BitScan

/-!
# C18: reading a bitset

The specification: bit `i` of a bitset kept in array blocks of `M` words is bit `i % 64` of word `i / 64 % M` of block
`i / (64 * M)`.
-/

namespace Verif.Bits

open Verif.BT (KeyRange)

/-- the stored bit `i`, unknown when the block that holds it is not indexed, cannot be read, or is too short -/
def stored (read : Nat → Option ABlock) (M : Nat) (es : List (Nat × Nat)) (i : Nat) : Option Bool :=
  match es.find? (fun e => e.1 == i / (64 * M)) with
  | none => none
  | some e =>
    match read e.2 with
    | none => none
    | some b => (b.values[i / 64 % M]?).map fun w => w.testBit (i % 64)

/-- entries of the leaves that are accepted -/
def accepted (leaves : List (KeyRange × List (Nat × Nat))) : List (Nat × Nat) :=
  (leaves.filter fun l => goodLeaf l.1 l.2).flatMap (·.2)

/-- every readable block has the same capacity `M` and no more values than that -/
def Uniform (read : Nat → Option ABlock) (M : Nat) (es : List (Nat × Nat)) : Prop :=
  ∀ e ∈ es, ∀ b, read e.2 = some b → b.maxEntries = M ∧ b.values.length ≤ M

theorem and_pow_ne (w j : Nat) : (w &&& 2^j != 0) = w.testBit j := by
  rw [Bool.eq_iff_iff]
  simp only [bne_iff_ne, ne_eq]
  constructor
  · intro h
    apply Classical.byContradiction
    intro hb
    apply h
    apply Nat.eq_of_testBit_eq
    intro i
    rw [Nat.testBit_and, Nat.testBit_two_pow, Nat.zero_testBit]
    by_cases hij : j = i
    · subst hij; simp at hb; simp [hb]
    · simp [hij]
  · intro h h0
    have : (w &&& 2^j).testBit j = true := by rw [Nat.testBit_and, h, Nat.testBit_two_pow]; simp
    rw [h0] at this
    simp at this

theorem setBits_spec (w : Nat) (n : Nat) : ∀ bi j c x, j + n ≤ 64 →
    setBits w n bi (2 ^ j % 2 ^ 64) c x = if bi ≤ x ∧ x < bi + n then some (w.testBit (x - bi + j)) else c x := by
  induction n with
  | zero => intro bi j c x _; rw [if_neg (by omega)]; rfl
  | succ n ih =>
    intro bi j c x hj
    have hlt : 2 ^ j % 2 ^ 64 = 2 ^ j := Nat.mod_eq_of_lt (Nat.pow_lt_pow_right (by omega) (by omega))
    have hm : (2 ^ j % 2 ^ 64) <<< 1 % 2 ^ 64 = 2 ^ (j + 1) % 2 ^ 64 := by
      rw [hlt, Nat.shiftLeft_eq, show (2 : Nat) ^ (j + 1) = 2 ^ j * 2 ^ 1 from Nat.pow_add 2 j 1]
    show setBits w n (bi + 1) ((2 ^ j % 2 ^ 64) <<< 1 % 2 ^ 64) _ x = _
    rw [hm, ih (bi + 1) (j + 1) _ x (by omega)]
    by_cases h1 : bi + 1 ≤ x ∧ x < bi + 1 + n
    · rw [if_pos h1, if_pos (by omega), show x - (bi + 1) + (j + 1) = x - bi + j by omega]
    · rw [if_neg h1]
      unfold Checked.set
      by_cases h2 : x = bi
      · subst h2
        rw [if_pos rfl, if_pos (by omega), hlt, and_pow_ne, show x - x + j = j by omega]
      · rw [if_neg h2, if_neg (by omega)]

theorem setWords_spec (nr : Nat) (ws : List Nat) : ∀ b c x,
    setWords nr ws b c x = if b ≤ x ∧ x < nr then
      (match ws[(x - b) / 64]? with | some w => some (w.testBit ((x - b) % 64)) | none => c x) else c x := by
  induction ws with
  | nil => intro b c x; simp [setWords]
  | cons w ws ih =>
    intro b c x
    show setWords nr ws (b + 64) _ x = _
    rw [ih]
    have hs := setBits_spec w (min (b + 64) nr - b) b 0 c x (by omega)
    rw [show 2 ^ 0 % 2 ^ 64 = 1 from rfl] at hs
    rw [hs]
    by_cases hx : b ≤ x ∧ x < nr
    · rw [if_pos hx]
      by_cases h64 : x < b + 64
      · rw [if_neg (by omega), if_pos (by omega), show (x - b) / 64 = 0 by omega]
        simp only [List.getElem?_cons_zero]
        rw [show (x - b) % 64 = x - b + 0 by omega]
      · rw [if_pos (by omega), if_neg (by omega), show (x - b) / 64 = (x - (b + 64)) / 64 + 1 by omega,
          List.getElem?_cons_succ, show (x - (b + 64)) % 64 = (x - b) % 64 by omega]
    · rw [if_neg hx, if_neg (by omega), if_neg (by omega)]

/-- block `k` of capacity `M` holds position `x` -/
theorem block_pos {M k x : Nat} (hM : 0 < M) (h1 : k * M * 64 ≤ x) (h2 : (x - k * M * 64) / 64 < M) :
    x / (64 * M) = k ∧ x / 64 % M = (x - k * M * 64) / 64 ∧ x % 64 = (x - k * M * 64) % 64 := by
  obtain ⟨y, rfl⟩ : ∃ y, x = k * M * 64 + y := ⟨x - k * M * 64, by omega⟩
  rw [Nat.add_sub_cancel_left] at h2 ⊢
  have e1 : (k * M * 64 + y) / 64 = k * M + y / 64 := by omega
  refine ⟨?_, ?_, by omega⟩
  · rw [← Nat.div_div_eq_div_mul, e1, Nat.mul_comm k M, Nat.mul_add_div hM, Nat.div_eq_of_lt h2]
    omega
  · rw [e1, Nat.mul_comm k M, Nat.mul_add_mod, Nat.mod_eq_of_lt h2]

theorem block_pos' {M k x : Nat} (hM : 0 < M) (h : x / (64 * M) = k) :
    k * M * 64 ≤ x ∧ (x - k * M * 64) / 64 < M := by
  have h1 := Nat.div_add_mod x (64 * M)
  have h2 := Nat.mod_lt x (show 0 < 64 * M by omega)
  rw [h] at h1
  have h3 : 64 * M * k = k * M * 64 := by rw [Nat.mul_comm, Nat.mul_comm 64 M, Nat.mul_assoc]
  rw [h3] at h1
  omega

theorem visitChecked_spec {nr M k : Nat} (hM : 0 < M) {b : ABlock} (hb : b.maxEntries = M) (hl : b.values.length ≤ M)
    (c : Checked) (x : Nat) (hx : x < nr) :
    (visitChecked nr k b c).2 x =
      if x / (64 * M) = k then
        (match b.values[x / 64 % M]? with | some w => some (w.testBit (x % 64)) | none => c x)
      else c x := by
  unfold visitChecked
  rw [hb, Nat.shiftLeft_eq, show (2 : Nat) ^ 6 = 64 from rfl]
  simp only
  by_cases hge : k * M * 64 ≥ nr
  · rw [if_pos hge]
    split
    · next h => have := (block_pos' hM h).1; omega
    · rfl
  · rw [if_neg hge]
    simp only
    rw [setWords_spec]
    by_cases h1 : k * M * 64 ≤ x
    · rw [if_pos ⟨h1, hx⟩]
      by_cases h2 : (x - k * M * 64) / 64 < M
      · obtain ⟨e1, e2, e3⟩ := block_pos hM h1 h2
        rw [if_pos e1, e2, e3]
      · rw [List.getElem?_eq_none (by omega)]
        rw [if_neg (fun h => h2 (block_pos' hM h).2)]
    · rw [if_neg (by omega), if_neg (fun h => h1 (block_pos' hM h).1)]

theorem stored_cons (read : Nat → Option ABlock) (M : Nat) (k v : Nat) (es : List (Nat × Nat)) (x : Nat) :
    stored read M ((k, v) :: es) x = if x / (64 * M) = k then
      (match read v with | none => none | some b => (b.values[x / 64 % M]?).map fun w => w.testBit (x % 64))
      else stored read M es x := by
  unfold stored
  by_cases h : x / (64 * M) = k
  · rw [if_pos h, List.find?_cons_of_pos (by simpa using h.symm)]
  · rw [if_neg h, List.find?_cons_of_neg (by simpa using fun e => h e.symm)]

theorem stored_none {read : Nat → Option ABlock} {M : Nat} {es : List (Nat × Nat)} {x : Nat}
    (h : ∀ e ∈ es, e.1 ≠ x / (64 * M)) : stored read M es x = none := by
  unfold stored
  rw [List.find?_eq_none.mpr]
  intro e he
  simpa using h e he

theorem visitEntries_checked {read : Nat → Option ABlock} {nr M : Nat} (hM : 0 < M) (es : List (Nat × Nat)) :
    ∀ (n : Nat) (c : Checked), Uniform read M es → (es.map (·.1)).Nodup → ∀ x < nr,
    (visitEntries read (visitChecked nr) es (n, c)).2 x = (stored read M es x).or (c x) := by
  induction es with
  | nil => intro n c _ _ x _; rw [stored_none (by simp)]; rfl
  | cons e es ih =>
    intro n c hu hn x hx
    obtain ⟨k, v⟩ := e
    rw [List.map_cons, List.nodup_cons] at hn
    have hu' : Uniform read M es := fun e he => hu e (by simp [he])
    rw [stored_cons]
    unfold visitEntries
    cases hr : read v with
    | none =>
      simp only
      rw [ih _ _ hu' hn.2 x hx]
      split
      · next h =>
        rw [stored_none (fun e he h' => hn.1 (List.mem_map.mpr ⟨e, he, h'.trans h⟩))]
      · rfl
    | some b =>
      simp only
      obtain ⟨h1, h2⟩ := hu (k, v) (by simp) b hr
      rw [ih _ _ hu' hn.2 x hx, visitChecked_spec hM h1 h2 c x hx]
      split
      · next h =>
        rw [stored_none]
        · cases b.values[x / 64 % M]? <;> rfl
        · intro e he h'
          exact hn.1 (List.mem_map.mpr ⟨e, he, h'.trans h⟩)
      · rfl

theorem accepted_cons (kr : KeyRange) (es : List (Nat × Nat)) (ls : List (KeyRange × List (Nat × Nat))) :
    accepted ((kr, es) :: ls) = (if goodLeaf kr es then es else []) ++ accepted ls := by
  unfold accepted
  rw [List.filter_cons]
  split <;> simp

theorem stored_append {read : Nat → Option ABlock} {M : Nat} {a b : List (Nat × Nat)} (x : Nat)
    (hn : ((a ++ b).map (·.1)).Nodup) : stored read M (a ++ b) x = (stored read M b x).or (stored read M a x) := by
  by_cases h : ∃ e ∈ a, e.1 = x / (64 * M)
  · obtain ⟨e, he, hk⟩ := h
    rw [stored_none (es := b)]
    · unfold stored
      rw [List.find?_append]
      obtain ⟨e', he'⟩ := Option.isSome_iff_exists.mp
        (List.find?_isSome (p := fun e : Nat × Nat => e.1 == x / (64 * M)) (xs := a) |>.mpr ⟨e, he, by simpa using hk⟩)
      rw [he']
      rfl
    · intro f hf hk'
      rw [List.map_append] at hn
      exact (List.nodup_append.mp hn).2.2 e.1 (List.mem_map.mpr ⟨e, he, rfl⟩) f.1 (List.mem_map.mpr ⟨f, hf, rfl⟩)
        (hk.trans hk'.symm)
  · rw [stored_none (es := a) (fun e he hk => h ⟨e, he, hk⟩)]
    unfold stored
    rw [List.find?_append, List.find?_eq_none.mpr (fun e he => by simpa using fun hk => h ⟨e, he, hk⟩)]
    simp

theorem walkLeaves_checked {read : Nat → Option ABlock} {nr M : Nat} (hM : 0 < M)
    (ls : List (KeyRange × List (Nat × Nat))) : ∀ (n : Nat) (c : Checked), Uniform read M (accepted ls) →
    ((accepted ls).map (·.1)).Nodup → ∀ x < nr,
    (walkLeaves read (visitChecked nr) ls (n, c)).2 x = (stored read M (accepted ls) x).or (c x) := by
  induction ls with
  | nil => intro n c _ _ x _; rw [stored_none (by simp [accepted])]; rfl
  | cons l ls ih =>
    intro n c hu hn x hx
    obtain ⟨kr, es⟩ := l
    rw [accepted_cons] at hu hn ⊢
    unfold walkLeaves
    by_cases hg : goodLeaf kr es = true
    · rw [if_pos hg] at hu hn ⊢
      rw [if_pos hg]
      have hn' := hn
      rw [List.map_append] at hn'
      have hn' := List.nodup_append.mp hn'
      rw [stored_append x hn, Option.or_assoc, ← visitEntries_checked hM es n c (fun e he => hu e (by simp [he])) hn'.1 x hx]
      exact ih _ _ (fun e he => hu e (by simp [he])) hn'.2.1 x hx
    · rw [if_neg hg] at hu hn ⊢
      rw [if_neg hg]
      exact ih _ _ hu hn x hx

/-- C18 (checked reads): for every index below the declared size the result is the stored bit, and unknown if the block
that holds it is missing, unreadable or too short, or its leaf was rejected. -/
theorem readChecked_exact (read : Nat → Option ABlock) (nr M : Nat) (hM : 0 < M)
    (leaves : List (KeyRange × List (Nat × Nat))) (hu : Uniform read M (accepted leaves))
    (hn : ((accepted leaves).map (·.1)).Nodup) (i : Nat) (hi : i < nr) :
    (readChecked read nr leaves).2 i = stored read M (accepted leaves) i := by
  unfold readChecked
  rw [walkLeaves_checked hM leaves 0 _ hu hn i hi]
  simp

/-! ### Errors -/

theorem visitEntries_errs {read : Nat → Option ABlock} {S : Type} {visit : Nat → ABlock → S → Bool × S}
    (es : List (Nat × Nat)) : ∀ (n : Nat) (s : S), n ≤ (visitEntries read visit es (n, s)).1 ∧
    ((visitEntries read visit es (n, s)).1 = n → ∀ e ∈ es, (read e.2).isSome) := by
  induction es with
  | nil => intro n s; exact ⟨Nat.le_refl _, fun _ => by simp⟩
  | cons e es ih =>
    intro n s
    obtain ⟨k, v⟩ := e
    unfold visitEntries
    cases hr : read v with
    | none =>
      simp only
      have := (ih (n + 1) s).1
      exact ⟨by omega, fun h => by omega⟩
    | some b =>
      simp only
      have h := ih (if (visit k b s).1 then n else n + 1) (visit k b s).2
      by_cases hv : (visit k b s).1 = true
      · rw [if_pos hv] at h ⊢
        refine ⟨h.1, fun h0 e he => ?_⟩
        rcases List.mem_cons.mp he with rfl | he
        · simp [hr]
        · exact h.2 h0 e he
      · rw [if_neg hv] at h ⊢
        exact ⟨by omega, fun _ => by omega⟩

theorem walkLeaves_errs {read : Nat → Option ABlock} {S : Type} {visit : Nat → ABlock → S → Bool × S}
    (ls : List (KeyRange × List (Nat × Nat))) : ∀ (n : Nat) (s : S), n ≤ (walkLeaves read visit ls (n, s)).1 ∧
    ((walkLeaves read visit ls (n, s)).1 = n → ∀ l ∈ ls, goodLeaf l.1 l.2 = true ∧ ∀ e ∈ l.2, (read e.2).isSome) := by
  induction ls with
  | nil => intro n s; exact ⟨Nat.le_refl _, fun _ => by simp⟩
  | cons l ls ih =>
    intro n s
    obtain ⟨kr, es⟩ := l
    unfold walkLeaves
    have hv := visitEntries_errs (read := read) (visit := visit) es n s
    by_cases hg : goodLeaf kr es = true
    · rw [if_pos hg]
      generalize he : visitEntries read visit es (n, s) = r at hv
      obtain ⟨m, s'⟩ := r
      have h := ih m s'
      simp only at hv
      refine ⟨by omega, fun h0 l hl => ?_⟩
      rcases List.mem_cons.mp hl with rfl | hl
      · exact ⟨hg, hv.2 (by omega)⟩
      · exact h.2 (by omega) l hl
    · rw [if_neg hg]
      have h := ih (n + 1) s
      exact ⟨by omega, fun _ => by omega⟩

/-- the keys of a leaf of an array's index: consecutive numbers, up to the end of the range the parent gives the leaf -/
def LeafKeys (kr : KeyRange) (es : List (Nat × Nat)) : Prop :=
  ∃ k, es.map (·.1) = List.range' k es.length ∧ (es ≠ [] → ∀ e, kr.fin = some e → k + es.length = e)

theorem sorted_span (es : List (Nat × Nat)) : ∀ a, es.head? = some a → es.Pairwise (fun x y => x.1 < y.1) →
    (∀ b, es.getLast? = some b → a.1 + es.length ≤ b.1 + 1) ∧
    ((∀ b, es.getLast? = some b → a.1 + es.length = b.1 + 1) → es.map (·.1) = List.range' a.1 es.length) := by
  induction es with
  | nil => intro a h; cases h
  | cons x es ih =>
    intro a h hs
    cases h
    have hs' := List.pairwise_cons.mp hs
    cases es with
    | nil => exact ⟨fun b hb => by cases hb; simp, fun _ => by simp⟩
    | cons y es =>
      obtain ⟨g1, g2⟩ := ih y rfl hs'.2
      have hxy := hs'.1 y (by simp)
      have hl : ∀ b, (x :: y :: es).getLast? = some b → (y :: es).getLast? = some b := by
        intro b hb; rwa [List.getLast?_cons_cons] at hb
      refine ⟨fun b hb => ?_, fun hall => ?_⟩
      · have := g1 b (hl b hb)
        simp only [List.length_cons] at this ⊢
        omega
      · obtain ⟨b, hb⟩ : ∃ b, (y :: es).getLast? = some b := ⟨_, List.getLast?_eq_some_getLast (by simp)⟩
        have h1 := g1 b hb
        have h2 := hall b (by rw [List.getLast?_cons_cons]; exact hb)
        simp only [List.length_cons] at h1 h2
        have e : y.1 = x.1 + 1 := by omega
        have := g2 (fun b' hb' => by
          have := hall b' (by rw [List.getLast?_cons_cons]; exact hb')
          simp only [List.length_cons] at this ⊢
          omega)
        rw [List.map_cons, this, List.length_cons (a := x), List.range'_succ, e]

/-- C18: a leaf of the index (its keys are increasing, the walker checks that) is rejected exactly if blocks of the array are
missing in it or at its end. -/
theorem goodLeaf_iff (kr : KeyRange) (es : List (Nat × Nat)) (hs : es.Pairwise (fun x y => x.1 < y.1)) :
    goodLeaf kr es = true ↔ LeafKeys kr es := by
  cases es with
  | nil => exact ⟨fun _ => ⟨0, rfl, fun h => absurd rfl h⟩, fun _ => rfl⟩
  | cons a es =>
    obtain ⟨b, hb⟩ : ∃ b, (a :: es).getLast? = some b := ⟨_, List.getLast?_eq_some_getLast (by simp)⟩
    obtain ⟨g1, g2⟩ := sorted_span (a :: es) a rfl hs
    unfold goodLeaf
    rw [hb]
    show (_ && _) = true ↔ _
    rw [Bool.and_eq_true, beq_iff_eq]
    constructor
    · rintro ⟨h1, h2⟩
      refine ⟨a.1, g2 (fun b' hb' => by rw [hb] at hb'; cases hb'; exact h1), fun _ e he => ?_⟩
      rw [he] at h2
      have : b.1 + 1 = e := by simpa using h2
      omega
    · rintro ⟨k, h1, h2⟩
      have hk : a.1 = k := by
        have := congrArg List.head? h1
        simpa [List.length_cons, List.range'_succ] using this
      have hlast : b.1 = k + es.length := by
        have := congrArg List.getLast? h1
        rw [List.getLast?_map, hb, List.length_cons] at this
        simpa [List.getLast?_range'] using this
      refine ⟨by simp only [List.length_cons]; omega, ?_⟩
      cases hf : kr.fin with
      | none => rfl
      | some e =>
        have := h2 (by simp) e hf
        simp only [List.length_cons] at this
        simp only [beq_iff_eq]
        omega

/-- C18: if no error is returned, no block of the array is missing in any leaf of the index, and every block was readable. -/
theorem readChecked_clean (read : Nat → Option ABlock) (nr : Nat) (leaves : List (KeyRange × List (Nat × Nat)))
    (hs : ∀ l ∈ leaves, l.2.Pairwise (fun x y => x.1 < y.1)) (h : (readChecked read nr leaves).1 = 0) :
    ∀ l ∈ leaves, LeafKeys l.1 l.2 ∧ ∀ e ∈ l.2, (read e.2).isSome := fun l hl =>
  ⟨(goodLeaf_iff _ _ (hs l hl)).mp ((walkLeaves_errs leaves 0 _).2 h l hl).1, ((walkLeaves_errs leaves 0 _).2 h l hl).2⟩

/-! ### Unchecked reads -/

theorem collectWords_spec (idxEnd : Nat) (es : List Nat) : ∀ idx ws ws', collectWords idxEnd es idx ws = some ws' →
    ws.length = idxEnd → ws'.length = idxEnd ∧ ∀ q, q < idxEnd →
      ws'[q]? = if idx ≤ q then
        (match es[(q - idx) / 2]? with
          | some e => some (if (q - idx) % 2 = 0 then e % 2 ^ 32 else e >>> 32)
          | none => ws[q]?) else ws[q]? := by
  induction es with
  | nil => intro idx ws ws' h hl; cases h; exact ⟨hl, fun q hq => by simp⟩
  | cons e es ih =>
    intro idx ws ws' h hl
    unfold collectWords putWord at h
    split at h
    · next => cases h
    · next w1 hw1 =>
      split at hw1
      · next hlt =>
        cases hw1
        split at h
        · next hend =>
          cases h
          refine ⟨by simpa using hl, fun q hq => ?_⟩
          rw [List.getElem?_set]
          by_cases hq1 : idx = q
          · subst hq1
            simp [hlt]
          · rw [if_neg hq1, if_neg (by omega)]
        · next hend =>
          split at h
          · cases h
          · next w2 hw2 =>
            split at hw2
            · next hlt2 =>
              cases hw2
              obtain ⟨h1, h2⟩ := ih _ _ _ h (by simpa using hl)
              refine ⟨h1, fun q hq => ?_⟩
              rw [h2 q hq]
              by_cases hq1 : idx + 2 ≤ q
              · rw [if_pos hq1, if_pos (by omega), show (q - idx) / 2 = (q - (idx + 2)) / 2 + 1 by omega,
                  List.getElem?_cons_succ, show (q - (idx + 2)) % 2 = (q - idx) % 2 by omega]
                rw [List.getElem?_set_ne (by omega), List.getElem?_set_ne (by omega)]
              · rw [if_neg hq1]
                by_cases hq2 : q = idx
                · subst hq2
                  rw [List.getElem?_set_ne (by omega), List.getElem?_set_self (by omega)]
                  simp
                · by_cases hq3 : q = idx + 1
                  · subst hq3
                    rw [List.getElem?_set_self (by omega), if_pos (by omega), show (idx + 1 - idx) / 2 = 0 by omega,
                      show (idx + 1 - idx) % 2 = 1 by omega]
                    rfl
                  · rw [List.getElem?_set_ne (by omega), List.getElem?_set_ne (by omega), if_neg (by omega)]
            · cases hw2
      · cases hw1

/-- bit `i` of the words of a `FixedBitSet` -/
def bit (ws : List Nat) (i : Nat) : Bool := Scan.bitOf 32 ws i

theorem visitCollect_spec {nr M k : Nat} (hM : 0 < M) {b : ABlock} (hb : b.maxEntries = M) (hl : b.values.length ≤ M)
    {ws : List Nat} (hw : ws.length = Arr.divUp nr 32) (hok : (visitCollect nr k b ws).1 = true) :
    (visitCollect nr k b ws).2.length = Arr.divUp nr 32 ∧ ∀ x < nr, bit (visitCollect nr k b ws).2 x =
      if x / (64 * M) = k then
        (match b.values[x / 64 % M]? with | some w => w.testBit (x % 64) | none => bit ws x)
      else bit ws x := by
  unfold visitCollect at hok ⊢
  rw [hb, Nat.shiftLeft_eq, show (2 : Nat) ^ 1 = 2 from rfl] at hok ⊢
  cases hc : collectWords (Arr.divUp nr 32) b.values (k * M * 2) ws with
  | none => rw [hc] at hok; cases hok
  | some ws' =>
    simp only
    obtain ⟨h1, h2⟩ := collectWords_spec _ _ _ _ _ hc hw
    refine ⟨h1, fun x hx => ?_⟩
    have hq : x / 32 < Arr.divUp nr 32 := by
      rw [Arr.divUp]; omega
    have hbit : ∀ l : List Nat, bit l x = ((l[x / 32]?).getD 0).testBit (x % 32) := fun l => rfl
    rw [hbit, h2 _ hq]
    by_cases hle : k * M * 64 ≤ x
    · have hle2 : k * M * 2 ≤ x / 32 := by omega
      rw [if_pos hle2]
      have e1 : (x / 32 - k * M * 2) / 2 = (x - k * M * 64) / 64 := by omega
      rw [e1]
      by_cases hlt : (x - k * M * 64) / 64 < M
      · obtain ⟨g1, g2, g3⟩ := block_pos hM hle hlt
        rw [if_pos g1, g2]
        cases hv : b.values[(x - k * M * 64) / 64]? with
        | none => simp only; rw [hbit]
        | some e =>
          simp only
          by_cases hp : (x / 32 - k * M * 2) % 2 = 0
          · rw [if_pos hp]
            simp only [Option.getD_some]
            rw [Nat.testBit_mod_two_pow, show x % 64 = x % 32 by omega]
            have : x % 32 < 32 := Nat.mod_lt _ (by omega)
            simp [this]
          · rw [if_neg hp]
            simp only [Option.getD_some]
            rw [Nat.testBit_shiftRight, show 32 + x % 32 = x % 64 by omega]
      · rw [List.getElem?_eq_none (by omega)]
        rw [if_neg (fun h => hlt (block_pos' hM h).2), hbit]
    · rw [if_neg (by omega), if_neg (fun h => hle (block_pos' hM h).1), hbit]

theorem visitEntries_collect {read : Nat → Option ABlock} {nr M : Nat} (hM : 0 < M) (es : List (Nat × Nat)) :
    ∀ (n : Nat) (ws : List Nat), Uniform read M es → (es.map (·.1)).Nodup → ws.length = Arr.divUp nr 32 →
    (visitEntries read (visitCollect nr) es (n, ws)).1 = n →
    (visitEntries read (visitCollect nr) es (n, ws)).2.length = Arr.divUp nr 32 ∧ ∀ x < nr,
      bit (visitEntries read (visitCollect nr) es (n, ws)).2 x = (stored read M es x).getD (bit ws x) := by
  induction es with
  | nil => intro n ws _ _ hw _; exact ⟨hw, fun x _ => by rw [stored_none (by simp)]; rfl⟩
  | cons e es ih =>
    intro n ws hu hn hw h0
    obtain ⟨k, v⟩ := e
    rw [List.map_cons, List.nodup_cons] at hn
    have hu' : Uniform read M es := fun e he => hu e (by simp [he])
    unfold visitEntries at h0 ⊢
    cases hr : read v with
    | none =>
      rw [hr] at h0
      simp only at h0
      have := (visitEntries_errs (read := read) (visit := visitCollect nr) es (n + 1) ws).1
      omega
    | some b =>
      rw [hr] at h0
      simp only at h0 ⊢
      obtain ⟨h1, h2⟩ := hu (k, v) (by simp) b hr
      have hok : (visitCollect nr k b ws).1 = true := by
        apply Classical.byContradiction
        intro hne
        rw [if_neg hne] at h0
        have := (visitEntries_errs (read := read) (visit := visitCollect nr) es (n + 1) (visitCollect nr k b ws).2).1
        omega
      rw [if_pos hok] at h0 ⊢
      obtain ⟨g1, g2⟩ := visitCollect_spec hM h1 h2 hw hok
      obtain ⟨f1, f2⟩ := ih n _ hu' hn.2 g1 h0
      refine ⟨f1, fun x hx => ?_⟩
      rw [f2 x hx, g2 x hx, stored_cons, hr]
      simp only
      split
      · next h =>
        rw [stored_none]
        · cases b.values[x / 64 % M]? <;> rfl
        · intro e he h'
          exact hn.1 (List.mem_map.mpr ⟨e, he, h'.trans h⟩)
      · rfl

theorem walkLeaves_collect {read : Nat → Option ABlock} {nr M : Nat} (hM : 0 < M)
    (ls : List (KeyRange × List (Nat × Nat))) : ∀ (n : Nat) (ws : List Nat), Uniform read M (ls.flatMap (·.2)) →
    ((ls.flatMap (·.2)).map (·.1)).Nodup → ws.length = Arr.divUp nr 32 →
    (walkLeaves read (visitCollect nr) ls (n, ws)).1 = n →
    (walkLeaves read (visitCollect nr) ls (n, ws)).2.length = Arr.divUp nr 32 ∧ ∀ x < nr,
      bit (walkLeaves read (visitCollect nr) ls (n, ws)).2 x = (stored read M (ls.flatMap (·.2)) x).getD (bit ws x) := by
  induction ls with
  | nil => intro n ws _ _ hw _; exact ⟨hw, fun x _ => by rw [stored_none (by simp)]; rfl⟩
  | cons l ls ih =>
    intro n ws hu hn hw h0
    have hg := ((walkLeaves_errs (l :: ls) n ws).2 h0 l (by simp)).1
    obtain ⟨kr, es⟩ := l
    rw [List.flatMap_cons] at hu hn ⊢
    unfold walkLeaves at h0 ⊢
    rw [if_pos hg] at h0 ⊢
    have hn' := hn
    rw [List.map_append] at hn'
    have hn' := List.nodup_append.mp hn'
    have hev := (visitEntries_errs (read := read) (visit := visitCollect nr) es n ws).1
    have hn0 : (visitEntries read (visitCollect nr) es (n, ws)).1 = n := by
      have := (walkLeaves_errs (read := read) (visit := visitCollect nr) ls
        (visitEntries read (visitCollect nr) es (n, ws)).1 (visitEntries read (visitCollect nr) es (n, ws)).2).1
      rw [show ((visitEntries read (visitCollect nr) es (n, ws)).1, (visitEntries read (visitCollect nr) es (n, ws)).2) =
        visitEntries read (visitCollect nr) es (n, ws) from rfl] at this
      omega
    obtain ⟨g1, g2⟩ := visitEntries_collect hM es n ws (fun e he => hu e (by simp [he])) hn'.1 hw hn0
    rw [show visitEntries read (visitCollect nr) es (n, ws) =
      (n, (visitEntries read (visitCollect nr) es (n, ws)).2) from Prod.ext hn0 rfl] at h0 ⊢
    obtain ⟨f1, f2⟩ := ih n _ (fun e he => hu e (by simp [he])) hn'.2.1 g1 h0
    refine ⟨f1, fun x hx => ?_⟩
    rw [f2 x hx, g2 x hx, stored_append x hn]
    cases stored read M (ls.flatMap (·.2)) x <;> rfl

/-- C18 (unchecked reads): a successful read found every block readable and returns every stored bit, zero where the array
ends early. -/
theorem readBitset_exact (read : Nat → Option ABlock) (nr M : Nat) (hM : 0 < M)
    (leaves : List (KeyRange × List (Nat × Nat))) (hu : Uniform read M (leaves.flatMap (·.2)))
    (hn : ((leaves.flatMap (·.2)).map (·.1)).Nodup) (ws : List Nat) (h : readBitset read nr leaves = some ws) :
    (∀ l ∈ leaves, goodLeaf l.1 l.2 = true ∧ ∀ e ∈ l.2, (read e.2).isSome) ∧
    ws.length = Arr.divUp nr 32 ∧
    ∀ i < nr, bit ws i = (stored read M (leaves.flatMap (·.2)) i).getD false := by
  unfold readBitset at h
  split at h
  · next ws' hw =>
    cases h
    have h0 : (walkLeaves read (visitCollect nr) leaves (0, List.replicate (Arr.divUp nr 32) 0)).1 = 0 := by rw [hw]
    refine ⟨(walkLeaves_errs leaves 0 _).2 h0, ?_⟩
    obtain ⟨g1, g2⟩ := walkLeaves_collect hM leaves 0 (List.replicate (Arr.divUp nr 32) 0) hu hn (by simp) h0
    rw [hw] at g1 g2
    refine ⟨g1, fun i hi => ?_⟩
    rw [g2 i hi]
    congr 1
    show (((List.replicate (Arr.divUp nr 32) 0)[i / 32]?).getD 0).testBit (i % 32) = false
    rw [List.getElem?_replicate]
    split <;> simp
  · cases h

/-! ### Non-vacuity, and what is false -/

/-- three blocks of two words, the middle one unreadable -/
def demoRead (b : Nat) : Option ABlock :=
  if b = 7 then some ⟨2, [5, 2 ^ 63]⟩ else if b = 9 then some ⟨2, [3]⟩ else none

def demoLeaves : List (KeyRange × List (Nat × Nat)) := [(⟨none, some 2⟩, [(0, 7), (1, 8)]), (⟨some 2, none⟩, [(2, 9)])]

example : Uniform demoRead 2 (accepted demoLeaves) ∧ ((accepted demoLeaves).map (·.1)).Nodup := by
  refine ⟨?_, by decide⟩
  intro e _ b hb
  unfold demoRead at hb
  split at hb
  · cases hb; decide
  · split at hb
    · cases hb; decide
    · cases hb

example : (readChecked demoRead 260 demoLeaves).1 = 1 ∧
    [0, 1, 2, 127, 128, 255, 256, 257, 258].map (readChecked demoRead 260 demoLeaves).2 =
      [some true, some false, some true, some true, none, none, some true, some true, some false] := by decide

example : readBitset (fun b => if b = 7 then some ⟨2, [5, 2 ^ 63]⟩ else none) 100 [(⟨none, none⟩, [(0, 7)])] =
    some [5, 0, 0, 2 ^ 31] := by decide

/-- Without the hypothesis on `max_entries` the claim fails: a readable block that declares a smaller capacity than the
others puts its bits at positions of another, readable block. -/
theorem readChecked_maxEntries_refuted :
    let read : Nat → Option ABlock := fun b => if b = 7 then some ⟨2, [1, 1]⟩ else some ⟨1, [2]⟩
    let leaves : List (KeyRange × List (Nat × Nat)) := [(⟨none, none⟩, [(0, 7), (1, 8)])]
    (readChecked read 256 leaves).1 = 0 ∧ (readChecked read 256 leaves).2 64 = some false ∧
    (readChecked (fun b => if b = 7 then some ⟨2, [1, 1]⟩ else none) 256 leaves).2 64 = some true := by decide

end Verif.Bits
