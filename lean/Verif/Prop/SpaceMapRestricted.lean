import Verif.Prop.SpaceMap

/-!
# C06, C07, C08 for `RestrictedSpaceMap` (counts to one) and `RestrictedTwoSpaceMap` (counts to two)
-/

namespace Verif.SM

/-- counts with the blocks of `[lo, hi)` set to one -/
def Counts.marked (c : Counts) (lo hi : Nat) : Counts := fun x => if lo ≤ x ∧ x < hi then 1 else c x

/-- What each operation may return, and its effect, on `n` one-bit saturating counters. -/
inductive BSpec (n : Nat) (c : Counts) : Op → Out → Counts → Prop where
  | nrBlocks : BSpec n c .nrBlocks (.num n) c
  | nrAllocated : BSpec n c .nrAllocated (.num (c.allocated n)) c
  | get {b} : b < n → BSpec n c (.get b) (.num (c b)) c
  | getOut {b} : n ≤ b → BSpec n c (.get b) .err c
  | set {b v} : b < n → BSpec n c (.set b v) (.num (c b)) (c.upd b (min v 1))
  | setOut {b v} : n ≤ b → BSpec n c (.set b v) .err c
  | inc {b l} : b + l ≤ n → BSpec n c (.inc b l) .unit (c.marked b (b + l))
  | incOut {b l} : n < b + l ∨ b + l = 0 → BSpec n c (.inc b l) .err c
  | dec {b} : b < n → c b = 1 → BSpec n c (.dec b) (.bool true) (c.upd b 0)
  | decOut {b} : n ≤ b ∨ c b = 0 → BSpec n c (.dec b) .err c
  | alloc {b} : b < n → c b = 0 → BSpec n c .alloc (.block (some b)) (c.upd b 1)
  /-- a full map answers "no space", or an error when the cursor is still at 0 -/
  | allocFull {o} : (∀ b, b < n → c b ≠ 0) → o = .block none ∨ o = .err → BSpec n c .alloc o c
  | found {b e x} : b ≤ x → x < e → e ≤ n → c x = 0 → (∀ y, b ≤ y → y < x → c y ≠ 0) →
      BSpec n c (.findFree b e) (.block (some x)) c
  | notFound {b e} : 0 < e → e ≤ n → (∀ y, b ≤ y → y < e → c y ≠ 0) → BSpec n c (.findFree b e) (.block none) c
  | findOut {b e} : e = 0 ∨ n < e → BSpec n c (.findFree b e) .err c

/-- a history -/
inductive BSpecRun (n : Nat) : Counts → List Op → List Out → Counts → Prop where
  | nil {c} : BSpecRun n c [] [] c
  | cons {c c' c'' op o ops os} : BSpec n c op o c' → BSpecRun n c' ops os c'' →
      BSpecRun n c (op :: ops) (o :: os) c''

/-- 64-bit arguments whose sums do not wrap -/
def Op.Fits64 : Op → Prop
  | .inc b l => b + l < 2 ^ 64
  | .findFree _ e => e < 2 ^ 64
  | _ => True

namespace Bits

/-- abstraction -/
def abs (s : Bits) : Counts := fun b => if s.counts[b]? = some true then 1 else 0

/-- invariant -/
structure Inv (n : Nat) (s : Bits) : Prop where
  len : s.counts.length = n
  n64 : n < 2 ^ 64
  nr : s.nrAlloc = s.abs.allocated n
  cur : s.allocBegin ≤ n

theorem getElem?_abs (s : Bits) (b : Nat) :
    s.counts[b]? = if b < s.counts.length then some (s.abs b == 1) else none := by
  split
  · next h =>
    simp only [abs, h, List.getElem?_eq_getElem]
    cases s.counts[b] <;> simp
  · next h => simp at h; simp [h]

theorem abs_le (s : Bits) (b : Nat) : s.abs b = 0 ∨ s.abs b = 1 := by
  unfold abs; split <;> simp

theorem inv_upd {n : Nat} {s t : Bits} (hi : Inv n s) (b : Nat) (v : Bool) (hb : b < n)
    (hc : t.counts = s.counts.set b v) (ha : t.allocBegin ≤ n)
    (hn : t.nrAlloc + s.abs b = s.nrAlloc + (if v then 1 else 0)) :
    Inv n t ∧ t.abs = s.abs.upd b (if v then 1 else 0) := by
  obtain ⟨h1, h2, h3, h4⟩ := hi
  have habs : t.abs = s.abs.upd b (if v then 1 else 0) := by
    funext x
    simp only [abs, hc, Counts.upd, List.getElem?_set]
    by_cases h : x = b
    · subst h; simp [h1, hb]
    · simp [h, Ne.symm h]
  have hal := Core.allocated_upd s.abs n b (if v then 1 else 0) hb
  refine ⟨⟨by simp [hc, h1], h2, ?_, ha⟩, habs⟩
  rw [habs]
  rcases abs_le s b with h | h <;> cases v <;> simp_all <;> omega

theorem set_spec {n : Nat} {s : Bits} (hi : Inv n s) (b v : Nat) :
    Inv n (s.set b v).1 ∧ BSpec n s.abs (.set b v) (s.set b v).2 (s.set b v).1.abs := by
  unfold set
  rw [getElem?_abs, hi.len]
  by_cases hb : b < n
  · rw [if_pos hb]
    simp only
    have hpos : s.abs b ≠ 0 → 0 < s.nrAlloc := fun h => hi.nr ▸ Core.allocated_pos hb h
    have hout : (if (s.abs b == 1) = true then 1 else 0) = s.abs b := by
      rcases abs_le s b with h | h <;> simp [h]
    rw [hout]
    have spec := BSpec.set (n := n) (c := s.abs) (b := b) (v := v) hb
    by_cases hv : v > 0
    · simp only [hv, if_true]
      obtain ⟨k1, k2⟩ := inv_upd (t := { s with nrAlloc := (if (s.abs b == 1) = true then s.nrAlloc else s.nrAlloc + 1), counts := s.counts.set b true }) hi b true hb rfl hi.cur
        (by rcases abs_le s b with h | h <;> simp [h])
      refine ⟨k1, ?_⟩
      rw [k2]
      rw [show min v 1 = 1 by omega] at spec
      exact spec
    · simp only [hv, if_false]
      obtain ⟨k1, k2⟩ := inv_upd (t := { s with nrAlloc := (if (s.abs b == 1) = true then s.nrAlloc - 1 else s.nrAlloc), counts := s.counts.set b false }) hi b false hb rfl hi.cur
        (by
          rcases abs_le s b with h | h
          · simp [h]
          · have := hpos (by omega)
            simp [h]; omega)
      refine ⟨k1, ?_⟩
      rw [k2]
      rw [show min v 1 = 0 by omega] at spec
      exact spec
  · rw [if_neg hb]
    exact ⟨hi, .setOut (by omega)⟩

theorem marked_succ (c : Counts) (b hi : Nat) (h : b < hi) : (c.upd b 1).marked (b + 1) hi = c.marked b hi := by
  funext x
  simp only [Counts.marked, Counts.upd]
  by_cases hx : x = b
  · subst hx; simp [h]
  · by_cases h1 : b ≤ x ∧ x < hi
    · rw [if_pos ⟨by omega, h1.2⟩, if_pos h1]
    · rw [if_neg (by omega), if_neg hx, if_neg h1]

theorem marked_empty (c : Counts) (b : Nat) : c.marked b b = c := by
  funext x; simp only [Counts.marked]; rw [if_neg (by omega)]

theorem upd_same (c : Counts) (b v : Nat) (h : c b = v) : c.upd b v = c := by
  funext x; simp only [Counts.upd]; split
  · next e => rw [e, h]
  · rfl

theorem incLoop_spec {n : Nat} (l b : Nat) {s : Bits} (hi : Inv n s) (h : b + l ≤ n) :
    (s.incLoop b l).2 = .unit ∧ Inv n (s.incLoop b l).1 ∧ (s.incLoop b l).1.abs = s.abs.marked b (b + l) := by
  induction l generalizing b s with
  | zero => exact ⟨rfl, hi, by rw [Nat.add_zero, marked_empty]; rfl⟩
  | succ l ih =>
    unfold incLoop
    rw [getElem?_abs, hi.len, if_pos (by omega)]
    rcases abs_le s b with h0 | h0
    · simp only [h0]
      obtain ⟨k1, k2⟩ := inv_upd (t := { s with nrAlloc := s.nrAlloc + 1, counts := s.counts.set b true })
        hi b true (by omega) rfl hi.cur (by simp [h0])
      obtain ⟨e1, e2, e3⟩ := ih (b + 1) k1 (by omega)
      refine ⟨e1, e2, ?_⟩
      rw [show b + (l + 1) = b + 1 + l by omega, ← marked_succ _ _ _ (by omega), ← show _ = s.abs.upd b 1 from k2]
      exact e3
    · simp only [h0]
      obtain ⟨e1, e2, e3⟩ := ih (b + 1) hi (by omega)
      refine ⟨e1, e2, ?_⟩
      rw [show b + (l + 1) = b + 1 + l by omega, ← marked_succ _ _ _ (by omega), upd_same _ _ _ h0]
      exact e3

theorem pred64 (x : Nat) (h : x < 2 ^ 64) : (x + (2 ^ 64 - 1)) % 2 ^ 64 = if x = 0 then 2 ^ 64 - 1 else x - 1 := by
  split
  · next h0 => subst h0; rfl
  · omega

theorem inc_spec {n : Nat} {s : Bits} (hi : Inv n s) (b l : Nat) (hw : b + l < 2 ^ 64) :
    Inv n (s.inc b l).1 ∧ BSpec n s.abs (.inc b l) (s.inc b l).2 (s.inc b l).1.abs := by
  have hn := hi.n64
  unfold inc
  rw [pred64 _ hw, Nat.mod_eq_of_lt hw, hi.len, Nat.add_sub_cancel_left]
  by_cases h : (if b + l = 0 then 2 ^ 64 - 1 else b + l - 1) ≥ n
  · rw [if_pos h]
    refine ⟨hi, .incOut ?_⟩
    split at h <;> omega
  · rw [if_neg h]
    have hle : b + l ≤ n := by split at h <;> omega
    obtain ⟨e1, e2, e3⟩ := incLoop_spec l b hi hle
    exact ⟨e2, by rw [e1, e3]; exact .inc hle⟩

theorem dec_spec {n : Nat} {s : Bits} (hi : Inv n s) (b : Nat) :
    Inv n (s.dec b).1 ∧ BSpec n s.abs (.dec b) (s.dec b).2 (s.dec b).1.abs := by
  obtain ⟨hs1, hs2⟩ := set_spec hi b 0
  unfold dec
  rw [getElem?_abs, hi.len]
  by_cases hb : b < n
  · rw [if_pos hb]
    rcases abs_le s b with h0 | h0
    · simp only [h0]
      exact ⟨hi, .decOut (Or.inr h0)⟩
    · simp only [h0]
      refine ⟨hs1, ?_⟩
      show BSpec n s.abs (.dec b) (.bool true) (s.set b 0).1.abs
      generalize (s.set b 0).1.abs = c' at *
      generalize (s.set b 0).2 = o at *
      cases hs2 with
      | set _ => exact .dec hb h0
      | setOut h => omega
  · rw [if_neg hb]
    exact ⟨hi, .decOut (Or.inl (by omega))⟩

theorem scan_spec {n : Nat} {s : Bits} (hi : Inv n s) (k b : Nat) (hk : k = 0 ∨ b + k ≤ n) :
    (∃ x, s.scan b k = .block (some x) ∧ b ≤ x ∧ x < b + k ∧ s.abs x = 0 ∧ ∀ y, b ≤ y → y < x → s.abs y ≠ 0) ∨
    (s.scan b k = .block none ∧ ∀ y, b ≤ y → y < b + k → s.abs y ≠ 0) := by
  induction k generalizing b with
  | zero => exact Or.inr ⟨rfl, by intro y; omega⟩
  | succ k ih =>
    unfold scan
    have e := getElem?_abs s b
    rw [hi.len, if_pos (by omega)] at e
    rw [e]
    rcases abs_le s b with h0 | h0
    · rw [if_neg (by simp [h0])]
      exact Or.inl ⟨b, rfl, by omega, by omega, h0, by intro y; omega⟩
    · rw [if_pos (by simp [h0])]
      have ext : ∀ m, (∀ y, b + 1 ≤ y → y < m → s.abs y ≠ 0) → ∀ y, b ≤ y → y < m → s.abs y ≠ 0 := by
        intro m hm y hy1 hy2
        by_cases hyb : y = b
        · subst hyb; omega
        · exact hm y (by omega) hy2
      rcases ih (b + 1) (by omega) with ⟨x, e, h1, h2, h4, h5⟩ | ⟨e, h2⟩
      · exact Or.inl ⟨x, e, by omega, by omega, h4, ext _ h5⟩
      · refine Or.inr ⟨e, ?_⟩
        rw [show b + (k + 1) = b + 1 + k by omega]
        exact ext _ h2

theorem take_spec {n : Nat} {s : Bits} (hi : Inv n s) (b : Nat) (hb : b < n) (h0 : s.abs b = 0) :
    Inv n (s.take b).1 ∧ BSpec n s.abs .alloc (s.take b).2 (s.take b).1.abs := by
  obtain ⟨k1, k2⟩ := inv_upd (t := (s.take b).1) hi b true hb rfl (by show b + 1 ≤ n; omega)
    (by simp [h0, take])
  exact ⟨k1, by rw [k2]; exact BSpec.alloc hb h0⟩

theorem findFree_spec {n : Nat} {s : Bits} (hi : Inv n s) (b e : Nat) (he : e < 2 ^ 64) :
    (s.findFree b e = .err ∧ (e = 0 ∨ n < e)) ∨
    (∃ x, s.findFree b e = .block (some x) ∧ e ≤ n ∧ b ≤ x ∧ x < e ∧ s.abs x = 0 ∧ ∀ y, b ≤ y → y < x → s.abs y ≠ 0) ∨
    (s.findFree b e = .block none ∧ 0 < e ∧ e ≤ n ∧ ∀ y, b ≤ y → y < e → s.abs y ≠ 0) := by
  have hn := hi.n64
  unfold findFree
  rw [pred64 _ he, hi.len]
  by_cases h : (if e = 0 then 2 ^ 64 - 1 else e - 1) ≥ n
  · rw [if_pos h]
    refine Or.inl ⟨rfl, ?_⟩
    split at h <;> omega
  · rw [if_neg h]
    have hle : 0 < e ∧ e ≤ n := by split at h <;> omega
    rcases scan_spec hi (e - b) b (by omega) with ⟨x, e', h1, h2, h4, h5⟩ | ⟨e', h2⟩
    · exact Or.inr (Or.inl ⟨x, e', by omega, by omega, by omega, h4, h5⟩)
    · exact Or.inr (Or.inr ⟨e', hle.1, hle.2, fun y hy1 hy2 => h2 y hy1 (by omega)⟩)

theorem alloc_spec {n : Nat} {s : Bits} (hi : Inv n s) :
    Inv n s.alloc.1 ∧ BSpec n s.abs .alloc s.alloc.2 s.alloc.1.abs := by
  have hc := hi.cur
  have hl := hi.len
  have hn := hi.n64
  unfold alloc
  rcases findFree_spec hi s.allocBegin s.counts.length (by omega) with
    ⟨e, h1⟩ | ⟨x, e, h0, h1, h2, h4, -⟩ | ⟨e, -, h0, h1⟩
  · rw [e]
    exact ⟨hi, .allocFull (by intro b; omega) (Or.inr rfl)⟩
  · rw [e]; exact take_spec hi x (by omega) h4
  · rw [e]
    simp only
    rcases findFree_spec hi 0 s.allocBegin (by omega) with
      ⟨e', h1'⟩ | ⟨x, e', h0', h1', h2', h4', -⟩ | ⟨e', -, h0', h1'⟩
    · rw [e']
      exact ⟨hi, .allocFull (by intro b hb; exact h1 b (by omega) (by omega)) (Or.inr rfl)⟩
    · rw [e']; exact take_spec hi x (by omega) h4'
    · rw [e']
      refine ⟨hi, .allocFull ?_ (Or.inl rfl)⟩
      intro b hb
      by_cases hbc : b < s.allocBegin
      · exact h1' b (by omega) (by omega)
      · exact h1 b (by omega) (by omega)

theorem step_spec {n : Nat} {s : Bits} (hi : Inv n s) (op : Op) (hw : op.Fits64) :
    Inv n (s.step op).1 ∧ BSpec n s.abs op (s.step op).2 (s.step op).1.abs := by
  cases op with
  | nrBlocks => exact ⟨hi, by show BSpec n s.abs _ (.num s.counts.length) _; rw [hi.len]; exact .nrBlocks⟩
  | nrAllocated => exact ⟨hi, by show BSpec n s.abs _ (.num s.nrAlloc) _; rw [hi.nr]; exact .nrAllocated⟩
  | get b =>
    refine ⟨hi, ?_⟩
    simp only [step, get]
    rw [getElem?_abs, hi.len]
    by_cases hb : b < n
    · rw [if_pos hb]
      have hout : (if (s.abs b == 1) = true then 1 else 0) = s.abs b := by
        rcases abs_le s b with h | h <;> simp [h]
      simp only
      rw [hout]; exact .get hb
    · rw [if_neg hb]; exact .getOut (by omega)
  | set b v => exact set_spec hi b v
  | inc b l => exact inc_spec hi b l hw
  | dec b => exact dec_spec hi b
  | alloc => exact alloc_spec hi
  | findFree b e =>
    refine ⟨hi, ?_⟩
    simp only [step]
    rcases findFree_spec hi b e hw with ⟨e', h1⟩ | ⟨x, e', h0, h1, h2, h3, h4⟩ | ⟨e', h0, h1, h2⟩
    · rw [e']; exact .findOut h1
    · rw [e']; exact .found h1 h2 h0 h3 h4
    · rw [e']; exact .notFound h0 h1 h2

theorem run_spec {n : Nat} (ops : List Op) (s : Bits) (hi : Inv n s) (hw : ∀ op ∈ ops, op.Fits64) :
    Inv n (s.run ops).1 ∧ BSpecRun n s.abs ops (s.run ops).2 (s.run ops).1.abs := by
  induction ops generalizing s with
  | nil => exact ⟨hi, .nil⟩
  | cons op ops ih =>
    obtain ⟨h1, h2⟩ := step_spec hi op (hw op (by simp))
    obtain ⟨h3, h4⟩ := ih (s.step op).1 h1 (fun o ho => hw o (by simp [ho]))
    exact ⟨h3, .cons h2 h4⟩

theorem new_abs (n : Nat) : (new n).abs = fun _ => 0 := by
  funext b; simp only [abs, new, List.getElem?_replicate]
  by_cases h : b < n <;> simp [h]

theorem new_inv (n : Nat) (h : n < 2 ^ 64) : Inv n (new n) := by
  refine ⟨by simp [new], h, ?_, by simp [new]⟩
  rw [new_abs, Core.allocated_zero]; rfl

end Bits

/-- C06/C07/C08 for `RestrictedSpaceMap`: every history is one of an array of one-bit saturating counters,
including the exact number of allocated blocks and the safety and completeness of `alloc`. -/
theorem restricted_history (n : Nat) (hn : n < 2 ^ 64) (ops : List Op) (hw : ∀ op ∈ ops, op.Fits64) :
    BSpecRun n (fun _ => 0) ops ((Bits.new n).run ops).2 ((Bits.new n).run ops).1.abs := by
  have := (Bits.run_spec ops (Bits.new n) (Bits.new_inv n hn) hw).2
  rwa [Bits.new_abs] at this

example : ((Bits.new 3).run [.set 1 7, .inc 0 2, .alloc, .alloc, .dec 1, .alloc, .nrAllocated, .get 3]).2 =
    [.num 0, .unit, .block (some 2), .block none, .bool true, .block (some 1), .num 3, .err] := by decide

/-- On a full map whose cursor is still at 0 `alloc` does not answer "no space": it reports an error
(`end - 1` underflows; a debug build panics). -/
theorem restricted_alloc_full_err : ((Bits.new 1).run [.inc 0 1, .alloc]).2 = [.unit, .err] := by decide

/-- C07 is false of `RestrictedTwoSpaceMap`: clearing a block with count two leaves it counted as allocated. -/
theorem two_nr_allocated_refuted :
    ∃ s : Two, s = (((Two.new 4).set 1 2).1.set 1 0).1 ∧ s.nrAlloc = 1 ∧ ∀ b, s.get b = 0 := by
  refine ⟨_, rfl, rfl, ?_⟩
  intro b
  have hc : (((Two.new 4).set 1 2).1.set 1 0).1.counts = List.replicate 8 false := by decide
  have : ∀ i, (((Two.new 4).set 1 2).1.set 1 0).1.has i = false := by
    intro i
    simp only [Two.has, hc, List.getElem?_replicate]
    by_cases h : i < 8 <;> simp [h]
  simp [Two.get, this]

/-- C08 is false of `RestrictedTwoSpaceMap`: with all blocks in use, `alloc` does not answer "no space" but
picks a block beyond the end and panics. -/
theorem two_alloc_refuted :
    ((((Two.new 1).incLoop 0 1).1.alloc).2) = .panic ∧ (∀ b, b < 1 → ((Two.new 1).incLoop 0 1).1.get b ≠ 0) := by
  decide

/-- C07 for `RestrictedTwoSpaceMap`, the part that holds: histories without `set` (increments and successful
allocations, what the tree walkers do) keep the count exact. -/
theorem two_inc_nr_allocated_partial (n : Nat) (bs : List Nat) (hb : ∀ b ∈ bs, b < n) :
    ∃ s : Two, bs.foldlM (fun s b => s.incOne b) (Two.new n) = some s ∧
      (∀ b, s.get b = min (bs.count b) 2) ∧ s.nrAlloc = (List.range n).countP (fun b => s.get b != 0) := by
  -- invariant: bits mirror the capped multiplicity
  have key : ∀ (bs : List Nat) (s : Two) (m : Nat → Nat), (∀ b ∈ bs, b < n) → s.counts.length = 2 * n →
      (∀ b, s.has (2 * b) = (m b == 1 && decide (b < n))) → (∀ b, s.has (2 * b + 1) = (decide (2 ≤ m b) && decide (b < n))) →
      (∀ b, n ≤ b → m b = 0) → s.nrAlloc = (List.range n).countP (fun b => m b != 0) →
      ∃ s' : Two, bs.foldlM (fun s b => s.incOne b) s = some s' ∧
        (∀ b, s'.get b = min (m b + bs.count b) 2) ∧
        s'.nrAlloc = (List.range n).countP (fun b => m b + bs.count b != 0) := by
    intro bs
    induction bs with
    | nil =>
      intro s m _ _ h1 h2 h3 h4
      refine ⟨s, rfl, ?_, by simpa using h4⟩
      intro b
      unfold Two.get
      rw [h1, h2]
      by_cases hbn : b < n
      · by_cases e1 : m b = 1
        · simp [e1, hbn]
        · by_cases e2 : 2 ≤ m b
          · simp [e1, e2, hbn]
          · have : m b = 0 := by omega
            simp [this]
      · simp [hbn, h3 b (by omega)]
    | cons x bs ih =>
      intro s m hbs hl h1 h2 h3 h4
      have hx : x < n := hbs x (by simp)
      have ihx := fun s' hs1 hs2 hs3 hs4 => ih s' (fun b => if b = x then m b + 1 else m b) (fun b hb => hbs b (by simp [hb]))
        hs1 hs2 hs3 (by intro b hb; have : b ≠ x := by omega
                        simp [this, h3 b hb]) hs4
      have fin : ∀ s', (∃ s'' : Two, bs.foldlM (fun s b => s.incOne b) s' = some s'' ∧
          (∀ b, s''.get b = min ((if b = x then m b + 1 else m b) + bs.count b) 2) ∧
          s''.nrAlloc = (List.range n).countP (fun b => (if b = x then m b + 1 else m b) + bs.count b != 0)) →
          s.incOne x = some s' →
          ∃ s'' : Two, (x :: bs).foldlM (fun s b => s.incOne b) s = some s'' ∧
          (∀ b, s''.get b = min (m b + (x :: bs).count b) 2) ∧
          s''.nrAlloc = (List.range n).countP (fun b => m b + (x :: bs).count b != 0) := by
        rintro s' ⟨s'', e1, e2, e3⟩ e
        have hcnt : ∀ b, (if b = x then m b + 1 else m b) + bs.count b = m b + (x :: bs).count b := by
          intro b
          rw [List.count_cons]
          by_cases hbx : b = x
          · subst hbx; simp; omega
          · simp [hbx, Ne.symm hbx]
        refine ⟨s'', by simp [List.foldlM_cons, e, e1], ?_, ?_⟩
        · intro b; rw [e2, hcnt]
        · rw [e3]; congr 1; funext b; rw [hcnt]
      have hcountsame : (m x ≠ 0) → (List.range n).countP (fun b => m b != 0) =
          (List.range n).countP (fun b => (if b = x then m b + 1 else m b) != 0) := by
        intro hm
        apply List.countP_congr
        intro b _
        by_cases hbx : b = x
        · subst hbx; simp [hm]
        · simp [hbx]
      unfold Two.incOne at fin
      by_cases c2 : 2 ≤ m x
      · have e2 : s.has (2 * x + 1) = true := by rw [h2]; simp [c2, hx]
        refine fin s (ihx s hl ?_ ?_ ?_) (by rw [e2]; rfl)
        · intro b; rw [h1]
          by_cases hbx : b = x
          · subst hbx
            have i1 : (m b == 1) = false := by simpa using (show m b ≠ 1 by omega)
            have i2 : (m b == 0) = false := by simpa using (show m b ≠ 0 by omega)
            simp [i1, i2]
          · simp [hbx]
        · intro b; rw [h2]
          by_cases hbx : b = x
          · subst hbx; simp [c2, show 2 ≤ m b + 1 by omega]
          · simp [hbx]
        · rw [h4]; exact hcountsame (by omega)
      · have e2 : s.has (2 * x + 1) = false := by rw [h2]; simp [c2]
        by_cases c1 : m x = 1
        · have e1 : s.has (2 * x) = true := by rw [h1]; simp [c1, hx]
          refine fin { s with counts := (s.counts.set (2 * x) false).set (2 * x + 1) true } (ihx _ ?_ ?_ ?_ ?_)
            (by rw [e2, e1]; rfl)
          · simp [hl]
          · intro b
            have := h1 b
            simp only [Two.has] at this ⊢
            rw [List.getElem?_set_ne (by omega), List.getElem?_set]
            by_cases hbx : b = x
            · subst hbx; simp [c1]
            · rw [if_neg (by omega), this]; simp [hbx]
          · intro b
            have := h2 b
            simp only [Two.has] at this ⊢
            rw [List.getElem?_set]
            by_cases hbx : b = x
            · subst hbx
              have : 2 * b + 1 < 2 * n := by omega
              simp [c1, hl, hx, this]
            · rw [if_neg (by omega), List.getElem?_set_ne (by omega), this]; simp [hbx]
          · rw [show ({ s with counts := (s.counts.set (2 * x) false).set (2 * x + 1) true } : Two).nrAlloc = s.nrAlloc
              from rfl, h4]
            exact hcountsame (by omega)
        · have c0 : m x = 0 := by omega
          have e1 : s.has (2 * x) = false := by rw [h1]; simp [c0]
          refine fin { s with nrAlloc := s.nrAlloc + 1, counts := s.counts.set (2 * x) true } (ihx _ ?_ ?_ ?_ ?_)
            (by rw [e2, e1]; simp [hl, hx])
          · simp [hl]
          · intro b
            have := h1 b
            simp only [Two.has] at this ⊢
            rw [List.getElem?_set]
            by_cases hbx : b = x
            · subst hbx; simp [c0, hl, hx]
            · rw [if_neg (by omega), this]; simp [hbx]
          · intro b
            have := h2 b
            simp only [Two.has] at this ⊢
            rw [List.getElem?_set_ne (by omega), this]
            by_cases hbx : b = x
            · subst hbx; simp [c0]
            · simp [hbx]
          · show s.nrAlloc + 1 = _
            rw [h4]
            clear ihx fin hcountsame ih h1 h2 h3 h4
            -- adding one new non-zero entry
            have : ∀ k, (List.range k).countP (fun b => (if b = x then m b + 1 else m b) != 0) =
                (List.range k).countP (fun b => m b != 0) + (if x < k then 1 else 0) := by
              intro k
              induction k with
              | zero => simp
              | succ k ih =>
                rw [List.range_succ, List.countP_append, List.countP_append, ih]
                simp only [List.countP_singleton]
                by_cases hkx : k = x
                · subst hkx; simp [c0]
                · simp only [hkx, if_false]
                  by_cases hlt : x < k
                  · have h' : x < k + 1 := by omega
                    simp only [hlt, h', if_true]; omega
                  · have h' : ¬ x < k + 1 := by omega
                    simp only [hlt, h', if_false]; omega
            rw [this n, if_pos hx]
  obtain ⟨s, e1, e2, e3⟩ := key bs (Two.new n) (fun _ => 0) hb (by simp [Two.new])
    (by intro b; simp only [Two.has, Two.new, List.getElem?_replicate]; by_cases h : 2 * b < 2 * n <;> simp [h])
    (by intro b; simp only [Two.has, Two.new, List.getElem?_replicate]; by_cases h : 2 * b + 1 < 2 * n <;> simp [h])
    (by simp) (by simp [Two.new])
  refine ⟨s, e1, by simpa using e2, ?_⟩
  rw [e3]
  apply List.countP_congr
  intro b _
  rw [e2 b]
  simp

example : ∃ s : Two, [0, 2, 2, 2].foldlM (fun s b => s.incOne b) (Two.new 3) = some s ∧
    s.nrAlloc = 2 ∧ s.get 2 = 2 := ⟨_, rfl, by decide, by decide⟩

end Verif.SM
