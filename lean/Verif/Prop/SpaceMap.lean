import Verif.Model.SpaceMap

/-!
# C06, C07, C08: in-core space maps
-/

namespace Verif.SM

/-! ## Specification: a plain array of bounded counters -/

/-- abstract state: the count of every block -/
abbrev Counts := Nat → Nat

/-- pointwise update -/
def Counts.upd (c : Counts) (b v : Nat) : Counts := fun x => if x = b then v else c x

/-- number of blocks below `n` with a non-zero count -/
def Counts.allocated (c : Counts) : Nat → Nat
  | 0 => 0
  | n + 1 => c.allocated n + (if c n = 0 then 0 else 1)

/-- counts with the blocks of `[lo, hi)` incremented -/
def Counts.incd (c : Counts) (lo hi : Nat) : Counts := fun x => if lo ≤ x ∧ x < hi then c x + 1 else c x

/-- What each operation may return, and its effect, on `n` counters limited to `max`. -/
inductive Spec (n max : Nat) (c : Counts) : Op → Out → Counts → Prop where
  | nrBlocks : Spec n max c .nrBlocks (.num n) c
  | nrAllocated : Spec n max c .nrAllocated (.num (c.allocated n)) c
  | get {b} : b < n → Spec n max c (.get b) (.num (c b)) c
  | getOut {b} : n ≤ b → Spec n max c (.get b) .err c
  | set {b v} : b < n → v ≤ max → Spec n max c (.set b v) (.num (c b)) (c.upd b v)
  | setOut {b v} : n ≤ b ∨ max < v → Spec n max c (.set b v) .err c
  /-- the whole range is in bounds and no counter overflows -/
  | inc {b l} : b + l ≤ n → (∀ x, b ≤ x → x < b + l → c x < max) →
      Spec n max c (.inc b l) .unit (c.incd b (b + l))
  /-- the first counter that cannot be incremented stops the operation; the ones before are incremented -/
  | incFull {b l x} : b + l ≤ n → b ≤ x → x < b + l → max ≤ c x → (∀ y, b ≤ y → y < x → c y < max) →
      Spec n max c (.inc b l) .err (c.incd b x)
  | incOut {b l} : n < b + l → Spec n max c (.inc b l) .err c
  | dec {b} : b < n → 0 < c b → Spec n max c (.dec b) (.bool (c b == 1)) (c.upd b (c b - 1))
  | decOut {b} : n ≤ b ∨ c b = 0 → Spec n max c (.dec b) .err c
  /-- any free block may be handed out -/
  | alloc {b} : b < n → c b = 0 → Spec n max c .alloc (.block (some b)) (c.upd b 1)
  | allocFull : (∀ b, b < n → c b ≠ 0) → Spec n max c .alloc (.block none) c
  /-- the first free block of the range -/
  | found {b e x} : b ≤ x → x < e → x < n → c x = 0 → (∀ y, b ≤ y → y < x → c y ≠ 0) →
      Spec n max c (.findFree b e) (.block (some x)) c
  | notFound {b e} : e ≤ n ∨ e ≤ b → (∀ y, b ≤ y → y < e → c y ≠ 0) → Spec n max c (.findFree b e) (.block none) c
  /-- the search runs off the end of the map -/
  | findPanic {b e} : b < e → n < e → (∀ y, b ≤ y → y < n → c y ≠ 0) → Spec n max c (.findFree b e) .panic c

/-- a history -/
inductive SpecRun (n max : Nat) : Counts → List Op → List Out → Counts → Prop where
  | nil {c} : SpecRun n max c [] [] c
  | cons {c c' c'' op o ops os} : Spec n max c op o c' → SpecRun n max c' ops os c'' →
      SpecRun n max c (op :: ops) (o :: os) c''

/-- Arguments a caller can pass without the 64-bit sum `begin + len` wrapping around. -/
def Op.NoWrap : Op → Prop
  | .inc b l => b + l < 2 ^ 64
  | _ => True

/-! ## `CoreSpaceMap` -/

namespace Core

/-- abstraction -/
def abs (s : Core) : Counts := fun b => s.counts.getD b 0

/-- invariant: the incremental counter, the cursor and the counter width are right -/
structure Inv (n max : Nat) (s : Core) : Prop where
  len : s.counts.length = n
  mx : s.maxCount = max
  one : 1 ≤ max
  nr : s.nrAlloc = s.abs.allocated n
  cur : s.allocBegin ≤ n
  bnd : ∀ b, s.abs b ≤ max

theorem allocated_congr {c c' : Counts} {n : Nat} (h : ∀ x, x < n → (c x = 0 ↔ c' x = 0)) :
    c.allocated n = c'.allocated n := by
  induction n with
  | zero => rfl
  | succ n ih =>
    simp only [Counts.allocated]
    rw [ih (fun x hx => h x (by omega))]
    have := h n (by omega)
    by_cases h0 : c n = 0
    · simp [h0, this.1 h0]
    · have : c' n ≠ 0 := fun hh => h0 (this.2 hh)
      simp [h0, this]

theorem allocated_upd (c : Counts) (n b v : Nat) (hb : b < n) :
    (c.upd b v).allocated n + (if c b = 0 then 0 else 1) = c.allocated n + (if v = 0 then 0 else 1) := by
  induction n with
  | zero => omega
  | succ n ih =>
    simp only [Counts.allocated]
    by_cases h : b = n
    · subst h
      have : (c.upd b v).allocated b = c.allocated b :=
        allocated_congr (fun x hx => by simp [Counts.upd, show x ≠ b by omega])
      rw [this]; simp only [Counts.upd, if_true]; omega
    · have := ih (by omega)
      have hn : (c.upd b v) n = c n := by simp [Counts.upd, show n ≠ b by omega]
      rw [hn]; omega

theorem abs_set (s : Core) (b v : Nat) (hb : b < s.counts.length) :
    (fun x => (s.counts.set b v).getD x 0) = s.abs.upd b v := by
  funext x
  simp only [abs, Counts.upd, List.getD_eq_getElem?_getD, List.getElem?_set]
  by_cases h : x = b
  · subst h; simp [hb]
  · simp [h, Ne.symm h]

theorem getElem?_abs (s : Core) (b : Nat) :
    s.counts[b]? = if b < s.counts.length then some (s.abs b) else none := by
  split
  · next h => simp [abs, h]
  · next h => simp at h; simp [h]

/-- any state whose counts are `s.counts` with one entry replaced and whose other fields are consistent -/
theorem inv_upd {n max : Nat} {s t : Core} (hi : Inv n max s) (b v : Nat) (hb : b < n) (hv : v ≤ max)
    (hc : t.counts = s.counts.set b v) (hm : t.maxCount = s.maxCount) (ha : t.allocBegin ≤ n)
    (hn : t.nrAlloc + (if s.abs b = 0 then 0 else 1) = s.nrAlloc + (if v = 0 then 0 else 1)) :
    Inv n max t ∧ t.abs = s.abs.upd b v := by
  obtain ⟨h1, h2, h3, h4, h5, h6⟩ := hi
  have habs : t.abs = s.abs.upd b v := by
    rw [← abs_set s b v (by omega)]; funext x; simp [abs, hc]
  have hal := allocated_upd s.abs n b v hb
  refine ⟨⟨by simp [hc, h1], by rw [hm, h2], h3, ?_, ha, ?_⟩, habs⟩
  · rw [habs]; omega
  · intro x
    rw [habs]; simp only [Counts.upd]; split
    · exact hv
    · exact h6 x

theorem allocated_pos {c : Counts} {n b : Nat} (hb : b < n) (h : c b ≠ 0) : 0 < c.allocated n := by
  induction n with
  | zero => omega
  | succ n ih =>
    simp only [Counts.allocated]
    by_cases hbn : b = n
    · subst hbn; simp [h]
    · have := ih (by omega); omega

theorem set_eq {n max : Nat} {s : Core} (hi : Inv n max s) (b v : Nat) (hb : b < n) (hv : v ≤ max) :
    ∃ s', s.set b v = (s', .num (s.abs b)) ∧ Inv n max s' ∧ s'.abs = s.abs.upd b v := by
  unfold set
  have hv' : v ≤ s.maxCount := hi.mx ▸ hv
  rw [getElem?_abs, hi.len, if_pos hb]
  simp only [hv', if_true]
  refine ⟨_, rfl, ?_⟩
  have hpos := allocated_pos (c := s.abs) hb
  have hnr := hi.nr
  split
  · next hc => exact inv_upd hi b v hb hv rfl rfl hi.cur (by simp [hc.1, hc.2])
  · next hc =>
    split
    · next hc' =>
      have := hpos hc'.1
      exact inv_upd hi b v hb hv rfl rfl hi.cur (by simp [hc'.1, hc'.2]; omega)
    · next hc' =>
      refine inv_upd hi b v hb hv rfl rfl hi.cur ?_
      by_cases e1 : s.abs b = 0 <;> by_cases e2 : v = 0 <;> simp_all

theorem set_spec {n max : Nat} {s : Core} (hi : Inv n max s) (b v : Nat) :
    Inv n max (s.set b v).1 ∧ Spec n max s.abs (.set b v) (s.set b v).2 (s.set b v).1.abs := by
  by_cases hb : b < n
  · by_cases hv : v ≤ max
    · obtain ⟨s', h1, h2, h3⟩ := set_eq hi b v hb hv
      rw [h1]
      exact ⟨h2, by rw [h3]; exact Spec.set hb hv⟩
    · have : s.set b v = (s, .err) := by
        unfold set
        rw [getElem?_abs, hi.len, if_pos hb]
        simp only [hi.mx, hv, if_false]
      rw [this]
      exact ⟨hi, .setOut (Or.inr (by omega))⟩
  · have : s.set b v = (s, .err) := by
      unfold set
      rw [getElem?_abs, hi.len, if_neg hb]
    rw [this]
    exact ⟨hi, .setOut (Or.inl (by omega))⟩

theorem dec_spec {n max : Nat} {s : Core} (hi : Inv n max s) (b : Nat) :
    Inv n max (s.dec b).1 ∧ Spec n max s.abs (.dec b) (s.dec b).2 (s.dec b).1.abs := by
  unfold dec
  rw [getElem?_abs, hi.len]
  by_cases hb : b < n
  · simp only [hb, if_true]
    by_cases h0 : s.abs b > 0
    · simp only [h0, if_true]
      obtain ⟨s', h1, h2, h3⟩ := set_eq hi b (s.abs b - 1) hb (by have := hi.bnd b; omega)
      rw [h1]
      exact ⟨h2, by simp only [h3]; exact Spec.dec hb h0⟩
    · simp only [h0, if_false]
      exact ⟨hi, .decOut (Or.inr (by omega))⟩
  · simp only [hb, if_false]
    exact ⟨hi, .decOut (Or.inl (by omega))⟩

theorem incd_succ (c : Counts) (b hi : Nat) (h : b < hi) : (c.upd b (c b + 1)).incd (b + 1) hi = c.incd b hi := by
  funext x
  simp only [Counts.incd, Counts.upd]
  by_cases hx : x = b
  · subst hx; simp [h]
  · by_cases h1 : b ≤ x ∧ x < hi
    · rw [if_pos ⟨by omega, h1.2⟩, if_neg hx, if_pos h1]
    · rw [if_neg (by omega), if_neg hx, if_neg h1]

theorem incd_empty (c : Counts) (b : Nat) : c.incd b b = c := by
  funext x; simp only [Counts.incd]; rw [if_neg (by omega)]

theorem incLoop_spec {n max : Nat} (l b : Nat) {s : Core} (hi : Inv n max s) (h : b + l ≤ n) :
    Inv n max (s.incLoop b l).1 ∧ Spec n max s.abs (.inc b l) (s.incLoop b l).2 (s.incLoop b l).1.abs := by
  induction l generalizing b s with
  | zero =>
    refine ⟨hi, ?_⟩
    have := Spec.inc (n := n) (max := max) (c := s.abs) (b := b) (l := 0) h (by intro x; omega)
    rwa [Nat.add_zero, incd_empty] at this
  | succ l ih =>
    unfold incLoop
    rw [getElem?_abs, hi.len, if_pos (by omega)]
    simp only
    by_cases hm : s.abs b < max
    · have hm' : s.abs b < s.maxCount := hi.mx ▸ hm
      simp only [hm', if_true]
      -- both branches store `abs b + 1`
      have key : ∀ t : Core, Inv n max t → t.abs = s.abs.upd b (s.abs b + 1) →
          Inv n max (t.incLoop (b + 1) l).1 ∧
          Spec n max s.abs (.inc b (l + 1)) (t.incLoop (b + 1) l).2 (t.incLoop (b + 1) l).1.abs := by
        intro t ht habs
        obtain ⟨h1, h2⟩ := ih (b + 1) ht (by omega)
        refine ⟨h1, ?_⟩
        generalize hr : t.incLoop (b + 1) l = r at h1 h2 ⊢
        obtain ⟨t', o⟩ := r
        simp only at h1 h2 ⊢
        generalize t'.abs = c' at h2 ⊢
        rw [habs] at h2
        cases h2 with
        | inc hle hall =>
          rw [show b + 1 + l = b + (l + 1) by omega, incd_succ _ _ _ (by omega)]
          refine Spec.inc (by omega) ?_
          intro x hx1 hx2
          by_cases hxb : x = b
          · subst hxb; exact hm
          · have := hall x (by omega) (by omega)
            simpa [Counts.upd, hxb] using this
        | incFull hle hb1 hb2 hful hall =>
          rename_i x
          rw [incd_succ _ _ _ (by omega)]
          refine Spec.incFull (by omega) (by omega) (by omega) ?_ ?_
          · simpa [Counts.upd, show x ≠ b by omega] using hful
          · intro y hy1 hy2
            by_cases hyb : y = b
            · subst hyb; exact hm
            · have := hall y (by omega) (by omega)
              simpa [Counts.upd, hyb] using this
        | incOut hout => omega
      split
      · next h0 =>
        obtain ⟨k1, k2⟩ := inv_upd (t := { s with nrAlloc := s.nrAlloc + 1, counts := s.counts.set b 1 }) hi b 1
          (by omega) hi.one rfl rfl hi.cur (by simp [h0])
        refine key _ k1 ?_
        rw [k2, h0]
      · next h0 =>
        obtain ⟨k1, k2⟩ := inv_upd (t := { s with counts := s.counts.set b (s.abs b + 1) }) hi b (s.abs b + 1)
          (by omega) (by omega) rfl rfl hi.cur (by simp [h0])
        exact key _ k1 k2
    · have hm' : ¬ s.abs b < s.maxCount := hi.mx ▸ hm
      simp only [hm', if_false]
      refine ⟨hi, ?_⟩
      have := Spec.incFull (n := n) (max := max) (c := s.abs) (b := b) (l := l + 1) (x := b) h (by omega) (by omega)
        (by omega) (by intro y; omega)
      rwa [incd_empty] at this

theorem inc_spec {n max : Nat} {s : Core} (hi : Inv n max s) (b l : Nat) (hw : b + l < 2 ^ 64) :
    Inv n max (s.inc b l).1 ∧ Spec n max s.abs (.inc b l) (s.inc b l).2 (s.inc b l).1.abs := by
  unfold inc
  rw [Nat.mod_eq_of_lt hw, hi.len]
  by_cases h : b + l > n
  · simp only [h, if_true]
    exact ⟨hi, .incOut h⟩
  · simp only [h, if_false]
    rw [Nat.add_sub_cancel_left]
    exact incLoop_spec l b hi (by omega)

theorem scan_spec {n max : Nat} {s : Core} (hi : Inv n max s) (k b : Nat) :
    (∃ x, s.scan b k = .block (some x) ∧ b ≤ x ∧ x < b + k ∧ x < n ∧ s.abs x = 0 ∧ ∀ y, b ≤ y → y < x → s.abs y ≠ 0) ∨
    (s.scan b k = .block none ∧ (k = 0 ∨ b + k ≤ n) ∧ ∀ y, b ≤ y → y < b + k → s.abs y ≠ 0) ∨
    (s.scan b k = .panic ∧ 0 < k ∧ n < b + k ∧ ∀ y, b ≤ y → y < n → s.abs y ≠ 0) := by
  induction k generalizing b with
  | zero => exact Or.inr (Or.inl ⟨rfl, Or.inl rfl, by intro y; omega⟩)
  | succ k ih =>
    unfold scan
    rw [getElem?_abs, hi.len]
    by_cases hb : b < n
    · simp only [hb, if_true]
      by_cases h0 : s.abs b = 0
      · rw [show (if s.abs b = 0 then Out.block (some b) else s.scan (b + 1) k) = Out.block (some b) from if_pos h0]
        exact Or.inl ⟨b, rfl, by omega, by omega, hb, h0, by intro y; omega⟩
      · simp only [h0, if_false]
        have ext : ∀ m, (∀ y, b + 1 ≤ y → y < m → s.abs y ≠ 0) → ∀ y, b ≤ y → y < m → s.abs y ≠ 0 := by
          intro m hm y hy1 hy2
          by_cases hyb : y = b
          · subst hyb; exact h0
          · exact hm y (by omega) hy2
        rcases ih (b + 1) with ⟨x, e, h1, h2, h3, h4, h5⟩ | ⟨e, h1, h2⟩ | ⟨e, h1, h2, h3⟩
        · exact Or.inl ⟨x, e, by omega, by omega, h3, h4, ext _ h5⟩
        · refine Or.inr (Or.inl ⟨e, Or.inr (by omega), ?_⟩)
          rw [show b + (k + 1) = b + 1 + k by omega]
          exact ext _ h2
        · exact Or.inr (Or.inr ⟨e, by omega, by omega, ext _ h3⟩)
    · simp only [hb, if_false]
      exact Or.inr (Or.inr ⟨trivial, by omega, by omega, by intro y; omega⟩)

theorem take_spec {n max : Nat} {s : Core} (hi : Inv n max s) (b : Nat) (hb : b < n) (h0 : s.abs b = 0) :
    Inv n max (s.take b).1 ∧ Spec n max s.abs .alloc (s.take b).2 (s.take b).1.abs := by
  obtain ⟨k1, k2⟩ := inv_upd (t := (s.take b).1) hi b 1 hb hi.one rfl rfl (by show b + 1 ≤ n; omega)
    (by simp [h0, take])
  exact ⟨k1, by rw [k2]; exact Spec.alloc hb h0⟩

theorem alloc_spec {n max : Nat} {s : Core} (hi : Inv n max s) :
    Inv n max s.alloc.1 ∧ Spec n max s.abs .alloc s.alloc.2 s.alloc.1.abs := by
  have hc := hi.cur
  have hl := hi.len
  unfold alloc findFree
  rcases scan_spec hi (s.counts.length - s.allocBegin) s.allocBegin with
    ⟨x, e, h1, h2, h3, h4, -⟩ | ⟨e, -, h1⟩ | ⟨e, h1, h2, -⟩
  · rw [e]; exact take_spec hi x h3 h4
  · rw [e]
    simp only
    rcases scan_spec hi (s.allocBegin - 0) 0 with ⟨x, e', h1', h2', h3', h4', -⟩ | ⟨e', -, h1'⟩ | ⟨e', h1', h2', -⟩
    · rw [e']; exact take_spec hi x h3' h4'
    · rw [e']
      refine ⟨hi, .allocFull ?_⟩
      intro b hb
      by_cases hbc : b < s.allocBegin
      · exact h1' b (by omega) (by omega)
      · exact h1 b (by omega) (by omega)
    · omega
  · omega

theorem step_spec {n max : Nat} {s : Core} (hi : Inv n max s) (op : Op) (hw : op.NoWrap) :
    Inv n max (s.step op).1 ∧ Spec n max s.abs op (s.step op).2 (s.step op).1.abs := by
  cases op with
  | nrBlocks => exact ⟨hi, by show Spec n max s.abs _ (.num s.counts.length) _; rw [hi.len]; exact .nrBlocks⟩
  | nrAllocated => exact ⟨hi, by show Spec n max s.abs _ (.num s.nrAlloc) _; rw [hi.nr]; exact .nrAllocated⟩
  | get b =>
    refine ⟨hi, ?_⟩
    simp only [step, get]
    rw [getElem?_abs, hi.len]
    by_cases hb : b < n
    · simp only [hb, if_true]; exact .get hb
    · simp only [hb, if_false]; exact .getOut (by omega)
  | set b v => exact set_spec hi b v
  | inc b l => exact inc_spec hi b l hw
  | dec b => exact dec_spec hi b
  | alloc => exact alloc_spec hi
  | findFree b e =>
    refine ⟨hi, ?_⟩
    simp only [step, findFree]
    rcases scan_spec hi (e - b) b with ⟨x, e', h1, h2, h3, h4, h5⟩ | ⟨e', h1, h2⟩ | ⟨e', h1, h2, h3⟩
    · rw [e']; exact .found h1 (by omega) h3 h4 h5
    · rw [e']; exact .notFound (by omega) (fun y hy1 hy2 => h2 y hy1 (by omega))
    · rw [e']; exact .findPanic (by omega) (by omega) h3

theorem run_spec {n max : Nat} (ops : List Op) (s : Core) (hi : Inv n max s) (hw : ∀ op ∈ ops, op.NoWrap) :
    Inv n max (s.run ops).1 ∧ SpecRun n max s.abs ops (s.run ops).2 (s.run ops).1.abs := by
  induction ops generalizing s with
  | nil => exact ⟨hi, .nil⟩
  | cons op ops ih =>
    obtain ⟨h1, h2⟩ := step_spec hi op (hw op (by simp))
    obtain ⟨h3, h4⟩ := ih (s.step op).1 h1 (fun o ho => hw o (by simp [ho]))
    exact ⟨h3, .cons h2 h4⟩

theorem new_abs (n max : Nat) : (new max n).abs = fun _ => 0 := by
  funext b; simp only [abs, new, List.getD_eq_getElem?_getD, List.getElem?_replicate]; split <;> rfl

theorem allocated_zero (n : Nat) : Counts.allocated (fun _ => 0) n = 0 := by
  induction n with
  | zero => rfl
  | succ n ih => simp [Counts.allocated, ih]

theorem new_inv (n max : Nat) (h : 1 ≤ max) : Inv n max (new max n) := by
  refine ⟨by simp [new], rfl, h, ?_, by simp [new], by simp [new_abs]⟩
  rw [new_abs, allocated_zero]; rfl

end Core

/-- C06 (and the in-core part of C07 and C08): for every counter width, every size and every history of calls
on a fresh `CoreSpaceMap`, everything the caller sees is what an array of bounded counters allows: counts
follow the history, errors leave the counts untouched (except that a range increment keeps the part done
before the first saturated counter), the allocation count is the number of non-zero counters, an allocated
block was free, and allocation fails only when all are in use. -/
theorem core_history (n max : Nat) (hmax : 1 ≤ max) (ops : List Op) (hw : ∀ op ∈ ops, op.NoWrap) :
    SpecRun n max (fun _ => 0) ops ((Core.new max n).run ops).2 ((Core.new max n).run ops).1.abs := by
  have := (Core.run_spec ops (Core.new max n) (Core.new_inv n max hmax) hw).2
  rwa [Core.new_abs] at this

/-- C07 for `CoreSpaceMap`: after any history the reported number of allocated blocks is the number of blocks
whose reported count is not zero. -/
theorem core_nr_allocated (n max : Nat) (hmax : 1 ≤ max) (ops : List Op) (hw : ∀ op ∈ ops, op.NoWrap) :
    let s := ((Core.new max n).run ops).1
    (s.step .nrAllocated).2 =
      .num ((List.range n).countP fun b => (s.step (.get b)).2 != .num 0) := by
  intro s
  have hi := (Core.run_spec ops (Core.new max n) (Core.new_inv n max hmax) hw).1
  show Out.num s.nrAlloc = _
  rw [hi.nr]
  congr 1
  have key : ∀ m, m ≤ n → s.abs.allocated m = (List.range m).countP fun b => (s.step (.get b)).2 != .num 0 := by
    intro m hm
    induction m with
    | zero => rfl
    | succ m ih =>
      rw [List.range_succ, List.countP_append, ← ih (by omega)]
      simp only [Counts.allocated, List.countP_singleton]
      congr 1
      have : (s.step (.get m)).2 = .num (s.abs m) := by
        simp only [Core.step, Core.get]
        rw [Core.getElem?_abs, hi.len, if_pos (by omega)]
      rw [this]
      by_cases h : s.abs m = 0 <;> simp [h]
  exact key n (Nat.le_refl n)

/-- C08 for `CoreSpaceMap`: after any history, `alloc` returns a block whose count was 0 and is now 1, all other
counts being unchanged, or reports that no block is free, and this only when every count is non-zero. -/
theorem core_alloc (n max : Nat) (hmax : 1 ≤ max) (ops : List Op) (hw : ∀ op ∈ ops, op.NoWrap) :
    let s := ((Core.new max n).run ops).1
    let s' := (s.step .alloc).1
    (∃ b, b < n ∧ (s.step .alloc).2 = .block (some b) ∧ (s.step (.get b)).2 = .num 0 ∧
      (s'.step (.get b)).2 = .num 1 ∧ ∀ x, x ≠ b → (s'.step (.get x)).2 = (s.step (.get x)).2) ∨
    ((s.step .alloc).2 = .block none ∧ s' = s ∧ ∀ b, b < n → ∃ c, c ≠ 0 ∧ (s.step (.get b)).2 = .num c) := by
  intro s
  have hi := (Core.run_spec ops (Core.new max n) (Core.new_inv n max hmax) hw).1
  have hget : ∀ (t : Core), Core.Inv n max t → ∀ x, (t.step (.get x)).2 = if x < n then .num (t.abs x) else .err := by
    intro t ht x
    simp only [Core.step, Core.get]
    rw [Core.getElem?_abs, ht.len]
    split <;> simp_all
  have hstep := Core.alloc_spec hi
  have e1 : s.step .alloc = s.alloc := rfl
  simp only [e1]
  have halloc : s.alloc.2 = .block none → s.alloc.1 = s := by
    unfold Core.alloc Core.take
    split
    · simp
    · split <;> simp
    · simp
  generalize hr : s.alloc = r at hstep halloc ⊢
  obtain ⟨s', o⟩ := r
  obtain ⟨hi', hsp⟩ := hstep
  simp only at hi' hsp halloc ⊢
  generalize hc' : s'.abs = c' at hsp
  cases hsp with
  | alloc hb h0 =>
    rename_i b
    refine Or.inl ⟨b, hb, rfl, ?_, ?_, ?_⟩
    · rw [hget s hi, if_pos hb, show s.abs b = 0 from h0]
    · rw [hget s' hi', if_pos hb, hc']; simp [Counts.upd]
    · intro x hx
      rw [hget s' hi', hget s hi, hc']
      simp [Counts.upd, hx, s]
  | allocFull h =>
    refine Or.inr ⟨rfl, halloc rfl, ?_⟩
    intro b hb
    exact ⟨s.abs b, h b hb, by rw [hget s hi, if_pos hb]⟩

/-- A history that uses every operation, including a saturating range increment on 8-bit counters. -/
example : ((Core.new 255 4).run [.alloc, .set 1 255, .inc 0 3, .get 0, .dec 0, .alloc, .alloc, .alloc, .nrAllocated]).2 =
    [.block (some 0), .num 0, .err, .num 2, .bool false, .block (some 2), .block (some 3), .block none, .num 4] := by
  decide

/-- The hypothesis on 64-bit wrap-around is needed: `inc` of a range whose end passes 2^64 is accepted by a
release build although it is out of bounds (and changes nothing). -/
theorem core_inc_wraps : (Core.new 255 4).inc (2 ^ 64 - 1) 2 = (Core.new 255 4, .unit) := by decide

end Verif.SM
