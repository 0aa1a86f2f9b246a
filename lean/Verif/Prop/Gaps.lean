import Verif.Model.Gaps

/-!
# C39: read and write aggregation
-/

namespace Verif.Gaps

/-! ## Specification -/

/-- the blocks an operation touches -/
def RunOp.blocks (op : RunOp) : List Nat := List.range' op.beg (op.fin - op.beg)

/-- the requested blocks an operation reads: none for a gap -/
def RunOp.wanted : RunOp → List Nat
  | .run b e => List.range' b (e - b)
  | .gap _ _ => []

/-- two blocks next to each other in the request list, with at most `thr` blocks between them -/
def CloseNeighbours (thr : Nat) (blocks : List Nat) (a b : Nat) : Prop :=
  (∃ pre post, blocks = pre ++ a :: b :: post) ∧ a < b ∧ b - (a + 1) ≤ thr

/-! ## `find_runs` -/

/-- operations that do not run backwards; runs are not empty -/
def RunOp.WF : RunOp → Prop
  | .run b e => b < e
  | .gap b e => b ≤ e

theorem RunOp.WF.le {op : RunOp} (h : op.WF) : op.beg ≤ op.fin := by
  cases op <;> simp only [RunOp.WF, RunOp.beg, RunOp.fin] at * <;> omega

theorem range'_snoc (a n : Nat) : List.range' a (n + 1) = List.range' a n ++ [a + n] := by
  have := List.range'_append (s := a) (m := n) (n := 1) (step := 1)
  simpa using this.symm

theorem findRunsGo_spec (thr : Nat) (bs : List Nat) : ∀ begin fin, begin < fin →
    (findRunsGo thr begin fin bs).flatMap RunOp.wanted = List.range' begin (fin - begin) ++ bs ∧
    (∀ op ∈ findRunsGo thr begin fin bs, op.WF) := by
  induction bs with
  | nil => intro begin fin h; simpa [findRunsGo, RunOp.wanted, RunOp.WF] using h
  | cons b bs ih =>
    intro begin fin h
    unfold findRunsGo
    have h1 := ih b (b + 1) (by omega)
    have e1 : List.range' b (b + 1 - b) = [b] := by
      rw [show b + 1 - b = 1 by omega]; rfl
    rw [e1] at h1
    split
    · next hgt =>
      split
      · refine ⟨?_, ?_⟩
        · simp only [List.flatMap_cons, RunOp.wanted, h1.1]; simp
        · intro op hop
          rcases List.mem_cons.mp hop with rfl | hop
          · exact h
          · exact h1.2 op hop
      · refine ⟨?_, ?_⟩
        · simp only [List.flatMap_cons, RunOp.wanted, h1.1]; simp
        · intro op hop
          rcases List.mem_cons.mp hop with rfl | hop
          · exact h
          · rcases List.mem_cons.mp hop with rfl | hop
            · simp only [RunOp.WF]; omega
            · exact h1.2 op hop
    · split
      · next heq =>
        subst heq
        have h2 := ih begin (b + 1) (by omega)
        refine ⟨?_, h2.2⟩
        rw [h2.1, show b + 1 - begin = (b - begin) + 1 by omega, range'_snoc, show begin + (b - begin) = b by omega]
        simp
      · refine ⟨?_, ?_⟩
        · simp only [List.flatMap_cons, RunOp.wanted, h1.1]; simp
        · intro op hop
          rcases List.mem_cons.mp hop with rfl | hop
          · exact h
          · exact h1.2 op hop

theorem findRunsGo_gaps (thr : Nat) (bs : List Nat) : ∀ begin a pre,
    ∀ g h, RunOp.gap g h ∈ findRunsGo thr begin (a + 1) bs →
      ∃ x, g = x + 1 ∧ CloseNeighbours thr (pre ++ a :: bs) x h := by
  induction bs with
  | nil => intro begin a pre g h hm; simp [findRunsGo] at hm
  | cons b bs ih =>
    intro begin a pre g h hm
    have e : pre ++ a :: b :: bs = (pre ++ [a]) ++ b :: bs := by simp
    unfold findRunsGo at hm
    split at hm
    · split at hm
      · rcases List.mem_cons.mp hm with hm | hm
        · cases hm
        · rw [e]; exact ih _ _ _ g h hm
      · next h1 h2 =>
        rcases List.mem_cons.mp hm with hm | hm
        · cases hm
        · rcases List.mem_cons.mp hm with hm | hm
          · cases hm
            exact ⟨a, rfl, ⟨pre, bs, rfl⟩, by omega, by omega⟩
          · rw [e]; exact ih _ _ _ g h hm
    · split at hm
      · next heq => rw [e]; exact ih _ _ _ g h hm
      · rcases List.mem_cons.mp hm with hm | hm
        · cases hm
        · rw [e]; exact ih _ _ _ g h hm

/-! ## `batch_adjacent` -/

/-- each operation starts where the one before ended -/
def Adj : List RunOp → Prop
  | [] => True
  | [_] => True
  | a :: b :: l => a.fin = b.beg ∧ Adj (b :: l)

theorem adj_append_cons {a : List RunOp} {op : RunOp} {l : List RunOp} (h1 : Adj (a ++ [op])) (h2 : Adj (op :: l)) :
    Adj (a ++ op :: l) := by
  induction a with
  | nil => exact h2
  | cons x a ih =>
    cases a with
    | nil => exact ⟨h1.1, h2⟩
    | cons y a => exact ⟨h1.1, ih h1.2⟩

theorem adj_left {a b : List RunOp} (h : Adj (a ++ b)) : Adj a := by
  induction a with
  | nil => trivial
  | cons x a ih =>
    cases a with
    | nil => trivial
    | cons y a => exact ⟨h.1, ih h.2⟩

theorem adj_right {a b : List RunOp} (h : Adj (a ++ b)) : Adj b := by
  induction a with
  | nil => exact h
  | cons x a ih =>
    cases a with
    | nil =>
      cases b with
      | nil => trivial
      | cons y b => exact h.2
    | cons y a => exact ih h.2

theorem adj_replace_last {first op : RunOp} (h : first.beg = op.beg) {a : List RunOp} (ha : Adj (a ++ [op])) :
    Adj (a ++ [first]) := by
  induction a with
  | nil => trivial
  | cons x a ih =>
    cases a with
    | nil => exact ⟨ha.1.trans h.symm, trivial⟩
    | cons y a => exact ⟨ha.1, ih ha.2⟩

theorem batchGo_spec (rs : List RunOp) : ∀ (batch : List RunOp) (last : RunOp), Adj (batch ++ [last]) →
    (batchGo (batch ++ [last]) last.fin rs).flatten = batch ++ last :: rs ∧
    ∀ b ∈ batchGo (batch ++ [last]) last.fin rs, b ≠ [] ∧ Adj b := by
  induction rs with
  | nil => intro batch last h; exact ⟨by simp [batchGo], by simpa [batchGo] using h⟩
  | cons r rs ih =>
    intro batch last h
    unfold batchGo
    split
    · next e =>
      have := ih (batch ++ [last]) r (by
        rw [List.append_assoc]
        exact adj_append_cons h ⟨e.symm, trivial⟩)
      simpa using this
    · have := ih [] r trivial
      simp only [List.nil_append] at this
      refine ⟨by simp [this.1], ?_⟩
      intro b hb
      rcases List.mem_cons.mp hb with rfl | hb
      · exact ⟨by simp, h⟩
      · exact this.2 b hb

theorem batchAdjacent_spec (rs : List RunOp) : (batchAdjacent rs).flatten = rs ∧
    ∀ b ∈ batchAdjacent rs, b ≠ [] ∧ Adj b := by
  cases rs with
  | nil => exact ⟨rfl, by simp [batchAdjacent]⟩
  | cons r rs =>
    have := batchGo_spec rs [] r trivial
    simpa [batchAdjacent] using this

/-! ## `split_contiguous` -/

theorem nrBuffers_append (a b : List RunOp) : nrBuffers (a ++ b) = nrBuffers a + nrBuffers b := by
  induction a with
  | nil => simp [nrBuffers]
  | cons x a ih => simp only [List.cons_append, nrBuffers, ih]; omega

/-- a piece of an operation -/
def PieceOf (p op : RunOp) : Prop :=
  match p, op with
  | .run b e, .run b' e' => b' ≤ b ∧ e ≤ e'
  | .gap b e, .gap b' e' => b' ≤ b ∧ e ≤ e'
  | _, _ => False

theorem PieceOf.refl (op : RunOp) : PieceOf op op := by cases op <;> exact ⟨Nat.le_refl _, Nat.le_refl _⟩

theorem PieceOf.trans {a b c : RunOp} (h1 : PieceOf a b) (h2 : PieceOf b c) : PieceOf a c := by
  cases a <;> cases b <;> cases c <;> simp only [PieceOf] at * <;> omega

theorem wanted_split (b m e : Nat) (h1 : b ≤ m) (h2 : m ≤ e) :
    List.range' b (e - b) = List.range' b (m - b) ++ List.range' m (e - m) := by
  have := List.range'_append (s := b) (m := m - b) (n := e - m) (step := 1)
  rw [show b + 1 * (m - b) = m by omega, show m - b + (e - m) = e - b by omega] at this
  exact this.symm

/-- what splitting one operation does -/
theorem splitOp_spec (op : RunOp) (rem : Nat) (hw : op.WF) (hr : 1 ≤ rem) :
    let r := splitOp op rem
    r.1.WF ∧ r.1.beg = op.beg ∧ PieceOf r.1 op ∧ (r.1.fin - r.1.beg) + r.2.2 = rem ∧
    ((r.2.1 = none ∧ r.1 = op) ∨ ∃ rest, r.2.1 = some rest ∧ rest.WF ∧ rest.fin = op.fin ∧ r.1.fin = rest.beg ∧
      PieceOf rest op ∧ r.2.2 = 0 ∧ op.wanted = r.1.wanted ++ rest.wanted ∧
      (rest.fin - rest.beg) + rem = op.fin - op.beg) := by
  cases op with
  | run b e =>
    simp only [RunOp.WF] at hw
    simp only [splitOp]
    split
    · exact ⟨hw, rfl, PieceOf.refl _, by simp only [RunOp.fin, RunOp.beg]; omega, Or.inl ⟨rfl, rfl⟩⟩
    · refine ⟨by simp only [RunOp.WF]; omega, rfl, ⟨by omega, by omega⟩, by simp only [RunOp.fin, RunOp.beg]; omega,
        Or.inr ⟨_, rfl, by simp only [RunOp.WF]; omega, rfl, rfl, ⟨by omega, by omega⟩, rfl, ?_, ?_⟩⟩
      · exact wanted_split b (b + rem) e (by omega) (by omega)
      · simp only [RunOp.fin, RunOp.beg]; omega
  | gap b e =>
    simp only [RunOp.WF] at hw
    simp only [splitOp]
    split
    · exact ⟨hw, rfl, PieceOf.refl _, by simp only [RunOp.fin, RunOp.beg]; omega, Or.inl ⟨rfl, rfl⟩⟩
    · refine ⟨by simp only [RunOp.WF]; omega, rfl, ⟨by omega, by omega⟩, by simp only [RunOp.fin, RunOp.beg]; omega,
        Or.inr ⟨_, rfl, by simp only [RunOp.WF]; omega, rfl, rfl, ⟨by omega, by omega⟩, rfl, ?_, ?_⟩⟩
      · simp [RunOp.wanted]
      · simp only [RunOp.fin, RunOp.beg]; omega

/-- what a batch must satisfy -/
structure BatchOK (max : Nat) (b : List RunOp) : Prop where
  ne : b ≠ []
  wf : ∀ op ∈ b, op.WF
  adj : Adj b
  size : nrBuffers b ≤ max

theorem splitGo_spec (max : Nat) (hmax : 1 ≤ max) (fuel : Nat) : ∀ (rem : Nat) (batch ops : List RunOp),
    opsMeasure ops ≤ fuel → 1 ≤ rem → nrBuffers batch + rem = max → (∀ op ∈ batch ++ ops, op.WF) → Adj (batch ++ ops) →
    ∃ l, splitGo max fuel rem batch ops = some l ∧ (∀ b ∈ l, BatchOK max b) ∧
      l.flatten.flatMap RunOp.wanted = (batch ++ ops).flatMap RunOp.wanted ∧
      ∀ p ∈ l.flatten, ∃ op ∈ batch ++ ops, PieceOf p op := by
  induction fuel with
  | zero =>
    intro rem batch ops hf hr hb hw ha
    cases ops with
    | cons op ops => simp [opsMeasure] at hf
    | nil =>
      unfold splitGo
      refine ⟨_, rfl, ?_⟩
      split
      · next e => subst e; simp
      · next e =>
        simp only [List.append_nil] at hw ha ⊢
        exact ⟨by simpa using ⟨e, hw, ha, by omega⟩, by simp, fun p hp => ⟨p, by simpa using hp, PieceOf.refl p⟩⟩
  | succ fuel ih =>
    intro rem batch ops hf hr hb hw ha
    cases ops with
    | nil =>
      unfold splitGo
      refine ⟨_, rfl, ?_⟩
      split
      · next e => subst e; simp
      · next e =>
        simp only [List.append_nil] at hw ha ⊢
        exact ⟨by simpa using ⟨e, hw, ha, by omega⟩, by simp, fun p hp => ⟨p, by simpa using hp, PieceOf.refl p⟩⟩
    | cons op ops =>
      obtain ⟨s1, s2, s3, s4, s5⟩ := splitOp_spec op rem (hw op (by simp)) hr
      unfold splitGo
      simp only
      generalize hr' : splitOp op rem = r at s1 s2 s3 s4 s5
      obtain ⟨first, rest, rem'⟩ := r
      simp only at s1 s2 s3 s4 s5 ⊢
      have haop : Adj (op :: ops) := adj_right ha
      -- the batch extended by the first piece
      have hwb : ∀ x ∈ batch ++ [first], x.WF := by
        intro x hx
        rcases List.mem_append.mp hx with hx | hx
        · exact hw x (by simp [hx])
        · rw [List.mem_singleton] at hx; subst hx; exact s1
      have hab : Adj (batch ++ [first]) := by
        have : Adj ((batch ++ [op]) ++ ops) := by simpa using ha
        exact adj_replace_last s2 (adj_left this)
      have hsz : nrBuffers (batch ++ [first]) + rem' = max := by
        rw [nrBuffers_append]; simp only [nrBuffers]; omega
      have hok : BatchOK max (batch ++ [first]) := ⟨by simp, hwb, hab, by omega⟩
      have hpb : ∀ p ∈ batch ++ [first], ∃ x ∈ batch ++ op :: ops, PieceOf p x := by
        intro p hp
        rcases List.mem_append.mp hp with hp | hp
        · exact ⟨p, by simp [hp], PieceOf.refl p⟩
        · rw [List.mem_singleton] at hp; subst hp; exact ⟨op, by simp, s3⟩
      simp only [opsMeasure] at hf
      rcases s5 with ⟨e1, e2⟩ | ⟨r, e1, e2, e3, e4, e5, e6, e7, e8⟩
      · subst e1 e2
        simp only
        split
        · obtain ⟨l, g1, g2, g3, g4⟩ := ih max [] ops (by omega) hmax (by simp [nrBuffers])
            (fun x hx => hw x (by simp at hx; simp [hx])) (by
              cases ops with
              | nil => trivial
              | cons y ops => exact haop.2)
          refine ⟨(batch ++ [first]) :: l, by rw [g1]; rfl, ?_, ?_, ?_⟩
          · intro b hb
            rcases List.mem_cons.mp hb with rfl | hb
            · exact hok
            · exact g2 b hb
          · simp only [List.flatten_cons, List.flatMap_append, g3]; simp
          · intro p hp
            simp only [List.flatten_cons, List.mem_append] at hp
            rcases hp with hp | hp
            · exact hpb p (List.mem_append.mpr hp)
            · obtain ⟨x, hx, hp⟩ := g4 p hp
              exact ⟨x, by simp at hx; simp [hx], hp⟩
        · obtain ⟨l, g1, g2, g3, g4⟩ := ih rem' (batch ++ [first]) ops (by omega) (by omega) (by omega)
            (by simpa using hw) (by simpa using ha)
          refine ⟨l, g1, g2, by simpa using g3, by simpa using g4⟩
      · subst e1
        simp only
        rw [if_pos e6]
        obtain ⟨l, g1, g2, g3, g4⟩ := ih max [] (r :: ops) (by simp only [opsMeasure]; omega) hmax (by simp [nrBuffers])
          (by
            intro x hx
            rcases List.mem_cons.mp hx with rfl | hx
            · exact e2
            · exact hw x (by simp [hx])) (by
            cases ops with
            | nil => trivial
            | cons y ops => exact ⟨e3.trans haop.1, haop.2⟩)
        refine ⟨(batch ++ [first]) :: l, by rw [g1]; rfl, ?_, ?_, ?_⟩
        · intro b hb
          rcases List.mem_cons.mp hb with rfl | hb
          · exact hok
          · exact g2 b hb
        · simp only [List.flatten_cons, List.flatMap_append, g3]; simp [e7]
        · intro p hp
          simp only [List.flatten_cons, List.mem_append] at hp
          rcases hp with hp | hp
          · exact hpb p (List.mem_append.mpr hp)
          · obtain ⟨x, hx, hp⟩ := g4 p hp
            have hx : x = r ∨ x ∈ ops := by simpa using hx
            rcases hx with rfl | hx
            · exact ⟨op, by simp, hp.trans e5⟩
            · exact ⟨x, by simp [hx], hp⟩

theorem splitBatches_spec (max : Nat) (hmax : 1 ≤ max) (bs : List (List RunOp)) :
    (∀ b ∈ bs, Adj b ∧ ∀ op ∈ b, op.WF) →
    ∃ l, splitBatches max bs = some l ∧ (∀ b ∈ l, BatchOK max b) ∧
      l.flatten.flatMap RunOp.wanted = bs.flatten.flatMap RunOp.wanted ∧
      ∀ p ∈ l.flatten, ∃ op ∈ bs.flatten, PieceOf p op := by
  induction bs with
  | nil => intro _; exact ⟨[], rfl, by simp, rfl, by simp⟩
  | cons b bs ih =>
    intro h
    obtain ⟨l1, a1, a2, a3, a4⟩ := splitGo_spec max hmax _ max [] b (Nat.le_refl _) hmax (by simp [nrBuffers])
      (by simpa using (h b (by simp)).2) (by simpa using (h b (by simp)).1)
    obtain ⟨l2, b1, b2, b3, b4⟩ := ih (fun x hx => h x (by simp [hx]))
    refine ⟨l1 ++ l2, ?_, ?_, ?_, ?_⟩
    · unfold splitBatches splitContiguous
      rw [a1, b1]
    · intro x hx
      rcases List.mem_append.mp hx with hx | hx
      · exact a2 x hx
      · exact b2 x hx
    · simp only [List.flatten_append, List.flatMap_append, List.flatten_cons]
      rw [a3, b3]; simp
    · intro p hp
      simp only [List.flatten_append, List.mem_append] at hp
      rcases hp with hp | hp
      · obtain ⟨x, hx, hp⟩ := a4 p hp
        exact ⟨x, by simp at hx; simp [hx], hp⟩
      · obtain ⟨x, hx, hp⟩ := b4 p hp
        exact ⟨x, by simp only [List.flatten_cons, List.mem_append]; exact Or.inr hx, hp⟩

theorem adj_blocks {l : List RunOp} (hw : ∀ op ∈ l, op.WF) (ha : Adj l) :
    ∀ op, l.head? = some op → l.flatMap RunOp.blocks = List.range' op.beg (nrBuffers l) := by
  induction l with
  | nil => intro op h; cases h
  | cons x l ih =>
    intro op h
    obtain rfl : x = op := by simpa using h
    have hx := (hw x (by simp)).le
    simp only [List.flatMap_cons, nrBuffers]
    cases l with
    | nil => simp [nrBuffers, RunOp.blocks]
    | cons y l =>
      rw [ih (fun z hz => hw z (by simp [hz])) ha.2 y rfl, ← ha.1]
      have := List.range'_append (s := x.beg) (m := x.fin - x.beg) (n := nrBuffers (y :: l)) (step := 1)
      rw [show x.beg + 1 * (x.fin - x.beg) = x.fin by omega] at this
      exact this

/-! ## Main theorem -/

/-- C39: the batches read exactly the requested blocks in order (plus gaps); every batch is one contiguous range of at
most `max` blocks; every gap block lies between two requested neighbours at most `thr` apart. -/
theorem generate_runs_spec (blocks : List Nat) (thr max : Nat) (hmax : 1 ≤ max) :
    ∃ batches, generateRuns blocks thr max = some batches ∧
      batches.flatten.flatMap RunOp.wanted = blocks ∧
      (∀ b ∈ batches, ∃ first n, n ≤ max ∧ b.flatMap RunOp.blocks = List.range' first n ∧
        ∃ op, b.head? = some op ∧ op.beg = first) ∧
      (∀ b ∈ batches, ∀ g h, RunOp.gap g h ∈ b → ∀ x, g ≤ x → x < h →
        ∃ a c, a < x ∧ x < c ∧ CloseNeighbours thr blocks a c) := by
  obtain ⟨f1, f2⟩ := batchAdjacent_spec (findRuns thr blocks)
  have hfr : (findRuns thr blocks).flatMap RunOp.wanted = blocks ∧ (∀ op ∈ findRuns thr blocks, op.WF) ∧
      ∀ g h, RunOp.gap g h ∈ findRuns thr blocks → ∃ x, g = x + 1 ∧ CloseNeighbours thr blocks x h := by
    cases blocks with
    | nil => exact ⟨rfl, by simp [findRuns], by simp [findRuns]⟩
    | cons b bs =>
      obtain ⟨g1, g2⟩ := findRunsGo_spec thr bs b (b + 1) (by omega)
      refine ⟨?_, g2, ?_⟩
      · show (findRunsGo thr b (b + 1) bs).flatMap _ = _
        rw [g1, show b + 1 - b = 1 by omega]; rfl
      · intro g h hm
        simpa using findRunsGo_gaps thr bs b b [] g h hm
  obtain ⟨l, h1, h2, h3, h4⟩ := splitBatches_spec max hmax (batchAdjacent (findRuns thr blocks)) (by
    intro b hb
    refine ⟨(f2 b hb).2, ?_⟩
    intro op hop
    apply hfr.2.1 op
    rw [← f1]
    exact List.mem_flatten.mpr ⟨b, hb, hop⟩)
  refine ⟨l, h1, by rw [h3, f1]; exact hfr.1, ?_, ?_⟩
  · intro b hb
    have hok := h2 b hb
    obtain ⟨op, hop⟩ : ∃ op, b.head? = some op := by
      cases b with
      | nil => exact absurd rfl hok.ne
      | cons x b => exact ⟨x, rfl⟩
    exact ⟨op.beg, nrBuffers b, hok.size, adj_blocks hok.wf hok.adj op hop, op, hop, rfl⟩
  · intro b hb g h hm x hx1 hx2
    obtain ⟨op, hop, hp⟩ := h4 _ (List.mem_flatten.mpr ⟨b, hb, hm⟩)
    rw [f1] at hop
    cases op with
    | run b' e' => exact absurd hp (by simp [PieceOf])
    | gap g' h' =>
      obtain ⟨a, ha, hn⟩ := hfr.2.2 g' h' hop
      simp only [PieceOf] at hp
      exact ⟨a, h', by omega, by omega, hn⟩

/-- With a limit of zero the splitting loop makes no progress (in the code: it never ends), whatever the bound. -/
theorem split_zero_refuted (fuel b e : Nat) (h : b < e) (ops batch : List RunOp) :
    splitGo 0 fuel 0 batch (.run b e :: ops) = none := by
  induction fuel generalizing batch with
  | zero => rfl
  | succ fuel ih =>
    have hs : splitOp (.run b e) 0 = (.run b b, some (.run b e), 0) := by
      simp only [splitOp]; rw [if_neg (by omega)]; simp
    simp only [splitGo, hs, if_true, ih, Option.map_none]

/-! ## `read_many` -/

variable {D : Type}

/-- one answer per requested block, in request order: the block's contents or an error -/
inductive Answers (dev : Nat → Option D) : List Nat → List (Option D) → Prop where
  | nil : Answers dev [] []
  | cons {b bs r rs} : r = none ∨ r = dev b → Answers dev bs rs → Answers dev (b :: bs) (r :: rs)

theorem Answers.append {dev : Nat → Option D} {a b : List Nat} {x y : List (Option D)} (h1 : Answers dev a x)
    (h2 : Answers dev b y) : Answers dev (a ++ b) (x ++ y) := by
  induction h1 with
  | nil => exact h2
  | cons h _ ih => exact .cons h ih

theorem answers_map (dev : Nat → Option D) (l : List Nat) : Answers dev l (l.map dev) := by
  induction l with
  | nil => exact .nil
  | cons b l ih => exact .cons (Or.inr rfl) ih

theorem answers_none (dev : Nat → Option D) (l : List Nat) : Answers dev l (List.replicate l.length none) := by
  induction l with
  | nil => exact .nil
  | cons b l ih => exact .cons (Or.inl rfl) ih

theorem matchRuns_spec (l : List RunOp) (hw : ∀ op ∈ l, op.WF) (rest : List Nat) :
    matchRuns l (l.flatMap RunOp.wanted ++ rest) = some rest := by
  induction l with
  | nil => rfl
  | cons op l ih =>
    have ih := ih (fun x hx => hw x (by simp [hx]))
    cases op with
    | gap b e => simpa [matchRuns, RunOp.wanted] using ih
    | run b e =>
      simp only [matchRuns, List.flatMap_cons, RunOp.wanted, List.append_assoc]
      rw [List.take_append_of_le_length (by simp), List.drop_append_of_le_length (by simp)]
      rw [if_pos (by simp)]
      simpa using ih

theorem select_spec (dev : Nat → Option D) (l : List RunOp) :
    selectResults l (l.flatMap fun op => op.blocks.map dev) = (l.flatMap RunOp.wanted).map dev := by
  induction l with
  | nil => rfl
  | cons op l ih =>
    cases op with
    | run b e =>
      have hb : (RunOp.run b e).blocks = List.range' b (e - b) := rfl
      have hw : (RunOp.run b e).wanted = List.range' b (e - b) := rfl
      simp only [selectResults, List.flatMap_cons, hb, hw, List.map_append]
      rw [List.take_append_of_le_length (by simp), List.drop_append_of_le_length (by simp)]
      rw [List.take_of_length_le (by simp), List.drop_of_length_le (by simp), List.nil_append, ih]
    | gap b e =>
      have hb : (RunOp.gap b e).blocks = List.range' b (e - b) := rfl
      have hw : (RunOp.gap b e).wanted = [] := rfl
      simp only [selectResults, List.flatMap_cons, hb, hw, List.nil_append]
      rw [List.drop_append_of_le_length (by simp), List.drop_of_length_le (by simp), List.nil_append, ih]

theorem fail_spec (l : List RunOp) :
    failResults (D := D) l = List.replicate (l.flatMap RunOp.wanted).length none := by
  induction l with
  | nil => rfl
  | cons op l ih =>
    cases op with
    | run b e => simp [failResults, RunOp.wanted, ih, List.replicate_append_replicate]
    | gap b e => simp [failResults, RunOp.wanted, ih]

theorem readBatches_spec (dev : Nat → Option D) (vio : Nat → Nat → Option (List (Option D)))
    (hvio : ∀ f n, vio f n = none ∨ vio f n = some ((List.range' f n).map dev)) (max : Nat) (bs : List (List RunOp)) :
    (∀ b ∈ bs, BatchOK max b) →
    ∃ rs, readBatches vio bs (bs.flatten.flatMap RunOp.wanted) = some rs ∧
      Answers dev (bs.flatten.flatMap RunOp.wanted) rs ∧
      ((∀ f n, vio f n ≠ none) → rs = (bs.flatten.flatMap RunOp.wanted).map dev) := by
  induction bs with
  | nil => intro _; exact ⟨[], rfl, .nil, fun _ => rfl⟩
  | cons b bs ih =>
    intro h
    have hb := h b (by simp)
    obtain ⟨op, hop⟩ : ∃ op, b.head? = some op := by
      cases b with
      | nil => exact absurd rfl hb.ne
      | cons x b => exact ⟨x, rfl⟩
    obtain ⟨rs, g1, g2, g3⟩ := ih (fun x hx => h x (by simp [hx]))
    have hsel : selectResults b ((List.range' op.beg (nrBuffers b)).map dev) = (b.flatMap RunOp.wanted).map dev := by
      rw [← adj_blocks hb.wf hb.adj op hop, ← select_spec, List.map_flatMap]
    simp only [List.flatten_cons, List.flatMap_append, readBatches, hop, matchRuns_spec b hb.wf, g1]
    rcases hvio op.beg (nrBuffers b) with e | e
    · rw [e]
      refine ⟨_, rfl, ?_, fun hn => absurd e (hn _ _)⟩
      rw [fail_spec]
      exact (answers_none dev _).append g2
    · rw [e]
      refine ⟨_, rfl, ?_, ?_⟩
      · simp only [hsel]; exact (answers_map dev _).append g2
      · intro hn
        simp only [hsel, g3 hn, List.map_append]

/-- C39: `read_many` returns one answer per requested block in request order, for any list of blocks (sorted or not, with
duplicates); no assertion in it fails; with a device whose vectored reads work the answers are exact. -/
theorem readMany_correct (dev : Nat → Option D) (vio : Nat → Nat → Option (List (Option D)))
    (hvio : ∀ f n, vio f n = none ∨ vio f n = some ((List.range' f n).map dev)) (maxIov : Nat) (hmax : 1 ≤ maxIov)
    (blocks : List Nat) :
    ∃ rs, readMany vio maxIov blocks = some rs ∧ Answers dev blocks rs ∧
      ((∀ f n, vio f n ≠ none) → rs = blocks.map dev) := by
  obtain ⟨f1, f2⟩ := batchAdjacent_spec (findRuns 8 blocks)
  have hfr : (findRuns 8 blocks).flatMap RunOp.wanted = blocks ∧ (∀ op ∈ findRuns 8 blocks, op.WF) := by
    cases blocks with
    | nil => exact ⟨rfl, by simp [findRuns]⟩
    | cons b bs =>
      obtain ⟨g1, g2⟩ := findRunsGo_spec 8 bs b (b + 1) (by omega)
      refine ⟨?_, g2⟩
      show (findRunsGo 8 b (b + 1) bs).flatMap _ = _
      rw [g1, show b + 1 - b = 1 by omega]; rfl
  obtain ⟨l, h1, h2, h3, -⟩ := splitBatches_spec maxIov hmax (batchAdjacent (findRuns 8 blocks)) (by
    intro b hb
    refine ⟨(f2 b hb).2, ?_⟩
    intro op hop
    apply hfr.2 op
    rw [← f1]
    exact List.mem_flatten.mpr ⟨b, hb, hop⟩)
  have hbl : l.flatten.flatMap RunOp.wanted = blocks := by rw [h3, f1]; exact hfr.1
  unfold readMany generateRuns
  rw [h1]
  have := readBatches_spec dev vio hvio maxIov l h2
  rw [hbl] at this
  exact this

/-! ## `find_runs_nogap` -/

theorem nogapGo_spec (maxLen : Nat) (h1 : 1 ≤ maxLen) (bs : List Nat) : ∀ begin len, 1 ≤ len → len ≤ maxLen →
    (findRunsNogapGo maxLen begin len bs).flatMap (fun r => List.range' r.1 r.2) = List.range' begin len ++ bs ∧
    ∀ r ∈ findRunsNogapGo maxLen begin len bs, 1 ≤ r.2 ∧ r.2 ≤ maxLen := by
  induction bs with
  | nil => intro begin len ha hb; simpa [findRunsNogapGo] using ⟨ha, hb⟩
  | cons b bs ih =>
    intro begin len ha hb
    unfold findRunsNogapGo
    split
    · next hc =>
      obtain ⟨g1, g2⟩ := ih begin (len + 1) (by omega) (by omega)
      refine ⟨?_, g2⟩
      rw [g1, range'_snoc, hc.1]; simp
    · obtain ⟨g1, g2⟩ := ih b 1 (by omega) h1
      refine ⟨?_, ?_⟩
      · simp [g1]
      · intro r hr
        rcases List.mem_cons.mp hr with rfl | hr
        · exact ⟨ha, hb⟩
        · exact g2 r hr

/-- C39: writes are grouped into non-empty contiguous runs of at most the limit that cover exactly the blocks given,
in order. -/
theorem find_runs_nogap_spec (maxLen : Nat) (h1 : 1 ≤ maxLen) (blocks : List Nat) :
    (findRunsNogap maxLen blocks).flatMap (fun r => List.range' r.1 r.2) = blocks ∧
    ∀ r ∈ findRunsNogap maxLen blocks, 1 ≤ r.2 ∧ r.2 ≤ maxLen := by
  cases blocks with
  | nil => exact ⟨rfl, by simp [findRunsNogap]⟩
  | cons b bs =>
    obtain ⟨g1, g2⟩ := nogapGo_spec maxLen h1 bs b 1 (by omega) h1
    refine ⟨?_, g2⟩
    show (findRunsNogapGo maxLen b 1 bs).flatMap _ = _
    rw [g1]; rfl

/-! ## Examples -/

example : generateRuns [1, 2, 5, 6, 30, 3] 4 3 =
    some [[.run 1 3, .gap 3 4], [.gap 4 5, .run 5 7], [.run 30 31], [.run 3 4]] := by decide

/-- a gap that exactly fills a batch leaves an empty gap at the start of the next one -/
example : generateRuns [1, 4] 4 3 = some [[.run 1 2, .gap 2 4], [.gap 4 4, .run 4 5]] := by decide

example : readMany (fun f n => some ((List.range' f n).map some)) 3 [1, 4, 4, 2] =
    some [some 1, some 4, some 4, some 2] := by decide

end Verif.Gaps
