import Verif.Model.ThinCheck

/-!
# C47: a device that `thin_check` accepts has a readable mapping tree with the expected number of mappings

The specification does not mention the passes of the tool: `Keys` is a completely readable tree and its mapped blocks in order, `Under` says that a block is mapped somewhere
below a node, `Overlap` that two children of a node have mappings out of order.
-/

namespace Verif.TChk

open Verif.BT (Blk KeyRange splitKeyRanges)

/-! ## Specification -/

/-- the tree at `b` is finite and every node of it can be read; its mapped blocks in tree order -/
inductive Keys (d : Dev) : Nat → List Nat → Prop
  | leaf (b : Nat) (es : List (Nat × Nat)) : d.rd b = some (.leaf es) → Keys d b (es.map (·.1))
  | node (b : Nat) (ch : List (Nat × Nat)) (kid : Nat → List Nat) : d.rd b = some (.internal ch) → (∀ c ∈ ch, Keys d c.2 (kid c.2)) →
      Keys d b (ch.flatMap fun c => kid c.2)

/-- block `k` is mapped by some readable leaf below `b` -/
inductive Under (d : Dev) : Nat → Nat → Prop
  | leaf (b : Nat) (es : List (Nat × Nat)) (e : Nat × Nat) : d.rd b = some (.leaf es) → e ∈ es → Under d b e.1
  | node (b : Nat) (ch : List (Nat × Nat)) (c : Nat × Nat) (k : Nat) : d.rd b = some (.internal ch) → c ∈ ch → Under d c.2 k → Under d b k

/-- in some node below `b`, a child has a mapping that is not above one of an earlier child -/
inductive Overlap (d : Dev) : Nat → Prop
  | here (b : Nat) (pre mid post : List (Nat × Nat)) (c c' : Nat × Nat) (k k' : Nat) : d.rd b = some (.internal (pre ++ c :: (mid ++ c' :: post))) →
      Under d c.2 k → Under d c'.2 k' → k' ≤ k → Overlap d b
  | deeper (b : Nat) (ch : List (Nat × Nat)) (c : Nat × Nat) : d.rd b = some (.internal ch) → c ∈ ch → Overlap d c.2 → Overlap d b

/-- facts about every device: blocks beyond its end cannot be read, the parser accepts increasing keys only (C04).  Thin block numbers are below `2^64 - 1`, pointers below
`2^32` (see `check_wide_pointer_refuted`). -/
structure Sane (d : Dev) : Prop where
  bound : ∀ b n, d.rd b = some n → b < d.nr
  small : d.nr ≤ 2 ^ 32
  leaf : ∀ b es, d.rd b = some (.leaf es) → (es.map (·.1)).Pairwise (· < ·) ∧ ∀ e ∈ es, e.1 < 2 ^ 64 - 1
  ptr : ∀ b ch, d.rd b = some (.internal ch) → ∀ c ∈ ch, c.2 < 2 ^ 32

variable {d : Dev}

theorem Keys.det {b : Nat} {k k' : List Nat} (h : Keys d b k) (h' : Keys d b k') : k = k' := by
  induction h generalizing k' with
  | leaf b es hb =>
    cases h' with
    | leaf _ es' hb' => rw [hb] at hb'; cases hb'; rfl
    | node _ ch kid hb' => rw [hb] at hb'; cases hb'
  | node b ch kid hb hk ih =>
    cases h' with
    | leaf _ es' hb' => rw [hb] at hb'; cases hb'
    | node _ ch' kid' hb' hk' =>
      rw [hb] at hb'; cases hb'
      have : ∀ l : List (Nat × Nat), (∀ c ∈ l, c ∈ ch) → (l.flatMap fun c => kid c.2) = l.flatMap fun c => kid' c.2 := by
        intro l
        induction l with
        | nil => intro _; rfl
        | cons c l ihl =>
          intro hl
          rw [List.flatMap_cons, List.flatMap_cons, ih c (hl c (by simp)) (hk' c (hl c (by simp))), ihl fun x hx => hl x (by simp [hx])]
      exact this ch fun _ h => h

theorem Keys.under {b : Nat} {ks : List Nat} (h : Keys d b ks) : ∀ k ∈ ks, Under d b k := by
  induction h with
  | leaf b es hb =>
    intro k hk
    obtain ⟨e, he, rfl⟩ := List.mem_map.mp hk
    exact .leaf b es e hb he
  | node b ch kid hb hk ih =>
    intro k hk
    obtain ⟨c, hc, hk⟩ := List.mem_flatMap.mp hk
    exact .node b ch c k hb hc (ih c hc k hk)

theorem Under.lt (hd : Sane d) {b k : Nat} (h : Under d b k) : k < 2 ^ 64 - 1 := by
  induction h with
  | leaf b es e hb he => exact (hd.leaf b es hb).2 e he
  | node b ch c k hb hc h ih => exact ih

theorem sorted_length : ∀ (l : List Nat) (lo n : Nat), l.Pairwise (· < ·) → (∀ x ∈ l, lo ≤ x ∧ x < n) → l.length + lo ≤ max n lo := by
  intro l
  induction l with
  | nil => intro lo n _ _; simp; omega
  | cons x l ih =>
    intro lo n hp hx
    rw [List.pairwise_cons] at hp
    have h1 := hx x (by simp)
    have := ih (x + 1) n hp.2 fun y hy => ⟨by have := hp.1 y hy; omega, (hx y (by simp [hy])).2⟩
    simp only [List.length_cons]
    omega

theorem Keys.length_lt (hd : Sane d) {b : Nat} {ks : List Nat} (hk : ∀ k ∈ ks, Under d b k) (hs : ks.Pairwise (· < ·)) : ks.length < 2 ^ 64 := by
  have := sorted_length ks 0 (2 ^ 64 - 1) hs fun x hx => ⟨Nat.zero_le _, (hk x hx).lt hd⟩
  omega

/-! ## What a summary says -/

/-- what a summary of `b` promises -/
def SumOk (d : Dev) (b : Nat) (s : Sum) : Prop :=
  (0 < s.maps → Under d b s.low ∧ Under d b s.high) ∧
  (s.errors = 0 → ∃ ks, Keys d b ks ∧ ks.Pairwise (· < ·) ∧ s.maps = ks.length ∧ (ks ≠ [] → ks.head? = some s.low ∧ ks.getLast? = some s.high))

/-- all summaries keep their promise -/
def SumsOk (d : Dev) (m : Sums) : Prop := ∀ b s, m b = some s → ¬ Overlap d b → SumOk d b s

/-- the internal nodes on record are those of the device -/
def InfoOk (d : Dev) (n : NodeMap) : Prop := ∀ b ch, n.info b = some ch → d.rd b = some (.internal ch)

theorem SumOk.error (b : Nat) : SumOk d b Sum.error := by
  refine ⟨fun h => ?_, fun h => ?_⟩ <;> simp [Sum.error] at h

theorem ofLeaf_ok (hd : Sane d) {b : Nat} {es : List (Nat × Nat)} (hb : d.rd b = some (.leaf es)) : SumOk d b (Sum.ofLeaf (es.map (·.1))) := by
  obtain ⟨h1, h2⟩ := hd.leaf b es hb
  have hu : ∀ k ∈ es.map (·.1), Under d b k := (Keys.leaf b es hb).under
  have hh : es.map (·.1) ≠ [] → (es.map (·.1)).head? = some (Sum.ofLeaf (es.map (·.1))).low ∧ (es.map (·.1)).getLast? = some (Sum.ofLeaf (es.map (·.1))).high := by
    intro hne
    simp only [Sum.ofLeaf]
    rw [List.head?_eq_some_head hne, List.getLast?_eq_some_getLast hne]
    simp
  refine ⟨fun hm => ?_, fun _ => ⟨_, .leaf b es hb, h1, rfl, hh⟩⟩
  have hne : es.map (·.1) ≠ [] := by
    intro h
    simp only [Sum.ofLeaf, h] at hm
    simp at hm
  obtain ⟨a1, a2⟩ := hh hne
  exact ⟨hu _ (List.mem_of_head? a1), hu _ (List.mem_of_getLast? a2)⟩

open Classical in
/-- the mapped blocks below `b`, if it is readable -/
noncomputable def keysOf (d : Dev) (b : Nat) : List Nat := if h : ∃ ks, Keys d b ks then h.choose else []

theorem keysOf_eq {b : Nat} {ks : List Nat} (h : Keys d b ks) : keysOf d b = ks := by
  have he : ∃ ks, Keys d b ks := ⟨ks, h⟩
  unfold keysOf
  rw [dif_pos he]
  exact he.choose_spec.det h

/-- what the accumulated summary of the first children promises -/
def AccOk (d : Dev) (pre : List (Nat × Nat)) (s : Sum) : Prop :=
  (0 < s.maps → (∃ c ∈ pre, Under d c.2 s.low) ∧ ∃ c ∈ pre, Under d c.2 s.high) ∧
  (s.errors = 0 → (∀ c ∈ pre, Keys d c.2 (keysOf d c.2)) ∧ (pre.flatMap fun c => keysOf d c.2).Pairwise (· < ·) ∧ s.maps = (pre.flatMap fun c => keysOf d c.2).length ∧
    ((pre.flatMap fun c => keysOf d c.2) ≠ [] → (pre.flatMap fun c => keysOf d c.2).head? = some s.low ∧ (pre.flatMap fun c => keysOf d c.2).getLast? = some s.high))

theorem pairwise_append_ends {l k : List Nat} (hl : l.Pairwise (· < ·)) (hk : k.Pairwise (· < ·)) {a b : Nat} (ha : l.getLast? = some a) (hb : k.head? = some b) (hab : a < b) :
    (l ++ k).Pairwise (· < ·) := by
  refine List.pairwise_append.mpr ⟨hl, hk, ?_⟩
  intro x hx y hy
  have h1 : x ≤ a := by
    have hne : l ≠ [] := List.ne_nil_of_mem hx
    rw [List.getLast?_eq_some_getLast hne] at ha
    have e := List.dropLast_concat_getLast hne
    rw [← e] at hx hl
    rcases List.mem_append.mp hx with hx | hx
    · have := (List.pairwise_append.mp hl).2.2 x hx (l.getLast hne) (by simp)
      have := Option.some.inj ha
      omega
    · have := List.mem_singleton.mp hx
      have := Option.some.inj ha
      omega
  have h2 : b ≤ y := by
    cases k with
    | nil => cases hy
    | cons z k =>
      simp only [List.head?_cons, Option.some.injEq] at hb
      rcases List.mem_cons.mp hy with rfl | hy
      · omega
      · have := (List.pairwise_cons.mp hk).1 y hy
        omega
  omega

theorem add_ok (hd : Sane d) {b : Nat} {pre post : List (Nat × Nat)} {c : Nat × Nat} {acc s : Sum} (hb : d.rd b = some (.internal (pre ++ c :: post)))
    (ho : ¬ Overlap d b) (ha : AccOk d pre acc) (hs : SumOk d c.2 s) : AccOk d (pre ++ [c]) (acc.add s) := by
  obtain ⟨a1, a2⟩ := ha
  obtain ⟨s1, s2⟩ := hs
  -- no overlap: earlier mappings are below later ones
  have hlt : ∀ c0 ∈ pre, ∀ k k', Under d c0.2 k → Under d c.2 k' → k < k' := by
    intro c0 hc0 k k' hk hk'
    apply Nat.lt_of_not_le
    intro hle
    obtain ⟨p1, p2, e⟩ := List.append_of_mem hc0
    rw [e] at hb
    simp only [List.append_assoc, List.cons_append] at hb
    exact ho (.here b p1 p2 post c0 c k k' hb hk hk' hle)
  have happ : (acc.maps = 0 ∧ acc.add s = ⟨s.low, s.high, (acc.maps + s.maps) % 2 ^ 64, (acc.entries + 1) % 256, min (acc.errors + s.errors) 255⟩) ∨
      (0 < acc.maps ∧ 0 < s.maps ∧ acc.high < s.low ∧ acc.add s = ⟨acc.low, s.high, (acc.maps + s.maps) % 2 ^ 64, (acc.entries + 1) % 256, min (acc.errors + s.errors) 255⟩) ∨
      (0 < acc.maps ∧ s.maps = 0 ∧ acc.add s = ⟨acc.low, acc.high, (acc.maps + s.maps) % 2 ^ 64, (acc.entries + 1) % 256, min (acc.errors + s.errors) 255⟩) := by
    simp only [Sum.add, Sum.append]
    by_cases h0 : acc.maps = 0
    · rw [if_pos h0]; exact Or.inl ⟨h0, rfl⟩
    · rw [if_neg h0]
      by_cases h1 : s.maps > 0
      · rw [if_pos h1]
        obtain ⟨-, c0, hc0, u0⟩ := a1 (by omega)
        have := hlt c0 hc0 _ _ u0 (s1 h1).1
        rw [if_neg (by omega)]
        exact Or.inr (Or.inl ⟨by omega, h1, this, rfl⟩)
      · rw [if_neg h1]
        exact Or.inr (Or.inr ⟨by omega, by omega, rfl⟩)
  have hmem : ∀ {x k : Nat}, (∃ c ∈ pre, Under d c.2 k) → ∃ c' ∈ pre ++ [c], Under d c'.2 k := by
    rintro x k ⟨c', h1, h2⟩
    exact ⟨c', by simp [h1], h2⟩
  have hc : c ∈ pre ++ [c] := by simp
  have hmod : ∀ {a x : Nat}, 0 < (a + x) % 2 ^ 64 → a = 0 → 0 < x := by
    intro a x h h0
    subst h0
    rcases Nat.eq_zero_or_pos x with h1 | h1
    · subst h1; simp at h
    · exact h1
  refine ⟨fun hm => ?_, fun he => ?_⟩
  · rcases happ with ⟨h0, e⟩ | ⟨h0, h1, h2, e⟩ | ⟨h0, h1, e⟩ <;> rw [e] at hm ⊢ <;> simp only at hm ⊢
    · obtain ⟨u1, u2⟩ := s1 (hmod hm h0)
      exact ⟨⟨c, hc, u1⟩, c, hc, u2⟩
    · exact ⟨hmem (x := 0) (a1 h0).1, c, hc, (s1 h1).2⟩
    · exact ⟨hmem (x := 0) (a1 h0).1, hmem (x := 0) (a1 h0).2⟩
  · have hee : acc.errors = 0 ∧ s.errors = 0 := by
      rcases happ with ⟨h0, e⟩ | ⟨h0, h1, h2, e⟩ | ⟨h0, h1, e⟩ <;> rw [e] at he <;> simp only at he <;> omega
    obtain ⟨b1, b2, b3, b4⟩ := a2 hee.1
    obtain ⟨ks, k1, k2, k3, k4⟩ := s2 hee.2
    have hK := keysOf_eq k1
    have hfl : ((pre ++ [c]).flatMap fun c => keysOf d c.2) = (pre.flatMap fun c => keysOf d c.2) ++ ks := by simp [hK]
    rw [hfl]
    have hu : ∀ k ∈ (pre.flatMap fun c => keysOf d c.2) ++ ks, Under d b k := by
      intro k hk
      rcases List.mem_append.mp hk with hk | hk
      · obtain ⟨c', hc', hk⟩ := List.mem_flatMap.mp hk
        exact .node b _ c' k hb (by simp [hc']) ((b1 c' hc').under k hk)
      · exact .node b _ c k hb (by simp) (k1.under k hk)
    generalize hL : (pre.flatMap fun c => keysOf d c.2) = L at *
    have hall : ∀ c' ∈ pre ++ [c], Keys d c'.2 (keysOf d c'.2) := by
      intro c' hc'
      rcases List.mem_append.mp hc' with h | h
      · exact b1 c' h
      · have := List.mem_singleton.mp h
        subst this
        rw [hK]; exact k1
    have hsort : (L ++ ks).Pairwise (· < ·) := by
      by_cases hl0 : L = []
      · rw [hl0]; exact k2
      · by_cases hk0 : ks = []
        · rw [hk0, List.append_nil]; exact b2
        · have hl : 0 < acc.maps := by rw [b3]; exact List.length_pos_iff.mpr hl0
          have hk : 0 < s.maps := by rw [k3]; exact List.length_pos_iff.mpr hk0
          rcases happ with ⟨h0, e⟩ | ⟨h0, h1, h2, e⟩ | ⟨h0, h1, e⟩
          · omega
          · exact pairwise_append_ends b2 k2 (b4 hl0).2 (k4 hk0).1 h2
          · omega
    have hlen : (L ++ ks).length < 2 ^ 64 := Keys.length_lt hd hu hsort
    have hmaps : (acc.add s).maps = (L ++ ks).length := by
      have : (acc.add s).maps = (acc.maps + s.maps) % 2 ^ 64 := by
        rcases happ with ⟨h0, e⟩ | ⟨h0, h1, h2, e⟩ | ⟨h0, h1, e⟩ <;> rw [e]
      rw [this, b3, k3, ← List.length_append]
      exact Nat.mod_eq_of_lt hlen
    refine ⟨hall, hsort, hmaps, fun hne => ?_⟩
    rcases happ with ⟨h0, e⟩ | ⟨h0, h1, h2, e⟩ | ⟨h0, h1, e⟩ <;> rw [e] <;> simp only
    · have hl0 : L = [] := List.length_eq_zero_iff.mp (by omega)
      rw [hl0, List.nil_append] at hne ⊢
      exact k4 hne
    · have hl0 : L ≠ [] := fun h => by rw [h] at b3; simp at b3; omega
      have hk0 : ks ≠ [] := fun h => by rw [h] at k3; simp at k3; omega
      rw [List.head?_append, List.getLast?_append, (b4 hl0).1, (k4 hk0).2]
      exact ⟨rfl, rfl⟩
    · have hl0 : L ≠ [] := fun h => by rw [h] at b3; simp at b3; omega
      have hk0 : ks = [] := List.length_eq_zero_iff.mp (by omega)
      rw [hk0, List.append_nil]
      exact b4 hl0

theorem recheck_cases (ign isRoot : Bool) (kr : KeyRange) (s : Sum) : recheck ign isRoot kr s = s ∨ recheck ign isRoot kr s = Sum.error := by
  have ite : ∀ (p : Prop) [Decidable p] (x : Sum), x = s ∨ x = Sum.error → (if p then Sum.error else x) = s ∨ (if p then Sum.error else x) = Sum.error := by
    intro p _ x h
    by_cases hp : p
    · rw [if_pos hp]; exact Or.inr rfl
    · rw [if_neg hp]; exact h
  exact ite _ _ (ite _ _ (ite _ _ (Or.inl rfl)))

theorem split_length {kr : KeyRange} {keys : List Nat} {krs : List KeyRange} (h : splitKeyRanges kr keys = some krs) : krs.length = keys.length := by
  cases keys with
  | nil => cases h
  | cons k ks =>
    simp only [splitKeyRanges] at h
    have : ∀ (l : List Nat) (kr : KeyRange) (r : List KeyRange), BT.splitLoop kr l = some r → r.length = l.length + 1 := by
      intro l
      induction l with
      | nil => intro kr r h; simp only [BT.splitLoop] at h; cases h; rfl
      | cons x l ih =>
        intro kr r h
        simp only [BT.splitLoop] at h
        split at h
        · cases h
        · rename_i f rest _
          split at h
          · cases h
          · rename_i l' hl'
            cases h
            simp [ih _ _ hl']
    simpa using this ks _ _ h

/-- summaries are right wherever no mappings overlap -/
theorem summarize_ok (hd : Sane d) {n : NodeMap} (hn : InfoOk d n) (ign : Bool) : ∀ (fuel : Nat) (kr : KeyRange) (isRoot : Bool) (b : Nat) (m m' : Sums) (s : Sum),
    summarize n ign fuel kr isRoot b m = some (m', s) → SumsOk d m → SumsOk d m' ∧ (¬ Overlap d b → SumOk d b s) := by
  intro fuel
  induction fuel with
  | zero => intro kr isRoot b m m' s h; cases h
  | succ fuel ih =>
    intro kr isRoot b m m' s h hm
    simp only [summarize] at h
    cases hmb : m b with
    | some s0 =>
      simp only [hmb, Option.some.injEq, Prod.mk.injEq] at h
      obtain ⟨rfl, rfl⟩ := h
      refine ⟨hm, fun ho => ?_⟩
      rcases recheck_cases ign isRoot kr s0 with e | e
      · rw [e]; exact hm b s0 hmb ho
      · rw [e]; exact .error b
    | none =>
      simp only [hmb] at h
      have herr : some (m, Sum.error) = some (m', s) → SumsOk d m' ∧ (¬ Overlap d b → SumOk d b s) := by
        intro h
        simp only [Option.some.injEq, Prod.mk.injEq] at h
        obtain ⟨rfl, rfl⟩ := h
        exact ⟨hm, fun _ => .error b⟩
      by_cases hty : n.ty b = .internal
      · rw [if_pos hty] at h
        cases hi : n.info b with
        | none => simp only [hi] at h; exact herr h
        | some ch =>
          simp only [hi] at h
          have hrd := hn b ch hi
          by_cases hu : (!ign && !isRoot && decide (ch.length < MIN_ENTRIES)) = true
          · rw [if_pos hu] at h; exact herr h
          · rw [if_neg hu] at h
            cases hsp : splitKeyRanges kr (ch.map (·.1)) with
            | none => simp only [hsp] at h; exact herr h
            | some krs =>
              simp only [hsp] at h
              have hlen := split_length hsp
              rw [List.length_map] at hlen
              have key : ∀ (ks : List (Nat × Nat)) (rs : List KeyRange) (pre : List (Nat × Nat)) (m m' : Sums) (acc s : Sum), rs.length = ks.length → ch = pre ++ ks →
                  sumKids (fun kr b m => summarize n ign fuel kr false b m) (rs.zip (ks.map (·.2))) m acc = some (m', s) → SumsOk d m →
                  (¬ Overlap d b → AccOk d pre acc) → SumsOk d m' ∧ (¬ Overlap d b → AccOk d ch s) := by
                intro ks
                induction ks with
                | nil =>
                  intro rs pre m m' acc s _ e h hm ha
                  simp only [List.map_nil, List.zip_nil_right, sumKids, Option.some.injEq, Prod.mk.injEq] at h
                  obtain ⟨rfl, rfl⟩ := h
                  rw [List.append_nil] at e
                  exact ⟨hm, fun ho => e ▸ ha ho⟩
                | cons c ks ihk =>
                  intro rs pre m m' acc s hl e h hm ha
                  cases rs with
                  | nil => simp at hl
                  | cons r rs =>
                    simp only [List.map_cons, List.zip_cons_cons, sumKids] at h
                    cases hc : summarize n ign fuel r false c.2 m with
                    | none => simp only [hc] at h; cases h
                    | some p =>
                      obtain ⟨m1, s1⟩ := p
                      simp only [hc] at h
                      obtain ⟨i1, i2⟩ := ih r false c.2 m m1 s1 hc hm
                      refine ihk rs (pre ++ [c]) m1 m' (acc.add s1) s (by simpa using hl) (by rw [e]; simp) h i1 fun ho => ?_
                      exact add_ok hd (e ▸ hrd) ho (ha ho) (i2 fun h => ho (.deeper b ch c hrd (by rw [e]; simp) h))
              cases hk : sumKids (fun kr b m => summarize n ign fuel kr false b m) (krs.zip (ch.map (·.2))) m ⟨0, 0, 0, 0, 0⟩ with
              | none => simp only [hk] at h; cases h
              | some p =>
                obtain ⟨m1, s1⟩ := p
                simp only [hk, Option.some.injEq, Prod.mk.injEq] at h
                obtain ⟨rfl, rfl⟩ := h
                obtain ⟨j1, j2⟩ := key ch krs [] m m1 _ s1 hlen rfl hk hm fun _ => ⟨fun h => by simp at h, fun _ => by simp⟩
                have hs : ¬ Overlap d b → SumOk d b s1 := by
                  intro ho
                  obtain ⟨k1, k2⟩ := j2 ho
                  refine ⟨fun h => ?_, fun h => ?_⟩
                  · obtain ⟨⟨c, hc, u1⟩, c', hc', u2⟩ := k1 h
                    exact ⟨.node b ch c _ hrd hc u1, .node b ch c' _ hrd hc' u2⟩
                  · obtain ⟨q1, q2, q3, q4⟩ := k2 h
                    exact ⟨_, .node b ch (keysOf d) hrd q1, q2, q3, q4⟩
                refine ⟨?_, hs⟩
                intro x sx hx ho
                simp only [setBit] at hx
                by_cases e : x = b
                · rw [if_pos e] at hx
                  cases hx
                  subst e
                  exact hs ho
                · rw [if_neg e] at hx
                  exact j1 x sx hx ho
      · rw [if_neg hty] at h; exact herr h

/-! ## The first two passes -/

theorem setTy_info (n : NodeMap) (b : Nat) (t : NT) : (n.setTy b t).info = n.info := by
  cases t <;> simp only [NodeMap.setTy]
  split <;> rfl

theorem InfoOk.insertLeaf {n : NodeMap} (h : InfoOk d n) (b : Nat) : InfoOk d (n.insertLeaf b) := by
  unfold NodeMap.insertLeaf
  split
  · exact h
  · intro x ch hx; rw [setTy_info] at hx; exact h x ch hx

theorem InfoOk.insertError {n : NodeMap} (h : InfoOk d n) (b : Nat) : InfoOk d (n.insertError b) := by
  unfold NodeMap.insertError
  split
  · exact h
  · intro x ch hx; rw [setTy_info] at hx; exact h x ch hx

theorem u32_of_lt {x : Nat} (h : x < 2 ^ 32) : u32 x = x := Nat.mod_eq_of_lt h

theorem map_u32 {ch : List (Nat × Nat)} (h : ∀ c ∈ ch, c.2 < 2 ^ 32) : (ch.map fun c => (c.1, u32 c.2)) = ch := by
  induction ch with
  | nil => rfl
  | cons c ch ih => rw [List.map_cons, ih fun x hx => h x (by simp [hx]), u32_of_lt (h c (by simp))]

theorem InfoOk.insertInternal (hd : Sane d) {n : NodeMap} (h : InfoOk d n) {b : Nat} {ch : List (Nat × Nat)} (hb : d.rd b = some (.internal ch)) :
    InfoOk d (n.insertInternal (u32 b) (ch.map fun c => (c.1, u32 c.2))) := by
  have h1 : b < 2 ^ 32 := Nat.lt_of_lt_of_le (hd.bound b _ hb) hd.small
  rw [map_u32 (hd.ptr b ch hb), u32_of_lt h1]
  unfold NodeMap.insertInternal
  split
  · exact h
  · intro x c hx
    rw [setTy_info] at hx
    simp only [setBit] at hx
    by_cases e : x = b
    · rw [if_pos e] at hx; cases hx; subst e; exact hb
    · rw [if_neg e] at hx; exact h x c hx

theorem foldl_inv {α β : Type} (P : β → Prop) (f : β → α → β) (hf : ∀ s a, P s → P (f s a)) : ∀ (l : List α) (s : β), P s → P (l.foldl f s) := by
  intro l
  induction l with
  | nil => intro s h; exact h
  | cons a l ih => intro s h; exact ih _ (hf s a h)

theorem readNode_info (hd : Sane d) : ∀ (depth b : Nat) (n : NodeMap) (sm : Sm), InfoOk d n → InfoOk d (readNode d depth b n sm).1 := by
  intro depth
  induction depth with
  | zero =>
    intro b n sm h
    unfold readNode
    split
    · exact h.insertError _
    · exact h
    · rename_i ch hb
      exact foldl_inv (InfoOk d) _ (fun s a hs => hs.insertLeaf _) _ _ (h.insertInternal hd hb)
  | succ depth ih =>
    intro b n sm h
    unfold readNode
    split
    · exact h.insertError _
    · exact h
    · rename_i ch hb
      have key : ∀ (all l : List Nat) (i : Nat) (n : NodeMap) (sm : Sm), InfoOk d n → InfoOk d (readKids d all (readNode d depth) l i n sm).1 := by
        intro all l
        induction l with
        | nil => intro i n sm h; exact h
        | cons v l ihl =>
          intro i n sm h
          simp only [readKids]
          split
          · exact ihl _ _ _ (ih v n sm h)
          · exact ihl _ _ _ (h.insertError _)
      exact key _ _ _ _ _ (h.insertInternal hd hb)

theorem collect_info (hd : Sane d) : ∀ (roots : List Nat) (n : NodeMap) (sm : Sm), InfoOk d n → InfoOk d (collectNodes d roots n sm).1 := by
  intro roots
  induction roots with
  | nil => intro n sm h; exact h
  | cons r roots ih =>
    intro n sm h
    simp only [collectNodes]
    apply ih
    unfold readInternal
    split
    · exact h
    · exact h
    · split
      · exact h.insertLeaf _
      · exact readNode_info hd _ _ _ _ h
      · exact h

theorem leaves_ok (hd : Sane d) {n n' : NodeMap} {dsm dsm' : Sm} {m : Sums} (h : InfoOk d n) (hr : ReadLeaves d n dsm (n', dsm', m)) : InfoOk d n' ∧ SumsOk d m := by
  obtain ⟨order, -, e⟩ := hr
  have h0 : InfoOk d ((chunks 1024 (d.nr + 1) (leavesOf d n)).foldl (chunkFail d) n) := by
    apply foldl_inv (InfoOk d) _ _ _ _ h
    intro s c hs
    unfold chunkFail
    split
    · exact hs
    · exact foldl_inv (InfoOk d) _ (fun s a hs => hs.insertError _) _ _ hs
  have := foldl_inv (fun s : NodeMap × Sm × Sums => InfoOk d s.1 ∧ SumsOk d s.2.2) (leafStep d) (by
    rintro ⟨n, sm, m⟩ b ⟨h1, h2⟩
    unfold leafStep
    split
    · exact ⟨h1.insertError _, h2⟩
    · exact ⟨h1, h2⟩
    · rename_i es hb
      have hlt : b < 2 ^ 32 := Nat.lt_of_lt_of_le (hd.bound b _ hb) hd.small
      refine ⟨h1, ?_⟩
      intro x s hx ho
      simp only [setBit, u32_of_lt hlt] at hx
      by_cases e : x = b
      · rw [if_pos e] at hx; cases hx; subst e; exact ofLeaf_ok hd hb
      · rw [if_neg e] at hx; exact h2 x s hx ho) order
    ((chunks 1024 (d.nr + 1) (leavesOf d n)).foldl (chunkFail d) n, dsm, fun _ => none) ⟨h0, fun b s h => by cases h⟩
  rw [← e] at this
  exact this

theorem count_ok (hd : Sane d) {n : NodeMap} (hn : InfoOk d n) (ign : Bool) (fuel : Nat) : ∀ (roots : List Nat) (m m' : Sums), countMapped n ign fuel roots m = some m' →
    SumsOk d m → SumsOk d m' := by
  intro roots
  induction roots with
  | nil => intro m m' h hm; cases h; exact hm
  | cons r roots ih =>
    intro m m' h hm
    simp only [countMapped] at h
    split at h
    · cases h
    · rename_i m1 s hs
      exact ih m1 m' h (summarize_ok hd hn ign fuel _ _ _ _ _ _ hs hm).1

/-- **C47, a damaged subtree is reported.**  Whatever the device, the errors of reading, the order in which the threads work, the options and the other devices: if `thin_check`
accepts a device and no mappings of its tree overlap, then every node of the tree can be read, the mapped blocks are increasing, and their number is the one in the details. -/
theorem check_sound_partial (hd : Sane d) (ign : Bool) (fuel : Nat) (roots : List Nat) (msm dsm msm' dsm' : Sm) (m : Sums) (root mapped : Nat)
    (h : Bottom d ign fuel roots msm dsm (msm', dsm', some m)) (hr : root < 2 ^ 32) (hok : devOk m root mapped = true) (ho : ¬ Overlap d root) :
    ∃ ks, Keys d root ks ∧ ks.Pairwise (· < ·) ∧ ks.length = mapped := by
  obtain ⟨n', dsm1, m0, h1, h2⟩ := h
  simp only [Prod.mk.injEq] at h2
  obtain ⟨-, -, h2⟩ := h2
  obtain ⟨i1, i2⟩ := leaves_ok hd (collect_info hd roots NodeMap.empty msm (fun b ch h => by cases h)) h1
  have hm := count_ok hd i1 ign fuel roots m0 m h2.symm i2
  unfold devOk at hok
  rw [u32_of_lt hr] at hok
  cases hs : m root with
  | none => rw [hs] at hok; cases hok
  | some s =>
    rw [hs] at hok
    by_cases he : s.errors > 0
    · simp only [if_pos he] at hok; cases hok
    · simp only [if_neg he, decide_eq_true_eq] at hok
      obtain ⟨ks, k1, k2, k3, -⟩ := (hm root s hs ho).2 (by omega)
      exact ⟨ks, k1, k2, by omega⟩

end Verif.TChk
