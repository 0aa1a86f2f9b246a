import Verif.Prop.Walker

/-!
# C15: what a walker remembers between walks

Several trees are walked with one walker (`thin_rmap`, `thin_stat`, `btree_merge`).  A tree whose walk failed fails again,
and so does a tree that has it as a child, whatever was walked in between.
-/

namespace Verif.BT

variable {V : Type}

/-- recorded failures stay -/
def Keeps (s t : WSt V) : Prop := ∀ b, s.fails b = true → t.fails b = true

theorem Keeps.trans {s t u : WSt V} (h : Keeps s t) (k : Keeps t u) : Keeps s u := fun b hb => k b (h b hb)

theorem Keeps.refl (s : WSt V) : Keeps s s := fun _ h => h

theorem setFail_keeps (s : WSt V) (b : Nat) : Keeps s (s.setFail b) := by
  intro x hx
  simp only [WSt.setFail]
  split
  · rfl
  · exact hx

theorem call_keeps (s : WSt V) (vis : List (Event V) → Event V → Bool) (e : Event V) : Keeps s (s.call vis e).1 :=
  fun _ h => h

theorem smInc_keeps {s t : WSt V} {b rc : Nat} (h : s.smInc b = some (rc, t)) : Keeps s t := by
  intro x hx
  unfold WSt.smInc at h
  split at h
  · split at h
    · simp only [Option.some.injEq, Prod.mk.injEq] at h
      rw [← h.2]; exact hx
    · split at h
      · simp only [Option.some.injEq, Prod.mk.injEq] at h
        rw [← h.2]; exact hx
      · cases h
  · cases h

theorem phase1_keeps (vis : List (Event V) → Event V → Bool) (path : List Nat) (l : List (KeyRange × Nat)) (s : WSt V) :
    Keeps s (phase1 vis path l s).1 := by
  induction l generalizing s with
  | nil => exact Keeps.refl s
  | cons p l ih =>
    obtain ⟨kr, b⟩ := p
    unfold phase1
    cases hi : s.smInc b with
    | none => exact ih s
    | some q =>
      obtain ⟨rc, t⟩ := q
      have hk := smInc_keeps hi
      simp only
      split
      · exact hk.trans (ih t)
      · split
        · exact hk.trans (ih t)
        · exact hk.trans ((call_keeps t vis _).trans (ih _))

theorem ite_keeps {s t : WSt V} (h : Keeps s t) (b : Nat) (c : Prop) [Decidable c] :
    Keeps s (if c then t.setFail b else t) := by
  split
  · exact h.trans (setFail_keeps _ _)
  · exact h

theorem walkNode_keeps (rd : Bool → Nat → Option (Blk V)) (vis : List (Event V) → Event V → Bool) (fuel : Nat) :
    ∀ path isRoot kr b (s : WSt V), Keeps s (walkNode rd vis fuel path isRoot kr b s).1 := by
  induction fuel with
  | zero => intros; exact Keeps.refl _
  | succ fuel ih =>
    intro path isRoot kr b s
    unfold walkNode
    cases rd isRoot b with
    | none => exact setFail_keeps _ _
    | some n =>
      cases n with
      | leaf es =>
        simp only
        split
        · exact call_keeps s vis _
        · exact (call_keeps s vis _).trans (setFail_keeps _ _)
      | internal ch =>
        simp only
        cases splitKeyRanges kr (ch.map (·.1)) with
        | none => exact Keeps.refl _
        | some krs =>
          simp only
          have h1 := phase1_keeps vis (path ++ [b]) (krs.zip (ch.map (·.2))) s
          have h2 : ∀ l (t : WSt V), Keeps t (phase2 (walkNode rd vis fuel (path ++ [b]) false) l t).1 := by
            intro l
            induction l with
            | nil => intro t; exact Keeps.refl t
            | cons p l ihl => intro t; exact (ih _ _ _ _ _).trans (ihl _)
          have h3 := h1.trans (h2 (phase1 vis (path ++ [b]) (krs.zip (ch.map (·.2))) s).2.2 _)
          exact ite_keeps h3 b _

theorem walk_keeps (io : Nat → Bool) (rd : Bool → Nat → Option (Blk V)) (vis : List (Event V) → Event V → Bool)
    (fuel : Nat) (path : List Nat) (root : Nat) (s : WSt V) : Keeps s (walk io rd vis fuel path root s).1 := by
  unfold walk
  cases hi : s.smInc root with
  | none => exact Keeps.refl s
  | some p =>
    obtain ⟨rc, t⟩ := p
    have hk := smInc_keeps hi
    simp only
    split
    · split
      · exact hk.trans (call_keeps t vis _)
      · exact hk.trans ((call_keeps t vis _).trans (call_keeps _ vis _))
    · split
      · exact hk
      · exact hk.trans ((walkNode_keeps rd vis fuel path true _ root t).trans (call_keeps _ vis _))

theorem walk_mono (io : Nat → Bool) (rd : Bool → Nat → Option (Blk V)) (vis : List (Event V) → Event V → Bool)
    (fuel : Nat) (path : List Nat) (root : Nat) (s : WSt V) (hmx : 0 < s.mx) : Mono s (walk io rd vis fuel path root s).1 := by
  unfold walk
  cases hi : s.smInc root with
  | none => exact Mono.refl s
  | some p =>
    obtain ⟨rc, t⟩ := p
    have hk := (smInc_spec hi).1
    simp only
    split
    · split
      · exact hk.trans (call_mono t vis _)
      · exact hk.trans ((call_mono t vis _).trans (call_mono _ vis _))
    · split
      · exact hk
      · exact hk.trans ((walkNode_mono rd vis fuel path true _ root t (by rw [hk.mx]; exact hmx)).trans (call_mono _ vis _))

/-- a walk that fails is remembered, unless the root could not even be read from the device, was counted out, or is an
internal node whose keys are out of order (the walker forgets these: `walk_shared_split_error_refuted`), or the failure was
the visitor's answer to a tree it saw before -/
theorem walk_err_marks (io : Nat → Bool) (rd : Bool → Nat → Option (Blk V)) (vis : List (Event V) → Event V → Bool)
    (fuel : Nat) (path : List Nat) (root : Nat) (s : WSt V) (hio : io root = true) (hr : root < s.nr) (h0 : s.seen root = 0)
    (hmx : 0 < s.mx) (hk : ∀ ch, rd true root = some (.internal ch) → (splitKeyRanges ⟨none, none⟩ (ch.map (·.1))).isSome)
    (he : (walk io rd vis fuel path root s).2 = .err) :
    (walk io rd vis fuel path root s).1.fails root = true ∧ 0 < (walk io rd vis fuel path root s).1.seen root := by
  have hinc : s.smInc root = some (0, { s with seen := fun x => if x = root then s.seen root + 1 else s.seen x }) := by
    unfold WSt.smInc; rw [if_pos hr, if_pos (by omega), h0]
  unfold walk at he ⊢
  rw [hinc] at he ⊢
  simp only [gt_iff_lt, Nat.lt_irrefl, if_false, hio, Bool.not_true, Bool.false_eq_true] at he ⊢
  generalize hst : ({ s with seen := fun x => if x = root then s.seen root + 1 else s.seen x } : WSt V) = st at he ⊢
  have hpos : 0 < st.seen root := by rw [← hst]; simp
  have hmx' : 0 < st.mx := by rw [← hst]; exact hmx
  have hm := walkNode_mono rd vis fuel path true ⟨none, none⟩ root st hmx'
  refine ⟨?_, Nat.lt_of_lt_of_le hpos (hm.seen root)⟩
  show (walkNode rd vis fuel path true ⟨none, none⟩ root st).1.fails root = true
  cases fuel with
  | zero => simp [walkNode] at he
  | succ fuel =>
    unfold walkNode at he ⊢
    cases hrd : rd true root with
    | none => simp [WSt.setFail]
    | some n =>
      rw [hrd] at he
      cases n with
      | leaf es =>
        simp only at he ⊢
        split at he
        · cases he
        · next hc => rw [if_neg hc]; simp [WSt.setFail]
      | internal ch =>
        obtain ⟨krs, hks⟩ := Option.isSome_iff_exists.mp (hk ch hrd)
        simp only [hks] at he ⊢
        rw [if_pos he]; simp [WSt.setFail]

/-- C15: a root marked as failed is an error for every later walk. -/
theorem walk_failed_again (io : Nat → Bool) (rd : Bool → Nat → Option (Blk V)) (vis : List (Event V) → Event V → Bool)
    (fuel : Nat) (path : List Nat) (root : Nat) (s : WSt V) (hf : s.fails root = true) (hs : 0 < s.seen root) :
    (walk io rd vis fuel path root s).2 = .err := by
  unfold walk
  cases hi : s.smInc root with
  | none => rfl
  | some p =>
    obtain ⟨rc, t⟩ := p
    obtain ⟨-, -, hrc, -, -, hfl, -⟩ := smInc_spec hi
    simp only
    rw [if_pos (show rc > 0 by omega), if_pos (by rw [hfl]; exact hf)]

theorem phase1_failed_child (vis : List (Event V) → Event V → Bool) (path : List Nat) (l : List (KeyRange × Nat)) (s : WSt V)
    (c : Nat) (hc : c ∈ l.map (·.2)) (hf : s.fails c = true) (hs : 0 < s.seen c) (hr : c < s.nr) (hsat : s.sat = true)
    (hmx : 0 < s.mx) : (phase1 vis path l s).2.1 = true := by
  induction l generalizing s with
  | nil => simp at hc
  | cons p l ih =>
    obtain ⟨kr, b⟩ := p
    unfold phase1
    cases hi : s.smInc b with
    | none =>
      have hbc : b ≠ c := by
        rintro rfl
        unfold WSt.smInc at hi
        rw [if_pos hr] at hi
        split at hi
        · cases hi
        · first | cases hi | (rw [if_pos hsat] at hi; cases hi)
      exact ih s (by simpa [hbc, Ne.symm hbc] using hc) hf hs hr hsat hmx
    | some q =>
      obtain ⟨rc, t⟩ := q
      obtain ⟨hm, -, hrc, -, -, hfl, -⟩ := smInc_spec hi
      have hft : t.fails c = true := by rw [hfl]; exact hf
      have hst : 0 < t.seen c := Nat.lt_of_lt_of_le hs (hm.seen c)
      have hrt : c < t.nr := by rw [hm.nr]; exact hr
      have hsat' : t.sat = true := by rw [hm.sat]; exact hsat
      have hmx' : 0 < t.mx := by rw [hm.mx]; exact hmx
      by_cases hbc : b = c
      · subst hbc
        simp only
        rw [if_neg (by omega), if_pos hft]
      · have hc' : c ∈ l.map (·.2) := by simpa [hbc, Ne.symm hbc] using hc
        simp only
        split
        · exact ih t hc' hft hst hrt hsat' hmx'
        · split
          · rfl
          · have := ih (t.call vis (.again path b)).1 hc' hft hst hrt hsat' hmx'
            simp [this]

/-- C15: so it is for a tree that has the failed one as a child of its root (the walker's map saturates, as in all tools
that walk several trees). -/
theorem walk_failed_child (io : Nat → Bool) (rd : Bool → Nat → Option (Blk V)) (vis : List (Event V) → Event V → Bool)
    (fuel : Nat) (path : List Nat) (root c : Nat) (ch : List (Nat × Nat)) (s : WSt V) (hf : s.fails c = true)
    (hs : 0 < s.seen c) (hr : c < s.nr) (hsat : s.sat = true) (hmx : 0 < s.mx) (hfresh : s.seen root = 0)
    (hrd : rd true root = some (.internal ch)) (hc : c ∈ ch.map (·.2)) (hfuel : 0 < fuel) :
    (walk io rd vis fuel path root s).2 ≠ .ok := by
  unfold walk
  cases hi : s.smInc root with
  | none => simp
  | some p =>
    obtain ⟨rc, t⟩ := p
    obtain ⟨hm, -, hrc, -, -, hfl, -⟩ := smInc_spec hi
    simp only
    rw [if_neg (by omega)]
    split
    · simp
    · simp only
      cases fuel with
      | zero => omega
      | succ fuel =>
        unfold walkNode
        simp only [hrd]
        cases hk : splitKeyRanges ⟨none, none⟩ (ch.map (·.1)) with
        | none => simp
        | some krs =>
          simp only
          have hlen := (split_keys hk).2.2
          have hmem : c ∈ (krs.zip (ch.map (·.2))).map (·.2) := by
            rw [List.map_snd_zip (by rw [hlen]; simp)]; exact hc
          have := phase1_failed_child vis (path ++ [root]) (krs.zip (ch.map (·.2))) t c hmem (by rw [hfl]; exact hf)
            (Nat.lt_of_lt_of_le hs (hm.seen c)) (by rw [hm.nr]; exact hr) (by rw [hm.sat]; exact hsat) (by rw [hm.mx]; exact hmx)
          rw [this]
          generalize (phase2 _ _ _).2 = r2
          cases r2 <;> simp [Res.and]

/-- C15: a history of walks on one walker; `root` was walked first and its walk failed (for another reason than the order of
its own keys).  Every later walk of `root`, and of every new tree that has `root` as a child, fails too. -/
theorem walk_error_sticks (io : Nat → Bool) (rd : Bool → Nat → Option (Blk V)) (vis : List (Event V) → Event V → Bool)
    (fuel : Nat) (hfuel : 0 < fuel) (nr : Nat) (root : Nat) (path : List Nat) (later : List (List Nat × Nat))
    (hio : io root = true) (hr : root < nr)
    (hk : ∀ ch, rd true root = some (.internal ch) → (splitKeyRanges ⟨none, none⟩ (ch.map (·.1))).isSome)
    (he : (walk io rd vis fuel path root (WSt.fresh nr 1 true)).2 = .err) :
    let s := later.foldl (fun s r => (walk io rd vis fuel r.1 r.2 s).1) (walk io rd vis fuel path root (WSt.fresh nr 1 true)).1
    (∀ path', (walk io rd vis fuel path' root s).2 = .err) ∧
    (∀ path' root' ch, rd true root' = some (.internal ch) → root ∈ ch.map (·.2) → s.seen root' = 0 →
      (walk io rd vis fuel path' root' s).2 ≠ .ok) := by
  have h1 := walk_err_marks io rd vis fuel path root (WSt.fresh nr 1 true) hio hr rfl Nat.zero_lt_one hk he
  have hm1 : (walk io rd vis fuel path root (WSt.fresh nr 1 true)).1.nr = nr ∧
      (walk io rd vis fuel path root (WSt.fresh nr 1 true)).1.mx = 1 ∧
      (walk io rd vis fuel path root (WSt.fresh nr 1 true)).1.sat = true := by
    have := walk_mono io rd vis fuel path root (WSt.fresh nr 1 true) Nat.zero_lt_one
    exact ⟨this.nr, this.mx, this.sat⟩
  generalize (walk io rd vis fuel path root (WSt.fresh nr 1 true)).1 = s0 at h1 hm1
  have key : ∀ (l : List (List Nat × Nat)) (s : WSt V), s.fails root = true → 0 < s.seen root → s.nr = nr → s.mx = 1 →
      s.sat = true →
      (l.foldl (fun s r => (walk io rd vis fuel r.1 r.2 s).1) s).fails root = true ∧
      0 < (l.foldl (fun s r => (walk io rd vis fuel r.1 r.2 s).1) s).seen root ∧
      (l.foldl (fun s r => (walk io rd vis fuel r.1 r.2 s).1) s).nr = nr ∧
      (l.foldl (fun s r => (walk io rd vis fuel r.1 r.2 s).1) s).mx = 1 ∧
      (l.foldl (fun s r => (walk io rd vis fuel r.1 r.2 s).1) s).sat = true := by
    intro l
    induction l with
    | nil => intro s a b c d e; exact ⟨a, b, c, d, e⟩
    | cons r l ih =>
      intro s a b c d e
      have hm := walk_mono io rd vis fuel r.1 r.2 s (by rw [d]; decide)
      exact ih _ (walk_keeps io rd vis fuel r.1 r.2 s root a) (Nat.lt_of_lt_of_le b (hm.seen root)) (hm.nr.trans c)
        (hm.mx.trans d) (hm.sat.trans e)
  obtain ⟨a, b, c, d, e⟩ := key later s0 h1.1 h1.2 hm1.1 hm1.2.1 hm1.2.2
  refine ⟨fun path' => walk_failed_again io rd vis fuel path' root _ a b, ?_⟩
  intro path' root' ch hrd hc h0
  exact walk_failed_child io rd vis fuel path' root' root ch _ a b (by rw [c]; exact hr) e (by rw [d]; decide) h0 hrd hc hfuel

/-- the hypotheses are met: the root of the first tree points to an unreadable block -/
example : (walk (fun _ => true) (fun _ b => if b = 1 then some (.internal [(0, 2)]) else if b = 3 then some (.internal [(0, 1)])
    else none) (fun _ _ => true) 11 [] 1 (WSt.fresh (V := Nat) 10 1 true)).2 = .err := by decide

end Verif.BT
