import Verif.Model.Walker
import Verif.Prop.BTreeRead

/-!
# C15, C48: the b-tree walker
-/

namespace Verif.BT

variable {V : Type}

/-! ## Specification -/

/-- blocks reachable from `root` by following child pointers of readable nodes (pointers beyond the end of the device
are not followed) -/
inductive Reach (rd : Bool → Nat → Option (Blk V)) (nr root : Nat) : Nat → Prop where
  | root : Reach rd nr root root
  | child {b ch c} : Reach rd nr root b → rd true b = some (.internal ch) → c ∈ ch → c.2 < nr → Reach rd nr root c.2

/-- what must be true of a block for a walk to have covered it: it can be read; a leaf was shown to the visitor with
some key range and accepted; an internal node's keys are strictly increasing -/
def Covered (rd : Bool → Nat → Option (Blk V)) (vis : List (Event V) → Event V → Bool) (log : List (Event V))
    (b : Nat) : Prop :=
  match rd true b with
  | none => False
  | some (.leaf es) => ∃ pre post path kr, log = pre ++ Event.visit (path ++ [b]) kr es :: post ∧
      vis pre (Event.visit (path ++ [b]) kr es) = true
  | some (.internal ch) => ch ≠ [] ∧ (ch.map (·.1)).Pairwise (· < ·)

/-! ## Growth of the state -/

/-- fixed parameters, growing counters and log -/
structure Mono (s t : WSt V) : Prop where
  nr : t.nr = s.nr
  mx : t.mx = s.mx
  sat : t.sat = s.sat
  seen : ∀ x, s.seen x ≤ t.seen x
  log : ∃ l, t.log = s.log ++ l

theorem Mono.refl (s : WSt V) : Mono s s := ⟨rfl, rfl, rfl, fun _ => Nat.le_refl _, [], by simp⟩

theorem Mono.trans {s t u : WSt V} (h : Mono s t) (k : Mono t u) : Mono s u := by
  obtain ⟨l, hl⟩ := h.log
  obtain ⟨m, hm⟩ := k.log
  exact ⟨k.nr.trans h.nr, k.mx.trans h.mx, k.sat.trans h.sat, fun x => Nat.le_trans (h.seen x) (k.seen x), l ++ m,
    by rw [hm, hl]; simp⟩

theorem setFail_mono (s : WSt V) (b : Nat) : Mono s (s.setFail b) :=
  ⟨rfl, rfl, rfl, fun _ => Nat.le_refl _, [], by simp [WSt.setFail]⟩

theorem call_mono (s : WSt V) (vis : List (Event V) → Event V → Bool) (e : Event V) : Mono s (s.call vis e).1 :=
  ⟨rfl, rfl, rfl, fun _ => Nat.le_refl _, [e], rfl⟩

theorem smInc_spec {s : WSt V} {b rc : Nat} {t : WSt V} (h : s.smInc b = some (rc, t)) :
    Mono s t ∧ b < s.nr ∧ rc = s.seen b ∧ (0 < s.mx → 0 < t.seen b) ∧ (∀ x, x ≠ b → t.seen x = s.seen x) ∧
      t.fails = s.fails ∧ t.log = s.log := by
  unfold WSt.smInc at h
  by_cases hb : b < s.nr
  · rw [if_pos hb] at h
    by_cases hm : s.seen b < s.mx
    · rw [if_pos hm] at h
      simp only [Option.some.injEq, Prod.mk.injEq] at h
      obtain ⟨rfl, rfl⟩ := h
      refine ⟨⟨rfl, rfl, rfl, ?_, [], by simp⟩, hb, rfl, by simp, ?_, rfl, rfl⟩
      · intro x; simp only; split
        · next e => rw [e]; omega
        · exact Nat.le_refl _
      · intro x hx; simp [hx]
    · rw [if_neg hm] at h
      cases hs : s.sat with
      | false => simp [hs] at h
      | true =>
        simp only [hs, if_true, Option.some.injEq, Prod.mk.injEq] at h
        obtain ⟨rfl, rfl⟩ := h
        exact ⟨Mono.refl _, hb, rfl, by omega, fun _ _ => rfl, rfl, rfl⟩
  · rw [if_neg hb] at h; cases h

/-- a child whose counter cannot be raised either lies beyond the device or was counted before -/
theorem smInc_none {s : WSt V} {b : Nat} (h : s.smInc b = none) (hmx : 0 < s.mx) : s.nr ≤ b ∨ 0 < s.seen b := by
  unfold WSt.smInc at h
  by_cases hb : b < s.nr
  · rw [if_pos hb] at h
    by_cases hm : s.seen b < s.mx
    · rw [if_pos hm] at h; cases h
    · exact Or.inr (by omega)
  · exact Or.inl (by omega)

theorem phase1_spec (vis : List (Event V) → Event V → Bool) (path : List Nat) (l : List (KeyRange × Nat)) (s : WSt V)
    (hmx : 0 < s.mx) :
    Mono s (phase1 vis path l s).1 ∧
    (∀ c ∈ l, c.2 < s.nr → 0 < (phase1 vis path l s).1.seen c.2) ∧
    (∀ x, s.seen x = 0 → 0 < (phase1 vis path l s).1.seen x → ∃ c ∈ (phase1 vis path l s).2.2, c.2 = x) ∧
    (∀ c ∈ (phase1 vis path l s).2.2, c ∈ l ∧ c.2 < s.nr ∧ s.seen c.2 = 0 ∧ 0 < (phase1 vis path l s).1.seen c.2) := by
  induction l generalizing s with
  | nil => exact ⟨Mono.refl _, by simp, by intro x h1 h2; simp [phase1] at h2; omega, by simp [phase1]⟩
  | cons p l ih =>
    obtain ⟨kr, b⟩ := p
    unfold phase1
    cases hi : s.smInc b with
    | none =>
      simp only
      obtain ⟨h1, h2, h3, h4⟩ := ih s hmx
      refine ⟨h1, ?_, h3, ?_⟩
      · intro c hc hlt
        rcases List.mem_cons.mp hc with rfl | hc
        · rcases smInc_none hi hmx with h | h
          · simp only at hlt; omega
          · exact Nat.lt_of_lt_of_le h (h1.seen b)
        · exact h2 c hc hlt
      · intro c hc
        obtain ⟨a, b, c', d⟩ := h4 c hc
        exact ⟨List.mem_cons_of_mem _ a, b, c', d⟩
    | some p =>
      obtain ⟨rc, t⟩ := p
      obtain ⟨m1, m2, m3, m4, m5, -, -⟩ := smInc_spec hi
      have m4 := m4 hmx
      simp only
      -- common part for a state `u` that continues `t`
      have common : ∀ u : WSt V, Mono t u → u.seen = t.seen →
          Mono s (phase1 vis path l u).1 ∧
          (∀ c ∈ (kr, b) :: l, c.2 < s.nr → 0 < (phase1 vis path l u).1.seen c.2) ∧
          (∀ x, s.seen x = 0 → 0 < (phase1 vis path l u).1.seen x → x = b ∨ ∃ c ∈ (phase1 vis path l u).2.2, c.2 = x) ∧
          (∀ c ∈ (phase1 vis path l u).2.2, c ∈ (kr, b) :: l ∧ c.2 < s.nr ∧ s.seen c.2 = 0 ∧
            0 < (phase1 vis path l u).1.seen c.2) ∧ 0 < (phase1 vis path l u).1.seen b := by
        intro u hu hse
        obtain ⟨h1, h2, h3, h4⟩ := ih u (by rw [hu.mx, m1.mx]; exact hmx)
        have hb : 0 < (phase1 vis path l u).1.seen b := by
          have := h1.seen b; rw [hse] at this; omega
        refine ⟨m1.trans (hu.trans h1), ?_, ?_, ?_, hb⟩
        · intro c hc hlt
          rcases List.mem_cons.mp hc with rfl | hc
          · exact hb
          · exact h2 c hc (by rw [hu.nr, m1.nr]; exact hlt)
        · intro x hx0 hx
          by_cases hxb : x = b
          · exact Or.inl hxb
          · refine Or.inr (h3 x ?_ hx)
            rw [hse, m5 x hxb]; exact hx0
        · intro c hc
          obtain ⟨a, b', c', d⟩ := h4 c hc
          refine ⟨List.mem_cons_of_mem _ a, by rw [hu.nr, m1.nr] at b'; exact b', ?_, d⟩
          rw [hse] at c'
          have := m1.seen c.2
          omega
      by_cases hrc : rc = 0
      · rw [if_pos hrc]
        obtain ⟨h1, h2, h3, h4, h5⟩ := common t (Mono.refl _) rfl
        refine ⟨h1, h2, ?_, ?_⟩
        · intro x hx0 hx
          rcases h3 x hx0 hx with rfl | ⟨c, hc, e⟩
          · exact ⟨(kr, x), by simp, rfl⟩
          · exact ⟨c, by simp [hc], e⟩
        · intro c hc
          rcases List.mem_cons.mp hc with rfl | hc
          · exact ⟨by simp, m2, by simp only; omega, h5⟩
          · exact h4 c hc
      · rw [if_neg hrc]
        have hpos : s.seen b ≠ 0 := by omega
        by_cases hf : t.fails b
        · rw [if_pos hf]
          obtain ⟨h1, h2, h3, h4, h5⟩ := common t (Mono.refl _) rfl
          refine ⟨h1, h2, ?_, h4⟩
          intro x hx0 hx
          rcases h3 x hx0 hx with rfl | h
          · exact absurd hx0 hpos
          · exact h
        · rw [if_neg hf]
          obtain ⟨h1, h2, h3, h4, h5⟩ := common (t.call vis (.again path b)).1 (call_mono _ _ _) rfl
          refine ⟨h1, h2, ?_, h4⟩
          intro x hx0 hx
          rcases h3 x hx0 hx with rfl | h
          · exact absurd hx0 hpos
          · exact h

theorem ite_setFail_mono {s t : WSt V} (h : Mono s t) (b : Nat) (c : Prop) [Decidable c] :
    Mono s (if c then t.setFail b else t) := by
  split
  · exact h.trans (setFail_mono _ _)
  · exact h

theorem walkNode_mono (rd : Bool → Nat → Option (Blk V)) (vis : List (Event V) → Event V → Bool) (fuel : Nat) :
    ∀ path isRoot kr b (s : WSt V), 0 < s.mx → Mono s (walkNode rd vis fuel path isRoot kr b s).1 := by
  induction fuel with
  | zero => intros; exact Mono.refl _
  | succ fuel ih =>
    intro path isRoot kr b s hmx
    unfold walkNode
    cases rd isRoot b with
    | none => exact setFail_mono _ _
    | some n =>
      cases n with
      | leaf es =>
        simp only
        split
        · exact call_mono _ vis _
        · exact (call_mono _ vis _).trans (setFail_mono _ _)
      | internal ch =>
        simp only
        cases splitKeyRanges kr (ch.map (·.1)) with
        | none => exact Mono.refl _
        | some krs =>
          simp only
          obtain ⟨h1, -, -, -⟩ := phase1_spec vis (path ++ [b]) (krs.zip (ch.map (·.2))) s hmx
          have h2 : ∀ (l : List (KeyRange × Nat)) (t : WSt V), 0 < t.mx →
              Mono t (phase2 (walkNode rd vis fuel (path ++ [b]) false) l t).1 := by
            intro l
            induction l with
            | nil => intro t _; exact Mono.refl _
            | cons p l ih2 =>
              intro t ht
              have := ih (path ++ [b]) false p.1 p.2 t ht
              exact this.trans (ih2 _ (by rw [this.mx]; exact ht))
          have := h1.trans (h2 (phase1 vis (path ++ [b]) (krs.zip (ch.map (·.2))) s).2.2 _ (by rw [h1.mx]; exact hmx))
          exact ite_setFail_mono this b _

theorem phase2_mono (rd : Bool → Nat → Option (Blk V)) (vis : List (Event V) → Event V → Bool) (fuel : Nat) (path : List Nat)
    (l : List (KeyRange × Nat)) (t : WSt V) (ht : 0 < t.mx) :
    Mono t (phase2 (walkNode rd vis fuel path false) l t).1 := by
  induction l generalizing t with
  | nil => exact Mono.refl _
  | cons p l ih2 =>
    have := walkNode_mono rd vis fuel path false p.1 p.2 t ht
    exact this.trans (ih2 _ (by rw [this.mx]; exact ht))

/-! ## Soundness -/

theorem Res.and_ok {a b : Res} (h : a.and b = .ok) : a = .ok ∧ b = .ok := by
  cases a <;> cases b <;> simp [Res.and] at h ⊢

/-- covered, with all in-range children counted -/
def Closed (rd : Bool → Nat → Option (Blk V)) (vis : List (Event V) → Event V → Bool) (s : WSt V) (b : Nat) : Prop :=
  Covered rd vis s.log b ∧ ∀ ch, rd true b = some (.internal ch) → ∀ c ∈ ch, c.2 < s.nr → 0 < s.seen c.2

theorem Covered.mono {rd : Bool → Nat → Option (Blk V)} {vis : List (Event V) → Event V → Bool} {l m : List (Event V)}
    {b : Nat} (h : Covered rd vis l b) : Covered rd vis (l ++ m) b := by
  unfold Covered at *
  split
  · next e => simp [e] at h
  · next e =>
    simp only [e] at h
    obtain ⟨pre, post, path, kr, h1, h2⟩ := h
    exact ⟨pre, post ++ m, path, kr, by rw [h1]; simp, h2⟩
  · next e => simpa only [e] using h

theorem Closed.mono {rd : Bool → Nat → Option (Blk V)} {vis : List (Event V) → Event V → Bool} {s t : WSt V} {b : Nat}
    (h : Closed rd vis s b) (m : Mono s t) : Closed rd vis t b := by
  obtain ⟨l, hl⟩ := m.log
  refine ⟨by rw [hl]; exact h.1.mono, ?_⟩
  intro ch hch c hc hlt
  exact Nat.lt_of_lt_of_le (h.2 ch hch c hc (by rw [← m.nr]; exact hlt)) (m.seen _)

theorem split_keys {kr : KeyRange} {keys : List Nat} {krs : List KeyRange} (h : splitKeyRanges kr keys = some krs) :
    keys ≠ [] ∧ keys.Pairwise (· < ·) ∧ krs.length = keys.length := by
  obtain ⟨h1, h2⟩ := split_key_ranges_spec_partial kr keys
  have hn : splitKeyRanges kr keys ≠ none := by rw [h]; simp
  have := Classical.not_not.mp (fun hh => hn (h1.mpr hh))
  exact ⟨this.1, this.2.1, (h2 krs h).1⟩

theorem walkNode_sound (rd : Bool → Nat → Option (Blk V)) (hrd : ∀ b n, rd false b = some n → rd true b = some n)
    (vis : List (Event V) → Event V → Bool) (fuel : Nat) :
    ∀ path isRoot kr b (s : WSt V), 0 < s.mx → (walkNode rd vis fuel path isRoot kr b s).2 = .ok →
      ∀ x, (x = b ∨ (s.seen x = 0 ∧ 0 < (walkNode rd vis fuel path isRoot kr b s).1.seen x)) →
        Closed rd vis (walkNode rd vis fuel path isRoot kr b s).1 x := by
  induction fuel with
  | zero => intro path isRoot kr b s _ h; simp [walkNode] at h
  | succ fuel ih =>
    intro path isRoot kr b s hmx hok
    have hrd' : ∀ n, rd isRoot b = some n → rd true b = some n := by
      intro n hn; cases isRoot with
      | true => exact hn
      | false => exact hrd b n hn
    have hm := walkNode_mono rd vis (fuel + 1) path isRoot kr b s hmx
    revert hok hm
    rw [walkNode]
    cases hb : rd isRoot b with
    | none => intro hok; simp at hok
    | some n =>
      have hb' := hrd' n hb
      cases n with
      | leaf es =>
        simp only
        by_cases hv : (s.call vis (.visit (path ++ [b]) kr es)).2 = true
        · rw [if_pos hv]
          intro _ _ x hx
          have hxb : x = b := by
            rcases hx with h | ⟨h1, h2⟩
            · exact h
            · simp [WSt.call] at h2; omega
          subst hxb
          refine ⟨?_, by intro ch hch; rw [hb'] at hch; cases hch⟩
          unfold Covered
          rw [hb']
          exact ⟨s.log, [], path, kr, rfl, hv⟩
        · rw [if_neg hv]; intro hok; simp at hok
      | internal ch =>
        simp only
        cases hk : splitKeyRanges kr (ch.map (·.1)) with
        | none => intro hok; simp at hok
        | some krs =>
          simp only
          intro hok hm
          obtain ⟨p1, p2, p3, p4⟩ := phase1_spec vis (path ++ [b]) (krs.zip (ch.map (·.2))) s hmx
          generalize hP : phase1 vis (path ++ [b]) (krs.zip (ch.map (·.2))) s = P at *
          have hne : ((if P.2.1 = true then Res.err else Res.ok).and
              (phase2 (walkNode rd vis fuel (path ++ [b]) false) P.2.2 P.1).2) ≠ .err := by rw [hok]; simp
          rw [if_neg hne] at hm ⊢
          obtain ⟨r1, r2⟩ := Res.and_ok hok
          have hPmx : 0 < P.1.mx := by rw [p1.mx]; exact hmx
          -- every new child, and everything below it, is closed
          have q : ∀ (l : List (KeyRange × Nat)) (t : WSt V), 0 < t.mx →
              (phase2 (walkNode rd vis fuel (path ++ [b]) false) l t).2 = .ok →
              ∀ x, ((∃ c ∈ l, c.2 = x) ∨
                (t.seen x = 0 ∧ 0 < (phase2 (walkNode rd vis fuel (path ++ [b]) false) l t).1.seen x)) →
              Closed rd vis (phase2 (walkNode rd vis fuel (path ++ [b]) false) l t).1 x := by
            intro l
            induction l with
            | nil => intro t _ _ x hx; simp [phase2] at hx; omega
            | cons p l ih2 =>
              intro t ht hok2 x hx
              obtain ⟨o1, o2⟩ := Res.and_ok hok2
              have hm1 := walkNode_mono rd vis fuel (path ++ [b]) false p.1 p.2 t ht
              have ht2 : 0 < (walkNode rd vis fuel (path ++ [b]) false p.1 p.2 t).1.mx := by rw [hm1.mx]; exact ht
              have hm2 := phase2_mono rd vis fuel (path ++ [b]) l _ ht2
              have c1 := ih (path ++ [b]) false p.1 p.2 t ht o1
              have c2 := ih2 _ ht2 o2
              show Closed rd vis (phase2 _ l (walkNode rd vis fuel (path ++ [b]) false p.1 p.2 t).1).1 x
              by_cases hx1 : x = p.2 ∨ (t.seen x = 0 ∧ 0 < (walkNode rd vis fuel (path ++ [b]) false p.1 p.2 t).1.seen x)
              · exact (c1 x hx1).mono hm2
              · apply c2
                rcases hx with ⟨c, hc, e⟩ | ⟨h1, h2⟩
                · rcases List.mem_cons.mp hc with rfl | hc
                  · exact absurd (Or.inl e.symm) hx1
                  · exact Or.inl ⟨c, hc, e⟩
                · refine Or.inr ⟨?_, h2⟩
                  rcases Nat.eq_zero_or_pos ((walkNode rd vis fuel (path ++ [b]) false p.1 p.2 t).1.seen x) with h | h
                  · exact h
                  · exact absurd (Or.inr ⟨h1, h⟩) hx1
          have hq := q P.2.2 P.1 hPmx r2
          have hm2 := phase2_mono rd vis fuel (path ++ [b]) P.2.2 P.1 hPmx
          intro x hx
          -- `b` itself
          have hbcl : Closed rd vis (phase2 (walkNode rd vis fuel (path ++ [b]) false) P.2.2 P.1).1 b := by
            obtain ⟨k1, k2, k3⟩ := split_keys hk
            refine ⟨?_, ?_⟩
            · unfold Covered; rw [hb']; exact ⟨by simpa using k1, k2⟩
            · intro ch' hch c hc hlt
              rw [hb'] at hch
              cases hch
              have : ∃ kr', (kr', c.2) ∈ krs.zip (ch.map (·.2)) := by
                obtain ⟨i, hi, e⟩ := List.mem_iff_getElem.mp hc
                have hi' : i < krs.length := by rw [k3]; simpa using hi
                refine ⟨krs[i], List.mem_iff_getElem.mpr ⟨i, by simp; omega, ?_⟩⟩
                simp [e]
              obtain ⟨kr', hz⟩ := this
              have hlt' : c.2 < s.nr := by rw [← hm.nr]; exact hlt
              exact Nat.lt_of_lt_of_le (p2 _ hz hlt') (hm2.seen _)
          rcases hx with rfl | ⟨h1, h2⟩
          · exact hbcl
          · apply hq
            by_cases h3 : P.1.seen x = 0
            · exact Or.inr ⟨h3, h2⟩
            · obtain ⟨c, hc, e⟩ := p3 x h1 (by omega)
              exact Or.inl ⟨c, hc, e⟩

/-- C15, damage detection.  When a walk on a fresh walker reports success, every block reachable from the root can be
read, every reachable internal node has increasing keys, and every reachable leaf was shown to the visitor and
accepted by it. -/
theorem walk_ok_covers (io : Nat → Bool) (rd : Bool → Nat → Option (Blk V))
    (hrd : ∀ b n, rd false b = some n → rd true b = some n) (vis : List (Event V) → Event V → Bool)
    (nr mx : Nat) (hmx : 0 < mx) (sat : Bool) (fuel : Nat) (path : List Nat) (root : Nat)
    (hok : (walk io rd vis fuel path root (WSt.fresh nr mx sat)).2 = .ok) :
    ∀ b, Reach rd nr root b → Covered rd vis (walk io rd vis fuel path root (WSt.fresh nr mx sat)).1.log b := by
  unfold walk at hok ⊢
  cases hi : (WSt.fresh (V := V) nr mx sat).smInc root with
  | none => rw [hi] at hok; simp at hok
  | some p =>
    obtain ⟨rc, s⟩ := p
    rw [hi] at hok
    obtain ⟨m1, m2, m3, m4, m5, -, -⟩ := smInc_spec hi
    have m4 : 0 < s.seen root := m4 hmx
    have hrc : ¬ rc > 0 := by rw [m3]; simp [WSt.fresh]
    simp only [if_neg hrc] at hok ⊢
    cases hio : io root with
    | false => simp [hio] at hok
    | true =>
      simp only [hio, Bool.not_true, Bool.false_eq_true, if_false] at hok ⊢
      have hsmx : 0 < s.mx := by rw [m1.mx]; exact hmx
      have hs := walkNode_sound rd hrd vis fuel path true ⟨none, none⟩ root s hsmx hok
      have hmono := walkNode_mono rd vis fuel path true ⟨none, none⟩ root s hsmx
      generalize hW : walkNode rd vis fuel path true ⟨none, none⟩ root s = W at *
      -- every counted block is closed
      have hall : ∀ x, 0 < W.1.seen x → Closed rd vis W.1 x := by
        intro x hx
        apply hs
        by_cases e : x = root
        · exact Or.inl e
        · refine Or.inr ⟨?_, hx⟩
          rw [m5 x e]; rfl
      have hnr : W.1.nr = nr := by rw [hmono.nr, m1.nr]; rfl
      intro b hb
      have hseen : 0 < W.1.seen b := by
        induction hb with
        | root => exact Nat.lt_of_lt_of_le m4 (hmono.seen root)
        | child hr hch hc hlt ih => exact (hall _ ih).2 _ hch _ hc (by rw [hnr]; exact hlt)
      exact (hall b hseen).1.mono

/-- The same for a walker that has seen blocks before, as long as it has not seen any of the tree's. -/
theorem walk_ok_covers_from (io : Nat → Bool) (rd : Bool → Nat → Option (Blk V))
    (hrd : ∀ b n, rd false b = some n → rd true b = some n) (vis : List (Event V) → Event V → Bool)
    (s0 : WSt V) (hmx : 0 < s0.mx) (fuel : Nat) (path : List Nat) (root : Nat)
    (hun : ∀ b, Reach rd s0.nr root b → s0.seen b = 0)
    (hok : (walk io rd vis fuel path root s0).2 = .ok) :
    ∀ b, Reach rd s0.nr root b → Covered rd vis (walk io rd vis fuel path root s0).1.log b := by
  unfold walk at hok ⊢
  cases hi : s0.smInc root with
  | none => rw [hi] at hok; simp at hok
  | some p =>
    obtain ⟨rc, s⟩ := p
    rw [hi] at hok
    obtain ⟨m1, m2, m3, m4, m5, -, -⟩ := smInc_spec hi
    have m4 : 0 < s.seen root := m4 hmx
    have hrc : ¬ rc > 0 := by rw [m3, hun root .root]; simp
    simp only [if_neg hrc] at hok ⊢
    cases hio : io root with
    | false => simp [hio] at hok
    | true =>
      simp only [hio, Bool.not_true, Bool.false_eq_true, if_false] at hok ⊢
      have hsmx : 0 < s.mx := by rw [m1.mx]; exact hmx
      have hs := walkNode_sound rd hrd vis fuel path true ⟨none, none⟩ root s hsmx hok
      have hmono := walkNode_mono rd vis fuel path true ⟨none, none⟩ root s hsmx
      generalize hW : walkNode rd vis fuel path true ⟨none, none⟩ root s = W at *
      have hall : ∀ x, Reach rd s0.nr root x → 0 < W.1.seen x → Closed rd vis W.1 x := by
        intro x hr hx
        apply hs
        by_cases e : x = root
        · exact Or.inl e
        · refine Or.inr ⟨?_, hx⟩
          rw [m5 x e]; exact hun x hr
      have hnr : W.1.nr = s0.nr := by rw [hmono.nr, m1.nr]
      have hseen : ∀ b, Reach rd s0.nr root b → 0 < W.1.seen b := by
        intro b hb
        induction hb with
        | root => exact Nat.lt_of_lt_of_le m4 (hmono.seen root)
        | child hr hch hc hlt ih => exact (hall _ hr ih).2 _ hch _ hc (by rw [hnr]; exact hlt)
      intro b hb
      exact (hall b hb (hseen b hb)).1.mono

/-! ## Termination -/

/-- number of blocks not counted yet -/
def WSt.unseen (s : WSt V) : Nat := (List.range s.nr).countP (fun b => s.seen b == 0)

theorem unseen_mono {s t : WSt V} (h : Mono s t) : t.unseen ≤ s.unseen := by
  unfold WSt.unseen
  rw [h.nr]
  apply List.countP_mono_left
  intro x _ hx
  have := h.seen x
  simp at hx ⊢; omega

theorem unseen_lt {s t : WSt V} (h : Mono s t) {b : Nat} (hb : b < s.nr) (h0 : s.seen b = 0) (h1 : 0 < t.seen b) :
    t.unseen < s.unseen := by
  unfold WSt.unseen
  rw [h.nr]
  have key : ∀ n, b < n → (List.range n).countP (fun x => t.seen x == 0) < (List.range n).countP (fun x => s.seen x == 0) := by
    intro n
    induction n with
    | zero => omega
    | succ n ih =>
      intro hn
      rw [List.range_succ, List.countP_append, List.countP_append]
      have hle : (List.range n).countP (fun x => t.seen x == 0) ≤ (List.range n).countP (fun x => s.seen x == 0) := by
        apply List.countP_mono_left
        intro x _ hx
        have := h.seen x
        simp at hx ⊢; omega
      have hs := h.seen n
      by_cases e : n = b
      · subst e
        have : (t.seen n == 0) = false := by simp; omega
        simp [List.countP_cons, h0, this]; omega
      · have := ih (by omega)
        by_cases ht : t.seen n = 0
        · have : s.seen n = 0 := by omega
          simp [List.countP_cons, ht, this]; omega
        · simp only [List.countP_cons, List.countP_nil]
          simp [ht]; omega
  exact key s.nr hb

theorem Res.and_ne_fuel {a b : Res} (ha : a ≠ .fuel) (hb : b ≠ .fuel) : a.and b ≠ .fuel := by
  cases a <;> cases b <;> simp [Res.and] at *

theorem walkNode_fuel (rd : Bool → Nat → Option (Blk V)) (vis : List (Event V) → Event V → Bool) (fuel : Nat) :
    ∀ path isRoot kr b (s : WSt V), 0 < s.mx → s.unseen < fuel → (walkNode rd vis fuel path isRoot kr b s).2 ≠ .fuel := by
  induction fuel with
  | zero => intro _ _ _ _ _ _ h; omega
  | succ fuel ih =>
    intro path isRoot kr b s hmx hf
    rw [walkNode]
    cases rd isRoot b with
    | none => simp
    | some n =>
      cases n with
      | leaf es => simp only; split <;> simp
      | internal ch =>
        simp only
        cases splitKeyRanges kr (ch.map (·.1)) with
        | none => simp
        | some krs =>
          simp only
          obtain ⟨p1, -, -, p4⟩ := phase1_spec vis (path ++ [b]) (krs.zip (ch.map (·.2))) s hmx
          generalize phase1 vis (path ++ [b]) (krs.zip (ch.map (·.2))) s = P at *
          apply Res.and_ne_fuel
          · split <;> simp
          · by_cases hp : P.2.2 = []
            · rw [hp]; simp [phase2]
            · obtain ⟨c, hc⟩ := List.exists_mem_of_ne_nil _ hp
              obtain ⟨-, c2, c3, c4⟩ := p4 c hc
              have hlt := unseen_lt p1 c2 c3 c4
              have q : ∀ (l : List (KeyRange × Nat)) (t : WSt V), 0 < t.mx → t.unseen < fuel →
                  (phase2 (walkNode rd vis fuel (path ++ [b]) false) l t).2 ≠ .fuel := by
                intro l
                induction l with
                | nil => intro t _ _; simp [phase2]
                | cons p l ih2 =>
                  intro t ht htf
                  have hm1 := walkNode_mono rd vis fuel (path ++ [b]) false p.1 p.2 t ht
                  apply Res.and_ne_fuel
                  · exact ih _ _ _ _ t ht htf
                  · exact ih2 _ (by rw [hm1.mx]; exact ht) (Nat.lt_of_le_of_lt (unseen_mono hm1) htf)
              exact q P.2.2 P.1 (by rw [p1.mx]; exact hmx) (by omega)

/-- C48.  A walk ends on every device, however its nodes point at each other (cycles included): recursion never goes
deeper than the number of blocks. -/
theorem walk_terminates (io : Nat → Bool) (rd : Bool → Nat → Option (Blk V)) (vis : List (Event V) → Event V → Bool)
    (path : List Nat) (root : Nat) (s : WSt V) (hmx : 0 < s.mx) :
    (walk io rd vis (s.nr + 1) path root s).2 ≠ .fuel := by
  unfold walk
  cases hi : s.smInc root with
  | none => simp
  | some p =>
    obtain ⟨rc, t⟩ := p
    obtain ⟨m1, -, -, -, -, -, -⟩ := smInc_spec hi
    simp only
    split
    · split
      · simp
      · simp only; split <;> simp
    · split
      · simp
      · refine walkNode_fuel rd vis (s.nr + 1) path true ⟨none, none⟩ root t (by rw [m1.mx]; exact hmx) ?_
        have h1 : t.unseen ≤ t.nr := by
          unfold WSt.unseen
          have := List.countP_le_length (p := fun b => t.seen b == 0) (l := List.range t.nr)
          simpa using this
        rw [m1.nr] at h1
        omega

/-! ## Clean trees -/

/-- the blocks of a tree -/
def Tree.blocks : (h : Nat) → Tree V h → List Nat
  | 0, t => [t.1]
  | h + 1, t => t.1 :: t.2.flatMap (fun c => blocks h c.2)

/-- apply `f` to every keyed item with its key range -/
def eachRange {T R : Type} (f : KeyRange → T → List R) (hi : Option Nat) : List (Nat × T) → List R
  | [] => []
  | (k, c) :: rest => f ⟨some k, nextKey hi rest⟩ c ++ eachRange f hi rest

/-- what a visitor should see: every leaf once, in key order, with the path from the root and the key range its
ancestors imply -/
def leafEvents : (h : Nat) → List Nat → KeyRange → Tree V h → List (Event V)
  | 0, path, kr, t => [.visit (path ++ [t.1]) kr t.2]
  | h + 1, path, kr, t => eachRange (leafEvents h (path ++ [t.1])) kr.fin t.2

theorem rangesOf_zip {T : Type} (fin : Option Nat) (l : List (Nat × T)) (g : T → Nat) :
    (rangesOf fin (l.map (·.1))).zip (l.map fun c => g c.2) =
      eachRange (fun kr c => [(kr, g c)]) fin l := by
  induction l with
  | nil => rfl
  | cons p l ih =>
    obtain ⟨k, c⟩ := p
    cases l with
    | nil => rfl
    | cons q l =>
      obtain ⟨k', c'⟩ := q
      simp only [List.map_cons, rangesOf, List.zip_cons_cons, eachRange, nextKey, List.singleton_append] at ih ⊢
      rw [ih]

theorem chain_keys {T : Type} {P : Nat → Option Nat → T → Prop} {lo : Nat} {hi : Option Nat} {l : List (Nat × T)}
    (h : Chain P lo hi l) : (l.map (·.1)).Pairwise (· < ·) ∧ ∀ x ∈ l.map (·.1), Below x hi := by
  induction l generalizing lo with
  | nil => simp
  | cons p l ih =>
    obtain ⟨k, c⟩ := p
    obtain ⟨a1, a2, a3, a4⟩ := h
    obtain ⟨i1, i2⟩ := ih a4
    refine ⟨?_, ?_⟩
    · rw [List.map_cons, List.pairwise_cons]
      refine ⟨?_, i1⟩
      intro x hx
      obtain ⟨q, hq, rfl⟩ := List.mem_map.mp hx
      have := (chain_mem a4 q hq).1
      simp only; omega
    · intro x hx
      rw [List.map_cons, List.mem_cons] at hx
      rcases hx with rfl | hx
      · exact a2
      · exact i2 x hx

theorem split_chain {T : Type} {P : Nat → Option Nat → T → Prop} {lo : Nat} {kr : KeyRange} {l : List (Nat × T)}
    (h : Chain P lo kr.fin l) (hne : l ≠ []) :
    splitKeyRanges kr (l.map (·.1)) = some (rangesOf kr.fin (l.map (·.1))) := by
  obtain ⟨h1, h2⟩ := chain_keys h
  cases l with
  | nil => exact absurd rfl hne
  | cons p l =>
    simp only [List.map_cons, splitKeyRanges]
    rw [splitLoop_iff, if_pos ⟨h1, fun x hx => h2 x (by simp at hx ⊢; exact Or.inr hx)⟩]

/-- on unseen, distinct, in-range children phase 1 collects them all -/
theorem phase1_fresh (vis : List (Event V) → Event V → Bool) (path : List Nat) (l : List (KeyRange × Nat)) (s : WSt V)
    (hmx : 0 < s.mx) (hnd : (l.map (·.2)).Nodup) (hlt : ∀ c ∈ l, c.2 < s.nr ∧ s.seen c.2 = 0) :
    (phase1 vis path l s).2.1 = false ∧ (phase1 vis path l s).2.2 = l ∧ (phase1 vis path l s).1.log = s.log ∧
    (phase1 vis path l s).1.nr = s.nr ∧ (phase1 vis path l s).1.mx = s.mx ∧
    (∀ x, x ∉ l.map (·.2) → (phase1 vis path l s).1.seen x = s.seen x) ∧
    ∀ x ∈ l.map (·.2), (phase1 vis path l s).1.seen x = 1 := by
  induction l generalizing s with
  | nil => exact ⟨rfl, rfl, rfl, rfl, rfl, fun _ _ => rfl, fun _ h => by cases h⟩
  | cons p l ih =>
    obtain ⟨kr, b⟩ := p
    obtain ⟨hb1, hb2⟩ := hlt (kr, b) (by simp)
    simp only at hb1 hb2
    rw [List.map_cons, List.nodup_cons] at hnd
    have hinc : s.smInc b = some (0, { s with seen := fun x => if x = b then s.seen b + 1 else s.seen x }) := by
      unfold WSt.smInc
      rw [if_pos hb1, if_pos (by omega), hb2]
    have hne : ∀ c ∈ l, c.2 ≠ b := fun c hc e => hnd.1 (List.mem_map.mpr ⟨c, hc, e⟩)
    obtain ⟨i1, i2, i3, i4, i5, i6, i7⟩ := ih { s with seen := fun x => if x = b then s.seen b + 1 else s.seen x } hmx hnd.2
      (fun c hc => by
        have := hlt c (by simp [hc])
        exact ⟨this.1, by simp [hne c hc, this.2]⟩)
    unfold phase1
    rw [hinc]
    simp only [if_true]
    refine ⟨i1, by rw [i2], i3, i4, i5, ?_, ?_⟩
    · intro x hx
      rw [List.map_cons, List.mem_cons, not_or] at hx
      rw [i6 x hx.2]
      simp [hx.1]
    · intro x hx
      rcases List.mem_cons.mp hx with rfl | hx
      · rw [i6 _ hnd.1]; simp [hb2]
      · exact i7 x hx

theorem walkNode_clean (rd : Bool → Nat → Option (Blk V)) (vis : List (Event V) → Event V → Bool) (h : Nat) :
    ∀ (t : Tree V h) (path : List Nat) (isRoot : Bool) (kr : KeyRange) (lo : Nat) (s : WSt V) (fuel : Nat),
      (∀ l, ∀ e ∈ leafEvents h path kr t, vis l e = true) → h < fuel → 0 < s.mx → t.Stored rd isRoot h → t.Ordered h lo kr.fin → (h = 0 ∨ t.NoEmpty h) →
      (t.blocks h).Nodup → (∀ x ∈ (t.blocks h).tail, x < s.nr ∧ s.seen x = 0) →
      (walkNode rd vis fuel path isRoot kr (t.blk h) s).2 = .ok ∧
      (walkNode rd vis fuel path isRoot kr (t.blk h) s).1.log = s.log ++ leafEvents h path kr t ∧
      (∀ x, x ∉ (t.blocks h).tail → (walkNode rd vis fuel path isRoot kr (t.blk h) s).1.seen x = s.seen x) ∧
      (∀ x ∈ (t.blocks h).tail, (walkNode rd vis fuel path isRoot kr (t.blk h) s).1.seen x = 1) := by
  induction h with
  | zero =>
    intro t path isRoot kr lo s fuel hvis hf hmx hs ho _ _ _
    obtain ⟨fuel, rfl⟩ : ∃ f, fuel = f + 1 := ⟨fuel - 1, by omega⟩
    obtain ⟨b, es⟩ := t
    simp only [Tree.Stored] at hs
    rw [show Tree.blk (V := V) 0 ((b, es) : Nat × List (Nat × V)) = b from rfl]
    simp only [leafEvents, List.mem_singleton, forall_eq] at hvis
    simp only [walkNode, hs, WSt.call, hvis, if_true]
    exact ⟨trivial, rfl, fun _ _ => trivial, fun _ h => by cases h⟩
  | succ h ih =>
    intro t path isRoot kr lo s fuel hvis hf hmx hs ho hne hnd hun
    obtain ⟨fuel, rfl⟩ : ∃ f, fuel = f + 1 := ⟨fuel - 1, by omega⟩
    obtain ⟨b, ch⟩ := t
    obtain ⟨hs1, hs2⟩ := hs
    have hne' : ch ≠ [] ∧ ∀ c ∈ ch, Tree.NoEmpty h c.2 := by
      rcases hne with h0 | hne
      · omega
      · exact hne
    simp only [Tree.Ordered] at ho
    simp only at hs1 hs2
    simp only [Tree.blocks, List.tail_cons, List.nodup_cons] at hnd hun
    rw [show Tree.blk (V := V) (h + 1) ((b, ch) : Nat × List (Nat × Tree V h)) = b from rfl]
    simp only [walkNode, hs1]
    rw [show (ch.map fun c => (c.1, Tree.blk h c.2)).map (·.1) = ch.map (·.1) by simp [List.map_map],
      split_chain ho hne'.1]
    simp only
    rw [show (ch.map fun c => (c.1, Tree.blk h c.2)).map (·.2) = ch.map (fun c => Tree.blk h c.2) by simp [List.map_map],
      rangesOf_zip]
    have hblk : ∀ t : Tree V h, Tree.blk h t ∈ t.blocks h := by
      intro t; cases h <;> simp [Tree.blk, Tree.blocks]
    have hsnd : ∀ l : List (Nat × Tree V h), (eachRange (fun kr c => [(kr, Tree.blk h c)]) kr.fin l).map (·.2) =
        l.map (fun c => Tree.blk h c.2) := by
      intro l
      induction l with
      | nil => rfl
      | cons p l ih => simp [eachRange, ih]
    have hmem : ∀ c ∈ eachRange (fun kr c => [(kr, Tree.blk h c)]) kr.fin ch, c.2 ∈ ch.flatMap (fun c => c.2.blocks h) := by
      intro c hc
      have : c.2 ∈ (eachRange (fun kr c => [(kr, Tree.blk h c)]) kr.fin ch).map (·.2) := List.mem_map_of_mem hc
      rw [hsnd] at this
      obtain ⟨q, hq, e⟩ := List.mem_map.mp this
      exact List.mem_flatMap.mpr ⟨q, hq, e ▸ hblk q.2⟩
    have hndb : ∀ l : List (Nat × Tree V h), (l.flatMap fun c => c.2.blocks h).Nodup →
        (l.map fun c => Tree.blk h c.2).Nodup := by
      intro l
      induction l with
      | nil => simp
      | cons p l ih =>
        simp only [List.flatMap_cons, List.map_cons, List.nodup_append, List.nodup_cons]
        rintro ⟨h1, h2, h3⟩
        refine ⟨?_, ih h2⟩
        intro hm
        obtain ⟨q, hq, e⟩ := List.mem_map.mp hm
        exact h3 _ (hblk p.2) _ (List.mem_flatMap.mpr ⟨q, hq, hblk q.2⟩) e.symm
    obtain ⟨f1, f2, f3, f4, f5, f6, f7⟩ := phase1_fresh vis (path ++ [b])
      (eachRange (fun kr c => [(kr, Tree.blk h c)]) kr.fin ch) s hmx (by rw [hsnd]; exact hndb ch hnd.2)
      (fun c hc => hun _ (hmem c hc))
    rw [hsnd] at f6 f7
    generalize hP : phase1 vis (path ++ [b]) (eachRange (fun kr c => [(kr, Tree.blk h c)]) kr.fin ch) s = P at *
    rw [f1, f2]
    -- walking the children
    have key : ∀ (l : List (Nat × Tree V h)) (lo : Nat) (u : WSt V), (∀ c ∈ l, c ∈ ch) →
        (∀ v, ∀ e ∈ eachRange (leafEvents h (path ++ [b])) kr.fin l, vis v e = true) → 0 < u.mx →
        Chain (Tree.Ordered h) lo kr.fin l → (l.flatMap fun c => c.2.blocks h).Nodup →
        (∀ c ∈ l, ∀ x ∈ (c.2.blocks h).tail, x < u.nr ∧ u.seen x = 0) →
        (phase2 (walkNode rd vis fuel (path ++ [b]) false) (eachRange (fun kr c => [(kr, Tree.blk h c)]) kr.fin l) u).2 = .ok ∧
        (phase2 (walkNode rd vis fuel (path ++ [b]) false) (eachRange (fun kr c => [(kr, Tree.blk h c)]) kr.fin l) u).1.log =
          u.log ++ eachRange (leafEvents h (path ++ [b])) kr.fin l ∧
        (∀ x, (∀ c ∈ l, x ∉ (c.2.blocks h).tail) →
          (phase2 (walkNode rd vis fuel (path ++ [b]) false) (eachRange (fun kr c => [(kr, Tree.blk h c)]) kr.fin l) u).1.seen x =
            u.seen x) ∧
        ∀ c ∈ l, ∀ x ∈ (c.2.blocks h).tail,
          (phase2 (walkNode rd vis fuel (path ++ [b]) false) (eachRange (fun kr c => [(kr, Tree.blk h c)]) kr.fin l) u).1.seen x = 1 := by
      intro l
      induction l with
      | nil => intro lo u _ _ _ _ _ _; exact ⟨rfl, by simp [eachRange, phase2], fun _ _ => rfl, fun _ h => by cases h⟩
      | cons p l ih2 =>
        intro lo u hsub hv hu hch hnd2 hun2
        obtain ⟨k, c⟩ := p
        obtain ⟨a1, a2, a3, a4⟩ := hch
        rw [List.flatMap_cons, List.nodup_append] at hnd2
        obtain ⟨n1, n2, n3⟩ := hnd2
        have hcm := hsub (k, c) (by simp)
        obtain ⟨w1, w2, w3, w4⟩ := ih c (path ++ [b]) false ⟨some k, nextKey kr.fin l⟩ k u fuel
          (fun v e he => hv v e (List.mem_append.mpr (Or.inl he))) (by omega) hu (hs2 _ hcm) a3
          (Or.inr (hne'.2 _ hcm)) n1 (hun2 (k, c) (by simp))
        have hm1 := walkNode_mono rd vis fuel (path ++ [b]) false ⟨some k, nextKey kr.fin l⟩ (Tree.blk h c) u hu
        have hdisj : ∀ q ∈ l, ∀ x ∈ q.2.blocks h, x ∉ c.blocks h := by
          intro q hq x hx hx'
          exact n3 x hx' x (List.mem_flatMap.mpr ⟨q, hq, hx⟩) rfl
        obtain ⟨v1, v2, v3, v4⟩ := ih2 (k + 1) (walkNode rd vis fuel (path ++ [b]) false ⟨some k, nextKey kr.fin l⟩ (Tree.blk h c) u).1
          (fun q hq => hsub q (by simp [hq])) (fun v e he => hv v e (List.mem_append.mpr (Or.inr he))) (by rw [hm1.mx]; exact hu) a4 n2 (by
            intro q hq x hx
            have hx1 := hun2 q (by simp [hq]) x hx
            have hxn : x ∉ (c.blocks h).tail := fun hh => hdisj q hq x (List.mem_of_mem_tail hx) (List.mem_of_mem_tail hh)
            exact ⟨by rw [hm1.nr]; exact hx1.1, by rw [w3 x hxn]; exact hx1.2⟩)
        simp only [eachRange, List.singleton_append, phase2]
        refine ⟨by rw [w1, v1]; rfl, by rw [v2, w2]; simp, ?_, ?_⟩
        · intro x hx
          rw [v3 x (fun q hq => hx q (by simp [hq])), w3 x (hx (k, c) (by simp))]
        · intro q hq x hx
          rcases List.mem_cons.mp hq with rfl | hq
          · rw [v3 x (fun q hq hh => hdisj q hq x (List.mem_of_mem_tail hh) (List.mem_of_mem_tail hx)), w4 x hx]
          · exact v4 q hq x hx
    have hnr : ∀ c ∈ ch, ∀ x ∈ (c.2.blocks h).tail, x ∉ ch.map (fun c => Tree.blk h c.2) := by
      · intro c hc x hx
        -- `x` is not the root block of any child
        intro hm
        obtain ⟨q, hq, e⟩ := List.mem_map.mp hm
        subst e
        -- distinctness of all blocks
        obtain ⟨i, hi, ei⟩ := List.mem_iff_getElem.mp hc
        obtain ⟨j, hj, ej⟩ := List.mem_iff_getElem.mp hq
        have hnd' := hnd.2
        have : ∀ l : List (Nat × Tree V h), (l.flatMap fun c => c.2.blocks h).Nodup → ∀ c ∈ l, ∀ q ∈ l,
            Tree.blk h q.2 ∈ (c.2.blocks h).tail → False := by
          intro l
          induction l with
          | nil => simp
          | cons p l ih =>
            rw [List.flatMap_cons, List.nodup_append]
            rintro ⟨a, b', d⟩ c hc q hq hm
            have hcons : ∀ t : Tree V h, t.blocks h = Tree.blk h t :: (t.blocks h).tail := by
              intro t; cases h <;> rfl
            rcases List.mem_cons.mp hc with hc1 | hc1 <;> rcases List.mem_cons.mp hq with hq1 | hq1
            · subst hc1; subst hq1; rw [hcons] at a; exact (List.nodup_cons.mp a).1 hm
            · subst hc1; exact d _ (List.mem_of_mem_tail hm) _ (List.mem_flatMap.mpr ⟨q, hq1, hblk q.2⟩) rfl
            · subst hq1; exact d _ (hblk q.2) _ (List.mem_flatMap.mpr ⟨c, hc1, List.mem_of_mem_tail hm⟩) rfl
            · exact ih b' c hc1 q hq1 hm
        exact this ch hnd' c hc q hq hx
    obtain ⟨k1, k2, k3, k4⟩ := key ch lo P.1 (fun _ h => h) hvis (by rw [f5]; exact hmx) ho hnd.2 (by
      intro c hc x hx
      have hxin : x ∈ ch.flatMap (fun c => c.2.blocks h) := List.mem_flatMap.mpr ⟨c, hc, List.mem_of_mem_tail hx⟩
      obtain ⟨g1, g2⟩ := hun x hxin
      refine ⟨by rw [f4]; exact g1, ?_⟩
      rw [f6 x (hnr c hc x hx)]
      exact g2)
    simp only [Bool.false_eq_true, if_false, k1]
    refine ⟨rfl, ?_, ?_, ?_⟩
    · rw [if_neg (by simp [Res.and]), k2, f3]; rfl
    · intro x hx
      simp only [Tree.blocks, List.tail_cons] at hx
      rw [if_neg (by simp [Res.and]), k3 x (fun c hc hh => hx (List.mem_flatMap.mpr ⟨c, hc, List.mem_of_mem_tail hh⟩)), f6 x]
      intro hm
      obtain ⟨q, hq, e⟩ := List.mem_map.mp hm
      exact hx (List.mem_flatMap.mpr ⟨q, hq, e ▸ hblk q.2⟩)
    · intro x hx
      simp only [Tree.blocks, List.tail_cons] at hx
      obtain ⟨c, hc, hxc⟩ := List.mem_flatMap.mp hx
      rw [if_neg (by simp [Res.and])]
      by_cases ht : ∃ q ∈ ch, x ∈ (q.2.blocks h).tail
      · obtain ⟨q, hq, hxq⟩ := ht
        exact k4 q hq x hxq
      · rw [k3 x (fun q hq hh => ht ⟨q, hq, hh⟩)]
        have hcons : c.2.blocks h = Tree.blk h c.2 :: (c.2.blocks h).tail := by cases h <;> rfl
        rw [hcons] at hxc
        rcases List.mem_cons.mp hxc with e | hxc
        · exact f7 x (List.mem_map.mpr ⟨c, hc, e.symm⟩)
        · exact absurd ⟨c, hc, hxc⟩ ht

/-- C15, clean trees.  Walking a well-ordered tree whose blocks are all different and not seen before succeeds and shows
the visitor every leaf exactly once, in key order, with the key range implied by its ancestors. -/
theorem walk_clean (io : Nat → Bool) (rd : Bool → Nat → Option (Blk V)) (vis : List (Event V) → Event V → Bool)
    (hvis : ∀ l e, vis l e = true) (h : Nat) (t : Tree V h) (nr mx : Nat) (hmx : 0 < mx) (sat : Bool) (fuel : Nat)
    (hf : h < fuel) (path : List Nat) (hio : io (t.blk h) = true)
    (hs : t.Stored rd true h) (ho : t.Ordered h 0 none) (hne : h = 0 ∨ t.NoEmpty h)
    (hnd : (t.blocks h).Nodup) (hlt : ∀ x ∈ t.blocks h, x < nr) :
    (walk io rd vis fuel path (t.blk h) (WSt.fresh nr mx sat)).2 = .ok ∧
    (walk io rd vis fuel path (t.blk h) (WSt.fresh nr mx sat)).1.log = leafEvents h path ⟨none, none⟩ t ++ [.endWalk] := by
  have hcons : t.blocks h = Tree.blk h t :: (t.blocks h).tail := by cases h <;> rfl
  have hroot : Tree.blk h t < nr := hlt _ (by rw [hcons]; simp)
  have hinc : (WSt.fresh (V := V) nr mx sat).smInc (t.blk h) =
      some (0, { WSt.fresh nr mx sat with seen := fun x => if x = t.blk h then 0 + 1 else 0 }) := by
    unfold WSt.smInc
    rw [if_pos (show _ < (WSt.fresh (V := V) nr mx sat).nr from hroot),
      if_pos (show (WSt.fresh (V := V) nr mx sat).seen (t.blk h) < (WSt.fresh (V := V) nr mx sat).mx from hmx)]
    rfl
  rw [hcons, List.nodup_cons] at hnd
  obtain ⟨w1, w2, -⟩ := walkNode_clean rd vis h t path true ⟨none, none⟩ 0
    { WSt.fresh nr mx sat with seen := fun x => if x = t.blk h then 0 + 1 else 0 } fuel (fun l e _ => hvis l e) hf hmx hs ho hne
    (by rw [hcons, List.nodup_cons]; exact hnd) (by
      intro x hx
      refine ⟨hlt x (by rw [hcons]; exact List.mem_cons_of_mem _ hx), ?_⟩
      have : x ≠ t.blk h := fun e => hnd.1 (e ▸ hx)
      simp [this])
  unfold walk
  rw [hinc]
  simp only [hio, Bool.not_true, Bool.false_eq_true, if_false, Nat.lt_irrefl, gt_iff_lt]
  refine ⟨w1, ?_⟩
  simp only [WSt.call]
  rw [w2]
  simp [WSt.fresh]

/-- The same for a walker that has seen blocks before, as long as it has not seen any of the tree's; it counts every block of the tree
once and no other. -/
theorem walk_counts (io : Nat → Bool) (rd : Bool → Nat → Option (Blk V)) (vis : List (Event V) → Event V → Bool)
    (h : Nat) (t : Tree V h) (s : WSt V) (hmx : 0 < s.mx) (fuel : Nat)
    (hf : h < fuel) (path : List Nat) (hvis : ∀ l, ∀ e ∈ leafEvents h path ⟨none, none⟩ t, vis l e = true) (hio : io (t.blk h) = true)
    (hs : t.Stored rd true h) (ho : t.Ordered h 0 none) (hne : h = 0 ∨ t.NoEmpty h)
    (hnd : (t.blocks h).Nodup) (hlt : ∀ x ∈ t.blocks h, x < s.nr ∧ s.seen x = 0) :
    (walk io rd vis fuel path (t.blk h) s).2 = .ok ∧
    (walk io rd vis fuel path (t.blk h) s).1.log = s.log ++ leafEvents h path ⟨none, none⟩ t ++ [.endWalk] ∧
    (∀ x, x ∉ t.blocks h → (walk io rd vis fuel path (t.blk h) s).1.seen x = s.seen x) ∧
    (∀ x ∈ t.blocks h, (walk io rd vis fuel path (t.blk h) s).1.seen x = 1) ∧
    (walk io rd vis fuel path (t.blk h) s).1.nr = s.nr ∧ (walk io rd vis fuel path (t.blk h) s).1.mx = s.mx := by
  have hcons : t.blocks h = Tree.blk h t :: (t.blocks h).tail := by cases h <;> rfl
  have hroot := hlt (t.blk h) (by rw [hcons]; simp)
  have hinc : s.smInc (t.blk h) =
      some (0, { s with seen := fun x => if x = t.blk h then 0 + 1 else s.seen x }) := by
    unfold WSt.smInc
    rw [if_pos hroot.1, if_pos (by rw [hroot.2]; exact hmx), hroot.2]
  rw [hcons, List.nodup_cons] at hnd
  obtain ⟨w1, w2, w3, w5⟩ := walkNode_clean rd vis h t path true ⟨none, none⟩ 0
    { s with seen := fun x => if x = t.blk h then 0 + 1 else s.seen x } fuel hvis hf hmx hs ho hne
    (by rw [hcons, List.nodup_cons]; exact hnd) (by
      intro x hx
      have h1 := hlt x (by rw [hcons]; exact List.mem_cons_of_mem _ hx)
      refine ⟨h1.1, ?_⟩
      have : x ≠ t.blk h := fun e => hnd.1 (e ▸ hx)
      simp [this, h1.2])
  have w4 := walkNode_mono rd vis fuel path true ⟨none, none⟩ (t.blk h)
    { s with seen := fun x => if x = t.blk h then 0 + 1 else s.seen x } hmx
  unfold walk
  rw [hinc]
  simp only [hio, Bool.not_true, Bool.false_eq_true, if_false, Nat.lt_irrefl, gt_iff_lt]
  refine ⟨w1, ?_, ?_, ?_, w4.nr, w4.mx⟩
  · simp only [WSt.call]
    rw [w2]
  · intro x hx
    rw [hcons, List.mem_cons, not_or] at hx
    simp only [WSt.call]
    rw [w3 x hx.2]
    simp [hx.1]
  · intro x hx
    rw [hcons] at hx
    simp only [WSt.call]
    rcases List.mem_cons.mp hx with rfl | hx
    · rw [w3 _ hnd.1]; simp
    · exact w5 x hx

theorem walk_clean_from (io : Nat → Bool) (rd : Bool → Nat → Option (Blk V)) (vis : List (Event V) → Event V → Bool)
    (h : Nat) (t : Tree V h) (s : WSt V) (hmx : 0 < s.mx) (fuel : Nat)
    (hf : h < fuel) (path : List Nat) (hvis : ∀ l, ∀ e ∈ leafEvents h path ⟨none, none⟩ t, vis l e = true) (hio : io (t.blk h) = true)
    (hs : t.Stored rd true h) (ho : t.Ordered h 0 none) (hne : h = 0 ∨ t.NoEmpty h)
    (hnd : (t.blocks h).Nodup) (hlt : ∀ x ∈ t.blocks h, x < s.nr ∧ s.seen x = 0) :
    (walk io rd vis fuel path (t.blk h) s).2 = .ok ∧
    (walk io rd vis fuel path (t.blk h) s).1.log = s.log ++ leafEvents h path ⟨none, none⟩ t ++ [.endWalk] ∧
    (∀ x, x ∉ t.blocks h → (walk io rd vis fuel path (t.blk h) s).1.seen x = s.seen x) ∧
    (walk io rd vis fuel path (t.blk h) s).1.nr = s.nr ∧ (walk io rd vis fuel path (t.blk h) s).1.mx = s.mx := by
  obtain ⟨h1, h2, h3, -, h5⟩ := walk_counts io rd vis h t s hmx fuel hf path hvis hio hs ho hne hnd hlt
  exact ⟨h1, h2, h3, h5⟩

example : (∀ x ∈ demoTree.blocks 1, x < 10) ∧ (demoTree.blocks 1).Nodup ∧
    (walk (fun _ => true) demoRd (fun _ _ => true) 11 [] 9 (WSt.fresh 10 1 true)).1.log =
      [.visit [9, 4] ⟨some 2, some 7⟩ [(2, 20), (3, 30)], .visit [9, 5] ⟨some 7, none⟩ [(8, 80)], .endWalk] := by
  refine ⟨by decide, by decide, by decide⟩

/-! ## What the walker does not detect -/

/-- C15's last clause is false of the walker itself: keys outside the range the parent promises, a child pointer beyond
the end of the device, and an internal node starting below its range all pass (the visitor accepts every leaf, as
`btree_to_map`'s does). -/
theorem walk_range_damage_refuted :
    -- the leaf under key 7 holds key 1
    (walk (fun _ => true) (fun _ b => if b = 9 then some (.internal [(2, 4), (7, 5)]) else if b = 4 then
        some (.leaf [(2, 20)]) else if b = 5 then some (.leaf [(1, 80)]) else none)
      (fun _ _ => true) 11 [] 9 (WSt.fresh (V := Nat) 10 1 true)).2 = .ok ∧
    -- the child under key 7 is beyond the end of the device
    (walk (fun _ => true) (fun _ b => if b = 9 then some (.internal [(2, 4), (7, 55)]) else if b = 4 then
        some (.leaf [(2, 20)]) else none)
      (fun _ _ => true) 11 [] 9 (WSt.fresh (V := Nat) 10 1 true)).2 = .ok ∧
    -- the internal node under key 7 starts at key 3
    (walk (fun _ => true) (fun _ b => if b = 9 then some (.internal [(2, 4), (7, 5)]) else if b = 4 then
        some (.internal [(2, 6)]) else if b = 5 then some (.internal [(3, 7)]) else if b = 6 then some (.leaf [(2, 20)])
        else if b = 7 then some (.leaf [(3, 30)]) else none)
      (fun _ _ => true) 11 [] 9 (WSt.fresh (V := Nat) 10 1 true)).2 = .ok := by
  refine ⟨by decide, by decide, by decide⟩

/-- The walker remembers failed nodes for later walks, but not those whose keys could not be split: a second tree that
shares such a node is reported clean. -/
theorem walk_shared_split_error_refuted :
    let rd : Bool → Nat → Option (Blk Nat) := fun _ b =>
      if b = 1 then some (.internal [(0, 3), (9, 2)]) else if b = 2 then some (.internal [(9, 4), (9, 5)])
      else if b = 6 then some (.internal [(9, 2)]) else some (.leaf [(0, 0)])
    let w1 := walk (fun _ => true) rd (fun _ _ => true) 11 [] 1 (WSt.fresh 10 1 true)
    w1.2 = .err ∧ (walk (fun _ => true) rd (fun _ _ => true) 11 [] 6 w1.1).2 = .ok := by
  refine ⟨by decide, by decide⟩

end Verif.BT
