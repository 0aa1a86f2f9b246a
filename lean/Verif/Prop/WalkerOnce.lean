import Verif.Prop.WalkerShared

/-!
# C15: whatever the walker is given, it shows a leaf at most once, with what is stored there

No tree is assumed: blocks may be shared, unreadable or in cycles, the visitor may reject any of them, and the walker may have been used before.
-/

namespace Verif.BT

variable {V : Type}

/-- the block and the entries of every leaf shown, in order -/
def shownLeaves (log : List (Event V)) : List (Option Nat × List (Nat × V)) :=
  log.filterMap fun e => match e with | .visit path _ es => some (path.getLast?, es) | _ => none

/-- how many times a block was shown as a leaf -/
def shows (x : Nat) (log : List (Event V)) : Nat := ((shownLeaves log).map (·.1)).count (some x)

theorem shownLeaves_append (l m : List (Event V)) : shownLeaves (l ++ m) = shownLeaves l ++ shownLeaves m := by unfold shownLeaves; rw [List.filterMap_append]

theorem shows_append (x : Nat) (l m : List (Event V)) : shows x (l ++ m) = shows x l + shows x m := by unfold shows; rw [shownLeaves_append, List.map_append, List.count_append]

theorem Reach.trans {rd : Bool → Nat → Option (Blk V)} {nr a b c : Nat} (h : Reach rd nr a b) (k : Reach rd nr b c) : Reach rd nr a c := by
  induction k with
  | root => exact h
  | child _ h2 h3 h4 ih => exact .child ih h2 h3 h4

/-- what is shown is what is stored -/
def Shown (rd : Bool → Nat → Option (Blk V)) (log : List (Event V)) : Prop := ∀ p ∈ shownLeaves log, ∃ b, p.1 = some b ∧ rd true b = some (.leaf p.2)

theorem phase1_once (vis : List (Event V) → Event V → Bool) (path : List Nat) (l : List (KeyRange × Nat)) (s : WSt V) (hmx : 0 < s.mx) :
    shownLeaves (phase1 vis path l s).1.log = shownLeaves s.log ∧ ((phase1 vis path l s).2.2.map (·.2)).Nodup := by
  induction l generalizing s with
  | nil => exact ⟨rfl, by simp [phase1]⟩
  | cons p l ih =>
    obtain ⟨kr, b⟩ := p
    unfold phase1
    cases hi : s.smInc b with
    | none => exact ih s hmx
    | some q =>
      obtain ⟨rc, t⟩ := q
      obtain ⟨m1, m2, m3, m4, m5, m6, m7⟩ := smInc_spec hi
      have htmx : 0 < t.mx := by rw [m1.mx]; exact hmx
      obtain ⟨i1, i2⟩ := ih t htmx
      simp only
      by_cases hrc : rc = 0
      · rw [if_pos hrc]
        refine ⟨by rw [i1, m7], ?_⟩
        simp only [List.map_cons, List.nodup_cons]
        refine ⟨fun hm => ?_, i2⟩
        obtain ⟨c, hc, e⟩ := List.mem_map.mp hm
        obtain ⟨-, -, h, -⟩ := (phase1_spec vis path l t htmx).2.2.2 c hc
        rw [e] at h
        have := m4 hmx
        omega
      · rw [if_neg hrc]
        by_cases hf : t.fails b
        · rw [if_pos hf]
          exact ⟨by rw [i1, m7], i2⟩
        · rw [if_neg hf]
          obtain ⟨j1, j2⟩ := ih (t.call vis (.again path b)).1 htmx
          refine ⟨?_, j2⟩
          rw [j1]
          show shownLeaves (t.log ++ [.again path b]) = _
          rw [shownLeaves_append, m7]
          simp [shownLeaves]

/-- the step of a walk: at most one more show of a block, and only of the block itself or one that was not seen before; all of them reachable -/
structure Once (rd : Bool → Nat → Option (Blk V)) (roots : List Nat) (s t : WSt V) : Prop where
  shows : ∀ x, shows x t.log ≤ shows x s.log + (if x ∈ roots ∨ (s.seen x = 0 ∧ 0 < t.seen x) then 1 else 0)
  reach : ∀ x, s.seen x = 0 → 0 < t.seen x → ∃ b ∈ roots, Reach rd s.nr b x
  stored : Shown rd s.log → Shown rd t.log

theorem phase2_once {rd : Bool → Nat → Option (Blk V)} (walk : KeyRange → Nat → WSt V → WSt V × Res)
    (hw : ∀ kr b s, 0 < s.mx → 0 < s.seen b → Mono s (walk kr b s).1 ∧ Once rd [b] s (walk kr b s).1) : ∀ (l : List (KeyRange × Nat)) (s : WSt V), 0 < s.mx →
    (l.map (·.2)).Nodup → (∀ c ∈ l, 0 < s.seen c.2) → Once rd (l.map (·.2)) s (phase2 walk l s).1 := by
  intro l
  induction l with
  | nil =>
    intro s _ _ _
    exact ⟨fun x => Nat.le_add_right _ _, fun x h h' => by simp [phase2] at h'; omega, fun h => h⟩
  | cons p l ih =>
    obtain ⟨kr, b⟩ := p
    intro s hmx hnd hseen
    rw [List.map_cons, List.nodup_cons] at hnd
    obtain ⟨hm, w⟩ := hw kr b s hmx (hseen (kr, b) (by simp))
    have i := ih (walk kr b s).1 (by rw [hm.mx]; exact hmx) hnd.2 (fun c hc => Nat.lt_of_lt_of_le (hseen c (by simp [hc])) (hm.seen _))
    show Once rd _ s (phase2 walk l (walk kr b s).1).1
    refine ⟨fun x => ?_, fun x h0 h1 => ?_, fun h => i.stored (w.stored h)⟩
    · have a := w.shows x
      have c := i.shows x
      have hsx := hm.seen x
      have hin : x ∈ l.map (·.2) → 0 < s.seen x := by
        intro h
        obtain ⟨q, hq, rfl⟩ := List.mem_map.mp h
        exact hseen q (by simp [hq])
      have hb := hseen (kr, b) (by simp)
      simp only at hb
      by_cases hx : x = b
      · subst hx
        rw [if_pos (by simp)] at a
        rw [if_neg (by rintro (h | h); exact hnd.1 h; omega)] at c
        rw [if_pos (by simp)]
        omega
      · by_cases hxl : x ∈ l.map (·.2)
        · rw [if_neg (by rintro (h | h); exact hx (by simpa using h); have := hin hxl; omega)] at a
          rw [if_pos (Or.inl hxl)] at c
          rw [if_pos (Or.inl (by simp only [List.map_cons, List.mem_cons]; exact Or.inr hxl))]
          omega
        · have e1 : (x ∈ [b] ∨ s.seen x = 0 ∧ 0 < (walk kr b s).1.seen x) = (s.seen x = 0 ∧ 0 < (walk kr b s).1.seen x) := by simp [hx]
          have e2 : (x ∈ l.map (·.2) ∨ (walk kr b s).1.seen x = 0 ∧ 0 < (phase2 walk l (walk kr b s).1).1.seen x) =
            ((walk kr b s).1.seen x = 0 ∧ 0 < (phase2 walk l (walk kr b s).1).1.seen x) := by simp only [hxl, false_or]
          have e3 : (x ∈ ((kr, b) :: l).map (·.2) ∨ s.seen x = 0 ∧ 0 < (phase2 walk l (walk kr b s).1).1.seen x) =
            (s.seen x = 0 ∧ 0 < (phase2 walk l (walk kr b s).1).1.seen x) := by
            simp only [List.map_cons, List.mem_cons, hx, hxl, false_or]
          simp only [e1] at a
          simp only [e2] at c
          simp only [e3]
          have hx2 : (walk kr b s).1.seen x = 0 ∨ (phase2 walk l (walk kr b s).1).1.seen x ≠ 0 := by
            by_cases h : (walk kr b s).1.seen x = 0
            · exact Or.inl h
            · refine Or.inr ?_
              have hmm : ∀ (l : List (KeyRange × Nat)) (s : WSt V), 0 < s.mx → (∀ c ∈ l, 0 < s.seen c.2) → s.seen x ≤ (phase2 walk l s).1.seen x := by
                intro l
                induction l with
                | nil => intro s _ _; exact Nat.le_refl _
                | cons p l ih =>
                  intro s hs hl
                  obtain ⟨hm, -⟩ := hw p.1 p.2 s hs (hl p (by simp))
                  exact Nat.le_trans (hm.seen x) (ih _ (by rw [hm.mx]; exact hs) fun c hc => Nat.lt_of_lt_of_le (hl c (by simp [hc])) (hm.seen _))
              have := hmm l (walk kr b s).1 (by rw [hm.mx]; exact hmx) (fun c hc => Nat.lt_of_lt_of_le (hseen c (by simp [hc])) (hm.seen _))
              omega
          split at a <;> split at c <;> split <;> omega
    · by_cases h : (walk kr b s).1.seen x = 0
      · obtain ⟨c, hc, hr⟩ := i.reach x h h1
        rw [hm.nr] at hr
        exact ⟨c, by simp only [List.map_cons, List.mem_cons]; exact Or.inr hc, hr⟩
      · obtain ⟨c, hc, hr⟩ := w.reach x h0 (by omega)
        exact ⟨c, by simp only [List.map_cons, List.mem_cons]; exact Or.inl (by simpa using hc), hr⟩

theorem shownLeaves_fail (s : WSt V) (b : Nat) : (s.setFail b).log = s.log := rfl

theorem walkNode_once (rd : Bool → Nat → Option (Blk V)) (hrd : ∀ b n, rd false b = some n → rd true b = some n) (vis : List (Event V) → Event V → Bool) (fuel : Nat) :
    ∀ (path : List Nat) (isRoot : Bool) (kr : KeyRange) (b : Nat) (s : WSt V), 0 < s.mx → 0 < s.seen b →
    Once rd [b] s (walkNode rd vis fuel path isRoot kr b s).1 := by
  have rfl' : ∀ (b : Nat) (s t : WSt V), t.seen = s.seen → t.log = s.log → Once rd [b] s t := by
    intro b s t h1 h2
    exact ⟨fun x => by rw [h2]; exact Nat.le_add_right _ _, fun x h h' => by rw [h1] at h'; omega, fun h => by rw [h2]; exact h⟩
  induction fuel with
  | zero => intro path isRoot kr b s _ _; exact rfl' b s _ rfl rfl
  | succ fuel ih =>
    intro path isRoot kr b s hmx hb
    unfold walkNode
    cases hr : rd isRoot b with
    | none => exact rfl' b s _ rfl rfl
    | some n =>
      have hrt : rd true b = some n := by cases isRoot with | true => exact hr | false => exact hrd b n hr
      cases n with
      | leaf es =>
        simp only
        have key : Once rd [b] s (s.call vis (.visit (path ++ [b]) kr es)).1 := by
          refine ⟨fun x => ?_, fun x h h' => ?_, fun h => ?_⟩
          · show shows x (s.log ++ [_]) ≤ _
            rw [shows_append]
            have : shows x [Event.visit (path ++ [b]) kr es] = if b = x then 1 else 0 := by
              unfold shows shownLeaves
              simp only [List.filterMap_cons, List.filterMap_nil, List.map_cons, List.map_nil, List.getLast?_append, List.getLast?_singleton]
              rw [List.count_singleton]
              simp
            rw [this]
            by_cases hx : b = x
            · rw [if_pos hx, if_pos (Or.inl (by simp [hx]))]; exact Nat.le_refl _
            · rw [if_neg hx]; omega
          · exact absurd (show 0 < s.seen x from h') (by omega)
          · intro p hp
            have : p ∈ shownLeaves (s.log ++ [Event.visit (path ++ [b]) kr es]) := hp
            rw [shownLeaves_append] at this
            rcases List.mem_append.mp this with hp | hp
            · exact h p hp
            · have hp : p = (some b, es) := by simpa [shownLeaves] using hp
              subst hp
              exact ⟨b, rfl, hrt⟩
        split
        · exact key
        · exact ⟨key.shows, key.reach, key.stored⟩
      | internal ch =>
        simp only
        cases hk : splitKeyRanges kr (ch.map (·.1)) with
        | none => exact rfl' b s _ rfl rfl
        | some krs =>
          simp only
          obtain ⟨p1, p2, p3, p4⟩ := phase1_spec vis (path ++ [b]) (krs.zip (ch.map (·.2))) s hmx
          obtain ⟨q1, q2⟩ := phase1_once vis (path ++ [b]) (krs.zip (ch.map (·.2))) s hmx
          generalize hP : phase1 vis (path ++ [b]) (krs.zip (ch.map (·.2))) s = P at p1 p2 p3 p4 q1 q2
          have w := phase2_once (rd := rd) (walkNode rd vis fuel (path ++ [b]) false)
            (fun kr b s h1 h2 => ⟨walkNode_mono rd vis fuel _ _ _ _ _ h1, ih _ _ _ _ _ h1 h2⟩) P.2.2 P.1 (by rw [p1.mx]; exact hmx) q2 (fun c hc => (p4 c hc).2.2.2)
          have hmono := phase2_mono rd vis fuel (path ++ [b]) P.2.2 P.1 (by rw [p1.mx]; exact hmx)
          have kid : ∀ x ∈ P.2.2.map (·.2), s.seen x = 0 ∧ 0 < P.1.seen x ∧ Reach rd s.nr b x := by
            intro x hx
            obtain ⟨c, hc, rfl⟩ := List.mem_map.mp hx
            obtain ⟨h1, h2, h3, h4⟩ := p4 c hc
            refine ⟨h3, h4, ?_⟩
            obtain ⟨q, hq, e⟩ := List.mem_map.mp (List.of_mem_zip (show (c.1, c.2) ∈ _ from h1)).2
            rw [← e] at h2 ⊢
            exact .child .root hrt hq h2
          have key : Once rd [b] s (phase2 (walkNode rd vis fuel (path ++ [b]) false) P.2.2 P.1).1 := by
            have hlog : ∀ x, shows x P.1.log = shows x s.log := fun x => by unfold shows; rw [q1]
            refine ⟨fun x => ?_, fun x h0 h1 => ?_, fun h => w.stored ?_⟩
            · have a := w.shows x
              rw [hlog] at a
              refine Nat.le_trans a (Nat.add_le_add_left ?_ _)
              by_cases hc : x ∈ P.2.2.map (·.2) ∨ P.1.seen x = 0 ∧ 0 < (phase2 (walkNode rd vis fuel (path ++ [b]) false) P.2.2 P.1).1.seen x
              · rw [if_pos hc, if_pos]
                · exact Nat.le_refl _
                · refine Or.inr ?_
                  rcases hc with hc | ⟨h1, h2⟩
                  · exact ⟨(kid x hc).1, Nat.lt_of_lt_of_le (kid x hc).2.1 (hmono.seen x)⟩
                  · exact ⟨by have := p1.seen x; omega, h2⟩
              · rw [if_neg hc]; omega
            · by_cases h : P.1.seen x = 0
              · obtain ⟨c, hc, hr⟩ := w.reach x h h1
                rw [p1.nr] at hr
                exact ⟨b, by simp, (kid c hc).2.2.trans hr⟩
              · obtain ⟨c, hc, e⟩ := p3 x h0 (by omega)
                exact ⟨b, by simp, e ▸ (kid c.2 (List.mem_map.mpr ⟨c, hc, rfl⟩)).2.2⟩
            · intro p hp
              rw [q1] at hp
              exact h p hp
          have fin : ∀ (c : Prop) [Decidable c], Once rd [b] s (if c then (phase2 (walkNode rd vis fuel (path ++ [b]) false) P.2.2 P.1).1.setFail b else (phase2 (walkNode rd vis fuel (path ++ [b]) false) P.2.2 P.1).1) := by
            intro c _
            by_cases hc : c
            · rw [if_pos hc]; exact ⟨key.shows, key.reach, key.stored⟩
            · rw [if_neg hc]; exact key
          exact fin _

/-- No leaf was shown twice, none that is not counted, and all with what is stored there. -/
structure OnceInv (rd : Bool → Nat → Option (Blk V)) (s : WSt V) : Prop where
  one : ∀ x, shows x s.log ≤ 1
  seen : ∀ x, 0 < shows x s.log → 0 < s.seen x
  stored : Shown rd s.log

theorem fresh_once (rd : Bool → Nat → Option (Blk V)) (nr mx : Nat) (sat : Bool) : OnceInv rd (WSt.fresh (V := V) nr mx sat) :=
  ⟨fun _ => by simp [WSt.fresh, shows, shownLeaves], fun _ h => by simp [WSt.fresh, shows, shownLeaves] at h, by intro p hp; simp [WSt.fresh, shownLeaves] at hp⟩

theorem OnceInv.call {rd : Bool → Nat → Option (Blk V)} {s : WSt V} (h : OnceInv rd s) (vis : List (Event V) → Event V → Bool) (e : Event V) (he : shownLeaves [e] = []) :
    OnceInv rd (s.call vis e).1 := by
  have hl : shownLeaves (s.call vis e).1.log = shownLeaves s.log := by
    show shownLeaves (s.log ++ [e]) = _
    rw [shownLeaves_append, he, List.append_nil]
  have hs : ∀ x, shows x (s.call vis e).1.log = shows x s.log := fun x => by unfold shows; rw [hl]
  exact ⟨fun x => by rw [hs]; exact h.one x, fun x hx => h.seen x (by rw [← hs]; exact hx), fun p hp => h.stored p (by rw [← hl]; exact hp)⟩

/-- **C15, every graph of blocks.**  However often a walker is used, on whatever roots and with whatever result, it shows each leaf at most once, with the entries stored there; and it counts only what is reachable. -/
theorem walk_once (io : Nat → Bool) (rd : Bool → Nat → Option (Blk V)) (hrd : ∀ b n, rd false b = some n → rd true b = some n) (vis : List (Event V) → Event V → Bool) (fuel : Nat)
    (path : List Nat) (root : Nat) (s : WSt V) (hmx : 0 < s.mx) (h : OnceInv rd s) :
    OnceInv rd (walk io rd vis fuel path root s).1 ∧ Mono s (walk io rd vis fuel path root s).1 ∧
    ∀ x, s.seen x = 0 → 0 < (walk io rd vis fuel path root s).1.seen x → Reach rd s.nr root x := by
  unfold walk
  cases hi : s.smInc root with
  | none => exact ⟨h, Mono.refl _, fun x h0 h1 => by simp only at h1; omega⟩
  | some p =>
    obtain ⟨rc, t⟩ := p
    obtain ⟨m1, m2, m3, m4, m5, m6, m7⟩ := smInc_spec hi
    have m4 := m4 hmx
    have ht : OnceInv rd t := ⟨fun x => by rw [m7]; exact h.one x, fun x hx => Nat.lt_of_lt_of_le (h.seen x (by rw [← m7]; exact hx)) (m1.seen x), by rw [m7]; exact h.stored⟩
    have hnew : ∀ x, s.seen x = 0 → 0 < t.seen x → Reach rd s.nr root x := by
      intro x h0 h1
      by_cases hx : x = root
      · subst hx; exact .root
      · rw [m5 x hx] at h1; omega
    simp only
    by_cases hrc : rc > 0
    · rw [if_pos hrc]
      by_cases hf : t.fails root
      · rw [if_pos hf]
        exact ⟨ht.call vis _ rfl, m1.trans (call_mono _ vis _), hnew⟩
      · rw [if_neg hf]
        exact ⟨(ht.call vis _ rfl).call vis _ rfl, m1.trans ((call_mono _ vis _).trans (call_mono _ vis _)), hnew⟩
    · rw [if_neg hrc]
      cases hio : io root with
      | false => simp only [Bool.not_false, if_true]; exact ⟨ht, m1, hnew⟩
      | true =>
        simp only [Bool.not_true, Bool.false_eq_true, if_false]
        have htmx : 0 < t.mx := by rw [m1.mx]; exact hmx
        have w := walkNode_once rd hrd vis fuel path true ⟨none, none⟩ root t htmx m4
        have hm := walkNode_mono rd vis fuel path true ⟨none, none⟩ root t htmx
        have hroot : shows root s.log = 0 := by
          have := h.seen root
          omega
        have hinv : OnceInv rd (walkNode rd vis fuel path true ⟨none, none⟩ root t).1 := by
          refine ⟨fun x => ?_, fun x hx => ?_, w.stored ht.stored⟩
          · have a := w.shows x
            rw [m7] at a
            by_cases hc : x ∈ [root] ∨ t.seen x = 0 ∧ 0 < (walkNode rd vis fuel path true ⟨none, none⟩ root t).1.seen x
            · rw [if_pos hc] at a
              have : shows x s.log = 0 := by
                rcases hc with hc | ⟨h0, -⟩
                · rw [List.mem_singleton.mp hc]; exact hroot
                · have := h.seen x
                  have := m1.seen x
                  omega
              omega
            · rw [if_neg hc] at a
              have := h.one x
              omega
          · have a := w.shows x
            rw [m7] at a
            by_cases hc : x ∈ [root] ∨ t.seen x = 0 ∧ 0 < (walkNode rd vis fuel path true ⟨none, none⟩ root t).1.seen x
            · rcases hc with hc | ⟨-, h1⟩
              · rw [List.mem_singleton.mp hc]; exact Nat.lt_of_lt_of_le m4 (hm.seen _)
              · exact h1
            · rw [if_neg hc] at a
              exact Nat.lt_of_lt_of_le (h.seen x (by omega)) (Nat.le_trans (m1.seen x) (hm.seen x))
        refine ⟨hinv.call vis _ rfl, m1.trans (hm.trans (call_mono _ vis _)), fun x h0 h1 => ?_⟩
        by_cases hx : t.seen x = 0
        · obtain ⟨c, hc, hr⟩ := w.reach x hx h1
          rw [List.mem_singleton.mp hc] at hr
          rw [m1.nr] at hr
          exact hr
        · exact hnew x h0 (by omega)

end Verif.BT
