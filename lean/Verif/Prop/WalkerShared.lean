import Verif.Prop.WalkerMemory
import Verif.Model.Delta

/-!
# Walking several trees that share blocks, with one walker

Complements `Walker.lean` (one tree, no block seen before): whatever was walked before, as long as no error is remembered, walking
an undamaged tree succeeds, the visitor is shown nothing but entries of that tree, and after any number of successful walks every leaf
of every tree was shown in one of them.
-/

namespace Verif.BT

variable {V : Type}

/-- no errors are remembered, and only entries in `C` were shown in between -/
def Sh (C : Nat × V → Prop) (s t : WSt V) : Prop :=
  (∀ x, t.fails x = false) ∧ ∃ l, t.log = s.log ++ l ∧ ∀ e ∈ l, ∀ x ∈ Delta.visited e, C x

theorem Sh.trans {C : Nat × V → Prop} {s t u : WSt V} (h : Sh C s t) (k : Sh C t u) : Sh C s u := by
  obtain ⟨-, l, h1, h2⟩ := h
  obtain ⟨k0, m, k1, k2⟩ := k
  refine ⟨k0, l ++ m, by rw [k1, h1, List.append_assoc], ?_⟩
  intro e he
  rcases List.mem_append.mp he with he | he
  · exact h2 e he
  · exact k2 e he

theorem Sh.imp {C D : Nat × V → Prop} {s t : WSt V} (h : Sh C s t) (i : ∀ x, C x → D x) : Sh D s t :=
  ⟨h.1, h.2.choose, h.2.choose_spec.1, fun e he x hx => i x (h.2.choose_spec.2 e he x hx)⟩

theorem Sh.refl {C : Nat × V → Prop} {s : WSt V} (h : ∀ x, s.fails x = false) : Sh C s s := ⟨h, [], by simp, by simp⟩

theorem smInc_sh {C : Nat × V → Prop} {s t : WSt V} {b rc : Nat} (h : s.smInc b = some (rc, t)) (hs : ∀ x, s.fails x = false) : Sh C s t := by
  obtain ⟨-, -, -, -, -, h6, h7⟩ := smInc_spec h
  exact ⟨by rw [h6]; exact hs, [], by rw [h7]; simp, by simp⟩

theorem call_sh {C : Nat × V → Prop} {s : WSt V} (vis : List (Event V) → Event V → Bool) {e : Event V} (hs : ∀ x, s.fails x = false)
    (he : ∀ x ∈ Delta.visited e, C x) : Sh C s (s.call vis e).1 :=
  ⟨hs, [e], rfl, by intro e' h; rw [List.mem_singleton] at h; subst h; exact he⟩

theorem phase1_sh {C : Nat × V → Prop} (vis : List (Event V) → Event V → Bool) (hvis : ∀ l e, vis l e = true) (path : List Nat)
    (l : List (KeyRange × Nat)) (s : WSt V) (hs : ∀ x, s.fails x = false) :
    (phase1 vis path l s).2.1 = false ∧ Sh C s (phase1 vis path l s).1 ∧ ∀ c ∈ (phase1 vis path l s).2.2, c ∈ l := by
  induction l generalizing s with
  | nil => exact ⟨rfl, Sh.refl hs, by simp [phase1]⟩
  | cons p l ih =>
    obtain ⟨kr, b⟩ := p
    unfold phase1
    cases hi : s.smInc b with
    | none =>
      obtain ⟨h1, h2, h3⟩ := ih s hs
      exact ⟨h1, h2, fun c hc => List.mem_cons_of_mem _ (h3 c hc)⟩
    | some q =>
      obtain ⟨rc, t⟩ := q
      have ht : Sh C s t := smInc_sh hi hs
      simp only
      by_cases hrc : rc = 0
      · rw [if_pos hrc]
        obtain ⟨h1, h2, h3⟩ := ih t ht.1
        refine ⟨h1, ht.trans h2, ?_⟩
        intro c hc
        rcases List.mem_cons.mp hc with rfl | hc
        · simp
        · exact List.mem_cons_of_mem _ (h3 c hc)
      · rw [if_neg hrc, if_neg (by rw [ht.1]; simp)]
        have hc : Sh C t (t.call vis (.again path b)).1 := call_sh vis ht.1 (by simp [Delta.visited])
        obtain ⟨h1, h2, h3⟩ := ih _ hc.1
        refine ⟨?_, ht.trans (hc.trans h2), fun c hc => List.mem_cons_of_mem _ (h3 c hc)⟩
        simp only [h1, show (t.call vis (.again path b)).2 = true from hvis _ _, Bool.not_true, Bool.or_false]

theorem phase2_sh {C : Nat × V → Prop} (walk : KeyRange → Nat → WSt V → WSt V × Res) (l : List (KeyRange × Nat))
    (hw : ∀ c ∈ l, ∀ u : WSt V, (∀ x, u.fails x = false) → (walk c.1 c.2 u).2 = .ok ∧ Sh C u (walk c.1 c.2 u).1) :
    ∀ s : WSt V, (∀ x, s.fails x = false) → (phase2 walk l s).2 = .ok ∧ Sh C s (phase2 walk l s).1 := by
  induction l with
  | nil => intro s hs; exact ⟨rfl, Sh.refl hs⟩
  | cons c l ih =>
    intro s hs
    obtain ⟨kr, b⟩ := c
    obtain ⟨a1, a2⟩ := hw (kr, b) (by simp) s hs
    obtain ⟨b1, b2⟩ := ih (fun c hc => hw c (List.mem_cons_of_mem _ hc)) _ a2.1
    unfold phase2
    simp only at a1 a2 ⊢
    exact ⟨by rw [a1, b1]; rfl, a2.trans b2⟩

theorem eachRange_mem {T : Type} (g : T → Nat) (hi : Option Nat) : ∀ (l : List (Nat × T)), ∀ c ∈ eachRange (fun kr c => [(kr, g c)]) hi l,
    ∃ (pre post : List (Nat × T)) (k : Nat) (t : T), l = pre ++ (k, t) :: post ∧ c = (⟨some k, nextKey hi post⟩, g t) := by
  intro l
  induction l with
  | nil => intro c hc; cases hc
  | cons p l ih =>
    obtain ⟨k, t⟩ := p
    intro c hc
    simp only [eachRange, List.singleton_append, List.mem_cons] at hc
    rcases hc with rfl | hc
    · exact ⟨[], l, k, t, rfl, rfl⟩
    · obtain ⟨pre, post, k', t', h1, h2⟩ := ih c hc
      exact ⟨(k, t) :: pre, post, k', t', by rw [h1]; rfl, h2⟩

theorem chain_at {T : Type} {P : Nat → Option Nat → T → Prop} {hi : Option Nat} : ∀ (pre : List (Nat × T)) {lo : Nat} {post : List (Nat × T)} {k : Nat} {t : T},
    Chain P lo hi (pre ++ (k, t) :: post) → P k (nextKey hi post) t := by
  intro pre
  induction pre with
  | nil => intro lo post k t h; exact h.2.2.1
  | cons p pre ih => intro lo post k t h; obtain ⟨k', t'⟩ := p; exact ih h.2.2.2

/-- whatever was seen before, an undamaged tree is walked without an error and shows only its own entries -/
theorem walkNode_sh (rd : Bool → Nat → Option (Blk V)) (vis : List (Event V) → Event V → Bool) (hvis : ∀ l e, vis l e = true) (h : Nat) :
    ∀ (t : Tree V h) (path : List Nat) (isRoot : Bool) (kr : KeyRange) (lo : Nat) (fuel : Nat), h < fuel → t.Stored rd isRoot h →
      t.Ordered h lo kr.fin → (h = 0 ∨ t.NoEmpty h) → ∀ s : WSt V, (∀ x, s.fails x = false) →
      (walkNode rd vis fuel path isRoot kr (t.blk h) s).2 = .ok ∧
      Sh (· ∈ t.contents h) s (walkNode rd vis fuel path isRoot kr (t.blk h) s).1 := by
  induction h with
  | zero =>
    intro t path isRoot kr lo fuel hf hs ho _ s hfl
    obtain ⟨fuel, rfl⟩ : ∃ f, fuel = f + 1 := ⟨fuel - 1, by omega⟩
    obtain ⟨b, es⟩ := t
    simp only [Tree.Stored] at hs
    rw [show Tree.blk (V := V) 0 ((b, es) : Nat × List (Nat × V)) = b from rfl]
    simp only [walkNode, hs]
    have hc := call_sh (C := (· ∈ es)) (s := s) vis (e := .visit (path ++ [b]) kr es) hfl (by simp [Delta.visited])
    rw [if_pos (show (s.call vis (.visit (path ++ [b]) kr es)).2 = true from hvis _ _)]
    exact ⟨rfl, hc⟩
  | succ h ih =>
    intro t path isRoot kr lo fuel hf hs ho hne s hfl
    obtain ⟨fuel, rfl⟩ : ∃ f, fuel = f + 1 := ⟨fuel - 1, by omega⟩
    obtain ⟨b, ch⟩ := t
    obtain ⟨hs1, hs2⟩ := hs
    have hne' : ch ≠ [] ∧ ∀ c ∈ ch, Tree.NoEmpty h c.2 := by
      rcases hne with h0 | hne
      · omega
      · exact hne
    simp only [Tree.Ordered] at ho
    simp only at hs1 hs2
    rw [show Tree.blk (V := V) (h + 1) ((b, ch) : Nat × List (Nat × Tree V h)) = b from rfl]
    simp only [walkNode, hs1]
    rw [show (ch.map fun c => (c.1, Tree.blk h c.2)).map (·.1) = ch.map (·.1) by simp [List.map_map], split_chain ho hne'.1]
    simp only
    rw [show (ch.map fun c => (c.1, Tree.blk h c.2)).map (·.2) = ch.map (fun c => Tree.blk h c.2) by simp [List.map_map], rangesOf_zip]
    obtain ⟨p1, p2, p3⟩ := phase1_sh (C := (· ∈ Tree.contents (h + 1) ((b, ch) : Nat × List (Nat × Tree V h)))) vis hvis (path ++ [b])
      (eachRange (fun kr c => [(kr, Tree.blk h c)]) kr.fin ch) s hfl
    generalize phase1 vis (path ++ [b]) (eachRange (fun kr c => [(kr, Tree.blk h c)]) kr.fin ch) s = P at p1 p2 p3 ⊢
    obtain ⟨q1, q2⟩ := phase2_sh (C := (· ∈ Tree.contents (h + 1) ((b, ch) : Nat × List (Nat × Tree V h))))
      (walkNode rd vis fuel (path ++ [b]) false) P.2.2 (by
        intro c hc u hu
        obtain ⟨pre, post, k, t, e1, e2⟩ := eachRange_mem (Tree.blk h) kr.fin ch c (p3 c hc)
        subst e2
        have hm : (k, t) ∈ ch := by rw [e1]; simp
        obtain ⟨r1, r2⟩ := ih t (path ++ [b]) false ⟨some k, nextKey kr.fin post⟩ k fuel (by omega) (hs2 _ hm)
          (by rw [e1] at ho; exact chain_at pre ho) (Or.inr (hne'.2 _ hm)) u hu
        refine ⟨r1, r2.imp ?_⟩
        intro x hx
        simp only [Tree.contents]
        exact List.mem_flatMap.mpr ⟨(k, t), hm, hx⟩) P.1 p2.1
    rw [p1, q1]
    simp only [Bool.false_eq_true, if_false]
    have e : (Res.ok.and Res.ok) = Res.ok := rfl
    rw [e]
    exact ⟨rfl, by rw [if_neg (by simp)]; exact p2.trans q2⟩

/-- the same for a whole walk, by a walker with saturating counts -/
theorem walk_sh (io : Nat → Bool) (rd : Bool → Nat → Option (Blk V)) (vis : List (Event V) → Event V → Bool) (hvis : ∀ l e, vis l e = true)
    (h : Nat) (t : Tree V h) (path : List Nat) (fuel : Nat) (hf : h < fuel) (hs : t.Stored rd true h) (ho : t.Ordered h 0 none)
    (hne : h = 0 ∨ t.NoEmpty h) (s : WSt V) (hsat : s.sat = true) (hio : io (t.blk h) = true) (hlt : t.blk h < s.nr)
    (hfl : ∀ x, s.fails x = false) :
    (walk io rd vis fuel path (t.blk h) s).2 = .ok ∧ Sh (· ∈ t.contents h) s (walk io rd vis fuel path (t.blk h) s).1 := by
  unfold walk
  cases hi : s.smInc (t.blk h) with
  | none =>
    unfold WSt.smInc at hi
    rw [if_pos hlt] at hi
    by_cases hm : s.seen (t.blk h) < s.mx
    · rw [if_pos hm] at hi; cases hi
    · rw [if_neg hm, if_pos hsat] at hi; cases hi
  | some q =>
    obtain ⟨rc, u⟩ := q
    have hu : Sh (· ∈ t.contents h) s u := smInc_sh hi hfl
    simp only
    by_cases hrc : rc > 0
    · rw [if_pos hrc, if_neg (by rw [hu.1]; simp)]
      have h1 : Sh (· ∈ t.contents h) u (u.call vis (.again path (t.blk h))).1 := call_sh vis hu.1 (by simp [Delta.visited])
      have h2 : Sh (· ∈ t.contents h) _ ((u.call vis (.again path (t.blk h))).1.call vis .endWalk).1 := call_sh vis h1.1 (by simp [Delta.visited])
      refine ⟨?_, hu.trans (h1.trans h2)⟩
      simp only [WSt.call, hvis, if_true]
    · rw [if_neg hrc, if_neg (by simp [hio])]
      obtain ⟨r1, r2⟩ := walkNode_sh rd vis hvis h t path true ⟨none, none⟩ 0 fuel hf hs ho hne u hu.1
      have h2 : Sh (· ∈ t.contents h) _ ((walkNode rd vis fuel path true ⟨none, none⟩ (t.blk h) u).1.call vis .endWalk).1 :=
        call_sh vis r2.1 (by simp [Delta.visited])
      exact ⟨r1, hu.trans (r2.trans h2)⟩

/-- all blocks seen so far are covered and closed under children -/
def AllClosed (rd : Bool → Nat → Option (Blk V)) (vis : List (Event V) → Event V → Bool) (s : WSt V) : Prop :=
  ∀ x, 0 < s.seen x → Closed rd vis s x

/-- successful walks keep that, and the root is seen -/
theorem walk_closed (io : Nat → Bool) (rd : Bool → Nat → Option (Blk V)) (hrd : ∀ b n, rd false b = some n → rd true b = some n)
    (vis : List (Event V) → Event V → Bool) (s0 : WSt V) (hmx : 0 < s0.mx) (fuel : Nat) (path : List Nat) (root : Nat)
    (hall : AllClosed rd vis s0) (hok : (walk io rd vis fuel path root s0).2 = .ok) :
    AllClosed rd vis (walk io rd vis fuel path root s0).1 ∧ 0 < (walk io rd vis fuel path root s0).1.seen root := by
  unfold walk at hok ⊢
  cases hi : s0.smInc root with
  | none => rw [hi] at hok; simp at hok
  | some p =>
    obtain ⟨rc, s⟩ := p
    rw [hi] at hok
    obtain ⟨m1, m2, m3, m4, m5, -, -⟩ := smInc_spec hi
    have m4 : 0 < s.seen root := m4 hmx
    simp only at hok ⊢
    by_cases hrc : rc > 0
    · rw [if_pos hrc] at hok ⊢
      have hs : AllClosed rd vis s := by
        intro x hx
        by_cases e : x = root
        · subst e; exact (hall _ (by omega)).mono m1
        · exact (hall x (by rw [← m5 x e]; exact hx)).mono m1
      by_cases hf : s.fails root
      · rw [if_pos hf] at hok; cases hok
      · rw [if_neg hf]
        exact ⟨fun x hx => ((hs x hx).mono (call_mono s vis _)).mono (call_mono _ vis _), m4⟩
    · rw [if_neg hrc] at hok ⊢
      cases hio : io root with
      | false => simp [hio] at hok
      | true =>
        simp only [hio, Bool.not_true, Bool.false_eq_true, if_false] at hok ⊢
        have hsmx : 0 < s.mx := by rw [m1.mx]; exact hmx
        have hs := walkNode_sound rd hrd vis fuel path true ⟨none, none⟩ root s hsmx hok
        have hmono := walkNode_mono rd vis fuel path true ⟨none, none⟩ root s hsmx
        refine ⟨?_, Nat.lt_of_lt_of_le m4 (hmono.seen root)⟩
        intro x hx
        refine Closed.mono ?_ (call_mono _ vis _)
        by_cases e : x = root
        · exact hs x (Or.inl e)
        · by_cases h0 : s.seen x = 0
          · exact hs x (Or.inr ⟨h0, hx⟩)
          · exact ((hall x (by rw [← m5 x e]; omega)).mono m1).mono hmono

/-- what is reachable from a seen block is covered -/
theorem covered_of_seen {rd : Bool → Nat → Option (Blk V)} {vis : List (Event V) → Event V → Bool} {s : WSt V} (hall : AllClosed rd vis s)
    {root : Nat} (hr : 0 < s.seen root) {b : Nat} (hb : Reach rd s.nr root b) : 0 < s.seen b ∧ Covered rd vis s.log b := by
  have : 0 < s.seen b := by
    induction hb with
    | root => exact hr
    | child hb hch hc hlt ih => exact (hall _ ih).2 _ hch _ hc hlt
  exact ⟨this, (hall b this).1⟩

end Verif.BT
