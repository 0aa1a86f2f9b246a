import Verif.Prop.Repair

/-!
# C46: the collector finds every well-formed tree

`Valid rd nr b i`: the blocks below `b` form a finite tree of nodes of one kind with increasing keys, and `i` is its summary.  The collector, a depth-first search that
marks blocks before it looks into them, finds exactly these, whatever the metadata is (cycles, shared and damaged nodes).
-/

namespace Verif.Rep

/-- the children whose summaries the summary of `b` needs -/
def kidsOf (nr : Nat) : Raw → List Nat
  | .internal _ ch => ch.map (·.2)
  | .leaf _ es => if maybeTop nr es then es.map (·.2) else []
  | .details _ _ => []

/-- A well-formed tree and its summary. -/
inductive Valid (rd : Nat → Option Raw) (nr : Nat) : Nat → Info → Prop
  | internal (b blk k c : Nat) (ch : List (Nat × Nat)) (kid : Nat → Info) (i : Info) : b < nr → rd b = some (.internal blk ((k, c) :: ch)) →
      (∀ x ∈ c :: ch.map (·.2), Valid rd nr x (kid x)) →
      ((c :: ch.map (·.2)).map kid).foldlM pushKid (startKid blk (kid c)) = some i → Valid rd nr b i
  | top (b blk : Nat) (es : List (Nat × Nat)) (kid : Nat → Info) (i : Info) : b < nr → rd b = some (.leaf blk es) → maybeTop nr es = true →
      (∀ x ∈ es.map (·.2), Valid rd nr x (kid x)) →
      ((es.map (·.2)).map kid).foldlM pushDev (startDev blk es) = some i → Valid rd nr b i
  | mappings (b blk : Nat) (es : List (Nat × Nat)) : b < nr → rd b = some (.leaf blk es) → maybeTop nr es = false → Valid rd nr b (.mappings (mapLeaf blk es))
  | details (b blk : Nat) (es : List (Nat × DeviceDetail)) : b < nr → rd b = some (.details blk es) → Valid rd nr b (.details (detLeaf blk es))

variable {rd : Nat → Option Raw} {nr : Nat}

theorem Valid.lt {b : Nat} {i : Info} (h : Valid rd nr b i) : b < nr := by cases h <;> assumption

/-- a block has at most one summary -/
theorem Valid.unique {b : Nat} {i : Info} (h : Valid rd nr b i) : ∀ {j}, Valid rd nr b j → i = j := by
  induction h with
  | internal b blk k c ch kid i hb hr hk hf ih =>
    intro j hj
    cases hj with
    | internal _ blk' k' c' ch' kid' _ _ hr' hk' hf' =>
      rw [hr] at hr'
      cases hr'
      have e : ∀ x ∈ c :: ch.map (·.2), kid x = kid' x := fun x hx => ih x hx (hk' x hx)
      rw [← List.map_congr_left e, ← e c (by simp), hf] at hf'
      exact Option.some.inj hf'
    | top _ _ _ _ _ _ hr' => rw [hr] at hr'; cases hr'
    | mappings _ _ _ _ hr' => rw [hr] at hr'; cases hr'
    | details _ _ _ _ hr' => rw [hr] at hr'; cases hr'
  | top b blk es kid i hb hr ht hk hf ih =>
    intro j hj
    cases hj with
    | internal _ _ _ _ _ _ _ _ hr' => rw [hr] at hr'; cases hr'
    | top _ blk' es' kid' _ _ hr' _ hk' hf' =>
      rw [hr] at hr'
      cases hr'
      have e : ∀ x ∈ es.map (·.2), kid x = kid' x := fun x hx => ih x hx (hk' x hx)
      rw [← List.map_congr_left e, hf] at hf'
      exact Option.some.inj hf'
    | mappings _ _ _ _ hr' ht' => rw [hr] at hr'; cases hr'; rw [ht] at ht'; cases ht'
    | details _ _ _ _ hr' => rw [hr] at hr'; cases hr'
  | mappings b blk es hb hr ht =>
    intro j hj
    cases hj with
    | internal _ _ _ _ _ _ _ _ hr' => rw [hr] at hr'; cases hr'
    | top _ _ _ _ _ _ hr' ht' => rw [hr] at hr'; cases hr'; rw [ht] at ht'; cases ht'
    | mappings _ _ _ _ hr' _ => rw [hr] at hr'; cases hr'; rfl
    | details _ _ _ _ hr' => rw [hr] at hr'; cases hr'
  | details b blk es hb hr =>
    intro j hj
    cases hj with
    | internal _ _ _ _ _ _ _ _ hr' => rw [hr] at hr'; cases hr'
    | top _ _ _ _ _ _ hr' => rw [hr] at hr'; cases hr'
    | mappings _ _ _ _ hr' => rw [hr] at hr'; cases hr'
    | details _ _ _ _ hr' => rw [hr] at hr'; cases hr'; rfl

/-- `c` is needed for the summary of `a` -/
def Dep (rd : Nat → Option Raw) (nr a c : Nat) : Prop := ∃ r, rd a = some r ∧ c ∈ kidsOf nr r

/-- at one remove or more -/
inductive Reaches (rd : Nat → Option Raw) (nr : Nat) : Nat → Nat → Prop
  | one {a b : Nat} : Dep rd nr a b → Reaches rd nr a b
  | more {a b c : Nat} : Dep rd nr a b → Reaches rd nr b c → Reaches rd nr a c

theorem Reaches.snoc {a b c : Nat} (h : Reaches rd nr a b) (hd : Dep rd nr b c) : Reaches rd nr a c := by
  induction h with
  | one h => exact .more h (.one hd)
  | more h _ ih => exact .more h (ih hd)

theorem Valid.kid {b c : Nat} {i : Info} (h : Valid rd nr b i) (hd : Dep rd nr b c) : ∃ j, Valid rd nr c j := by
  obtain ⟨r, hr, hc⟩ := hd
  cases h with
  | internal _ blk k c0 ch kid _ _ hr' hk =>
    rw [hr] at hr'; cases hr'
    exact ⟨_, hk c (by simpa [kidsOf] using hc)⟩
  | top _ _ _ kid _ _ hr' ht hk =>
    rw [hr] at hr'; cases hr'
    simp only [kidsOf, ht, if_true] at hc
    exact ⟨_, hk c hc⟩
  | mappings _ _ _ _ hr' ht =>
    rw [hr] at hr'; cases hr'
    simp [kidsOf, ht] at hc
  | details _ _ _ _ hr' =>
    rw [hr] at hr'; cases hr'
    simp [kidsOf] at hc

/-- a well-formed tree has no cycles -/
theorem Valid.acyclic {b : Nat} {i : Info} (h : Valid rd nr b i) : ¬ Reaches rd nr b b := by
  have step : ∀ b, (∀ c, Dep rd nr b c → ¬ Reaches rd nr c c) → ¬ Reaches rd nr b b := by
    intro b ih hc
    cases hc with
    | one h => exact ih b h (.one h)
    | more h h' => exact ih _ h (h'.snoc h)
  induction h with
  | internal b blk k c ch kid i hb hr hk hf ih =>
    refine step b fun x hx => ?_
    obtain ⟨r, hr', hc⟩ := hx
    rw [hr] at hr'; cases hr'
    exact ih x (by simpa [kidsOf] using hc)
  | top b blk es kid i hb hr ht hk hf ih =>
    refine step b fun x hx => ?_
    obtain ⟨r, hr', hc⟩ := hx
    rw [hr] at hr'; cases hr'
    simp only [kidsOf, ht, if_true] at hc
    exact ih x hc
  | mappings b blk es hb hr ht =>
    refine step b fun x hx => ?_
    obtain ⟨r, hr', hc⟩ := hx
    rw [hr] at hr'; cases hr'
    simp [kidsOf, ht] at hc
  | details b blk es hb hr =>
    refine step b fun x hx => ?_
    obtain ⟨r, hr', hc⟩ := hx
    rw [hr] at hr'; cases hr'
    simp [kidsOf] at hc

/-! ## The search -/

/-- what is known while the blocks of `stack` are being looked into -/
structure SInv (rd : Nat → Option Raw) (nr : Nat) (stack : List Nat) (s : St) : Prop where
  sound : ∀ b i, s.infos b = some i → Valid rd nr b i
  complete : ∀ b, s.examined b = true → b ∉ stack → ∀ i, Valid rd nr b i → s.infos b = some i
  bound : ∀ b, s.examined b = true → b < nr
  refd : ∀ x, s.referenced x = true ↔ ∃ b blk ch i, rd b = some (.internal blk ch) ∧ s.infos b = some i ∧ x ∈ ch.map (·.2)

/-- the blocks not yet looked into -/
def left (nr : Nat) (s : St) : Nat := ((List.range nr).filter fun b => !s.examined b).length

/-- `s'` has looked into every block that `s` has -/
def Grown (s s' : St) : Prop := ∀ b, s.examined b = true → s'.examined b = true

theorem left_mono {s s' : St} (h : Grown s s') : left nr s' ≤ left nr s := by
  unfold left
  generalize List.range nr = l
  induction l with
  | nil => exact Nat.le_refl _
  | cons b l ih =>
    by_cases h1 : s.examined b = true
    · have h2 := h b h1
      simp only [List.filter_cons, h1, h2, Bool.not_true]
      exact ih
    · by_cases h2 : s'.examined b = true
      · simp only [List.filter_cons, h1, h2]
        simp only [Bool.not_true, Bool.not_false]
        simp
        omega
      · simp only [List.filter_cons, h1, h2]
        simp
        omega

theorem left_mark {s : St} {b : Nat} (hb : b < nr) (h : s.examined b = false) : left nr { s with examined := fun x => x == b || s.examined x } < left nr s := by
  unfold left
  have key : ∀ l : List Nat, b ∈ l → (l.filter fun x => !(x == b || s.examined x)).length < (l.filter fun x => !s.examined x).length := by
    intro l
    induction l with
    | nil => intro h; cases h
    | cons x l ih =>
      intro hm
      have le : (l.filter fun x => !(x == b || s.examined x)).length ≤ (l.filter fun x => !s.examined x).length := by
        rw [show (fun x => !(x == b || s.examined x)) = fun x => (!(x == b)) && !s.examined x from by funext x; simp]
        rw [← List.filter_filter]
        exact List.length_filter_le _ _
      by_cases hx : x = b
      · subst hx
        simp only [List.filter_cons, h]
        simp
        simp at le
        omega
      · have := ih (by rcases List.mem_cons.mp hm with e | e; exact absurd e.symm hx; exact e)
        by_cases h2 : s.examined x = true
        · simpa [List.filter_cons, h2] using this
        · simp [List.filter_cons, h2, hx] at this ⊢
          exact this
  exact key _ (List.mem_range.mpr hb)

/-- what a call says of block `c` -/
def Says (rd : Nat → Option Raw) (nr c : Nat) (r : Option Info) : Prop := ∀ i, r = some i ↔ Valid rd nr c i

theorem gatherKids_spec {get : Nat → St → Out} {push : Info → Info → Option Info} {st : List Nat} :
    ∀ (cs : List Nat) (acc : Info) (s s' : St) (r : Option Info),
      (∀ c ∈ cs, ∀ t t' o, SInv rd nr st t → get c t = .ok (t', o) → SInv rd nr st t' ∧ Grown t t' ∧ Says rd nr c o) →
      SInv rd nr st s → gatherKids get push cs acc s = .ok (s', r) →
      SInv rd nr st s' ∧ Grown s s' ∧ (∀ i, r = some i → ∃ kid : Nat → Info, (∀ c ∈ cs, Valid rd nr c (kid c)) ∧ (cs.map kid).foldlM push acc = some i) ∧
        (r = none → ∀ kid : Nat → Info, (∀ c ∈ cs, Valid rd nr c (kid c)) → (cs.map kid).foldlM push acc = none) := by
  intro cs
  induction cs with
  | nil =>
    intro acc s s' r hg hs h
    simp only [gatherKids, Except.ok.injEq, Prod.mk.injEq] at h
    obtain ⟨rfl, rfl⟩ := h
    refine ⟨hs, fun b h => h, ?_, fun h => by cases h⟩
    rintro i e
    cases e
    exact ⟨fun _ => acc, fun c hc => (by cases hc), rfl⟩
  | cons c cs ih =>
    intro acc s s' r hg hs h
    unfold gatherKids at h
    cases hget : get c s with
    | error e => rw [hget] at h; cases h
    | ok v =>
      obtain ⟨t, o⟩ := v
      rw [hget] at h
      obtain ⟨ht, gt, so⟩ := hg c (by simp) s t o hs hget
      cases o with
      | none =>
        simp only [Except.ok.injEq, Prod.mk.injEq] at h
        obtain ⟨rfl, rfl⟩ := h
        refine ⟨ht, gt, fun i e => (by cases e), fun _ kid hk => ?_⟩
        have := (so (kid c)).mpr (hk c (by simp))
        cases this
      | some i =>
        simp only at h
        have hv := (so i).mp rfl
        cases hp : push acc i with
        | none =>
          rw [hp] at h
          simp only [Except.ok.injEq, Prod.mk.injEq] at h
          obtain ⟨rfl, rfl⟩ := h
          refine ⟨ht, gt, fun i e => (by cases e), fun _ kid hk => ?_⟩
          have e := (hk c (by simp)).unique hv
          simp [List.foldlM_cons, e, hp]
        | some acc' =>
          rw [hp] at h
          obtain ⟨a1, a2, a3, a4⟩ := ih acc' t s' r (fun c hc => hg c (by simp [hc])) ht h
          refine ⟨a1, fun b hb => a2 b (gt b hb), ?_, ?_⟩
          · intro j hj
            obtain ⟨kid, k1, k2⟩ := a3 j hj
            have hk : ∀ x ∈ cs, (if x = c then i else kid x) = kid x := by
              intro x hx
              by_cases e : x = c
              · subst e; rw [if_pos rfl]; exact hv.unique (k1 _ hx)
              · rw [if_neg e]
            refine ⟨fun x => if x = c then i else kid x, ?_, ?_⟩
            · intro x hx
              by_cases e : x = c
              · subst e; simp only [if_true]; exact hv
              · simp only [if_neg e]
                exact k1 x (by rcases List.mem_cons.mp hx with e' | e'; exact absurd e' e; exact e')
            · rw [List.map_cons, List.map_congr_left hk]
              simp [List.foldlM_cons, hp, k2]
          · intro hr kid hk
            have e := (hk c (by simp)).unique hv
            have := a4 hr kid (fun x hx => hk x (by simp [hx]))
            simp [List.foldlM_cons, e, hp, this]

theorem SInv.of_eq {st : List Nat} {s : St} (h : SInv rd nr st s) {b : Nat} (hb : b < nr) : SInv rd nr (b :: st) { s with examined := fun x => x == b || s.examined x } where
  sound := h.sound
  complete := by
    intro x hx hn i hv
    simp only [Bool.or_eq_true, beq_iff_eq] at hx
    simp only [List.mem_cons, not_or] at hn
    exact h.complete x (hx.resolve_left hn.1) hn.2 i hv
  bound := by
    intro x hx
    simp only [Bool.or_eq_true, beq_iff_eq] at hx
    rcases hx with rfl | hx
    · exact hb
    · exact h.bound x hx
  refd := h.refd

/-- the state after the summary of `b` was stored; `extra` are the children of an internal node -/
theorem SInv.store {st : List Nat} {b : Nat} {s : St} (h : SInv rd nr (b :: st) s) {i : Info} (hv : Valid rd nr b i) {ref' : Nat → Bool}
    (href : ∀ x, ref' x = true ↔ s.referenced x = true ∨ ∃ blk ch, rd b = some (.internal blk ch) ∧ x ∈ ch.map (·.2)) :
    SInv rd nr st { s with referenced := ref', infos := fun x => if x = b then some i else s.infos x } where
  sound := by
    intro x j hx
    simp only at hx
    by_cases e : x = b
    · subst e; rw [if_pos rfl] at hx; cases hx; exact hv
    · rw [if_neg e] at hx; exact h.sound x j hx
  complete := by
    intro x hx hn j hj
    simp only
    by_cases e : x = b
    · subst e; rw [if_pos rfl, hv.unique hj]
    · rw [if_neg e]; exact h.complete x hx (by simp [e, hn]) j hj
  bound := h.bound
  refd := by
    intro x
    simp only
    rw [href, h.refd]
    constructor
    · rintro (⟨b', blk, ch, j, h1, h2, h3⟩ | ⟨blk, ch, h1, h2⟩)
      · by_cases e : b' = b
        · exact ⟨b', blk, ch, i, h1, by rw [if_pos e], h3⟩
        · exact ⟨b', blk, ch, j, h1, by rw [if_neg e]; exact h2, h3⟩
      · exact ⟨b, blk, ch, i, h1, by rw [if_pos rfl], h2⟩
    · rintro ⟨b', blk, ch, j, h1, h2, h3⟩
      by_cases e : b' = b
      · subst e; exact Or.inr ⟨blk, ch, h1, h3⟩
      · rw [if_neg e] at h2; exact Or.inl ⟨b', blk, ch, j, h1, h2, h3⟩

theorem SInv.drop {st : List Nat} {b : Nat} {s : St} (h : SInv rd nr (b :: st) s) (hv : ∀ i, ¬ Valid rd nr b i) : SInv rd nr st s where
  sound := h.sound
  complete := by
    intro x hx hn j hj
    by_cases e : x = b
    · subst e; exact absurd hj (hv j)
    · exact h.complete x hx (by simp [e, hn]) j hj
  bound := h.bound
  refd := h.refd

/-- the search from one block: afterwards it is known whether a well-formed tree is there -/
theorem getInfo_spec : ∀ (fuel b : Nat) (st : List Nat) (s s' : St) (r : Option Info), SInv rd nr st s → (∀ a ∈ st, Reaches rd nr a b) →
    getInfo rd nr fuel b s = .ok (s', r) → SInv rd nr st s' ∧ Grown s s' ∧ Says rd nr b r ∧ s'.examined b = true := by
  intro fuel
  induction fuel with
  | zero =>
    intro b st s s' r hs hst h
    unfold getInfo at h
    by_cases he : s.examined b = true
    · rw [if_pos he] at h
      simp only [Except.ok.injEq, Prod.mk.injEq] at h
      obtain ⟨rfl, rfl⟩ := h
      refine ⟨hs, fun b h => h, fun i => ⟨hs.sound b i, fun hv => ?_⟩, he⟩
      exact hs.complete b he (fun hm => hv.acyclic (hst b hm)) i hv
    · rw [if_neg he] at h
      by_cases hb : b ≥ nr
      · rw [if_pos hb] at h; cases h
      · rw [if_neg hb] at h; cases h
  | succ fuel ih =>
    intro b st s s' r hs hst h
    unfold getInfo at h
    by_cases he : s.examined b = true
    · rw [if_pos he] at h
      simp only [Except.ok.injEq, Prod.mk.injEq] at h
      obtain ⟨rfl, rfl⟩ := h
      refine ⟨hs, fun b h => h, fun i => ⟨hs.sound b i, fun hv => ?_⟩, he⟩
      exact hs.complete b he (fun hm => hv.acyclic (hst b hm)) i hv
    rw [if_neg he] at h
    by_cases hb : b ≥ nr
    · rw [if_pos hb] at h; cases h
    rw [if_neg hb] at h
    have hbl : b < nr := by omega
    simp only at h
    have hs0 : SInv rd nr (b :: st) { s with examined := fun x => x == b || s.examined x } := hs.of_eq hbl
    have g0 : Grown s { s with examined := fun x => x == b || s.examined x } := fun x hx => by simp [hx]
    have e0 : ({ s with examined := fun x => x == b || s.examined x } : St).examined b = true := by simp
    generalize ({ s with examined := fun x => x == b || s.examined x } : St) = s0 at h hs0 g0 e0
    have hkid : ∀ c, Dep rd nr b c → ∀ t t' o, SInv rd nr (b :: st) t → getInfo rd nr fuel c t = .ok (t', o) → SInv rd nr (b :: st) t' ∧ Grown t t' ∧ Says rd nr c o := by
      intro c hd t t' o ht hg
      obtain ⟨a1, a2, a3, _⟩ := ih c (b :: st) t t' o ht (by
        intro a ha
        rcases List.mem_cons.mp ha with rfl | ha
        · exact .one hd
        · exact (hst a ha).snoc hd) hg
      exact ⟨a1, a2, a3⟩
    -- a block that is no tree
    have fail : ∀ s1, SInv rd nr (b :: st) s1 → Grown s0 s1 → (∀ i, ¬ Valid rd nr b i) → s1 = s' → none = r → SInv rd nr st s' ∧ Grown s s' ∧ Says rd nr b r ∧ s'.examined b = true := by
      rintro s1 h1 g1 hv rfl rfl
      refine ⟨h1.drop hv, fun x hx => g1 x (g0 x hx), fun i => ⟨fun e => (by cases e), fun e => absurd e (hv i)⟩, g1 b e0⟩
    have good : ∀ (s1 : St) i (ref' : Nat → Bool), SInv rd nr (b :: st) s1 → Grown s0 s1 → Valid rd nr b i →
        (∀ x, ref' x = true ↔ s1.referenced x = true ∨ ∃ blk ch, rd b = some (.internal blk ch) ∧ x ∈ ch.map (·.2)) →
        ({ s1 with referenced := ref', infos := fun x => if x = b then some i else s1.infos x } : St) = s' → some i = r →
        SInv rd nr st s' ∧ Grown s s' ∧ Says rd nr b r ∧ s'.examined b = true := by
      rintro s1 i ref' h1 g1 hv href rfl rfl
      exact ⟨h1.store hv href, fun x hx => g1 x (g0 x hx), fun j => ⟨fun e => (by cases e; exact hv), fun e => (by rw [hv.unique e])⟩, g1 b e0⟩
    have fin : ∀ (s1 : St) (o : Option Info), (match (Except.ok (s1, o) : Out) with
        | .error e => .error e
        | .ok (s, none) => .ok (s, none)
        | .ok (s, some i) => .ok ({ s with infos := fun x => if x = b then some i else s.infos x }, some i)) = (Except.ok (s', r) : Out) →
        (o = none → s1 = s' ∧ none = r) ∧ ∀ i, o = some i → ({ s1 with infos := fun x => if x = b then some i else s1.infos x } : St) = s' ∧ some i = r := by
      intro s1 o h
      cases o with
      | none =>
        simp only [Except.ok.injEq, Prod.mk.injEq] at h
        exact ⟨fun _ => h, fun i e => (by cases e)⟩
      | some i =>
        simp only [Except.ok.injEq, Prod.mk.injEq] at h
        exact ⟨fun e => (by cases e), fun j e => (by cases e; exact h)⟩
    unfold gatherInfo at h
    cases hrd : rd b with
    | none =>
      rw [hrd] at h
      obtain ⟨f1, -⟩ := fin s0 none h
      obtain ⟨e1, e2⟩ := f1 rfl
      refine fail s0 hs0 (fun x h => h) (fun i hv => ?_) e1 e2
      cases hv with
      | internal _ _ _ _ _ _ _ _ hr' => rw [hrd] at hr'; cases hr'
      | top _ _ _ _ _ _ hr' => rw [hrd] at hr'; cases hr'
      | mappings _ _ _ _ hr' => rw [hrd] at hr'; cases hr'
      | details _ _ _ _ hr' => rw [hrd] at hr'; cases hr'
    | some raw =>
      rw [hrd] at h
      cases raw with
      | details blk es =>
        obtain ⟨-, f2⟩ := fin s0 (some (.details (detLeaf blk es))) h
        obtain ⟨e1, e2⟩ := f2 _ rfl
        refine good s0 _ s0.referenced hs0 (fun x h => h) (.details b blk es hbl hrd) ?_ e1 e2
        intro x
        constructor
        · exact Or.inl
        · rintro (h | ⟨blk', ch, h, -⟩)
          · exact h
          · rw [hrd] at h; cases h
      | leaf blk es =>
        simp only at h
        cases hmt : maybeTop nr es with
        | false =>
          rw [hmt] at h
          obtain ⟨-, f2⟩ := fin s0 (some _) h
          obtain ⟨e1, e2⟩ := f2 _ rfl
          refine good s0 _ s0.referenced hs0 (fun x h => h) (.mappings b blk es hbl hrd hmt) ?_ e1 e2
          intro x
          constructor
          · exact Or.inl
          · rintro (h | ⟨blk', ch, h, -⟩)
            · exact h
            · rw [hrd] at h; cases h
        | true =>
          rw [hmt] at h
          simp only [if_true] at h
          cases hgk : gatherKids (getInfo rd nr fuel) pushDev (es.map (·.2)) (startDev blk es) s0 with
          | error e => rw [hgk] at h; cases h
          | ok v =>
            obtain ⟨s1, o⟩ := v
            rw [hgk] at h
            obtain ⟨k1, k2, k3, k4⟩ := gatherKids_spec (es.map (·.2)) (startDev blk es) s0 s1 o
              (fun c hc => hkid c ⟨_, hrd, by simpa [kidsOf, hmt] using hc⟩) hs0 hgk
            obtain ⟨f1, f2⟩ := fin _ _ h
            cases o with
            | none =>
              obtain ⟨e1, e2⟩ := f1 rfl
              refine fail s1 k1 k2 (fun i hv => ?_) e1 e2
              cases hv with
              | internal _ _ _ _ _ _ _ _ hr' => rw [hrd] at hr'; cases hr'
              | top _ _ _ kid _ _ hr' _ hk' hf' =>
                rw [hrd] at hr'; cases hr'
                rw [k4 rfl kid hk'] at hf'
                cases hf'
              | mappings _ _ _ _ hr' ht' => rw [hrd] at hr'; cases hr'; rw [hmt] at ht'; cases ht'
              | details _ _ _ _ hr' => rw [hrd] at hr'; cases hr'
            | some i =>
              obtain ⟨e1, e2⟩ := f2 i rfl
              obtain ⟨kid, q1, q2⟩ := k3 i rfl
              refine good s1 i s1.referenced k1 k2 (.top b blk es kid i hbl hrd hmt q1 q2) ?_ e1 e2
              intro x
              constructor
              · exact Or.inl
              · rintro (h | ⟨blk', ch, h, -⟩)
                · exact h
                · rw [hrd] at h; cases h
      | internal blk ch =>
        simp only at h
        cases ch with
        | nil =>
          obtain ⟨f1, -⟩ := fin s0 none h
          obtain ⟨e1, e2⟩ := f1 rfl
          refine fail s0 hs0 (fun x h => h) (fun i hv => ?_) e1 e2
          cases hv with
          | internal _ _ _ _ _ _ _ _ hr' => rw [hrd] at hr'; cases hr'
          | top _ _ _ _ _ _ hr' => rw [hrd] at hr'; cases hr'
          | mappings _ _ _ _ hr' => rw [hrd] at hr'; cases hr'
          | details _ _ _ _ hr' => rw [hrd] at hr'; cases hr'
        | cons p ch =>
          obtain ⟨k, c⟩ := p
          have hdep : ∀ x, x ∈ c :: ch.map (·.2) → Dep rd nr b x := fun x hx => ⟨_, hrd, by simpa [kidsOf] using hx⟩
          have bad : (∀ (kid : Nat → Info), (∀ x ∈ c :: ch.map (·.2), Valid rd nr x (kid x)) → ((c :: ch.map (·.2)).map kid).foldlM pushKid (startKid blk (kid c)) = none) → ∀ i, ¬ Valid rd nr b i := by
            intro hk i hv
            cases hv with
            | internal _ _ _ _ _ kid _ _ hr' hk' hf' =>
              rw [hrd] at hr'; cases hr'
              rw [hk kid hk'] at hf'
              cases hf'
            | top _ _ _ _ _ _ hr' => rw [hrd] at hr'; cases hr'
            | mappings _ _ _ _ hr' => rw [hrd] at hr'; cases hr'
            | details _ _ _ _ hr' => rw [hrd] at hr'; cases hr'
          unfold gatherSubtree at h
          simp only at h
          cases hg0 : getInfo rd nr fuel c s0 with
          | error e => rw [hg0] at h; cases h
          | ok v =>
            obtain ⟨s1, o⟩ := v
            rw [hg0] at h
            obtain ⟨t1, t2, t3⟩ := hkid c (hdep c (by simp)) s0 s1 o hs0 hg0
            cases o with
            | none =>
              simp only at h
              obtain ⟨f1, -⟩ := fin s1 none h
              obtain ⟨e1, e2⟩ := f1 rfl
              refine fail s1 t1 t2 (bad fun kid hk => ?_) e1 e2
              have := (t3 (kid c)).mpr (hk c (by simp))
              cases this
            | some first =>
              simp only [List.map_cons] at h
              cases hgk : gatherKids (getInfo rd nr fuel) pushKid (c :: ch.map (·.2)) (startKid blk first) s1 with
              | error e => rw [hgk] at h; cases h
              | ok v =>
                obtain ⟨s2, o⟩ := v
                rw [hgk] at h
                obtain ⟨k1, k2, k3, k4⟩ := gatherKids_spec (c :: ch.map (·.2)) (startKid blk first) s1 s2 o
                  (fun x hx => hkid x (hdep x hx)) t1 hgk
                have hfirst := (t3 first).mp rfl
                cases o with
                | none =>
                  simp only at h
                  obtain ⟨f1, -⟩ := fin s2 none h
                  obtain ⟨e1, e2⟩ := f1 rfl
                  refine fail s2 k1 (fun x hx => k2 x (t2 x hx)) (bad fun kid hk => ?_) e1 e2
                  rw [(hk c (by simp)).unique hfirst]
                  exact k4 rfl kid hk
                | some i =>
                  simp only at h
                  obtain ⟨-, f2⟩ := fin { s2 with referenced := fun x => s2.referenced x || decide (x ∈ c :: ch.map (·.2)) } (some i) h
                  obtain ⟨e1, e2⟩ := f2 i rfl
                  obtain ⟨kid, q1, q2⟩ := k3 i rfl
                  have hc := (q1 c (by simp)).unique hfirst
                  refine good s2 i _ k1 (fun x hx => k2 x (t2 x hx)) (.internal b blk k c ch kid i hbl hrd q1 (by rw [hc]; exact q2)) ?_ e1 e2
                  intro x
                  simp only [Bool.or_eq_true, decide_eq_true_eq]
                  constructor
                  · rintro (h | h)
                    · exact Or.inl h
                    · exact Or.inr ⟨blk, _, hrd, by simpa using h⟩
                  · rintro (h | ⟨blk', ch', h, h'⟩)
                    · exact Or.inl h
                    · rw [hrd] at h; cases h; exact Or.inr (by simpa using h')

theorem collectFrom_spec : ∀ (bs : List Nat) (s s' : St), SInv rd nr [] s → collectFrom rd nr bs s = .ok s' →
    SInv rd nr [] s' ∧ Grown s s' ∧ ∀ b ∈ bs, s'.examined b = true := by
  intro bs
  induction bs with
  | nil =>
    intro s s' hs h
    simp only [collectFrom, Except.ok.injEq] at h
    subst h
    exact ⟨hs, fun b h => h, fun b hb => by cases hb⟩
  | cons b bs ih =>
    intro s s' hs h
    unfold collectFrom at h
    cases hg : getInfo rd nr nr b s with
    | error e => rw [hg] at h; cases h
    | ok v =>
      obtain ⟨s1, o⟩ := v
      rw [hg] at h
      obtain ⟨a1, a2, -, a4⟩ := getInfo_spec nr b [] s s1 o hs (by intro a ha; cases ha) hg
      obtain ⟨b1, b2, b3⟩ := ih s1 s' a1 h
      refine ⟨b1, fun x hx => b2 x (a2 x hx), ?_⟩
      intro x hx
      rcases List.mem_cons.mp hx with rfl | hx
      · exact b2 _ a4
      · exact b3 x hx

/-- C46: after the scan of the metadata a block has a summary exactly when a well-formed tree hangs below it, and the summary is that tree's; the blocks that count as
referenced are exactly the children of the internal nodes of such trees.  For every content of the metadata, damaged, shared and cyclic nodes included. -/
theorem collect_exact {s : St} (h : collect rd nr = .ok s) :
    (∀ b i, s.infos b = some i ↔ Valid rd nr b i) ∧
      ∀ x, s.referenced x = true ↔ ∃ b blk ch i, rd b = some (.internal blk ch) ∧ Valid rd nr b i ∧ x ∈ ch.map (·.2) := by
  obtain ⟨h1, -, h3⟩ := collectFrom_spec (List.range nr) _ s (by
    refine ⟨fun b i h => (by cases h), fun b h => (by cases h), fun b h => (by cases h), fun x => ⟨fun h => (by cases h), ?_⟩⟩
    rintro ⟨b, blk, ch, i, -, h, -⟩
    cases h) h
  have hi : ∀ b i, s.infos b = some i ↔ Valid rd nr b i :=
    fun b i => ⟨h1.sound b i, fun hv => h1.complete b (h3 b (List.mem_range.mpr hv.lt)) (by simp) i hv⟩
  refine ⟨hi, fun x => ?_⟩
  rw [h1.refd]
  simp only [hi]

/-! ## The search ends -/

/-- every pointer followed lies inside the device -/
def InRange (rd : Nat → Option Raw) (nr : Nat) : Prop := ∀ b c, b < nr → Dep rd nr b c → c < nr

theorem gatherKids_total {get : Nat → St → Out} {push : Info → Info → Option Info} {n : Nat} {Q : Stop → Prop} :
    ∀ (cs : List Nat) (acc : Info) (s : St), (∀ c ∈ cs, ∀ t, left nr t ≤ n → (∃ t' o, get c t = .ok (t', o) ∧ Grown t t') ∨ ∃ e, get c t = .error e ∧ Q e) → left nr s ≤ n →
      (∃ s' r, gatherKids get push cs acc s = .ok (s', r) ∧ Grown s s') ∨ ∃ e, gatherKids get push cs acc s = .error e ∧ Q e := by
  intro cs
  induction cs with
  | nil => intro acc s _ _; exact Or.inl ⟨s, some acc, rfl, fun b h => h⟩
  | cons c cs ih =>
    intro acc s hg hl
    unfold gatherKids
    rcases hg c (by simp) s hl with ⟨t, o, h1, h2⟩ | ⟨e, h1, h2⟩
    · rw [h1]
      cases o with
      | none => exact Or.inl ⟨t, none, rfl, h2⟩
      | some i =>
        simp only
        cases push acc i with
        | none => exact Or.inl ⟨t, none, rfl, h2⟩
        | some acc' =>
          simp only
          rcases ih acc' t (fun c hc => hg c (by simp [hc])) (Nat.le_trans (left_mono h2) hl) with ⟨s', r, a, b⟩ | h
          · exact Or.inl ⟨s', r, a, fun x hx => b x (h2 x hx)⟩
          · exact Or.inr h
    · rw [h1]; exact Or.inr ⟨e, rfl, h2⟩

/-- the recursion is at most as deep as there are blocks; only a pointer beyond the device ends the process -/
theorem getInfo_total : ∀ (fuel b : Nat) (s : St), left nr s ≤ fuel →
    (∃ s' r, getInfo rd nr fuel b s = .ok (s', r) ∧ Grown s s') ∨ ∃ e, getInfo rd nr fuel b s = .error e ∧ (e = .panic ∧ ((b < nr → InRange rd nr → False))) := by
  intro fuel
  induction fuel with
  | zero =>
    intro b s hl
    unfold getInfo
    by_cases he : s.examined b = true
    · rw [if_pos he]; exact Or.inl ⟨s, _, rfl, fun b h => h⟩
    · rw [if_neg he]
      by_cases hb : b ≥ nr
      · rw [if_pos hb]; exact Or.inr ⟨_, rfl, rfl, fun h => by omega⟩
      · exfalso
        have := left_mark (nr := nr) (s := s) (b := b) (by omega) (by simpa using he)
        omega
  | succ fuel ih =>
    intro b s hl
    unfold getInfo
    by_cases he : s.examined b = true
    · rw [if_pos he]; exact Or.inl ⟨s, _, rfl, fun b h => h⟩
    rw [if_neg he]
    by_cases hb : b ≥ nr
    · rw [if_pos hb]; exact Or.inr ⟨_, rfl, rfl, fun h => by omega⟩
    rw [if_neg hb]
    simp only
    have hm := left_mark (nr := nr) (s := s) (b := b) (by omega) (by simpa using he)
    have g0 : Grown s { s with examined := fun x => x == b || s.examined x } := fun x hx => by simp [hx]
    generalize ({ s with examined := fun x => x == b || s.examined x } : St) = s0 at hm g0 ⊢
    have hkid : ∀ c, Dep rd nr b c → ∀ t, left nr t ≤ fuel → (∃ t' o, getInfo rd nr fuel c t = .ok (t', o) ∧ Grown t t') ∨
        ∃ e, getInfo rd nr fuel c t = .error e ∧ (e = .panic ∧ (b < nr → InRange rd nr → False)) := by
      intro c hd t ht
      rcases ih c t ht with h | ⟨e, h1, h2, h3⟩
      · exact Or.inl h
      · exact Or.inr ⟨e, h1, h2, fun hb hr => h3 (hr b c hb hd) hr⟩
    have fin : ∀ o : Out, ((∃ s' r, o = .ok (s', r) ∧ Grown s0 s') ∨ ∃ e, o = .error e ∧ (e = .panic ∧ (b < nr → InRange rd nr → False))) →
        (∃ s' r, (match o with
          | .error e => .error e
          | .ok (s, none) => .ok (s, none)
          | .ok (s, some i) => .ok ({ s with infos := fun x => if x = b then some i else s.infos x }, some i)) = (Except.ok (s', r) : Out) ∧ Grown s s') ∨
        ∃ e, (match o with
          | .error e => .error e
          | .ok (s, none) => .ok (s, none)
          | .ok (s, some i) => .ok ({ s with infos := fun x => if x = b then some i else s.infos x }, some i)) = (Except.error e : Out) ∧ (e = .panic ∧ (b < nr → InRange rd nr → False)) := by
      rintro o (⟨s', r, rfl, h2⟩ | ⟨e, rfl, h2⟩)
      · cases r with
        | none => exact Or.inl ⟨s', none, rfl, fun x hx => h2 x (g0 x hx)⟩
        | some i => exact Or.inl ⟨_, some i, rfl, fun x hx => h2 x (g0 x hx)⟩
      · exact Or.inr ⟨e, rfl, h2⟩
    apply fin
    unfold gatherInfo
    cases hrd : rd b with
    | none => exact Or.inl ⟨s0, none, rfl, fun b h => h⟩
    | some raw =>
      cases raw with
      | details blk es => exact Or.inl ⟨s0, _, rfl, fun b h => h⟩
      | leaf blk es =>
        simp only
        cases hmt : maybeTop nr es with
        | false => exact Or.inl ⟨s0, _, rfl, fun b h => h⟩
        | true =>
          simp only [if_true]
          exact gatherKids_total (es.map (·.2)) _ s0 (fun c hc => hkid c ⟨_, hrd, by simpa [kidsOf, hmt] using hc⟩) (by omega)
      | internal blk ch =>
        simp only
        unfold gatherSubtree
        cases ch with
        | nil => exact Or.inl ⟨s0, none, rfl, fun b h => h⟩
        | cons p ch =>
          obtain ⟨k, c⟩ := p
          simp only
          have hdep : ∀ x, x ∈ ((k, c) :: ch).map (·.2) → Dep rd nr b x := fun x hx => ⟨_, hrd, by simpa [kidsOf] using hx⟩
          rcases hkid c (hdep c (by simp)) s0 (by omega) with ⟨s1, o, h1, h2⟩ | ⟨e, h1, h2⟩
          · rw [h1]
            cases o with
            | none => exact Or.inl ⟨s1, none, rfl, h2⟩
            | some first =>
              simp only
              have := left_mono (nr := nr) h2
              rcases gatherKids_total (push := pushKid) (((k, c) :: ch).map (·.2)) (startKid blk first) s1 (fun x hx => hkid x (hdep x hx)) (by omega) with ⟨s2, o, a, b⟩ | ⟨e, a, b⟩
              · rw [a]
                cases o with
                | none => exact Or.inl ⟨s2, none, rfl, fun x hx => b x (h2 x hx)⟩
                | some i => exact Or.inl ⟨_, some i, rfl, fun x hx => b x (h2 x hx)⟩
              · rw [a]; exact Or.inr ⟨e, rfl, b⟩
          · rw [h1]; exact Or.inr ⟨e, rfl, h2⟩

theorem left_le (s : St) : left nr s ≤ nr := by
  have := List.length_filter_le (fun b => !s.examined b) (List.range nr)
  rw [List.length_range] at this
  exact this

theorem collectFrom_total : ∀ (bs : List Nat) (s : St), (∀ b ∈ bs, b < nr) →
    (∃ s', collectFrom rd nr bs s = .ok s') ∨ (collectFrom rd nr bs s = .error .panic ∧ ¬ InRange rd nr) := by
  intro bs
  induction bs with
  | nil => intro s _; exact Or.inl ⟨s, rfl⟩
  | cons b bs ih =>
    intro s hb
    unfold collectFrom
    rcases getInfo_total (rd := rd) nr b s (left_le s) with ⟨s', r, h1, -⟩ | ⟨e, h1, h2, h3⟩
    · rw [h1]; exact ih s' fun x hx => hb x (by simp [hx])
    · rw [h1, h2]; exact Or.inr ⟨rfl, h3 (hb b (by simp))⟩

/-- C46: the scan ends for every metadata (the recursion limit of the model is never met), and it ends the process only if a node points beyond the device. -/
theorem collect_total (rd : Nat → Option Raw) (nr : Nat) : (∃ s, collect rd nr = .ok s) ∨ (collect rd nr = .error .panic ∧ ¬ InRange rd nr) :=
  collectFrom_total (List.range nr) _ fun b hb => List.mem_range.mp hb

end Verif.Rep
