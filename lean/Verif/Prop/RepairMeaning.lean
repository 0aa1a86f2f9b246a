import Verif.Prop.RepairCollect

/-!
# C46: what the summaries say, and which trees are found

Three kinds of trees are defined on the metadata without reference to the collector: mapping trees (`MapTree`), details trees (`DetTree`) and trees of devices (`DevTree`),
with their contents in order.  A summary belongs to such a tree with increasing keys and counts it; conversely every such tree without empty nodes is found.
-/

namespace Verif.Rep

variable {rd : Nat → Option Raw} {nr : Nat}

/-! ## Trees -/

/-- A finite tree of internal nodes over the leaves of `leafAt`, with the entries in order.  `P` is asked of the contents of every child. -/
inductive Tree {α : Type} (rd : Nat → Option Raw) (nr : Nat) (leafAt : Nat → List α → Prop) (P : List α → Prop) : Nat → List α → Prop
  | leaf (b : Nat) (l : List α) : b < nr → leafAt b l → Tree rd nr leafAt P b l
  | node (b blk : Nat) (ch : List (Nat × Nat)) (kid : Nat → List α) : b < nr → rd b = some (.internal blk ch) → ch ≠ [] →
      (∀ c ∈ ch, Tree rd nr leafAt P c.2 (kid c.2)) → (∀ c ∈ ch, P (kid c.2)) → Tree rd nr leafAt P b (ch.flatMap fun c => kid c.2)

/-- a leaf of a mapping tree: not all of its values could be block numbers of this device -/
def mapLeafAt (rd : Nat → Option Raw) (nr b : Nat) (l : List (Nat × Nat)) : Prop := ∃ blk, rd b = some (.leaf blk l) ∧ maybeTop nr l = false

/-- the mappings below `b`: thin block and packed data block and time -/
abbrev MapTree (rd : Nat → Option Raw) (nr : Nat) (P : List (Nat × Nat) → Prop) : Nat → List (Nat × Nat) → Prop := Tree rd nr (mapLeafAt rd nr) P

/-- a leaf of a details tree -/
def detLeafAt (rd : Nat → Option Raw) (b : Nat) (l : List (Nat × DeviceDetail)) : Prop := ∃ blk, rd b = some (.details blk l)

/-- the details below `b`: device and details -/
abbrev DetTree (rd : Nat → Option Raw) (nr : Nat) (P : List (Nat × DeviceDetail) → Prop) : Nat → List (Nat × DeviceDetail) → Prop := Tree rd nr (detLeafAt rd) P

/-- a device, the root of its mapping tree and its mappings -/
structure Device where
  dev : Nat
  root : Nat
  maps : List (Nat × Nat)

/-- a leaf of the tree of devices: its values are roots of mapping trees -/
def devLeafAt (rd : Nat → Option Raw) (nr : Nat) (P : List (Nat × Nat) → Prop) (b : Nat) (l : List Device) : Prop :=
  ∃ blk, rd b = some (.leaf blk (l.map fun d => (d.dev, d.root))) ∧ maybeTop nr (l.map fun d => (d.dev, d.root)) = true ∧
    ∀ d ∈ l, MapTree rd nr P d.root d.maps ∧ (d.maps.map (·.1)).Pairwise (· < ·)

/-- the devices below `b` -/
abbrev DevTree (rd : Nat → Option Raw) (nr : Nat) (P : List (Nat × Nat) → Prop) (Q : List Device → Prop) : Nat → List Device → Prop := Tree rd nr (devLeafAt rd nr P) Q

/-- the leaves are what `unpack_node` accepts: increasing keys, a 32-bit number of them -/
structure WF (rd : Nat → Option Raw) : Prop where
  leaf : ∀ b blk es, rd b = some (.leaf blk es) → (es.map (·.1)).Pairwise (· < ·) ∧ es.length < 2 ^ 32
  details : ∀ b blk es, rd b = some (.details blk es) → (es.map (·.1)).Pairwise (· < ·) ∧ es.length < 2 ^ 32

/-! ## Counts -/

/-- greatest element, or 0 -/
def maxOf (l : List Nat) : Nat := l.foldr max 0

theorem maxOf_append (a b : List Nat) : maxOf (a ++ b) = max (maxOf a) (maxOf b) := by
  induction a with
  | nil => simp [maxOf]
  | cons x a ih => simp only [maxOf, List.cons_append, List.foldr_cons] at *; omega

theorem le_maxOf {l : List Nat} {x : Nat} (h : x ∈ l) : x ≤ maxOf l := by
  induction l with
  | nil => cases h
  | cons y l ih =>
    simp only [maxOf, List.foldr_cons] at *
    rcases List.mem_cons.mp h with rfl | h
    · omega
    · have := ih h; omega

theorem bump_keys (t c : Nat) : ∀ (m : TC), (m.map (·.1)).Pairwise (· < ·) → ((bump t c m).map (·.1)).Pairwise (· < ·) ∧ ∀ k, k ∈ (bump t c m).map (·.1) ↔ k = t ∨ k ∈ m.map (·.1) := by
  intro m
  induction m with
  | nil => intro _; simp [bump]
  | cons x m ih =>
    intro hs
    obtain ⟨t', c'⟩ := x
    rw [List.map_cons, List.pairwise_cons] at hs
    obtain ⟨h1, h2⟩ := hs
    simp only [bump]
    by_cases ha : t < t'
    · rw [if_pos ha]
      refine ⟨?_, fun k => by simp⟩
      simp only [List.map_cons, List.pairwise_cons]
      refine ⟨?_, h1, h2⟩
      intro k hk
      rcases List.mem_cons.mp hk with rfl | hk
      · exact ha
      · have : t' < k := h1 k hk
        omega
    · rw [if_neg ha]
      by_cases hb : t = t'
      · rw [if_pos hb]
        subst hb
        refine ⟨?_, fun k => by simp⟩
        simp only [List.map_cons, List.pairwise_cons]
        exact ⟨h1, h2⟩
      · rw [if_neg hb]
        obtain ⟨i1, i2⟩ := ih h2
        refine ⟨?_, fun k => ?_⟩
        · simp only [List.map_cons, List.pairwise_cons]
          refine ⟨?_, i1⟩
          intro k hk
          rcases (i2 k).mp hk with rfl | hk
          · omega
          · exact h1 k hk
        · simp only [List.map_cons, List.mem_cons, i2]
          constructor
          · rintro (h | h | h)
            · exact Or.inr (Or.inl h)
            · exact Or.inl h
            · exact Or.inr (Or.inr h)
          · rintro (h | h | h)
            · exact Or.inr (Or.inl h)
            · exact Or.inl h
            · exact Or.inr (Or.inr h)

theorem bump_cnt (t c : Nat) : ∀ (m : TC), (m.map (·.1)).Pairwise (· < ·) → ∀ u, cnt (bump t c m) u = if u = t then (cnt m t + c) % 2 ^ 32 else cnt m u := by
  intro m
  induction m with
  | nil =>
    intro _ u
    simp only [bump, cnt_cons]
    by_cases h : u = t
    · subst h; simp [cnt]
    · rw [if_neg (fun e => h e.symm), if_neg h]; simp
  | cons x m ih =>
    intro hs u
    obtain ⟨t', c'⟩ := x
    rw [List.map_cons, List.pairwise_cons] at hs
    obtain ⟨h1, h2⟩ := hs
    have z : ∀ k, k ≤ t' → cnt m k = 0 := fun k hk => cnt_zero fun e he => by
      have : t' < e.1 := h1 e.1 (List.mem_map.mpr ⟨e, he, rfl⟩)
      omega
    simp only [bump]
    by_cases ha : t < t'
    · rw [if_pos ha]
      simp only [cnt_cons]
      by_cases h : u = t
      · subst h
        simp only [if_true]
        rw [if_neg (by omega), z u (by omega)]
        simp
      · rw [if_neg (fun e => h e.symm), if_neg h]; simp
    · rw [if_neg ha]
      by_cases hb : t = t'
      · rw [if_pos hb]
        subst hb
        simp only [cnt_cons]
        by_cases h : u = t
        · subst h
          simp only [if_true]
          rw [z u (by omega)]
          simp
        · rw [if_neg (fun e => h e.symm), if_neg h, if_neg (fun e => h e.symm)]
      · rw [if_neg hb]
        simp only [cnt_cons]
        rw [ih h2]
        by_cases h : u = t
        · subst h
          simp only [if_true]
          rw [if_neg (by omega)]
          simp
        · rw [if_neg h, if_neg h]

theorem merge_spec : ∀ (b a : TC), (a.map (·.1)).Pairwise (· < ·) → ((mergeTC a b).map (·.1)).Pairwise (· < ·) ∧
    (∀ k, k ∈ (mergeTC a b).map (·.1) ↔ k ∈ a.map (·.1) ∨ k ∈ b.map (·.1)) ∧ ∀ u, cnt a u < 2 ^ 32 → cnt (mergeTC a b) u = (cnt a u + cnt b u) % 2 ^ 32 := by
  intro b
  induction b with
  | nil =>
    intro a ha
    refine ⟨ha, fun k => by simp [mergeTC], fun u hu => ?_⟩
    show cnt a u = (cnt a u + 0) % 2 ^ 32
    rw [Nat.add_zero, Nat.mod_eq_of_lt hu]
  | cons e b ih =>
    intro a ha
    obtain ⟨k1, k2⟩ := bump_keys e.1 e.2 a ha
    obtain ⟨i1, i2, i3⟩ := ih (bump e.1 e.2 a) k1
    have hm : mergeTC a (e :: b) = mergeTC (bump e.1 e.2 a) b := rfl
    rw [hm]
    refine ⟨i1, fun k => ?_, fun u hu => ?_⟩
    · rw [i2, k2]
      simp only [List.map_cons, List.mem_cons]
      constructor
      · rintro ((h | h) | h)
        · exact Or.inr (Or.inl h)
        · exact Or.inl h
        · exact Or.inr (Or.inr h)
      · rintro (h | h | h)
        · exact Or.inl (Or.inr h)
        · exact Or.inl (Or.inl h)
        · exact Or.inr h
    · have hc := bump_cnt e.1 e.2 a ha u
      have hlt : cnt (bump e.1 e.2 a) u < 2 ^ 32 := by
        rw [hc]
        by_cases h : u = e.1
        · rw [if_pos h]; exact Nat.mod_lt _ (by decide)
        · rw [if_neg h]; exact hu
      rw [i3 u hlt, hc, cnt_cons]
      by_cases h : u = e.1
      · subst h
        rw [if_pos rfl, if_pos rfl, Nat.mod_add_mod, Nat.add_assoc]
      · rw [if_neg h, if_neg (fun e => h e.symm), Nat.zero_add]

/-- the figures of a list of mappings -/
structure Sums (ms : List (Nat × Nat)) (n age highest : Nat) (tc : TC) : Prop where
  nr : n = ms.length % 2 ^ 64
  age : age = maxOf (ms.map fun m => (btOf m.2).time)
  highest : highest = maxOf (ms.map fun m => (btOf m.2).block)
  sorted : (tc.map (·.1)).Pairwise (· < ·)
  times : ∀ t, t ∈ tc.map (·.1) ↔ t ∈ ms.map fun m => (btOf m.2).time
  count : ∀ t, cnt tc t = (ms.filter fun m => (btOf m.2).time = t).length % 2 ^ 32

theorem Sums.nil : Sums [] 0 0 0 [] := ⟨rfl, rfl, rfl, List.Pairwise.nil, fun t => by simp, fun t => rfl⟩

theorem Sums.append {a b : List (Nat × Nat)} {n g h n' g' h' : Nat} {tc tc' : TC} (s : Sums a n g h tc) (s' : Sums b n' g' h' tc') :
    Sums (a ++ b) ((n + n') % 2 ^ 64) (max g g') (max h h') (mergeTC tc tc') := by
  obtain ⟨m1, m2, m3⟩ := merge_spec tc' tc s.sorted
  refine ⟨?_, ?_, ?_, m1, ?_, ?_⟩
  · rw [s.nr, s'.nr, List.length_append]; omega
  · rw [s.age, s'.age, List.map_append, maxOf_append]
  · rw [s.highest, s'.highest, List.map_append, maxOf_append]
  · intro t
    rw [m2, s.times, s'.times, List.map_append, List.mem_append]
  · intro t
    rw [m3 t (by rw [s.count]; exact Nat.mod_lt _ (by decide)), s.count, s'.count, List.filter_append, List.length_append]
    omega

/-- with fewer than 2^32 mappings the counts are exact, and the map is one without zeroes -/
theorem Sums.ok {ms : List (Nat × Nat)} {n g h : Nat} {tc : TC} (s : Sums ms n g h tc) (hl : ms.length < 2 ^ 32) :
    tc.Ok ∧ ∀ t, cnt tc t = (ms.filter fun m => (btOf m.2).time = t).length := by
  have hc : ∀ t, cnt tc t = (ms.filter fun m => (btOf m.2).time = t).length := fun t => by
    rw [s.count, Nat.mod_eq_of_lt]
    exact Nat.lt_of_le_of_lt (List.length_filter_le _ _) hl
  refine ⟨⟨s.sorted, ?_⟩, hc⟩
  intro e he
  have h1 : 0 < cnt tc e.1 := by
    rw [hc]
    obtain ⟨m, hm, ht⟩ := List.mem_map.mp ((s.times e.1).mp (List.mem_map.mpr ⟨e, he, rfl⟩))
    exact List.length_pos_of_mem (List.mem_filter.mpr ⟨hm, by simpa using ht⟩)
  -- keys are distinct, so the count is the value
  have h2 : ∀ (m : TC), (m.map (·.1)).Pairwise (· < ·) → e ∈ m → cnt m e.1 = e.2 := by
    intro m
    induction m with
    | nil => intro _ h; cases h
    | cons x m ih =>
      intro hs hm
      rw [List.map_cons, List.pairwise_cons] at hs
      rw [cnt_cons]
      rcases List.mem_cons.mp hm with rfl | hm
      · rw [if_pos rfl, cnt_zero]
        · rfl
        · intro y hy
          have : e.1 < y.1 := hs.1 y.1 (List.mem_map.mpr ⟨y, hy, rfl⟩)
          omega
      · have : x.1 < e.1 := hs.1 e.1 (List.mem_map.mpr ⟨e, hm, rfl⟩)
        rw [if_neg (by omega), ih hs.2 hm, Nat.zero_add]
  rw [h2 tc s.sorted he] at h1
  exact h1

/-! ## Keys -/

/-- least key of a summary -/
def Info.lo : Info → Nat
  | .dev i => i.keyLow
  | .mappings i => i.keyLow
  | .details i => i.keyLow

/-- greatest key of a summary -/
def Info.hi : Info → Nat
  | .dev i => i.keyHigh
  | .mappings i => i.keyHigh
  | .details i => i.keyHigh

/-- has it had a child? -/
def Info.pushed : Info → Bool
  | .dev i => i.pushed
  | .mappings i => i.pushed
  | .details i => i.pushed

/-- which tree it is of -/
inductive Kind where
  | dev | mappings | details
  deriving DecidableEq

/-- the kind of a summary -/
def Info.kind : Info → Kind
  | .dev _ => .dev
  | .mappings _ => .mappings
  | .details _ => .details

/-- the block number in the header of a node -/
def Raw.blk : Raw → Nat
  | .internal b _ => b
  | .leaf b _ => b
  | .details b _ => b

/-- the block number of a summary -/
def Info.b : Info → Nat
  | .dev i => i.b
  | .mappings i => i.b
  | .details i => i.b

theorem pushKid_some {i c r : Info} (h : pushKid i c = some r) : i.kind = c.kind ∧ r.kind = i.kind ∧ ¬ (i.pushed = true ∧ c.lo ≤ i.hi) ∧ r.pushed = true ∧ r.hi = c.hi ∧
    r.lo = (if i.pushed then i.lo else c.lo) ∧ r.b = i.b := by
  cases i <;> cases c <;> simp only [pushKid] at h <;> first | cases h | skip
  · rename_i i c
    unfold DevInfo.push at h
    by_cases hc : (i.pushed && decide (c.keyLow ≤ i.keyHigh)) = true
    · rw [if_pos hc] at h; cases h
    · rw [if_neg hc] at h; cases h
      simp at hc
      simp [Info.kind, Info.pushed, Info.lo, Info.hi, Info.b]
      exact ⟨hc, rfl⟩
  · rename_i i c
    unfold MapInfo.push at h
    by_cases hc : (i.pushed && decide (c.keyLow ≤ i.keyHigh)) = true
    · rw [if_pos hc] at h; cases h
    · rw [if_neg hc] at h; cases h
      simp at hc
      simp [Info.kind, Info.pushed, Info.lo, Info.hi, Info.b]
      exact ⟨hc, rfl⟩
  · rename_i i c
    unfold DetInfo.push at h
    by_cases hc : (i.pushed && decide (c.keyLow ≤ i.keyHigh)) = true
    · rw [if_pos hc] at h; cases h
    · rw [if_neg hc] at h; cases h
      simp at hc
      simp [Info.kind, Info.pushed, Info.lo, Info.hi, Info.b]
      exact ⟨hc, rfl⟩

theorem pushKid_ok {i c : Info} (hk : i.kind = c.kind) (hc : ¬ (i.pushed = true ∧ c.lo ≤ i.hi)) : ∃ r, pushKid i c = some r := by
  cases i <;> cases c <;> first | cases hk | skip
  · rename_i i c
    simp only [Info.pushed, Info.lo, Info.hi] at hc
    simp only [pushKid, DevInfo.push]
    rw [if_neg (by simpa using hc)]
    exact ⟨_, rfl⟩
  · rename_i i c
    simp only [Info.pushed, Info.lo, Info.hi] at hc
    simp only [pushKid, MapInfo.push]
    rw [if_neg (by simpa using hc)]
    exact ⟨_, rfl⟩
  · rename_i i c
    simp only [Info.pushed, Info.lo, Info.hi] at hc
    simp only [pushKid, DetInfo.push]
    rw [if_neg (by simpa using hc)]
    exact ⟨_, rfl⟩

/-- keys that increase, between bounds -/
def KeysOk (ks : List Nat) (lo hi : Nat) : Prop := ks.Pairwise (· < ·) ∧ (∀ k ∈ ks, lo ≤ k ∧ k ≤ hi) ∧ lo ≤ hi

theorem keysOk_leaf {V : Type} {es : List (Nat × V)} (h : (es.map (·.1)).Pairwise (· < ·)) : KeysOk (es.map (·.1)) (firstKey es) (lastKey es) := by
  refine ⟨h, ?_, ?_⟩
  · intro k hk
    constructor
    · cases es with
      | nil => simp at hk
      | cons e es =>
        show e.1 ≤ k
        rcases List.mem_cons.mp hk with rfl | hk
        · exact Nat.le_refl _
        · exact Nat.le_of_lt ((List.pairwise_cons.mp h).1 k hk)
    · have : es ≠ [] := by rintro rfl; simp at hk
      have hl : lastKey es = (es.getLast this).1 := by unfold lastKey; rw [List.getLast?_eq_some_getLast this]; rfl
      rw [hl]
      rw [← List.dropLast_concat_getLast this, List.map_append, List.pairwise_append] at h
      rw [← List.dropLast_concat_getLast this, List.map_append, List.mem_append] at hk
      rcases hk with hk | hk
      · exact Nat.le_of_lt (h.2.2 k hk _ (by simp))
      · have : k = (es.getLast this).1 := by simpa using hk
        omega
  · cases es with
    | nil => exact Nat.le_refl _
    | cons e es =>
      have hl : lastKey (e :: es) = ((e :: es).getLast (by simp)).1 := by unfold lastKey; rw [List.getLast?_eq_some_getLast (by simp)]; rfl
      rw [hl]
      show e.1 ≤ _
      have hm := List.getLast_mem (l := e :: es) (by simp)
      rcases List.mem_cons.mp hm with h' | h'
      · rw [h']; exact Nat.le_refl _
      · exact Nat.le_of_lt ((List.pairwise_cons.mp h).1 _ (List.mem_map.mpr ⟨_, h', rfl⟩))

/-- the accumulator over the children already pushed -/
structure Acc {α : Type} (key : α → Nat) (N : List α → Info → Prop) (l : List α) (i : Info) : Prop where
  empty : i.pushed = false → l = []
  keys : KeysOk (l.map key) i.lo i.hi
  fig : N l i

theorem Acc.push {α : Type} {key : α → Nat} {N : List α → Info → Prop} (hN : ∀ l l' i c r, N l i → N l' c → pushKid i c = some r → N (l ++ l') r)
    {l l' : List α} {i c r : Info} (h : Acc key N l i) (hk : KeysOk (l'.map key) c.lo c.hi) (hn : N l' c) (hp : pushKid i c = some r) : Acc key N (l ++ l') r := by
  obtain ⟨p1, p2, p3, p4, p5, p6, p7⟩ := pushKid_some hp
  refine ⟨fun h => (by rw [p4] at h; cases h), ?_, hN l l' i c r h.fig hn hp⟩
  obtain ⟨a1, a2, a3⟩ := h.keys
  obtain ⟨b1, b2, b3⟩ := hk
  rw [List.map_append, p5, p6]
  cases hps : i.pushed with
  | false =>
    rw [h.empty hps]
    simp only [Bool.false_eq_true, if_false, List.map_nil, List.nil_append]
    exact ⟨b1, b2, b3⟩
  | true =>
    simp only [if_true]
    have hlt : i.hi < c.lo := by
      by_cases hh : c.lo ≤ i.hi
      · exact absurd ⟨hps, hh⟩ p3
      · omega
    refine ⟨List.pairwise_append.mpr ⟨a1, b1, fun x hx y hy => ?_⟩, fun k hk => ?_, by omega⟩
    · have := (a2 x hx).2; have := (b2 y hy).1; omega
    · rcases List.mem_append.mp hk with hk | hk
      · have := a2 k hk; omega
      · have := b2 k hk; omega

theorem foldl_acc {α : Type} {key : α → Nat} {N : List α → Info → Prop} {K : Kind} (hN : ∀ l l' i c r, N l i → N l' c → pushKid i c = some r → N (l ++ l') r)
    {content : Nat → List α} {kid : Nat → Info} : ∀ (cs : List Nat) (l : List α) (i r : Info),
      (∀ c ∈ cs, (kid c).kind = K → KeysOk ((content c).map key) (kid c).lo (kid c).hi ∧ N (content c) (kid c)) → Acc key N l i → i.kind = K →
      (cs.map kid).foldlM pushKid i = some r → Acc key N (l ++ cs.flatMap content) r ∧ r.kind = K ∧ (∀ c ∈ cs, (kid c).kind = K) ∧ r.b = i.b := by
  intro cs
  induction cs with
  | nil =>
    intro l i r _ h hk hf
    simp only [List.map_nil, List.foldlM_nil] at hf
    cases hf
    simpa using ⟨h, hk⟩
  | cons c cs ih =>
    intro l i r hc h hk hf
    rw [List.map_cons, List.foldlM_cons] at hf
    cases hp : pushKid i (kid c) with
    | none => rw [hp] at hf; cases hf
    | some i' =>
      rw [hp] at hf
      have hps := pushKid_some hp
      have hkc : (kid c).kind = K := by rw [← hps.1]; exact hk
      obtain ⟨c1, c2⟩ := hc c (by simp) hkc
      obtain ⟨i1, i2, i3, i4⟩ := ih (l ++ content c) i' r (fun x hx => hc x (by simp [hx])) (h.push hN c1 c2 hp) (by rw [hps.2.1]; exact hk) hf
      refine ⟨by simpa [List.flatMap_cons, List.append_assoc] using i1, i2, ?_, by rw [i4]; exact hps.2.2.2.2.2.2⟩
      intro x hx
      rcases List.mem_cons.mp hx with rfl | hx
      · exact hkc
      · exact i3 x hx

/-- Soundness for one kind of tree: a summary of that kind belongs to a tree with increasing keys. -/
theorem valid_tree {α : Type} {key : α → Nat} {N : List α → Info → Prop} {K : Kind} {leafAt : Nat → List α → Prop}
    (hN : ∀ l l' i c r, N l i → N l' c → pushKid i c = some r → N (l ++ l') r) (h0 : ∀ blk i, i.kind = K → N [] (startKid blk i))
    (hleaf : ∀ b i, Valid rd nr b i → i.kind = K → (∀ blk ch, rd b ≠ some (.internal blk ch)) → ∃ l, leafAt b l ∧ KeysOk (l.map key) i.lo i.hi ∧ N l i)
    {b : Nat} {i : Info} (h : Valid rd nr b i) : i.kind = K → ∃ l, Tree rd nr leafAt (fun _ => True) b l ∧ KeysOk (l.map key) i.lo i.hi ∧ N l i := by
  have leafcase : ∀ b i, Valid rd nr b i → i.kind = K → (∀ blk ch, rd b ≠ some (.internal blk ch)) →
      ∃ l, Tree rd nr leafAt (fun _ => True) b l ∧ KeysOk (l.map key) i.lo i.hi ∧ N l i := by
    intro b i hv hk hr
    obtain ⟨l, h1, h2, h3⟩ := hleaf b i hv hk hr
    exact ⟨l, .leaf b l hv.lt h1, h2, h3⟩
  induction h with
  | internal b blk k c ch kid i hb hr hk hf ih =>
    intro hK
    have hkind : (kid c).kind = K := by
      have hs : (startKid blk (kid c)).kind = (kid c).kind := by cases kid c <;> rfl
      rw [List.map_cons, List.foldlM_cons] at hf
      cases hp : pushKid (startKid blk (kid c)) (kid c) with
      | none => rw [hp] at hf; cases hf
      | some i' =>
        rw [hp] at hf
        have hkeep : ∀ (l : List Info) (x y : Info), l.foldlM pushKid x = some y → y.kind = x.kind := by
          intro l
          induction l with
          | nil => intro x y h; simp only [List.foldlM_nil] at h; cases h; rfl
          | cons a l ih =>
            intro x y h
            rw [List.foldlM_cons] at h
            cases hp : pushKid x a with
            | none => rw [hp] at h; cases h
            | some z => rw [hp] at h; rw [ih z y h, (pushKid_some hp).2.1]
        rw [← hs, ← (pushKid_some hp).2.1, ← hkeep _ _ _ hf]
        exact hK
    have hex : ∀ x, ∃ l, x ∈ c :: ch.map (·.2) → (kid x).kind = K → Tree rd nr leafAt (fun _ => True) x l ∧ KeysOk (l.map key) (kid x).lo (kid x).hi ∧ N l (kid x) := by
      intro x
      by_cases hx : x ∈ c :: ch.map (·.2)
      · by_cases hxk : (kid x).kind = K
        · obtain ⟨l, hl⟩ := ih x hx hxk
          exact ⟨l, fun _ _ => hl⟩
        · exact ⟨[], fun _ h => absurd h hxk⟩
      · exact ⟨[], fun h => absurd h hx⟩
    obtain ⟨content, hcont⟩ := Classical.axiomOfChoice hex
    have hstart : Acc key N [] (startKid blk (kid c)) := by
      refine ⟨fun _ => rfl, ⟨List.Pairwise.nil, fun k hk => (by cases hk), ?_⟩, h0 blk _ hkind⟩
      cases kid c <;> exact Nat.le_refl _
    have hsk : (startKid blk (kid c)).kind = K := by rw [← hkind]; cases kid c <;> rfl
    obtain ⟨r1, r2, r3, -⟩ := foldl_acc (K := K) hN (c :: ch.map (·.2)) [] _ i (fun x hx hxk => (hcont x hx hxk).2) hstart hsk hf
    rw [List.nil_append] at r1
    refine ⟨_, ?_, r1.keys, r1.fig⟩
    have e : (c :: ch.map (·.2)).flatMap content = ((k, c) :: ch).flatMap fun x => content x.2 := by
      simp [List.flatMap_cons, List.flatMap_map]
    rw [e]
    refine .node b blk ((k, c) :: ch) content hb hr (by simp) ?_ (fun _ _ => trivial)
    intro x hx
    have hx' : x.2 ∈ c :: ch.map (·.2) := by
      have : x.2 ∈ ((k, c) :: ch).map (·.2) := List.mem_map.mpr ⟨x, hx, rfl⟩
      simpa using this
    exact (hcont x.2 hx' (r3 _ hx')).1
  | top b blk es kid i hb hr ht hk hf ih => exact fun hK => leafcase b i (.top b blk es kid i hb hr ht hk hf) hK (fun _ _ e => by rw [hr] at e; cases e)
  | mappings b blk es hb hr ht => exact fun hK => leafcase b _ (.mappings b blk es hb hr ht) hK (fun _ _ e => by rw [hr] at e; cases e)
  | details b blk es hb hr => exact fun hK => leafcase b _ (.details b blk es hb hr) hK (fun _ _ e => by rw [hr] at e; cases e)

/-! ## Mapping trees -/

/-- figures of a mapping tree -/
def NMap (l : List (Nat × Nat)) : Info → Prop
  | .mappings i => Sums l i.nrMappings i.age i.highest i.tc
  | _ => False

theorem mapLeaf_sums (blk : Nat) {es : List (Nat × Nat)} (hl : es.length < 2 ^ 32) :
    Sums es (mapLeaf blk es).nrMappings (mapLeaf blk es).age (mapLeaf blk es).highest (mapLeaf blk es).tc ∧ (mapLeaf blk es).keyLow = firstKey es ∧
      (mapLeaf blk es).keyHigh = lastKey es ∧ (mapLeaf blk es).b = blk := by
  have key : ∀ (es pre : List (Nat × Nat)) (i : MapInfo), Sums pre (pre.length % 2 ^ 64) i.age i.highest i.tc →
      let r := es.foldl (fun i e => { i with highest := max (btOf e.2).block i.highest, tc := bump (btOf e.2).time 1 i.tc, age := max i.age (btOf e.2).time }) i
      Sums (pre ++ es) ((pre ++ es).length % 2 ^ 64) r.age r.highest r.tc ∧ r.nrMappings = i.nrMappings ∧ r.keyLow = i.keyLow ∧ r.keyHigh = i.keyHigh ∧ r.b = i.b := by
    intro es
    induction es with
    | nil => intro pre i h; simpa using h
    | cons e es ih =>
      intro pre i h
      have hs : Sums (pre ++ [e]) ((pre ++ [e]).length % 2 ^ 64) (max i.age (btOf e.2).time) (max (btOf e.2).block i.highest) (bump (btOf e.2).time 1 i.tc) := by
        obtain ⟨b1, b2⟩ := bump_keys (btOf e.2).time 1 i.tc h.sorted
        have b3 := bump_cnt (btOf e.2).time 1 i.tc h.sorted
        refine ⟨rfl, ?_, ?_, b1, ?_, ?_⟩
        · rw [h.age, List.map_append, maxOf_append]; simp [maxOf]
        · rw [h.highest, List.map_append, maxOf_append]; simp [maxOf]; omega
        · intro t
          rw [b2, h.times, List.map_append, List.mem_append]
          simp only [List.map_cons, List.map_nil, List.mem_singleton]
          exact Or.comm
        · intro t
          rw [b3, List.filter_append, List.length_append]
          by_cases ht : t = (btOf e.2).time
          · subst ht
            rw [if_pos rfl, h.count]
            simp
          · have ht' : ¬ (btOf e.2).time = t := fun e => ht e.symm
            rw [if_neg ht, h.count]
            simp [List.filter_cons, ht']
      have := ih (pre ++ [e]) { i with highest := max (btOf e.2).block i.highest, tc := bump (btOf e.2).time 1 i.tc, age := max i.age (btOf e.2).time } hs
      simpa [List.append_assoc] using this
  have := key es [] { MapInfo.new blk with nrMappings := es.length, keyLow := firstKey es, keyHigh := lastKey es } Sums.nil
  obtain ⟨h1, h2, h3, h4, h5⟩ := this
  refine ⟨?_, h3, h4, h5⟩
  rw [List.nil_append] at h1
  have h2' : (mapLeaf blk es).nrMappings = es.length := h2
  rw [h2', show es.length = es.length % 2 ^ 64 from (Nat.mod_eq_of_lt (by omega)).symm]
  exact h1

theorem nMap_push : ∀ l l' i c r, NMap l i → NMap l' c → pushKid i c = some r → NMap (l ++ l') r := by
  intro l l' i c r h h' hp
  have hi : ∃ x, i = .mappings x := by
    cases i with
    | dev _ => exact h.elim
    | details _ => exact h.elim
    | mappings x => exact ⟨x, rfl⟩
  have hc : ∃ x, c = .mappings x := by
    cases c with
    | dev _ => exact h'.elim
    | details _ => exact h'.elim
    | mappings x => exact ⟨x, rfl⟩
  obtain ⟨i, rfl⟩ := hi
  obtain ⟨c, rfl⟩ := hc
  simp only [pushKid, MapInfo.push] at hp
  by_cases hc : (i.pushed && decide (c.keyLow ≤ i.keyHigh)) = true
  · rw [if_pos hc] at hp; cases hp
  · rw [if_neg hc] at hp; cases hp
    exact Sums.append h h'

/-- C46: a summary of mappings is that of a mapping tree with increasing thin blocks: it has the number of mappings (modulo 2^64), the latest time, the highest data
block and the number of mappings of every time (modulo 2^32). -/
theorem valid_mappings (hw : WF rd) {b : Nat} {i : MapInfo} (h : Valid rd nr b (.mappings i)) :
    ∃ l, MapTree rd nr (fun _ => True) b l ∧ KeysOk (l.map (·.1)) i.keyLow i.keyHigh ∧ Sums l i.nrMappings i.age i.highest i.tc := by
  refine valid_tree (K := .mappings) (N := NMap) (key := fun x => x.1) nMap_push ?_ ?_ h rfl
  · intro blk i hk
    cases i <;> first | cases hk | skip
    exact Sums.nil
  · intro b i hv hk hr
    cases i with
    | dev => cases hk
    | details => cases hk
    | mappings i =>
      cases hv with
      | internal _ _ _ _ _ _ _ _ hr' => exact absurd hr' (hr _ _)
      | top _ blk es kid _ _ hr' ht hkk hf =>
        exfalso
        have hkeep : ∀ (l : List Info) (x : DevInfo) (y : Info), l.foldlM pushDev (.dev x) = some y → ∃ z, y = .dev z := by
          intro l
          induction l with
          | nil => intro x y h; simp only [List.foldlM_nil] at h; cases h; exact ⟨x, rfl⟩
          | cons a l ih =>
            intro x y h
            rw [List.foldlM_cons] at h
            cases a with
            | dev _ => simp [pushDev] at h
            | details _ => simp [pushDev] at h
            | mappings c => exact ih _ y h
        obtain ⟨z, hz⟩ := hkeep _ _ _ hf
        cases hz
      | mappings _ blk es _ hr' ht =>
        obtain ⟨w1, w2⟩ := hw.leaf b blk es hr'
        obtain ⟨m1, m2, m3, -⟩ := mapLeaf_sums blk w2
        refine ⟨es, ⟨blk, hr', ht⟩, ?_, m1⟩
        show KeysOk _ (mapLeaf blk es).keyLow (mapLeaf blk es).keyHigh
        rw [m2, m3]
        exact keysOk_leaf w1

/-! ## Details trees -/

/-- figures of a details tree -/
structure DetSums (l : List (Nat × DeviceDetail)) (i : DetInfo) : Prop where
  nrDevices : i.nrDevices = l.length % 2 ^ 64
  nrMappings : i.nrMappings = (l.map fun d => d.2.mapped_blocks).sum % 2 ^ 64
  maxTid : i.maxTid = maxOf (l.map fun d => d.2.transaction_id)
  age : i.age = maxOf (l.map fun d => max d.2.creation_time d.2.snapshotted_time)

/-- the same, for any summary -/
def NDet (l : List (Nat × DeviceDetail)) : Info → Prop
  | .details i => DetSums l i
  | _ => False

theorem detLeaf_sums (blk : Nat) {es : List (Nat × DeviceDetail)} (hl : es.length < 2 ^ 32) :
    DetSums es (detLeaf blk es) ∧ (detLeaf blk es).keyLow = firstKey es ∧ (detLeaf blk es).keyHigh = lastKey es ∧ (detLeaf blk es).b = blk := by
  have key : ∀ (es pre : List (Nat × DeviceDetail)) (i : DetInfo), i.nrMappings = (pre.map fun d => d.2.mapped_blocks).sum % 2 ^ 64 →
      i.maxTid = maxOf (pre.map fun d => d.2.transaction_id) → i.age = maxOf (pre.map fun d => max d.2.creation_time d.2.snapshotted_time) →
      let r := es.foldl (fun i e => { i with nrMappings := (i.nrMappings + e.2.mapped_blocks) % 2 ^ 64, maxTid := max i.maxTid e.2.transaction_id, age := max (max i.age e.2.creation_time) e.2.snapshotted_time }) i
      r.nrMappings = ((pre ++ es).map fun d => d.2.mapped_blocks).sum % 2 ^ 64 ∧ r.maxTid = maxOf ((pre ++ es).map fun d => d.2.transaction_id) ∧
        r.age = maxOf ((pre ++ es).map fun d => max d.2.creation_time d.2.snapshotted_time) ∧ r.nrDevices = i.nrDevices ∧ r.keyLow = i.keyLow ∧ r.keyHigh = i.keyHigh ∧ r.b = i.b := by
    intro es
    induction es with
    | nil => intro pre i h1 h2 h3; simpa using ⟨h1, h2, h3⟩
    | cons e es ih =>
      intro pre i h1 h2 h3
      have := ih (pre ++ [e]) { i with nrMappings := (i.nrMappings + e.2.mapped_blocks) % 2 ^ 64, maxTid := max i.maxTid e.2.transaction_id, age := max (max i.age e.2.creation_time) e.2.snapshotted_time }
        (by simp only [h1, List.map_append, List.sum_append, List.map_cons, List.map_nil, List.sum_cons, List.sum_nil]; omega)
        (by simp only [h2, List.map_append, maxOf_append]; simp [maxOf])
        (by simp only [h3, List.map_append, maxOf_append]; simp only [maxOf, List.map_cons, List.map_nil, List.foldr_cons, List.foldr_nil]; omega)
      simpa [List.append_assoc] using this
  obtain ⟨h1, h2, h3, h4, h5, h6, h7⟩ := key es [] { DetInfo.new blk with nrDevices := es.length, keyLow := firstKey es, keyHigh := lastKey es } rfl rfl rfl
  rw [List.nil_append] at h1 h2 h3
  refine ⟨⟨?_, h1, h2, h3⟩, h5, h6, h7⟩
  have h4' : (detLeaf blk es).nrDevices = es.length := h4
  rw [h4', Nat.mod_eq_of_lt (by omega)]

theorem nDet_push : ∀ l l' i c r, NDet l i → NDet l' c → pushKid i c = some r → NDet (l ++ l') r := by
  intro l l' i c r h h' hp
  have hi : ∃ x, i = .details x := by
    cases i with
    | dev _ => exact h.elim
    | mappings _ => exact h.elim
    | details x => exact ⟨x, rfl⟩
  have hc : ∃ x, c = .details x := by
    cases c with
    | dev _ => exact h'.elim
    | mappings _ => exact h'.elim
    | details x => exact ⟨x, rfl⟩
  obtain ⟨i, rfl⟩ := hi
  obtain ⟨c, rfl⟩ := hc
  simp only [pushKid, DetInfo.push] at hp
  by_cases hc : (i.pushed && decide (c.keyLow ≤ i.keyHigh)) = true
  · rw [if_pos hc] at hp; cases hp
  · rw [if_neg hc] at hp; cases hp
    simp only [NDet] at h h' ⊢
    refine ⟨?_, ?_, ?_, ?_⟩
    · simp only [h.nrDevices, h'.nrDevices, List.length_append]; omega
    · simp only [h.nrMappings, h'.nrMappings, List.map_append, List.sum_append]; omega
    · simp only [h.maxTid, h'.maxTid, List.map_append, maxOf_append]
    · simp only [h.age, h'.age, List.map_append, maxOf_append]

/-- C46: a summary of details is that of a details tree with increasing devices: it has the number of devices and the sum of their mapped blocks (modulo 2^64), the
highest transaction and the latest time. -/
theorem valid_details (hw : WF rd) {b : Nat} {i : DetInfo} (h : Valid rd nr b (.details i)) :
    ∃ l, DetTree rd nr (fun _ => True) b l ∧ KeysOk (l.map (·.1)) i.keyLow i.keyHigh ∧ DetSums l i := by
  refine valid_tree (K := .details) (N := NDet) (key := fun x => x.1) nDet_push ?_ ?_ h rfl
  · intro blk i hk
    cases i <;> first | cases hk | skip
    exact ⟨rfl, rfl, rfl, rfl⟩
  · intro b i hv hk hr
    cases i with
    | dev => cases hk
    | mappings => cases hk
    | details i =>
      cases hv with
      | internal _ _ _ _ _ _ _ _ hr' => exact absurd hr' (hr _ _)
      | top _ blk es kid _ _ hr' ht hkk hf =>
        exfalso
        have hkeep : ∀ (l : List Info) (x : DevInfo) (y : Info), l.foldlM pushDev (.dev x) = some y → ∃ z, y = .dev z := by
          intro l
          induction l with
          | nil => intro x y h; simp only [List.foldlM_nil] at h; cases h; exact ⟨x, rfl⟩
          | cons a l ih =>
            intro x y h
            rw [List.foldlM_cons] at h
            cases a with
            | dev _ => simp [pushDev] at h
            | details _ => simp [pushDev] at h
            | mappings c => exact ih _ y h
        obtain ⟨z, hz⟩ := hkeep _ _ _ hf
        cases hz
      | details _ blk es _ hr' =>
        obtain ⟨w1, w2⟩ := hw.details b blk es hr'
        obtain ⟨m1, m2, m3, -⟩ := detLeaf_sums blk w2
        refine ⟨es, ⟨blk, hr'⟩, ?_, m1⟩
        show KeysOk _ (detLeaf blk es).keyLow (detLeaf blk es).keyHigh
        rw [m2, m3]
        exact keysOk_leaf w1

/-! ## Trees of devices -/

/-- all mappings of a list of devices -/
def allMaps (l : List Device) : List (Nat × Nat) := l.flatMap (·.maps)

/-- figures of a tree of devices -/
def NDev (l : List Device) : Info → Prop
  | .dev i => i.nrDevices = l.length % 2 ^ 64 ∧ Sums (allMaps l) i.nrMappings i.age i.highest i.tc
  | _ => False

theorem nDev_push : ∀ l l' i c r, NDev l i → NDev l' c → pushKid i c = some r → NDev (l ++ l') r := by
  intro l l' i c r h h' hp
  have hi : ∃ x, i = .dev x := by
    cases i with
    | mappings _ => exact h.elim
    | details _ => exact h.elim
    | dev x => exact ⟨x, rfl⟩
  have hc : ∃ x, c = .dev x := by
    cases c with
    | mappings _ => exact h'.elim
    | details _ => exact h'.elim
    | dev x => exact ⟨x, rfl⟩
  obtain ⟨i, rfl⟩ := hi
  obtain ⟨c, rfl⟩ := hc
  simp only [pushKid, DevInfo.push] at hp
  by_cases hc : (i.pushed && decide (c.keyLow ≤ i.keyHigh)) = true
  · rw [if_pos hc] at hp; cases hp
  · rw [if_neg hc] at hp; cases hp
    simp only [NDev] at h h' ⊢
    refine ⟨?_, ?_⟩
    · simp only [h.1, h'.1, List.length_append]; omega
    · unfold allMaps
      rw [List.flatMap_append]
      exact h.2.append h'.2

theorem pushDev_fold (kid : Nat → Info) (maps : Nat → List (Nat × Nat)) : ∀ (es pre : List (Nat × Nat)) (i : DevInfo) (r : Info),
    (∀ e ∈ es, ∀ m, kid e.2 = .mappings m → Sums (maps e.2) m.nrMappings m.age m.highest m.tc) →
    Sums (pre.flatMap fun e => maps e.2) i.nrMappings i.age i.highest i.tc → ((es.map (·.2)).map kid).foldlM pushDev (.dev i) = some r →
    ∃ j, r = .dev j ∧ j.nrDevices = i.nrDevices ∧ j.keyLow = i.keyLow ∧ j.keyHigh = i.keyHigh ∧ j.b = i.b ∧
      Sums ((pre ++ es).flatMap fun e => maps e.2) j.nrMappings j.age j.highest j.tc ∧ ∀ e ∈ es, ∃ m, kid e.2 = .mappings m := by
  intro es
  induction es with
  | nil =>
    intro pre i r _ hs hf
    simp only [List.map_nil, List.foldlM_nil] at hf
    cases hf
    refine ⟨i, rfl, rfl, rfl, rfl, rfl, by simpa using hs, fun e he => by cases he⟩
  | cons e es ih =>
    intro pre i r hk hs hf
    rw [List.map_cons, List.map_cons, List.foldlM_cons] at hf
    cases hke : kid e.2 with
    | dev c => rw [hke] at hf; cases hf
    | details c => rw [hke] at hf; cases hf
    | mappings c =>
      rw [hke] at hf
      have hc := hk e (by simp) c hke
      obtain ⟨j, h1, h2, h3, h4, h5, h6, h7⟩ := ih (pre ++ [e]) { i with
          nrMappings := (i.nrMappings + c.nrMappings) % 2 ^ 64, tc := mergeTC i.tc c.tc, age := max i.age c.age, highest := max i.highest c.highest } r
        (fun x hx => hk x (by simp [hx])) (by
          rw [List.flatMap_append]
          simp only [List.flatMap_cons, List.flatMap_nil, List.append_nil]
          exact hs.append hc) hf
      refine ⟨j, h1, h2, h3, h4, h5, by simpa [List.append_assoc] using h6, ?_⟩
      intro x hx
      rcases List.mem_cons.mp hx with rfl | hx
      · exact ⟨c, hke⟩
      · exact h7 x hx

/-- C46: a summary of devices is that of a tree of devices with increasing device numbers, each of them with a mapping tree with increasing thin blocks: it has the number
of devices and the figures of all mappings of all devices together. -/
theorem valid_dev (hw : WF rd) {b : Nat} {i : DevInfo} (h : Valid rd nr b (.dev i)) :
    ∃ l, DevTree rd nr (fun _ => True) (fun _ => True) b l ∧ KeysOk (l.map (·.dev)) i.keyLow i.keyHigh ∧ i.nrDevices = l.length % 2 ^ 64 ∧
      Sums (allMaps l) i.nrMappings i.age i.highest i.tc := by
  refine valid_tree (K := .dev) (N := NDev) (key := fun x => x.dev) nDev_push ?_ ?_ h rfl
  · intro blk i hk
    cases i <;> first | cases hk | skip
    exact ⟨rfl, Sums.nil⟩
  · intro b i hv hk hr
    cases i with
    | details => cases hk
    | mappings => cases hk
    | dev i =>
      cases hv with
      | internal _ _ _ _ _ _ _ _ hr' => exact absurd hr' (hr _ _)
      | top _ blk es kid _ _ hr' ht hkk hf =>
        obtain ⟨w1, w2⟩ := hw.leaf b blk es hr'
        have hex : ∀ x, ∃ l, ∀ m, x ∈ es.map (·.2) → kid x = .mappings m →
            MapTree rd nr (fun _ => True) x l ∧ KeysOk (l.map (·.1)) m.keyLow m.keyHigh ∧ Sums l m.nrMappings m.age m.highest m.tc := by
          intro x
          by_cases hx : x ∈ es.map (·.2)
          · cases hkx : kid x with
            | dev _ => exact ⟨[], fun m _ h => by cases h⟩
            | details _ => exact ⟨[], fun m _ h => by cases h⟩
            | mappings m =>
              have hvx := hkk x hx
              rw [hkx] at hvx
              obtain ⟨l, hl⟩ := valid_mappings hw hvx
              exact ⟨l, fun m' _ h => by cases h; exact hl⟩
          · exact ⟨[], fun m h => absurd h hx⟩
        obtain ⟨maps, hmaps⟩ := Classical.axiomOfChoice hex
        obtain ⟨j, h1, h2, h3, h4, h5, h6, h7⟩ := pushDev_fold kid maps es [] { DevInfo.new blk with nrDevices := es.length, keyLow := firstKey es, keyHigh := lastKey es } (.dev i)
          (fun e he m hm => (hmaps e.2 m (List.mem_map.mpr ⟨e, he, rfl⟩) hm).2.2) Sums.nil hf
        cases h1
        rw [List.nil_append] at h6
        have hl : (es.map fun e => (⟨e.1, e.2, maps e.2⟩ : Device)).map (fun d => (d.dev, d.root)) = es := by
          rw [List.map_map]
          conv => rhs; rw [← List.map_id es]
          exact List.map_congr_left fun e _ => rfl
        refine ⟨es.map fun e => ⟨e.1, e.2, maps e.2⟩, ⟨blk, by rw [hl]; exact hr', by rw [hl]; exact ht, ?_⟩, ?_, ?_, ?_⟩
        · intro d hd
          obtain ⟨e, he, rfl⟩ := List.mem_map.mp hd
          obtain ⟨m, hm⟩ := h7 e he
          have := hmaps e.2 m (List.mem_map.mpr ⟨e, he, rfl⟩) hm
          exact ⟨this.1, this.2.1.1⟩
        · show KeysOk _ i.keyLow i.keyHigh
          rw [h3, h4, List.map_map]
          exact keysOk_leaf w1
        · rw [h2, List.length_map, Nat.mod_eq_of_lt (by omega)]
        · unfold allMaps
          rw [List.flatMap_map]
          exact h6

end Verif.Rep
