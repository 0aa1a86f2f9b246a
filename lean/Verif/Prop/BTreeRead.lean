import Verif.Model.BTree

/-!
# C13, C14, C16: lookup, iteration, key-range splitting
-/

namespace Verif.BT

variable {V : Type}

/-! ## Specification: trees of height `h` and what they contain -/

/-- A tree all of whose leaves are at depth `h`: a block number with the entries (leaf) or with the keyed
children (internal node). -/
def Tree (V : Type) : Nat → Type
  | 0 => Nat × List (Nat × V)
  | h + 1 => Nat × List (Nat × Tree V h)

/-- block number of the root -/
def Tree.blk : (h : Nat) → Tree V h → Nat
  | 0, t => t.1
  | _ + 1, t => t.1

theorem Tree.blk_succ (h : Nat) (t : Tree V (h + 1)) : Tree.blk (h + 1) t = t.1 := rfl

/-- all entries in order -/
def Tree.contents : (h : Nat) → Tree V h → List (Nat × V)
  | 0, t => t.2
  | h + 1, t => t.2.flatMap (fun c => contents h c.2)

/-- the tree is what the reader finds at its root block -/
def Tree.Stored (rd : Bool → Nat → Option (Blk V)) : Bool → (h : Nat) → Tree V h → Prop
  | isRoot, 0, t => rd isRoot t.1 = some (.leaf t.2)
  | isRoot, h + 1, t => rd isRoot t.1 = some (.internal (t.2.map fun c => (c.1, Tree.blk h c.2))) ∧
      ∀ c ∈ t.2, Stored rd false h c.2

/-- `k` is below the exclusive bound `hi` (`none`: no bound) -/
def Below (k : Nat) : Option Nat → Prop
  | none => True
  | some h => k < h

/-- the upper end of a keyed item's range: the key of the next item, or the end of the whole range -/
def nextKey {T : Type} (hi : Option Nat) : List (Nat × T) → Option Nat
  | [] => hi
  | (k, _) :: _ => some k

/-- keyed items in strictly increasing key order within `[lo, hi)`; each item satisfies `P` for the key range
from its own key up to the next item's key -/
def Chain {T : Type} (P : Nat → Option Nat → T → Prop) : Nat → Option Nat → List (Nat × T) → Prop
  | _, _, [] => True
  | lo, hi, (k, c) :: rest => lo ≤ k ∧ Below k hi ∧
      P k (nextKey hi rest) c ∧ Chain P (k + 1) hi rest

/-- search-tree order: all keys in `[lo, hi)`, strictly increasing in every node, each child within the range its
parent's keys promise -/
def Tree.Ordered : (h : Nat) → Nat → Option Nat → Tree V h → Prop
  | 0, lo, hi, t => Chain (fun _ _ _ => True) lo hi t.2
  | h + 1, lo, hi, t => Chain (Ordered h) lo hi t.2

/-- no empty nodes below the root; only a leaf that is itself the root may be empty -/
def Tree.NoEmpty : (h : Nat) → Tree V h → Prop
  | 0, t => t.2 ≠ []
  | h + 1, t => t.2 ≠ [] ∧ ∀ c ∈ t.2, NoEmpty h c.2

/-! ## Lemmas on order -/

theorem Below.mono {k k' : Nat} {hi : Option Nat} (h : Below k' hi) (hk : k ≤ k') : Below k hi := by
  cases hi with
  | none => trivial
  | some x => simp only [Below] at *; omega

theorem chain_mem {T : Type} {P : Nat → Option Nat → T → Prop} {lo : Nat} {hi : Option Nat} {l : List (Nat × T)}
    (h : Chain P lo hi l) : ∀ c ∈ l, lo ≤ c.1 ∧ Below c.1 hi := by
  induction l generalizing lo with
  | nil => simp
  | cons p l ih =>
    obtain ⟨k, c⟩ := p
    obtain ⟨h1, h2, -, h4⟩ := h
    intro q hq
    rcases List.mem_cons.mp hq with rfl | hq
    · exact ⟨h1, h2⟩
    · obtain ⟨a, b⟩ := ih h4 q hq
      exact ⟨by omega, b⟩

theorem ordered_mem : ∀ (h : Nat) (lo : Nat) (hi : Option Nat) (t : Tree V h), t.Ordered h lo hi →
    ∀ e ∈ t.contents h, lo ≤ e.1 ∧ Below e.1 hi := by
  intro h
  induction h with
  | zero => intro lo hi t ho; exact chain_mem ho
  | succ h ih =>
    intro lo hi t ho
    obtain ⟨b, ch⟩ := t
    simp only [Tree.Ordered, Tree.contents] at *
    clear b
    induction ch generalizing lo with
    | nil => simp
    | cons p ch ih2 =>
      obtain ⟨k, c⟩ := p
      obtain ⟨h1, h2, h3, h4⟩ := ho
      intro e he
      simp only [List.flatMap_cons, List.mem_append] at he
      rcases he with he | he
      · obtain ⟨a, b⟩ := ih _ _ c h3 e he
        refine ⟨by omega, ?_⟩
        cases ch with
        | nil => exact b
        | cons q ch =>
          obtain ⟨k', c'⟩ := q
          simp only [Below, nextKey] at b
          exact Below.mono h4.2.1 (by omega)
      · obtain ⟨a, b⟩ := ih2 (k + 1) h4 e he
        exact ⟨by omega, b⟩

/-- binary search on a chain picks the item whose range contains the key -/
theorem bsearch_chain {T : Type} {P : Nat → Option Nat → T → Prop} {lo : Nat} {hi : Option Nat} {l : List (Nat × T)}
    (key : Nat) (hc : Chain P lo hi l) :
    (bsearch (l.map (·.1)) key = (false, 0) ∧ ∀ c ∈ l, key < c.1) ∨
    (∃ pre k c post, l = pre ++ (k, c) :: post ∧ k ≤ key ∧ (∀ q ∈ pre, q.1 < k) ∧ (∀ q ∈ post, key < q.1) ∧
      P k (nextKey hi post) c ∧
      bsearch (l.map (·.1)) key = if k = key then (true, pre.length) else (false, pre.length + 1)) := by
  induction l generalizing lo with
  | nil => exact Or.inl ⟨rfl, by simp⟩
  | cons p l ih =>
    obtain ⟨k, c⟩ := p
    obtain ⟨h1, h2, h3, h4⟩ := hc
    have hgt := chain_mem h4
    simp only [List.map_cons, bsearch]
    by_cases e : key = k
    · subst e
      refine Or.inr ⟨[], key, c, l, rfl, by omega, by simp, ?_, h3, by simp⟩
      intro q hq; have := (hgt q hq).1; omega
    · by_cases hlt : key < k
      · refine Or.inl ⟨by simp [e, hlt], ?_⟩
        intro q hq
        rcases List.mem_cons.mp hq with rfl | hq
        · exact hlt
        · have := (hgt q hq).1; omega
      · rw [if_neg e, if_neg hlt]
        rcases ih h4 with ⟨b1, b2⟩ | ⟨pre, k1, c1, post, e1, e2, e3, e4, e5, e6⟩
        · refine Or.inr ⟨[], k, c, l, rfl, by omega, by simp, b2, h3, ?_⟩
          rw [b1]; simp [Ne.symm e]
        · refine Or.inr ⟨(k, c) :: pre, k1, c1, post, by rw [e1]; rfl, e2, ?_, e4, e5, ?_⟩
          · intro q hq
            rcases List.mem_cons.mp hq with rfl | hq
            · have := (hgt (k1, c1) (by rw [e1]; simp)).1
              simp only at this ⊢; omega
            · exact e3 q hq
          · rw [e6]; split <;> simp

/-! ## C13 -/

/-- C13.  Looking up a key in any stored, ordered tree returns exactly the value stored under it. -/
theorem lookup_correct (rd : Bool → Nat → Option (Blk V)) (key : Nat) (h : Nat) (t : Tree V h) (isRoot : Bool)
    (lo : Nat) (hi : Option Nat) (hs : t.Stored rd isRoot h) (ho : t.Ordered h lo hi) (fuel : Nat) (hf : h < fuel) :
    ∃ r, lookup rd key fuel isRoot (t.blk h) = .ok r ∧ ∀ v, r = some v ↔ (key, v) ∈ t.contents h := by
  induction h generalizing isRoot lo hi fuel with
  | zero =>
    obtain ⟨b, es⟩ := t
    obtain ⟨fuel, rfl⟩ : ∃ f, fuel = f + 1 := ⟨fuel - 1, by omega⟩
    simp only [Tree.Stored, Tree.Ordered, Tree.contents, Tree.blk] at *
    simp only [lookup, hs]
    rcases bsearch_chain key ho with ⟨e1, e2⟩ | ⟨pre, k, c, post, e1, e2, e3, e4, -, e6⟩
    · rw [e1]
      refine ⟨none, by simp, ?_⟩
      intro v
      simp only [reduceCtorEq, false_iff]
      intro hm; have := e2 _ hm; simp at this
    · rw [e6]
      by_cases hk : k = key
      · subst hk
        subst e1
        refine ⟨some c, by simp, ?_⟩
        intro v
        simp only [Option.some.injEq, List.mem_append, List.mem_cons, Prod.mk.injEq, true_and]
        constructor
        · intro h; exact Or.inr (Or.inl h.symm)
        · rintro (h | h | h)
          · have := e3 _ h; simp at this
          · exact h.symm
          · have := e4 _ h; simp at this
      · refine ⟨none, by simp [hk], ?_⟩
        intro v
        simp only [reduceCtorEq, false_iff, e1, List.mem_append, List.mem_cons, Prod.mk.injEq, not_or]
        refine ⟨fun h => ?_, fun h => hk h.1.symm, fun h => ?_⟩
        · have := e3 _ h; simp at this; omega
        · have := e4 _ h; simp at this
  | succ h ih =>
    obtain ⟨b, ch⟩ := t
    obtain ⟨fuel, rfl⟩ : ∃ f, fuel = f + 1 := ⟨fuel - 1, by omega⟩
    simp only [Tree.Stored, Tree.Ordered, Tree.contents] at *
    obtain ⟨hs1, hs2⟩ := hs
    rw [show Tree.blk (V := V) (h + 1) ((b, ch) : Nat × List (Nat × Tree V h)) = b from rfl]
    simp only [lookup, hs1]
    rw [show (ch.map fun c => (c.1, Tree.blk h c.2)).map (·.1) = ch.map (·.1) by simp [List.map_map]]
    rcases bsearch_chain key ho with ⟨e1, e2⟩ | ⟨pre, k, c, post, e1, e2, e3, e4, e5, e6⟩
    · rw [e1]
      refine ⟨none, by simp, ?_⟩
      intro v
      simp only [reduceCtorEq, false_iff, List.mem_flatMap, not_exists, not_and]
      intro q hq hm
      have h1 := e2 q hq
      -- all keys of a child are at least the child's key
      have : q.1 ≤ key := by
        clear e1 e2 hs1 hs2 h1
        induction ch generalizing lo with
        | nil => simp at hq
        | cons p ch ih2 =>
          obtain ⟨a1, a2, a3, a4⟩ := ho
          rcases List.mem_cons.mp hq with rfl | hq
          · exact (ordered_mem h _ _ _ a3 _ hm).1
          · exact ih2 _ a4 hq
      omega
    · rw [e6]
      have hidx : (ch.map fun c => (c.1, Tree.blk h c.2))[pre.length]? = some (k, Tree.blk h c) := by
        rw [e1]; simp
      obtain ⟨r, hr, hv⟩ := ih c false k _ (hs2 (k, c) (by rw [e1]; simp)) e5 fuel (by omega)
      refine ⟨r, ?_, ?_⟩
      · by_cases hk : k = key
        · simp only [hk, if_true, Bool.not_true, Bool.false_and, Bool.false_eq_true, if_false]
          rw [hidx]; exact hr
        · simp only [hk, if_false]
          have : (!false && pre.length + 1 == 0) = false := by simp
          rw [this]
          simp only [Bool.false_eq_true, if_false, Nat.add_sub_cancel]
          rw [hidx]; exact hr
      · intro v
        rw [hv]
        -- other children cannot contain the key
        have hpre : ∀ (lo : Nat) (l : List (Nat × Tree V h)), Chain (Tree.Ordered h) lo hi (l ++ (k, c) :: post) →
            ∀ q ∈ l, ∀ e ∈ q.2.contents h, e.1 < k := by
          intro lo l
          induction l generalizing lo with
          | nil => simp
          | cons p l ih2 =>
            rintro ⟨a1, a2, a3, a4⟩ q hq e he
            rcases List.mem_cons.mp hq with rfl | hq
            · have hb := (ordered_mem h _ _ _ a3 e he).2
              have hle : ∀ (l : List (Nat × Tree V h)) (lo : Nat), Chain (Tree.Ordered h) lo hi (l ++ (k, c) :: post) →
                  ∃ k' c' r, l ++ (k, c) :: post = (k', c') :: r ∧ k' ≤ k := by
                intro l lo hcl
                cases l with
                | nil => exact ⟨k, c, post, rfl, by omega⟩
                | cons p l =>
                  refine ⟨p.1, p.2, _, rfl, ?_⟩
                  have := (chain_mem hcl.2.2.2 (k, c) (by simp)).1
                  simp only at this ⊢; omega
              obtain ⟨k', c', r, e1, e2⟩ := hle l _ a4
              rw [show l.append ((k, c) :: post) = (k', c') :: r from e1] at hb
              simp only [Below, nextKey] at hb; omega
            · exact ih2 _ a4 q hq e he
        have hpost : ∀ q ∈ post, ∀ e ∈ q.2.contents h, key < e.1 := by
          intro q hq e he
          have hkq := e4 q hq
          have : ∀ (l : List (Nat × Tree V h)) (lo : Nat), Chain (Tree.Ordered h) lo hi l → q ∈ l → q.1 ≤ e.1 := by
            intro l
            induction l with
            | nil => simp
            | cons p l ih2 =>
              rintro lo ⟨a1, a2, a3, a4⟩ hm
              rcases List.mem_cons.mp hm with rfl | hm
              · exact (ordered_mem h _ _ _ a3 e he).1
              · exact ih2 _ a4 hm
          have := this ch lo ho (by rw [e1]; simp [hq])
          omega
        simp only [e1, List.flatMap_append, List.flatMap_cons, List.mem_append]
        constructor
        · intro h; exact Or.inr (Or.inl h)
        · rintro (hm | hm | hm)
          · obtain ⟨q, hq, he⟩ := List.mem_flatMap.mp hm
            have := hpre lo pre (e1 ▸ ho) q hq _ he
            simp at this; omega
          · exact hm
          · obtain ⟨q, hq, he⟩ := List.mem_flatMap.mp hm
            have := hpost q hq _ he
            simp at this

/-! ## C14 -/

/-- frames above the current node: `Up rd fs h rem` says the stack `fs` sits above a node of height `h` and the
entries still to come after that node are `rem` -/
inductive Up (rd : Bool → Nat → Option (Blk V)) : Stack V → Nat → List (Nat × V) → Prop where
  | nil {h} : Up rd [] h []
  | cons {h i} {pre post : List (Nat × Tree V h)} {c fs rem} :
      pre.length = i → (∀ q ∈ post, q.2.Stored rd false h ∧ q.2.NoEmpty h) → Up rd fs (h + 1) rem →
      Up rd ({ index := i, node := .internal ((pre ++ c :: post).map fun c => (c.1, Tree.blk h c.2)) } :: fs) h
        (post.flatMap (fun q => q.2.contents h) ++ rem)

/-- the node the reader finds for a tree -/
def Tree.node : (h : Nat) → Tree V h → Blk V
  | 0, t => .leaf t.2
  | h + 1, t => .internal (t.2.map fun c => (c.1, Tree.blk h c.2))

theorem stored_node {rd : Bool → Nat → Option (Blk V)} {isRoot : Bool} {h : Nat} {t : Tree V h}
    (hs : t.Stored rd isRoot h) : rd isRoot (t.blk h) = some (t.node h) := by
  cases h with
  | zero => exact hs
  | succ h => exact hs.1

theorem noEmpty_len {h : Nat} {t : Tree V h} (hn : t.NoEmpty h) : 0 < (t.node h).nrEntries := by
  cases h with
  | zero => exact List.length_pos_iff.mpr hn
  | succ h => simpa [Tree.node, Blk.nrEntries] using List.length_pos_iff.mpr hn.1

theorem pushLoc_stored {rd : Bool → Nat → Option (Blk V)} {stk : Stack V} {h : Nat} {t : Tree V h}
    (hs : t.Stored rd stk.isEmpty h) :
    ∃ b, pushLoc rd stk (t.blk h) = .ok ({ index := 0, node := t.node h } :: stk, b) ∧ b = (h == 0) := by
  refine ⟨_, by simp only [pushLoc, stored_node hs]; rfl, ?_⟩
  cases h <;> rfl

/-- after popping a node of height `h`, `nextNode` pushes the next node of that height, or empties the stack -/
theorem nextNode_spec {rd : Bool → Nat → Option (Blk V)} {fs : Stack V} {h : Nat} {rem : List (Nat × V)}
    (hu : Up rd fs h rem) :
    (rem = [] ∧ nextPopped rd fs = .ok []) ∨
    (∃ (t : Tree V h) (fs' : Stack V) (rem' : List (Nat × V)), nextPopped rd fs =
        .ok ({ index := 0, node := t.node h } :: fs') ∧ t.Stored rd false h ∧ t.NoEmpty h ∧ Up rd fs' h rem' ∧
        fs' ≠ [] ∧ rem = t.contents h ++ rem') := by
  induction hu with
  | nil => exact Or.inl ⟨rfl, rfl⟩
  | @cons h i pre post c fs rem hi hp hup ih =>
    cases post with
    | cons d post =>
      -- a sibling follows
      have hlt : ¬ (i + 1 ≥ (Blk.internal ((pre ++ c :: d :: post).map fun c => (c.1, Tree.blk h c.2)) : Blk V).nrEntries) := by
        simp [Blk.nrEntries]; omega
      have hch : (Blk.internal ((pre ++ c :: d :: post).map fun c => (c.1, Tree.blk h c.2)) : Blk V).child (i + 1) =
          some (Tree.blk h d.2) := by
        subst hi
        simp [Blk.child]
      obtain ⟨hs, hne⟩ := hp d (by simp)
      refine Or.inr ⟨d.2, ({ index := i + 1, node := .internal ((pre ++ c :: d :: post).map fun c => (c.1, Tree.blk h c.2)) } :: fs),
        post.flatMap (fun q => q.2.contents h) ++ rem, ?_, hs, hne, ?_, by simp, by simp⟩
      · simp only [nextPopped]
        rw [if_neg hlt]
        simp only [pushNext, hch]
        obtain ⟨b, hb, -⟩ := pushLoc_stored (rd := rd)
          (stk := { index := i + 1, node := Blk.internal ((pre ++ c :: d :: post).map fun c => (c.1, Tree.blk h c.2)) } :: fs)
          (t := d.2) hs
        rw [hb]
      · have := Up.cons (rd := rd) (pre := pre ++ [c]) (post := post) (c := d) (i := i + 1) (fs := fs) (rem := rem)
          (by simp [hi]) (fun q hq => hp q (by simp [hq])) hup
        simpa using this
    | nil =>
      -- last child: move up
      have hge : i + 1 ≥ (Blk.internal ((pre ++ [c]).map fun c => (c.1, Tree.blk h c.2)) : Blk V).nrEntries := by
        simp [Blk.nrEntries]; omega
      simp only [List.flatMap_nil, List.nil_append, nextPopped]
      rw [if_pos hge]
      rcases ih with
        ⟨e1, e2⟩ | ⟨t, fs', rem', e1, e2, e3, e4, e5, e6⟩
      · exact Or.inl ⟨e1, by rw [e2]; rfl⟩
      · obtain ⟨b, ch⟩ := t
        obtain ⟨hne, hne2⟩ := e3
        cases ch with
        | nil => exact absurd rfl hne
        | cons d ch =>
          refine Or.inr ⟨d.2, { index := 0, node := .internal ((d :: ch).map fun c => (c.1, Tree.blk h c.2)) } :: fs',
            ch.flatMap (fun q => q.2.contents h) ++ rem', ?_, e2.2 d (by simp), hne2 d (by simp), ?_, by simp, ?_⟩
          · rw [e1]
            rw [show (Tree.node (h + 1) ((b, d :: ch) : Nat × List (Nat × Tree V h))) =
              Blk.internal ((d :: ch).map fun c => (c.1, Tree.blk h c.2)) from rfl]
            simp only [pushNext, Blk.child, List.map_cons, List.getElem?_cons_zero, Option.map_some]
            obtain ⟨b', hb, -⟩ := pushLoc_stored (rd := rd)
              (stk := { index := 0, node := Blk.internal ((d :: ch).map fun c => (c.1, Tree.blk h c.2)) } :: fs')
              (t := d.2) (e2.2 d (by simp))
            simp only [List.map_cons] at hb
            rw [hb]
          · exact Up.cons (rd := rd) (pre := []) (post := ch) (c := d) (i := 0) rfl
              (fun q hq => ⟨e2.2 q (by simp [hq]), hne2 q (by simp [hq])⟩) e4
          · rw [e6]; simp [Tree.contents]

/-- the iterator's state: entries still to come, starting with the current one -/
inductive At (rd : Bool → Nat → Option (Blk V)) : Stack V → List (Nat × V) → Prop where
  | done : At rd [] []
  | leaf {es i fs rem} : i < es.length → Up rd fs 0 rem →
      At rd ({ index := i, node := .leaf es } :: fs) (es.drop i ++ rem)

theorem at_get {rd : Bool → Nat → Option (Blk V)} {stk : Stack V} {rem : List (Nat × V)} (h : At rd stk rem) :
    iterGet stk = .ok rem[0]? := by
  cases h with
  | done => rfl
  | @leaf es i fs rem hi hu =>
    cases es with
    | nil => simp at hi
    | cons e es =>
      simp only [iterGet]
      rw [List.getElem?_eq_getElem hi]
      rw [List.getElem?_append_left (by rw [List.length_drop]; omega), List.getElem?_drop,
        Nat.add_zero, List.getElem?_eq_getElem hi]

theorem at_step {rd : Bool → Nat → Option (Blk V)} {stk : Stack V} {rem : List (Nat × V)} (h : At rd stk rem) :
    ∃ stk', iterStep rd stk = .ok stk' ∧ At rd stk' rem.tail := by
  cases h with
  | done => exact ⟨[], rfl, .done⟩
  | @leaf es i fs rem hi hu =>
    have htail : (es.drop i ++ rem).tail = es.drop (i + 1) ++ rem := by
      rw [List.tail_append_of_ne_nil (by simp; omega), List.tail_drop]
    simp only [iterStep]
    rw [htail]
    split
    · next hge =>
      replace hge : es.length ≤ i + 1 := hge
      rw [List.drop_eq_nil_of_le hge]
      rcases nextNode_spec hu with ⟨e1, e2⟩ | ⟨t, fs', rem', e1, e2, e3, e4, -, e6⟩
      · exact ⟨[], e2, by rw [e1]; exact .done⟩
      · refine ⟨_, e1, ?_⟩
        rw [e6]
        have := At.leaf (rd := rd) (es := t.2) (i := 0) (noEmpty_len e3) e4
        simpa [Tree.node, Tree.contents] using this
    · next hge =>
      replace hge : ¬ es.length ≤ i + 1 := hge
      exact ⟨_, rfl, .leaf (by omega) hu⟩

theorem leftMost_spec {rd : Bool → Nat → Option (Blk V)} (h : Nat) (t : Tree V h) (stk : Stack V) (rem : List (Nat × V))
    (hs : t.Stored rd stk.isEmpty h) (hn : t.NoEmpty h) (hu : Up rd stk h rem) (fuel : Nat) (hf : h < fuel) :
    ∃ stk', leftMost rd fuel stk (t.blk h) = .ok stk' ∧ At rd stk' (t.contents h ++ rem) := by
  induction h generalizing stk rem fuel with
  | zero =>
    obtain ⟨fuel, rfl⟩ : ∃ f, fuel = f + 1 := ⟨fuel - 1, by omega⟩
    obtain ⟨b, hb, rfl⟩ := pushLoc_stored hs
    simp only [leftMost, hb]
    refine ⟨_, rfl, ?_⟩
    have := At.leaf (rd := rd) (es := t.2) (i := 0) (noEmpty_len hn) hu
    simpa [Tree.node, Tree.contents] using this
  | succ h ih =>
    obtain ⟨fuel, rfl⟩ : ∃ f, fuel = f + 1 := ⟨fuel - 1, by omega⟩
    obtain ⟨b, hb, rfl⟩ := pushLoc_stored hs
    simp only [leftMost, hb]
    obtain ⟨b, ch⟩ := t
    obtain ⟨hne, hne2⟩ := hn
    cases ch with
    | nil => exact absurd rfl hne
    | cons d ch =>
      have hu' : Up rd ({ index := 0, node := Tree.node (h + 1) (b, d :: ch) } :: stk) h
          (ch.flatMap (fun q => q.2.contents h) ++ rem) :=
        Up.cons (rd := rd) (pre := []) (post := ch) (c := d) (i := 0) rfl
          (fun q hq => ⟨hs.2 q (by simp [hq]), hne2 q (by simp [hq])⟩) hu
      obtain ⟨stk', e1, e2⟩ := ih d.2 ({ index := 0, node := Tree.node (h + 1) (b, d :: ch) } :: stk) _ (hs.2 d (by simp))
        (hne2 d (by simp)) hu' fuel (by omega)
      refine ⟨stk', e1, ?_⟩
      simpa [Tree.contents] using e2

/-- C14.  After `i` steps the iterator stands on the i-th entry of the tree, and reports the end after the last;
no step fails. -/
theorem iterator_correct (rd : Bool → Nat → Option (Blk V)) (h : Nat) (t : Tree V h)
    (hs : t.Stored rd true h) (hn : t.NoEmpty h) (fuel : Nat) (hf : h < fuel) :
    ∃ it, iterNew rd fuel (t.blk h) = .ok it ∧
      ∀ i, ∃ it', iterSteps rd i it = .ok it' ∧ iterGet it' = .ok (t.contents h)[i]? := by
  obtain ⟨it, e1, e2⟩ := leftMost_spec h t [] [] hs hn .nil fuel hf
  refine ⟨it, e1, ?_⟩
  rw [List.append_nil] at e2
  intro i
  generalize t.contents h = rem at *
  clear e1
  induction i generalizing it rem with
  | zero => exact ⟨it, rfl, at_get e2⟩
  | succ i ih =>
    obtain ⟨stk, s1, s2⟩ := at_step e2
    obtain ⟨it', a, b⟩ := ih stk rem.tail s2
    refine ⟨it', by simp only [iterSteps, s1]; exact a, ?_⟩
    rw [b]; simp

/-- C14 for the one tree the theorem above excludes: an empty leaf as root has no entries and steps stay at the end. -/
theorem iterator_empty (rd : Bool → Nat → Option (Blk V)) (b : Nat) (hs : rd true b = some (.leaf [])) (fuel : Nat)
    (hf : 0 < fuel) : ∃ it, iterNew rd fuel b = .ok it ∧
      ∀ i, ∃ it', iterSteps rd i it = .ok it' ∧ iterGet it' = .ok none := by
  obtain ⟨fuel, rfl⟩ : ∃ f, fuel = f + 1 := ⟨fuel - 1, by omega⟩
  refine ⟨[{ index := 0, node := .leaf [] }], by simp [iterNew, leftMost, pushLoc, hs], ?_⟩
  intro i
  cases i with
  | zero => exact ⟨_, rfl, rfl⟩
  | succ i =>
    refine ⟨[], ?_, rfl⟩
    simp only [iterSteps, iterStep, Blk.nrEntries, List.length_nil, ge_iff_le, Nat.zero_le, if_true, nextNode, nextPopped, List.tail_cons]
    induction i with
    | zero => rfl
    | succ i ih => exact ih

/-- An empty leaf below the root ends the iteration early: the entries after it are not returned (such nodes are
rejected only by strict reads, and the iterator reads with `ignore_non_fatal`). -/
theorem iterator_empty_leaf_refuted :
    let rd : Bool → Nat → Option (Blk Nat) := fun _ b => if b = 0 then some (.internal [(0, 1), (5, 2)])
      else if b = 1 then some (.leaf []) else some (.leaf [(5, 50)])
    ∃ it, iterNew rd 5 0 = .ok it ∧ iterGet it = .ok none := ⟨_, rfl, rfl⟩

/-! non-vacuity: a two-level tree, read by both -/

/-- a device with a small two-level tree -/
def demoRd : Bool → Nat → Option (Blk Nat) := fun _ b =>
  if b = 9 then some (.internal [(2, 4), (7, 5)]) else if b = 4 then some (.leaf [(2, 20), (3, 30)])
  else if b = 5 then some (.leaf [(8, 80)]) else none

/-- the tree stored there -/
def demoTree : Tree Nat 1 := (9, [(2, ((4, [(2, 20), (3, 30)]) : Tree Nat 0)), (7, ((5, [(8, 80)]) : Tree Nat 0))])

example : demoTree.Stored demoRd true 1 ∧ demoTree.Ordered 1 0 none ∧ demoTree.NoEmpty 1 ∧
    demoTree.contents 1 = [(2, 20), (3, 30), (8, 80)] := by
  refine ⟨⟨rfl, ?_⟩, ?_, ⟨by simp [demoTree], ?_⟩, rfl⟩
  · intro c hc; simp [demoTree] at hc; rcases hc with rfl | rfl <;> rfl
  · simp [demoTree, Tree.Ordered, Chain, Below, nextKey]
  · intro c hc; simp [demoTree] at hc; rcases hc with rfl | rfl <;> simp [Tree.NoEmpty]

/-! ## C16 -/

/-- membership in a key range -/
def KeyRange.Has (kr : KeyRange) (x : Nat) : Prop :=
  (match kr.start with | none => True | some s => s ≤ x) ∧ (match kr.fin with | none => True | some e => x < e)

/-- the shape of the result for the keys `ks`: range `i` runs from key `i` to the next key, the last to `fin` -/
def rangesOf (fin : Option Nat) : List Nat → List KeyRange
  | [] => []
  | [k] => [⟨some k, fin⟩]
  | k :: k' :: ks => ⟨some k, some k'⟩ :: rangesOf fin (k' :: ks)

theorem split_pos {k x : Nat} {fin : Option Nat} (h : k < x ∧ Below x fin) :
    KeyRange.split ⟨some k, fin⟩ x = some (⟨some k, some x⟩, ⟨some x, fin⟩) := by
  cases fin with
  | none => simp [KeyRange.split, h.1]
  | some e => simp only [Below] at h; simp [KeyRange.split, h]

theorem split_neg {k x : Nat} {fin : Option Nat} (h : ¬ (k < x ∧ Below x fin)) :
    KeyRange.split ⟨some k, fin⟩ x = none := by
  cases fin with
  | none => simp only [Below, and_true] at h; simp [KeyRange.split]; omega
  | some e => simp only [Below] at h; simp only [KeyRange.split, if_neg h]

open Classical in
theorem splitLoop_iff (k : Nat) (fin : Option Nat) (ks : List Nat) :
    splitLoop ⟨some k, fin⟩ ks =
      if (k :: ks).Pairwise (· < ·) ∧ ∀ x ∈ ks, Below x fin then some (rangesOf fin (k :: ks)) else none := by
  induction ks generalizing k with
  | nil => simp [splitLoop, rangesOf]
  | cons x ks ih =>
    simp only [splitLoop]
    have hp : ((k :: x :: ks).Pairwise (· < ·) ∧ ∀ y ∈ x :: ks, Below y fin) ↔
        (k < x ∧ Below x fin) ∧ ((x :: ks).Pairwise (· < ·) ∧ ∀ y ∈ ks, Below y fin) := by
      simp only [List.pairwise_cons, List.mem_cons, forall_eq_or_imp]
      constructor
      · rintro ⟨⟨⟨a, b⟩, c, d⟩, e, f⟩; exact ⟨⟨a, e⟩, ⟨c, d⟩, f⟩
      · rintro ⟨⟨a, e⟩, ⟨c, d⟩, f⟩
        exact ⟨⟨⟨a, fun y hy => by have := c y hy; omega⟩, c, d⟩, e, f⟩
    by_cases hx : k < x ∧ Below x fin
    · rw [split_pos hx]
      simp only
      rw [ih x]
      by_cases hr : (x :: ks).Pairwise (· < ·) ∧ ∀ y ∈ ks, Below y fin
      · rw [if_pos hr, if_pos (hp.mpr ⟨hx, hr⟩)]; rfl
      · rw [if_neg hr, if_neg (fun h => hr (hp.mp h).2)]
    · rw [split_neg hx, if_neg (fun h => hx (hp.mp h).1)]

/-- what it means to partition `[k0, fin)` -/
structure Partition (k0 : Nat) (fin : Option Nat) (krs : List KeyRange) : Prop where
  cover : ∀ x, k0 ≤ x → Below x fin → ∃ i, ∃ h : i < krs.length, krs[i].Has x
  disjoint : ∀ i j (hi : i < krs.length) (hj : j < krs.length) x, krs[i].Has x → krs[j].Has x → i = j
  inside : ∀ i (hi : i < krs.length) x, krs[i].Has x → k0 ≤ x ∧ Below x fin

theorem rangesOf_length (fin : Option Nat) (ks : List Nat) : (rangesOf fin ks).length = ks.length := by
  induction ks with
  | nil => rfl
  | cons k ks ih => cases ks with
    | nil => rfl
    | cons k' ks => simpa [rangesOf] using ih

theorem rangesOf_partition (fin : Option Nat) (k : Nat) (ks : List Nat) (hp : (k :: ks).Pairwise (· < ·))
    (hb : ∀ x ∈ ks, Below x fin) : Partition k fin (rangesOf fin (k :: ks)) := by
  induction ks generalizing k with
  | nil =>
    refine ⟨fun x h1 h2 => ⟨0, by simp [rangesOf], ?_⟩, ?_, ?_⟩
    · simp only [rangesOf, KeyRange.Has, List.getElem_cons_zero]
      cases fin with
      | none => exact ⟨h1, trivial⟩
      | some e => exact ⟨h1, h2⟩
    · intro i j hi hj; simp [rangesOf] at hi hj; omega
    · intro i hi x hx
      simp [rangesOf] at hi; subst hi
      simp only [rangesOf, KeyRange.Has, List.getElem_cons_zero] at hx
      cases fin with
      | none => exact ⟨hx.1, trivial⟩
      | some e => exact hx
  | cons k' ks ih =>
    have hp' := List.pairwise_cons.mp hp
    have hkk : k < k' := hp'.1 k' (by simp)
    obtain ⟨c, d, n⟩ := ih k' hp'.2 (fun x hx => hb x (by simp [hx]))
    refine ⟨?_, ?_, ?_⟩
    · intro x h1 h2
      by_cases hx : x < k'
      · exact ⟨0, by simp [rangesOf], by simp [rangesOf, KeyRange.Has, h1, hx]⟩
      · obtain ⟨i, hi, hh⟩ := c x (by omega) h2
        exact ⟨i + 1, by simp [rangesOf, hi], by simpa [rangesOf] using hh⟩
    · intro i j hi hj x h1 h2
      cases i with
      | zero =>
        cases j with
        | zero => rfl
        | succ j =>
          simp only [rangesOf, List.getElem_cons_succ] at h2
          have := (n j _ x h2).1
          simp [rangesOf, KeyRange.Has] at h1; omega
      | succ i =>
        cases j with
        | zero =>
          simp only [rangesOf, List.getElem_cons_succ] at h1
          have := (n i _ x h1).1
          simp [rangesOf, KeyRange.Has] at h2; omega
        | succ j =>
          simp only [rangesOf, List.getElem_cons_succ] at h1 h2
          have := d i j _ _ x h1 h2
          omega
    · intro i hi x hx
      cases i with
      | zero =>
        simp [rangesOf, KeyRange.Has] at hx
        exact ⟨hx.1, Below.mono (hb k' (by simp)) (by omega)⟩
      | succ i =>
        simp only [rangesOf, List.getElem_cons_succ] at hx
        have := n i _ x hx
        exact ⟨by omega, this.2⟩

/-- C16.  Splitting succeeds exactly when there is a key, the keys are strictly increasing and all but the first are
below the end of the range; the result has one range per key and partitions the part of the range from the first
key on. -/
theorem split_key_ranges_spec_partial (kr : KeyRange) (keys : List Nat) :
    (splitKeyRanges kr keys = none ↔
      ¬ (keys ≠ [] ∧ keys.Pairwise (· < ·) ∧ ∀ x ∈ keys.tail, Below x kr.fin)) ∧
    ∀ krs, splitKeyRanges kr keys = some krs → krs.length = keys.length ∧
      (∀ i (h : i < krs.length) (h' : i < keys.length), krs[i].start = some keys[i]) ∧
      ∃ k0, keys[0]? = some k0 ∧ Partition k0 kr.fin krs := by
  cases keys with
  | nil => simp [splitKeyRanges]
  | cons k ks =>
    simp only [splitKeyRanges, splitLoop_iff]
    by_cases h : (k :: ks).Pairwise (· < ·) ∧ ∀ x ∈ ks, Below x kr.fin
    · rw [if_pos h]
      refine ⟨by simpa [and_assoc] using h, ?_⟩
      intro krs hk
      simp only [Option.some.injEq] at hk
      subst hk
      refine ⟨rangesOf_length _ _, ?_, k, rfl, rangesOf_partition _ _ _ h.1 h.2⟩
      clear h
      intro i
      induction ks generalizing k i with
      | nil => intro h1 h2; simp at h2; subst h2; rfl
      | cons k' ks ih =>
        intro h1 h2
        cases i with
        | zero => rfl
        | succ i =>
          simp only [rangesOf, List.getElem_cons_succ]
          exact ih k' i _ _
    · rw [if_neg h]
      refine ⟨by simpa using h, by simp⟩

example : splitKeyRanges ⟨some 2, some 20⟩ [3, 7, 11] =
    some [⟨some 3, some 7⟩, ⟨some 7, some 11⟩, ⟨some 11, some 20⟩] := by decide

/-- C16, rejection of keys outside the range, is false for the first key: a node whose first key lies below the range
its parent promises is split without complaint, and so is a single key at or beyond the end. -/
theorem split_first_key_unchecked_refuted :
    splitKeyRanges ⟨some 10, some 20⟩ [3, 15] = some [⟨some 3, some 15⟩, ⟨some 15, some 20⟩] ∧
    splitKeyRanges ⟨some 10, some 20⟩ [25] = some [⟨some 25, some 20⟩] := by decide

end Verif.BT
