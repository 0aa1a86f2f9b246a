import Verif.Prop.BuilderLeaves
import Verif.Prop.Walker

/-!
# C11, C12: whole trees built by `BTreeBuilder`
-/

namespace Verif.Bld

open Verif.BT (Blk Tree Below nextKey Chain)

variable {V : Type} {P : Nat → Prop}

/-! ## Specification -/

/-- every node, the root included, is at least half full and not above capacity -/
def Filled (capL capI : Nat) : (h : Nat) → Tree V h → Prop
  | 0, t => capL / 2 ≤ t.2.length ∧ t.2.length ≤ capL
  | h + 1, t => capI / 2 ≤ t.2.length ∧ t.2.length ≤ capI ∧ ∀ c ∈ t.2, Filled capL capI h c.2

/-- the root may be less than half full (an internal root has at least two children); every other node is at least
half full; no node is above capacity -/
def RootFilled (capL capI : Nat) : (h : Nat) → Tree V h → Prop
  | 0, t => t.2.length ≤ capL
  | h + 1, t => 2 ≤ t.2.length ∧ t.2.length ≤ capI ∧ ∀ c ∈ t.2, Filled capL capI h c.2

/-- every key of an internal node is the first key below it -/
def KeysFirst : (h : Nat) → Tree V h → Prop
  | 0, _ => True
  | h + 1, t => ∀ c ∈ t.2, c.1 = firstKey (c.2.contents h) ∧ KeysFirst h c.2

/-- entries of the leaves stored in blocks satisfying `p` -/
def entriesIn (p : Nat → Bool) : (h : Nat) → Tree V h → List (Nat × V)
  | 0, t => if p t.1 then t.2 else []
  | h + 1, t => t.2.flatMap fun c => entriesIn p h c.2

/-- the entries of the leaf in a block, nothing if there is none -/
def leafEntries (mem : Nat → Option (Blk V)) (b : Nat) : List (Nat × V) :=
  match mem b with
  | some (.leaf es) => es
  | _ => []

/-- the entries an item stands for -/
def Item.contents (mem : Nat → Option (Blk V)) : Item V → List (Nat × V)
  | .val k v => [(k, v)]
  | .leaves n ns => (n :: ns).flatMap fun m => leafEntries mem m.block

/-- A summary as a builder for a shared subtree returns it: the block is in use and holds the described leaf, which is
neither empty nor above capacity. -/
def SummaryOK (n cap : Nat) (s : St V) (m : Summary) : Prop :=
  ∃ es, s.mem m.block = some (.leaf es) ∧ m.nr = es.length ∧ m.key = firstKey es ∧ m.block < n ∧
    0 < s.sm.abs m.block ∧ m.shared = true ∧ es ≠ [] ∧ es.length ≤ cap

/-- Items a caller may push: any value; pre-built leaves, where several in one call are all at least half full. -/
def Item.Valid (n cap : Nat) (s : St V) : Item V → Prop
  | .val _ _ => True
  | .leaves m ms => (∀ q ∈ m :: ms, SummaryOK n cap s q) ∧ (ms ≠ [] → ∀ q ∈ m :: ms, cap / 2 ≤ q.nr)

/-- the pre-built leaves an item refers to -/
def Item.blocks : Item V → List Nat
  | .val _ _ => []
  | .leaves m ms => (m :: ms).map (·.block)

/-! ## Leaves -/

theorem leafIO_law (refs : V → List Nat) (ok : List Nat → V → Bool) (es : List (Nat × V)) :
    (leafIO refs ok).unpack ((leafIO refs ok).pack es) = some es := rfl

theorem internalIO_law (es : List (Nat × Nat)) :
    (internalIO (V := V)).unpack ((internalIO (V := V)).pack es) = some es := rfl

theorem pushItem_post (refs : V → List Nat) (ok : List Nat → V → Bool) {n max : Nat} (hn : n < 2 ^ 64) {s0 : St V} {nb : NB V}
    {s : St V} {pushed : List (Nat × V)} {ps : List (NodeRec V)} (h : Inv P (leafIO refs ok) n max s0 nb s pushed ps)
    (i : Item V) (hi : i.Valid n nb.cap s0) (hP : ∀ b ∈ i.blocks, P b) (hsh : nb.shared = true → ∃ k v, i = .val k v)
    (hs : Sorted (pushed ++ i.contents s0.mem)) :
    Post (pushItem (leafIO refs ok) i nb s) (fun r =>
      ∃ ps', Inv P (leafIO refs ok) n max s0 r.1 r.2 (pushed ++ i.contents s0.mem) ps' ∧
      r.1.cap = nb.cap ∧ r.1.shared = nb.shared) := by
  cases i with
  | val k v => exact pushValue_post (leafIO_law refs ok) h k v hs
  | leaves m ms =>
    have hsh' : nb.shared = false := by
      cases e : nb.shared with
      | false => rfl
      | true => obtain ⟨k, v, e⟩ := hsh e; cases e
    obtain ⟨h1, h2⟩ := hi
    have hpre : ∀ q ∈ m :: ms, PreOK P (leafIO refs ok) n nb.cap s0 q (leafEntries s0.mem q.block) := by
      intro q hq
      obtain ⟨es, a1, a2, a3, a4, a5, a6, a7, a8⟩ := h1 q hq
      have e : leafEntries s0.mem q.block = es := by simp [leafEntries, a1]
      rw [e]
      exact ⟨a1, a2, a3, a4, a5, a6, hP _ (List.mem_map.mpr ⟨q, hq, rfl⟩), a7, a8⟩
    let f : Summary → Summary × List (Nat × V) := fun q => (q, leafEntries s0.mem q.block)
    have hmap : (ms.map f).map (·.1) = ms := by simp [f, Function.comp_def]
    have hcon : (f m :: ms.map f).flatMap (·.2) = Item.contents s0.mem (.leaves m ms) := by
      simp [f, Item.contents, List.flatMap_map]
    have := pushNodes_post (leafIO_law refs ok) h hn (f m) (ms.map f) (by
        intro q hq
        have : q ∈ (m :: ms).map f := by simpa using hq
        obtain ⟨x, hx, rfl⟩ := List.mem_map.mp this
        exact hpre x hx) (by
        intro hne q hq
        have hne : ms ≠ [] := by simpa using hne
        have : q ∈ (m :: ms).map f := by simpa using hq
        obtain ⟨x, hx, rfl⟩ := List.mem_map.mp this
        have := h2 hne x hx
        rw [(hpre x hx).nr] at this
        exact this) hsh' (by rw [hcon]; exact hs)
    rw [hmap, hcon] at this
    exact this

theorem pushItems_post (refs : V → List Nat) (ok : List Nat → V → Bool) {n max : Nat} (hn : n < 2 ^ 64) {s0 : St V}
    (items : List (Item V)) : ∀ {nb : NB V} {s : St V} {pushed : List (Nat × V)} {ps : List (NodeRec V)},
    Inv P (leafIO refs ok) n max s0 nb s pushed ps → (∀ i ∈ items, i.Valid n nb.cap s0) → (∀ i ∈ items, ∀ b ∈ i.blocks, P b) →
    (nb.shared = true → ∀ i ∈ items, ∃ k v, i = .val k v) →
    Sorted (pushed ++ items.flatMap (Item.contents s0.mem)) →
    Post (pushItems (leafIO refs ok) items nb s) (fun r =>
      ∃ ps', Inv P (leafIO refs ok) n max s0 r.1 r.2 (pushed ++ items.flatMap (Item.contents s0.mem)) ps' ∧
      r.1.cap = nb.cap ∧ r.1.shared = nb.shared) := by
  induction items with
  | nil => intro nb s pushed ps h _ _ _ _; exact ⟨ps, by simpa using h, rfl, rfl⟩
  | cons i items ih =>
    intro nb s pushed ps h hv hP hsh hs
    have hs' : Sorted (pushed ++ i.contents s0.mem ++ items.flatMap (Item.contents s0.mem)) := by simpa using hs
    unfold pushItems
    refine (pushItem_post refs ok hn h i (hv i (by simp)) (hP i (by simp)) (fun e => hsh e i (by simp)) hs'.left).bind ?_
    rintro ⟨nb1, s1⟩ ⟨ps1, h1, h2, h3⟩
    simp only at h1 h2 h3 ⊢
    refine (ih h1 (fun j hj => by rw [h2]; exact hv j (by simp [hj])) (fun j hj => hP j (by simp [hj]))
      (fun e j hj => hsh (h3 ▸ e) j (by simp [hj])) hs').mono ?_
    rintro ⟨nb2, s2⟩ ⟨ps2, g1, g2, g3⟩
    exact ⟨ps2, by simpa using g1, g2.trans h2, g3.trans h3⟩

/-- The leaves of a subtree (`<def>` or `<device>` section of a restore). -/
theorem buildLeaves_post (refs : V → List Nat) (ok : List Nat → V → Bool) {n max : Nat} (hn : n < 2 ^ 64) {s0 : St V}
    (hs0 : s0.sm.Inv n max) {capL : Nat} (hcap : 2 ≤ capL) (shared : Bool) (items : List (Item V))
    (hv : ∀ i ∈ items, i.Valid n capL s0) (hsh : shared = true → ∀ i ∈ items, ∃ k v, i = .val k v)
    (hs : Sorted (items.flatMap (Item.contents s0.mem))) :
    Post (buildLeaves (leafIO refs ok) capL shared items s0) (fun r => ∃ ps, r.1 = ps.map (·.sum) ∧
      Built (fun b => b ∈ items.flatMap Item.blocks) (leafIO refs ok) n max capL shared s0 r.2 (items.flatMap (Item.contents s0.mem)) ps) := by
  unfold buildLeaves
  refine (pushItems_post refs ok hn items (Inv.new _ hcap shared hs0) hv
    (fun i hi b hb => List.mem_flatMap.mpr ⟨i, hi, hb⟩) hsh (by simpa using hs)).bind ?_
  rintro ⟨nb, s⟩ ⟨ps, h1, h2, h3⟩
  simp only at h1 h2 h3 ⊢
  refine (complete_post (leafIO_law refs ok) h1).mono ?_
  rintro r ⟨ps', g1, g2⟩
  refine ⟨ps', g1, ?_⟩
  rw [h2, h3, List.nil_append] at g2
  exact g2

/-! ## Layers of internal nodes -/

theorem firstKey_append {E : Type} {a b : List (Nat × E)} (h : a ≠ []) : firstKey (a ++ b) = firstKey a := by
  cases a with
  | nil => exact absurd rfl h
  | cons x a => rfl

theorem stored_frame {m m' : Nat → Option (Blk V)} (r r' : Bool) : ∀ (h : Nat) (t : Tree V h), (∀ x ∈ t.blocks h, m' x = m x) →
    t.Stored (fun _ b => m b) r h → t.Stored (fun _ b => m' b) r' h := by
  intro h
  induction h generalizing r r' with
  | zero =>
    intro t hm hs
    have := hm t.1 (by simp [Tree.blocks])
    simp only [Tree.Stored] at *
    rw [this]; exact hs
  | succ h ih =>
    intro t hm hs
    obtain ⟨h1, h2⟩ := hs
    refine ⟨?_, ?_⟩
    · have := hm t.1 (by simp [Tree.blocks])
      show m' t.1 = _
      rw [this]; exact h1
    · intro c hc
      refine ih _ _ c.2 ?_ (h2 c hc)
      intro x hx
      refine hm x ?_
      simp only [Tree.blocks, List.mem_cons, List.mem_flatMap]
      exact Or.inr ⟨c, hc, hx⟩

theorem blk_mem_blocks : ∀ (h : Nat) (t : Tree V h), t.blk h ∈ t.blocks h := by
  intro h t
  cases h <;> simp [Tree.blocks, Tree.blk]

theorem filled_nonempty {capL capI : Nat} (hL : 2 ≤ capL) (hI : 2 ≤ capI) : ∀ (h : Nat) (t : Tree V h),
    Filled capL capI h t → t.contents h ≠ [] := by
  intro h
  induction h with
  | zero =>
    intro t hf e
    simp only [Tree.contents] at e
    simp only [Filled, e, List.length_nil] at hf
    omega
  | succ h ih =>
    intro t hf e
    obtain ⟨h1, -, h3⟩ := hf
    rcases ht : t.2 with _ | ⟨c, cs⟩
    · rw [ht] at h1; simp at h1; omega
    · simp only [Tree.contents, ht, List.flatMap_cons, List.append_eq_nil_iff] at e
      exact ih c.2 (h3 c (by rw [ht]; simp)) e.1

/-- a forest of subtrees of height `h` that are waiting for parents -/
structure Level (P : Nat → Prop) (refs : V → List Nat) (capL capI n max : Nat) (s0 s : St V) (pushed : List (Nat × V)) (h : Nat)
    (ts : List (Summary × Tree V h)) : Prop where
  sm : s.sm.Inv n max
  blk : ∀ p ∈ ts, p.1.block = p.2.blk h
  key : ∀ p ∈ ts, p.1.key = firstKey (p.2.contents h)
  stored : ∀ p ∈ ts, p.2.Stored (fun _ b => s.mem b) false h
  keys : ∀ p ∈ ts, KeysFirst h p.2
  fill : (∀ p ∈ ts, Filled capL capI h p.2) ∨ ∃ p, ts = [p] ∧ RootFilled capL capI h p.2
  cont : ts.flatMap (fun p => p.2.contents h) = pushed
  rc : ∀ b, s.sm.abs b = s0.sm.abs b + (ts.flatMap (fun p => p.2.blocks h)).count b
  mem : ∀ b, 0 < s0.sm.abs b → s.mem b = s0.mem b
  log : s.log.Perm (s0.log ++ (ts.flatMap (fun p => entriesIn (fun b => s0.sm.abs b == 0) h p.2)).flatMap (fun e => refs e.2))
  nonempty : ts ≠ []
  fresh : ∀ p ∈ ts, ∀ b ∈ p.2.blocks h, 0 < s0.sm.abs b → P b

theorem ownEntries_eq {E : Type} (ps : List (NodeRec E)) : ownEntries ps = ps.flatMap fun p => if p.own then p.es else [] := by
  induction ps with
  | nil => rfl
  | cons p ps ih =>
    have : ownEntries (p :: ps) = ownEntries [p] ++ ownEntries ps := ownEntries_append [p] ps
    rw [this, ih, List.flatMap_cons]
    congr 1
    cases h : p.own <;> simp [ownEntries, h]

theorem level_zero (refs : V → List Nat) (ok : List Nat → V → Bool) {capL capI n max : Nat} {shared : Bool} {s0 s : St V}
    {pushed : List (Nat × V)} {ps : List (NodeRec V)}
    (h : Built P (leafIO refs ok) n max capL shared s0 s pushed ps) :
    ∃ ts : List (Summary × Tree V 0), ts.map (·.1) = ps.map (·.sum) ∧ Level P refs capL capI n max s0 s pushed 0 ts := by
  have hmem : ∀ q ∈ ps.map (fun p => ((p.sum, (p.sum.block, p.es)) : Summary × Tree V 0)), ∃ p ∈ ps, (p.sum, (p.sum.block, p.es)) = q := by
    intro q hq; exact List.mem_map.mp hq
  refine ⟨ps.map fun p => (p.sum, (p.sum.block, p.es)), by simp, ?_⟩
  refine ⟨h.sm, ?_, ?_, ?_, ?_, ?_, ?_, ?_, h.mem, ?_, by simpa using h.nonempty, ?_⟩
  · intro q hq; obtain ⟨p, hp, rfl⟩ := hmem q hq; rfl
  · intro q hq; obtain ⟨p, hp, rfl⟩ := hmem q hq; exact (h.ok p hp).key
  · intro q hq; obtain ⟨p, hp, rfl⟩ := hmem q hq; exact (h.ok p hp).mem
  · intro q hq; trivial
  · rcases h.half with hh | hh
    · refine Or.inl ?_
      intro q hq; obtain ⟨p, hp, rfl⟩ := hmem q hq
      exact ⟨hh p hp, h.full p hp⟩
    · obtain ⟨p, rfl⟩ := List.length_eq_one_iff.mp hh
      exact Or.inr ⟨_, rfl, h.full p (by simp)⟩
  · rw [← h.cont, List.flatMap_map]; rfl
  · intro b
    rw [h.rc b, List.flatMap_map]
    congr 2
    simp only [Tree.blocks]
    exact List.map_eq_flatMap
  · refine h.log.trans ?_
    rw [ownEntries_eq, List.flatMap_map]
    have : ∀ p ∈ ps, (if p.own then p.es else []) =
        entriesIn (fun b => s0.sm.abs b == 0) 0 ((p.sum.block, p.es) : Tree V 0) := by
      intro p hp
      have hok := h.ok p hp
      show _ = if (s0.sm.abs p.sum.block == 0) = true then p.es else []
      cases e : p.own with
      | true => rw [(hok.own e).1]; rfl
      | false =>
        have := (hok.pre e).1
        have hz : (s0.sm.abs p.sum.block == 0) = false := by
          rw [beq_eq_false_iff_ne]; omega
        simp [hz]
    have e : ps.flatMap (fun p => if p.own then p.es else []) =
        ps.flatMap (fun p => entriesIn (fun b => s0.sm.abs b == 0) 0 ((p.sum.block, p.es) : Tree V 0)) := by
      clear hmem h
      induction ps with
      | nil => rfl
      | cons p ps ih =>
        rw [List.flatMap_cons, List.flatMap_cons, this p (by simp), ih (fun q hq => this q (by simp [hq]))]
    rw [e]
    exact List.Perm.refl _
  · intro q hq b hb hpos
    obtain ⟨p, hp, rfl⟩ := hmem q hq
    have hb' : b = p.sum.block := by simpa [Tree.blocks] using hb
    subst hb'
    have hok := h.ok p hp
    cases e : p.own with
    | true => have := (hok.own e).1; omega
    | false => exact (hok.pre e).2.2

/-- nodes paired with the subtrees they point to -/
theorem cut_recs {T : Type} (f : T → Nat × Nat) : ∀ (ps : List (NodeRec Nat)) (ts : List T), ps.flatMap (·.es) = ts.map f →
    ∃ qs : List (NodeRec Nat × List T), qs.map (·.1) = ps ∧ qs.flatMap (·.2) = ts ∧ ∀ q ∈ qs, q.1.es = q.2.map f := by
  intro ps
  induction ps with
  | nil =>
    intro ts h
    have : ts = [] := by simpa using h.symm
    exact ⟨[], rfl, by simp [this], by simp⟩
  | cons p ps ih =>
    intro ts h
    simp only [List.flatMap_cons] at h
    obtain ⟨a, b, rfl, h1, h2⟩ := List.map_eq_append_iff.mp h.symm
    obtain ⟨qs, g1, g2, g3⟩ := ih b h2.symm
    refine ⟨(p, a) :: qs, by simp [g1], by simp [g2], ?_⟩
    intro q hq
    rcases List.mem_cons.mp hq with rfl | hq
    · exact h1.symm
    · exact g3 q hq

theorem sorted_firsts {T E : Type} (c : T → List (Nat × E)) (b : T → Nat) (ts : List T) (hs : Sorted (ts.flatMap c))
    (hne : ∀ t ∈ ts, c t ≠ []) : Sorted (ts.map fun t => (firstKey (c t), b t)) := by
  induction ts with
  | nil => exact List.Pairwise.nil
  | cons t ts ih =>
    simp only [List.flatMap_cons] at hs
    refine List.pairwise_cons.mpr ⟨?_, ih hs.right (fun u hu => hne u (by simp [hu]))⟩
    intro x hx
    obtain ⟨u, hu, rfl⟩ := List.mem_map.mp hx
    obtain ⟨e, he, e1⟩ := firstKey_mem (hne t (by simp))
    obtain ⟨e', he', e2⟩ := firstKey_mem (hne u (by simp [hu]))
    have := (List.pairwise_append.mp hs).2.2 e he e' (List.mem_flatMap.mpr ⟨u, hu, he'⟩)
    show firstKey (c t) < firstKey (c u)
    omega

theorem count_flatMap_cons {T : Type} (f : T → Nat) (g : T → List Nat) (x : Nat) (l : List T) :
    (l.flatMap fun t => f t :: g t).count x = (l.map f).count x + (l.flatMap g).count x := by
  induction l with
  | nil => rfl
  | cons t l ih =>
    simp only [List.flatMap_cons, List.map_cons, List.cons_append, List.count_cons, List.count_append, ih]
    omega

theorem length_flatMap_ge {T U : Type} (f : T → List U) (k : Nat) (l : List T) (h : ∀ t ∈ l, k ≤ (f t).length) :
    k * l.length ≤ (l.flatMap f).length := by
  induction l with
  | nil => simp
  | cons t l ih =>
    have h1 := h t (by simp)
    have h2 := ih (fun u hu => h u (by simp [hu]))
    simp only [List.flatMap_cons, List.length_append, List.length_cons]
    rw [Nat.mul_succ]
    omega

/-- one more layer: the forest gets smaller -/
theorem layer_post {refs : V → List Nat} {capL capI n max : Nat} (hL : 2 ≤ capL) (hI : 4 ≤ capI) {s0 s : St V}
    {pushed : List (Nat × V)} (hsort : Sorted pushed) {h : Nat}
    {ts : List (Summary × Tree V h)} (hl : Level P refs capL capI n max s0 s pushed h ts) (h2 : 2 ≤ ts.length) :
    Post (buildLayer capI (ts.map (·.1)) s) (fun r => ∃ ts' : List (Summary × Tree V (h + 1)),
      r.1 = ts'.map (·.1) ∧ Level P refs capL capI n max s0 r.2 pushed (h + 1) ts' ∧ ts'.length < ts.length) := by
  have hfill : ∀ p ∈ ts, Filled capL capI h p.2 := by
    rcases hl.fill with hh | ⟨p, e, -⟩
    · exact hh
    · rw [e] at h2; simp at h2
  have hne : ∀ p ∈ ts, p.2.contents h ≠ [] := fun p hp => filled_nonempty hL (by omega) h p.2 (hfill p hp)
  let f : Summary × Tree V h → Nat × Nat := fun p => (p.1.key, p.1.block)
  have hmap : (ts.map (·.1)).map (fun m => (m.key, m.block)) = ts.map f := by simp [f]
  have hf : ts.map f = ts.map fun p => (firstKey (p.2.contents h), p.1.block) :=
    List.map_congr_left fun p hp => by simp only [f]; rw [hl.key p hp]
  have hsorted : Sorted (ts.map f) := by
    rw [hf]
    exact sorted_firsts (fun p : Summary × Tree V h => p.2.contents h) (fun p => p.1.block) ts (by rw [hl.cont]; exact hsort) hne
  unfold buildLayer
  rw [hmap]
  refine (pushAll_post (P := fun _ => False) internalIO_law (ts.map f) (Inv.new internalIO (by omega) false hl.sm) (by simpa using hsorted)).bind ?_
  rintro ⟨nb, s1⟩ ⟨ps0, a1, a2, a3⟩
  simp only at a1 a2 a3 ⊢
  refine (complete_post internalIO_law a1).mono ?_
  rintro ⟨ns, s2⟩ ⟨ps, b1, b2⟩
  rw [a2, a3, List.nil_append] at b2
  have b2 : Built (fun _ => False) internalIO n max capI false s s2 (ts.map f) ps := b2
  simp only at b1 ⊢
  obtain ⟨qs, q1, q2, q3⟩ := cut_recs f ps ts b2.cont
  let g : NodeRec Nat × List (Summary × Tree V h) → Summary × Tree V (h + 1) :=
    fun q => (q.1.sum, (q.1.sum.block, q.2.map fun p => (p.1.key, p.2)))
  have hps : ∀ q ∈ qs, q.1 ∈ ps := fun q hq => by rw [← q1]; exact List.mem_map.mpr ⟨q, hq, rfl⟩
  have hts : ∀ q ∈ qs, ∀ p ∈ q.2, p ∈ ts := fun q hq p hp => by rw [← q2]; exact List.mem_flatMap.mpr ⟨q, hq, hp⟩
  have hlen : ∀ q ∈ qs, q.1.es.length = q.2.length := fun q hq => by rw [q3 q hq]; simp
  have hql : qs.length = ps.length := by rw [← q1]; simp
  -- node sizes
  have hsize : (∀ q ∈ qs, capI / 2 ≤ q.2.length) ∨ ∃ q, qs = [q] ∧ 2 ≤ q.2.length := by
    rcases b2.half with hh | hh
    · refine Or.inl ?_
      intro q hq; rw [← hlen q hq]; exact hh _ (hps q hq)
    · obtain ⟨q, rfl⟩ := List.length_eq_one_iff.mp (hql.trans hh)
      refine Or.inr ⟨q, rfl, ?_⟩
      have : q.2 = ts := by simpa using q2
      rw [this]; exact h2
  have hqne : ∀ q ∈ qs, q.2 ≠ [] := by
    intro q hq e
    rcases hsize with hh | ⟨q', rfl, hh⟩
    · have := hh q hq; rw [e] at this; simp at this; omega
    · rw [List.mem_singleton] at hq; subst hq; rw [e] at hh; simp at hh
  have hcont : ∀ q ∈ qs, (g q).2.contents (h + 1) = q.2.flatMap fun p => p.2.contents h := by
    intro q hq
    simp only [g, Tree.contents, List.flatMap_map]
  have hsz : ∀ q ∈ qs, q.2.length ≤ capI := fun q hq => by rw [← hlen q hq]; exact b2.full _ (hps q hq)
  have hchild : ∀ q ∈ qs, ∀ c ∈ (g q).2.2, ∃ p ∈ q.2, c = (p.1.key, p.2) := by
    intro q hq c hc
    obtain ⟨p, hp, rfl⟩ := List.mem_map.mp hc
    exact ⟨p, hp, rfl⟩
  have hmemg : ∀ t ∈ qs.map g, ∃ q ∈ qs, g q = t := fun t ht => List.mem_map.mp ht
  have hframe : ∀ p ∈ ts, ∀ x ∈ p.2.blocks h, s2.mem x = s.mem x := by
    intro p hp x hx
    refine b2.mem x ?_
    have := hl.rc x
    have : 0 < (ts.flatMap fun p => p.2.blocks h).count x :=
      List.count_pos_iff.mpr (List.mem_flatMap.mpr ⟨p, hp, hx⟩)
    omega
  refine ⟨qs.map g, ?_, ⟨b2.sm, ?_, ?_, ?_, ?_, ?_, ?_, ?_, ?_, ?_, ?_, ?_⟩, ?_⟩
  · rw [b1, ← q1]; simp [g]
  · intro t ht; obtain ⟨q, hq, rfl⟩ := hmemg t ht; rfl
  · intro t ht; obtain ⟨q, hq, rfl⟩ := hmemg t ht
    rw [hcont q hq]
    show q.1.sum.key = _
    rw [(b2.ok _ (hps q hq)).key, q3 q hq]
    rcases e : q.2 with _ | ⟨p, l⟩
    · exact absurd e (hqne q hq)
    · have hp : p ∈ ts := hts q hq p (by rw [e]; simp)
      rw [List.flatMap_cons, firstKey_append (hne p hp)]
      show p.1.key = _
      exact hl.key p hp
  · intro t ht; obtain ⟨q, hq, rfl⟩ := hmemg t ht
    refine ⟨?_, ?_⟩
    · show s2.mem q.1.sum.block = _
      rw [(b2.ok _ (hps q hq)).mem, q3 q hq]
      show some (Blk.internal (q.2.map f)) = _
      congr 2
      simp only [g, List.map_map]
      refine List.map_congr_left fun p hp => ?_
      simp only [f, Function.comp_apply]
      rw [hl.blk p (hts q hq p hp)]
    · intro c hc
      obtain ⟨p, hp, rfl⟩ := hchild q hq c hc
      exact stored_frame _ _ h p.2 (hframe p (hts q hq p hp)) (hl.stored p (hts q hq p hp))
  · intro t ht; obtain ⟨q, hq, rfl⟩ := hmemg t ht
    intro c hc
    obtain ⟨p, hp, rfl⟩ := hchild q hq c hc
    exact ⟨hl.key p (hts q hq p hp), hl.keys p (hts q hq p hp)⟩
  · rcases hsize with hh | ⟨q, rfl, hh⟩
    · refine Or.inl ?_
      intro t ht; obtain ⟨q, hq, rfl⟩ := hmemg t ht
      refine ⟨?_, ?_, ?_⟩
      · show capI / 2 ≤ (q.2.map _).length; rw [List.length_map]; exact hh q hq
      · show (q.2.map _).length ≤ _; rw [List.length_map]; exact hsz q hq
      · intro c hc
        obtain ⟨p, hp, rfl⟩ := hchild q hq c hc
        exact hfill p (hts q hq p hp)
    · refine Or.inr ⟨g q, rfl, ?_, ?_, ?_⟩
      · show 2 ≤ (q.2.map _).length; rw [List.length_map]; exact hh
      · show (q.2.map _).length ≤ _; rw [List.length_map]; exact hsz q (by simp)
      · intro c hc
        obtain ⟨p, hp, rfl⟩ := hchild q (by simp) c hc
        exact hfill p (hts q (by simp) p hp)
  · rw [← hl.cont, ← q2, List.flatMap_map, List.flatMap_assoc]
    simp only [g, Tree.contents, List.flatMap_map]
  · intro b
    have e : (qs.map g).flatMap (fun p => p.2.blocks (h + 1)) =
        qs.flatMap fun q => q.1.sum.block :: q.2.flatMap fun p => p.2.blocks h := by
      simp only [List.flatMap_map, g, Tree.blocks]
    rw [e, count_flatMap_cons, b2.rc b, hl.rc b, ← q2, List.flatMap_assoc, ← q1, List.map_map]
    simp only [Function.comp_def]
    omega
  · intro b hb
    rw [b2.mem b (by rw [hl.rc b]; omega), hl.mem b hb]
  · have e1 : refsOf (internalIO (V := V)) (ownEntries ps) = [] := by
      simp [refsOf, internalIO]
    have := b2.log
    rw [e1, List.append_nil] at this
    refine this.trans (hl.log.trans ?_)
    rw [← q2, List.flatMap_map]
    simp only [g, entriesIn, List.flatMap_map, List.flatMap_assoc]
    exact List.Perm.refl _
  · intro e
    have : qs = [] := by simpa using e
    rw [this] at hql
    exact b2.nonempty (List.eq_nil_of_length_eq_zero hql.symm)
  · intro t ht b hb hpos
    obtain ⟨q, hq, rfl⟩ := hmemg t ht
    have hb' : b = q.1.sum.block ∨ ∃ p ∈ q.2, b ∈ p.2.blocks h := by
      have hb2 : b ∈ q.1.sum.block :: (q.2.map fun p => (p.1.key, p.2)).flatMap fun c => c.2.blocks h := hb
      rw [List.flatMap_map] at hb2
      rcases List.mem_cons.mp hb2 with e | e
      · exact Or.inl e
      · obtain ⟨p, hp, e⟩ := List.mem_flatMap.mp e
        exact Or.inr ⟨p, hp, e⟩
    rcases hb' with rfl | ⟨p, hp, hb'⟩
    · have hok := b2.ok _ (hps q hq)
      cases e : q.1.own with
      | true =>
        have := (hok.own e).1
        have := hl.rc q.1.sum.block
        omega
      | false => exact (hok.pre e).2.2.elim
    · exact hl.fresh p (hts q hq p hp) b hb' hpos
  · rw [List.length_map]
    rcases hsize with hh | ⟨q, rfl, hh⟩
    · have := length_flatMap_ge (fun q : NodeRec Nat × List (Summary × Tree V h) => q.2) 2 qs (fun q hq => by have := hh q hq; omega)
      rw [q2] at this
      omega
    · show 1 < _; omega

theorem filled_rootFilled {capL capI : Nat} (hI : 4 ≤ capI) (h : Nat) (t : Tree V h) (hf : Filled capL capI h t) :
    RootFilled capL capI h t := by
  cases h with
  | zero => exact hf.2
  | succ h => exact ⟨by have := hf.1; omega, hf.2.1, hf.2.2⟩

theorem loop_post {refs : V → List Nat} {capL capI n max : Nat} (hL : 2 ≤ capL) (hI : 4 ≤ capI) {s0 : St V}
    {pushed : List (Nat × V)} (hsort : Sorted pushed) (fuel : Nat) : ∀ {s : St V} {h : Nat}
    {ts : List (Summary × Tree V h)}, Level P refs capL capI n max s0 s pushed h ts → ts.length ≤ fuel + 1 →
    Post (buildLoop capI fuel (ts.map (·.1)) s) (fun r => ∃ (h : Nat) (p : Summary × Tree V h),
      Level P refs capL capI n max s0 r.2 pushed h [p] ∧ RootFilled capL capI h p.2 ∧ r.1 = p.2.blk h) := by
  induction fuel with
  | zero =>
    intro s h ts hl hlen
    match ts, hl, hlen with
    | [], hl, _ => exact absurd rfl hl.nonempty
    | [p], hl, _ =>
      refine ⟨h, p, hl, ?_, hl.blk p (by simp)⟩
      rcases hl.fill with hh | ⟨q, e, hh⟩
      · exact filled_rootFilled hI h _ (hh p (by simp))
      · obtain rfl : p = q := by simpa using e
        exact hh
    | _ :: _ :: _, _, hlen => simp at hlen
  | succ fuel ih =>
    intro s h ts hl hlen
    match ts, hl, hlen with
    | [], hl, _ => exact absurd rfl hl.nonempty
    | [p], hl, _ =>
      refine ⟨h, p, hl, ?_, hl.blk p (by simp)⟩
      rcases hl.fill with hh | ⟨q, e, hh⟩
      · exact filled_rootFilled hI h _ (hh p (by simp))
      · obtain rfl : p = q := by simpa using e
        exact hh
    | p :: q :: l, hl, hlen =>
      have e : buildLoop capI (fuel + 1) ((p :: q :: l).map (·.1)) s =
          (do let r ← buildLayer capI ((p :: q :: l).map (·.1)) s
              buildLoop capI fuel r.1 r.2) := rfl
      rw [e]
      refine (layer_post hL hI hsort hl (by simp)).bind ?_
      rintro ⟨ns, s'⟩ ⟨ts', e1, e2, e3⟩
      simp only at e1 e2 ⊢
      rw [e1]
      exact ih e2 (by omega)

/-! ## Search-tree order -/

/-- every node below the root is at least half full -/
def BelowFilled (capL capI : Nat) : (h : Nat) → Tree V h → Prop
  | 0, _ => True
  | h + 1, t => ∀ c ∈ t.2, Filled capL capI h c.2

theorem filled_below {capL capI : Nat} : ∀ (h : Nat) (t : Tree V h), Filled capL capI h t → BelowFilled capL capI h t
  | 0, _, _ => trivial
  | _ + 1, _, h => h.2.2

theorem rootFilled_below {capL capI : Nat} : ∀ (h : Nat) (t : Tree V h), RootFilled capL capI h t → BelowFilled capL capI h t
  | 0, _, _ => trivial
  | _ + 1, _, h => h.2.2

theorem ordered_of {capL capI : Nat} (hL : 2 ≤ capL) (hI : 2 ≤ capI) : ∀ (h : Nat) (t : Tree V h) (lo : Nat) (hi : Option Nat),
    KeysFirst h t → Sorted (t.contents h) →
    (∀ e ∈ t.contents h, lo ≤ e.1 ∧ Below e.1 hi) → BelowFilled capL capI h t → t.Ordered h lo hi := by
  intro h
  induction h with
  | zero =>
    intro t lo hi _ hs hb _
    simp only [Tree.Ordered, Tree.contents] at *
    generalize t.2 = l at *
    induction l generalizing lo with
    | nil => trivial
    | cons e l ih =>
      have hs' := List.pairwise_cons.mp hs
      refine ⟨(hb e (by simp)).1, (hb e (by simp)).2, trivial, ih _ hs'.2 ?_⟩
      intro x hx
      have := hs'.1 x hx
      exact ⟨by omega, (hb x (by simp [hx])).2⟩
  | succ h ih =>
    intro t lo hi hk hs hb hf
    simp only [Tree.Ordered, Tree.contents, KeysFirst, BelowFilled] at *
    generalize t.2 = l at *
    induction l generalizing lo with
    | nil => trivial
    | cons c l ihl =>
      obtain ⟨k, c⟩ := c
      simp only [List.flatMap_cons] at hs hb
      have hfc : Filled capL capI h c := hf (k, c) (by simp)
      have hne := filled_nonempty hL hI h c hfc
      obtain ⟨hkc1, hkc2⟩ : k = firstKey (c.contents h) ∧ KeysFirst h c := hk (k, c) (by simp)
      obtain ⟨e0, he0, hke0⟩ := firstKey_mem hne
      have hk0 : k = e0.1 := by rw [hke0]; exact hkc1
      have hfirst : ∀ e ∈ c.contents h, k ≤ e.1 := by
        intro e he
        rcases hcl : c.contents h with _ | ⟨a, l'⟩
        · exact absurd hcl hne
        · have hka : k = a.1 := by rw [hkc1, hcl]; rfl
          rw [hcl] at he
          rcases List.mem_cons.mp he with rfl | he
          · omega
          · have h1 := hs.left
            rw [hcl] at h1
            have := (List.pairwise_cons.mp h1).1 e he
            omega
      refine ⟨?_, ?_, ?_, ?_⟩
      · rw [hk0]; exact (hb e0 (by simp [he0])).1
      · rw [hk0]; exact (hb e0 (by simp [he0])).2
      · refine ih c k _ hkc2 hs.left ?_ (filled_below h c hfc)
        intro e he
        refine ⟨hfirst e he, ?_⟩
        rcases l with _ | ⟨⟨k', c'⟩, l⟩
        · exact (hb e (by simp [he])).2
        · show e.1 < k'
          have hne' := filled_nonempty hL hI h c' (hf (k', c') (by simp))
          obtain ⟨e1, he1, hke1⟩ := firstKey_mem hne'
          have h1 : k' = e1.1 := by rw [hke1]; exact (hk (k', c') (by simp)).1
          rw [h1]
          exact (List.pairwise_append.mp hs).2.2 e he e1 (by simp [he1])
      · refine ihl (k + 1) (fun x hx => hk x (by simp [hx])) hs.right ?_ (fun x hx => hf x (by simp [hx]))
        intro e he
        refine ⟨?_, (hb e (List.mem_append.mpr (Or.inr he))).2⟩
        have := (List.pairwise_append.mp hs).2.2 e0 he0 e he
        omega

/-! ## Main theorems -/

/-- What a caller gets when a tree with root block `root` has been built from `s0`, ending in `s`. -/
structure Result (P : Nat → Prop) (refs : V → List Nat) (capL capI n max : Nat) (s0 s : St V) (pushed : List (Nat × V)) (root : Nat)
    (h : Nat) (t : Tree V h) : Prop where
  /-- the tree is stored under the returned block -/
  blk : t.blk h = root
  stored : t.Stored (fun _ b => s.mem b) true h
  /-- it contains exactly what was pushed, in order, and is a search tree -/
  contents : t.contents h = pushed
  ordered : t.Ordered h 0 none
  /-- balance and fill -/
  keys : KeysFirst h t
  filled : RootFilled capL capI h t
  /-- every block's reference count grew by the number of references the new tree makes to it -/
  rc : ∀ b, s.sm.abs b = s0.sm.abs b + (t.blocks h).count b
  /-- nothing that was in use has been overwritten -/
  mem : ∀ b, 0 < s0.sm.abs b → s.mem b = s0.mem b
  /-- data references: one for every entry of every new leaf -/
  log : s.log.Perm (s0.log ++ (entriesIn (fun b => s0.sm.abs b == 0) h t).flatMap fun e => refs e.2)
  sm : s.sm.Inv n max
  /-- all blocks of the tree were free, except for leaves that the caller pushed -/
  fresh : ∀ b ∈ t.blocks h, 0 < s0.sm.abs b → P b

theorem result_of_level {refs : V → List Nat} {capL capI n max : Nat} (hL : 2 ≤ capL) (hI : 4 ≤ capI) {s0 s : St V}
    {pushed : List (Nat × V)} (hsort : Sorted pushed) {h : Nat} {p : Summary × Tree V h}
    (hl : Level P refs capL capI n max s0 s pushed h [p]) (hf : RootFilled capL capI h p.2) :
    Result P refs capL capI n max s0 s pushed (p.2.blk h) h p.2 := by
  have hc : p.2.contents h = pushed := by simpa using hl.cont
  refine ⟨rfl, ?_, hc, ?_, hl.keys p (by simp), hf, ?_, hl.mem, ?_, hl.sm, hl.fresh p (by simp)⟩
  · exact stored_frame _ _ h p.2 (fun _ _ => rfl) (hl.stored p (by simp))
  · exact ordered_of hL (by omega) h p.2 0 none (hl.keys p (by simp)) (by rw [hc]; exact hsort)
      (fun e _ => ⟨Nat.zero_le _, trivial⟩) (rootFilled_below h p.2 hf)
  · intro b; rw [hl.rc b]; simp
  · have := hl.log; simpa using this

/-- `build_btree` on leaves returned by a builder. -/
theorem buildTree_correct (refs : V → List Nat) (ok : List Nat → V → Bool) {capL capI n max : Nat} (hL : 2 ≤ capL)
    (hI : 4 ≤ capI) {shared : Bool} {s0 s : St V} {pushed : List (Nat × V)} (hsort : Sorted pushed) {ps : List (NodeRec V)}
    (hb : Built P (leafIO refs ok) n max capL shared s0 s pushed ps) :
    Post (buildTree capI (ps.map (·.sum)) s) (fun r => ∃ (h : Nat) (t : Tree V h),
      Result P refs capL capI n max s0 r.2 pushed r.1 h t) := by
  obtain ⟨ts, e, hl⟩ := level_zero refs ok (capI := capI) hb
  unfold buildTree
  rw [← e]
  refine (loop_post hL hI hsort _ hl (by simp)).mono ?_
  rintro ⟨root, s'⟩ ⟨h, p, h1, h2, h3⟩
  simp only at h1 h3 ⊢
  rw [h3]
  exact ⟨h, p.2, result_of_level hL hI hsort h1 h2⟩

/-- C11, C12: for every sequence of pushes whose keys increase strictly, building either runs out of metadata blocks or
counter range, or returns the root of a balanced, well filled search tree that holds exactly the pushed entries. -/
theorem build_correct (refs : V → List Nat) (ok : List Nat → V → Bool) {capL capI n max : Nat} (hL : 2 ≤ capL)
    (hI : 4 ≤ capI) (hn : n < 2 ^ 64) (s0 : St V) (hs0 : s0.sm.Inv n max) (items : List (Item V))
    (hv : ∀ i ∈ items, i.Valid n capL s0) (hs : Sorted (items.flatMap (Item.contents s0.mem))) :
    Post (build (leafIO refs ok) capL capI items s0) (fun r => ∃ (h : Nat) (t : Tree V h),
      Result (fun b => b ∈ items.flatMap Item.blocks) refs capL capI n max s0 r.2 (items.flatMap (Item.contents s0.mem)) r.1 h t) := by
  unfold build
  refine (buildLeaves_post refs ok hn hs0 hL false items hv (by simp) hs).bind ?_
  rintro ⟨ns, s⟩ ⟨ps, h1, h2⟩
  simp only at h1 h2 ⊢
  rw [h1]
  exact buildTree_correct refs ok hL hI hs h2

/-! ### Rejected keys -/

theorem unshift_lastKey {E : Type} {io : NIO V E} {nb : NB E} {s : St V} {r : NB E × St V} (h : unshiftNode io nb s = .ok r) :
    r.1.lastKey = nb.lastKey := by
  unfold unshiftNode at h
  split at h
  · cases h
  · next ls _ =>
    cases h1 : readNode io ls.block s with
    | error e => rw [h1] at h; cases h
    | ok es =>
      rw [h1] at h
      cases h2 : decBlock ls.block s with
      | error e => simp only [h2] at h; cases h
      | ok q =>
        simp only [h2] at h
        cases hsh : ls.shared with
        | true =>
          rw [hsh] at h
          cases h3 : incAll io es q.2 with
          | error e =>
            replace h : (incAll io es q.2 >>= fun s =>
              Except.ok ({ nb with nodes := nb.nodes.dropLast, values := es ++ nb.values }, s)) = Except.ok r := h
            rw [h3] at h; cases h
          | ok u =>
            replace h : (incAll io es q.2 >>= fun s =>
              Except.ok ({ nb with nodes := nb.nodes.dropLast, values := es ++ nb.values }, s)) = Except.ok r := h
            rw [h3] at h; cases h; rfl
        | false =>
          rw [hsh] at h
          replace h : Except.ok ({ nb with nodes := nb.nodes.dropLast, values := es ++ nb.values }, q.2) = Except.ok r := h
          cases h; rfl

theorem emitValues_lastKey {E : Type} {io : NIO V E} {k : Nat} {nb : NB E} {s : St V} {r : NB E × St V}
    (h : emitValues io k nb s = .ok r) : r.1.lastKey = nb.lastKey := by
  unfold emitValues at h
  split at h
  · cases h1 : writeNode io (nb.values.take k) s with
    | error e => simp only [h1] at h; cases h
    | ok q => simp only [h1] at h; cases h; rfl
  · cases h

theorem pushValue_order {E : Type} {io : NIO V E} {k : Nat} {v : E} {nb : NB E} {s : St V} {r : NB E × St V}
    (h : pushValue io k v nb s = .ok r) : (∀ l, nb.lastKey = some l → l < k) ∧ r.1.lastKey = some k := by
  unfold pushValue at h
  have key : ∀ (x : Except Err (NB E × St V)), (∀ q, x = .ok q → q.1.lastKey = nb.lastKey) →
      (do let r ← x
          let nb ← checkKey k r.1
          let s ← incValue io v r.2
          Except.ok ({ nb with values := nb.values ++ [(k, v)] }, s)) = Except.ok r →
      (∀ l, nb.lastKey = some l → l < k) ∧ r.1.lastKey = some k := by
    intro x hx h
    cases x with
    | error e => cases h
    | ok q =>
      have hq := hx q rfl
      replace h : (do
          let nb ← checkKey k q.1
          let s ← incValue io v q.2
          Except.ok ({ nb with values := nb.values ++ [(k, v)] }, s)) = Except.ok r := h
      cases h1 : checkKey k q.1 with
      | error e => rw [h1] at h; cases h
      | ok nb1 =>
        rw [h1] at h
        replace h : (do
          let s ← incValue io v q.2
          Except.ok ({ nb1 with values := nb1.values ++ [(k, v)] }, s)) = Except.ok r := h
        cases h2 : incValue io v q.2 with
        | error e => rw [h2] at h; cases h
        | ok t =>
          rw [h2] at h
          cases h
          unfold checkKey at h1
          rw [hq] at h1
          cases h3 : nb.lastKey with
          | none =>
            simp only [h3] at h1
            cases h1
            exact ⟨by simp, rfl⟩
          | some l =>
            simp only [h3] at h1
            split at h1
            · cases h1
            · cases h1
              refine ⟨?_, rfl⟩
              intro l' hl'
              cases hl'
              omega
  refine key _ ?_ h
  intro q hq
  split at hq
  · exact unshift_lastKey hq
  · split at hq
    · exact emitValues_lastKey hq
    · cases hq; rfl

/-- C11: a sequence of values is only ever accepted if its keys increase strictly; whatever the state. -/
theorem pushAll_ok_sorted {E : Type} (io : NIO V E) (es : List (Nat × E)) : ∀ (nb : NB E) (s : St V) (r : NB E × St V),
    pushAll io es nb s = .ok r → Sorted es ∧ ∀ l, nb.lastKey = some l → ∀ e ∈ es, l < e.1 := by
  induction es with
  | nil => intro nb s r _; exact ⟨List.Pairwise.nil, by simp⟩
  | cons e es ih =>
    intro nb s r h
    unfold pushAll at h
    cases h1 : pushValue io e.1 e.2 nb s with
    | error x => rw [h1] at h; cases h
    | ok q =>
      rw [h1] at h
      obtain ⟨g1, g2⟩ := pushValue_order h1
      obtain ⟨g3, g4⟩ := ih q.1 q.2 r h
      refine ⟨List.pairwise_cons.mpr ⟨fun x hx => g4 _ g2 x hx, g3⟩, ?_⟩
      intro l hl x hx
      rcases List.mem_cons.mp hx with rfl | hx
      · exact g1 l hl
      · have := g1 l hl
        have := g4 _ g2 x hx
        omega

/-- C11: `BTreeBuilder` fed with values only accepts exactly strictly increasing keys: success implies the order. -/
theorem build_rejects (io : NIO V V) (capL capI : Nat) (es : List (Nat × V)) (s : St V) (r : Nat × St V)
    (h : build io capL capI (es.map fun e => .val e.1 e.2) s = .ok r) : Sorted es := by
  have e : ∀ (es : List (Nat × V)) (nb : NB V) (s : St V),
      pushItems io (es.map fun e => .val e.1 e.2) nb s = pushAll io es nb s := by
    intro es
    induction es with
    | nil => intro nb s; rfl
    | cons e es ih =>
      intro nb s
      simp only [List.map_cons, pushItems, pushAll, pushItem, ih]
  unfold build buildLeaves at h
  rw [e] at h
  cases h1 : pushAll io es (NB.new capL false) s with
  | error x => rw [h1] at h; cases h
  | ok q => exact (pushAll_ok_sorted io es _ _ _ h1).1


/-- The order check of `push_nodes`: unless the builder is empty and a single leaf is pushed, the first key of the
pushed leaves must be above the last key seen. -/
theorem pushNodes_order {E : Type} {io : NIO V E} {n : Summary} {ns : List Summary} {nb : NB E} {s : St V}
    {r : NB E × St V} (h : pushNodes io n ns nb s = .ok r) (hne : ns ≠ [] ∨ nb.nodes ≠ [] ∨ nb.values ≠ []) :
    (∀ l, nb.lastKey = some l → l < n.key) ∧ r.1.lastKey = some ((n :: ns).getLast (by simp)).key := by
  unfold pushNodes at h
  rw [if_neg (by rintro ⟨a, b, c⟩; rcases hne with x | x | x <;> contradiction)] at h
  by_cases hp : ns ≠ [] ∧ (n :: ns).any (fun m => decide (m.nr < nb.cap / 2)) = true
  · rw [if_pos hp] at h; cases h
  · rw [if_neg hp] at h
    cases h1 : checkFirst n nb with
    | error e => rw [h1] at h; cases h
    | ok u =>
      rw [h1] at h
      refine ⟨?_, ?_⟩
      · intro l hl
        unfold checkFirst at h1
        rw [hl] at h1
        by_cases hk : n.key ≤ l
        · simp only [if_pos hk] at h1; cases h1
        · omega
      · simp only [bind, Except.bind] at h
        split at h
        · cases h
        · split at h
          · cases h
          · cases h; rfl

theorem pushValue_nonempty {E : Type} {io : NIO V E} {k : Nat} {v : E} {nb : NB E} {s : St V} {r : NB E × St V}
    (h : pushValue io k v nb s = .ok r) : r.1.values ≠ [] := by
  unfold pushValue at h
  simp only [bind, Except.bind] at h
  split at h
  · cases h
  · split at h
    · cases h
    · split at h
      · cases h
      · cases h; simp

/-- the smallest key a pushed item is known by -/
def Item.first : Item V → Nat
  | .val k _ => k
  | .leaves n _ => n.key

theorem pushItems_split {io : NIO V V} (pre post : List (Item V)) : ∀ (nb : NB V) (s : St V) (r : NB V × St V),
    pushItems io (pre ++ post) nb s = .ok r → ∃ q, pushItems io pre nb s = .ok q ∧ pushItems io post q.1 q.2 = .ok r := by
  induction pre with
  | nil => intro nb s r h; exact ⟨(nb, s), rfl, h⟩
  | cons i pre ih =>
    intro nb s r h
    replace h : (pushItem io i nb s >>= fun q => pushItems io (pre ++ post) q.1 q.2) = .ok r := h
    cases h1 : pushItem io i nb s with
    | error e => rw [h1] at h; cases h
    | ok q =>
      rw [h1] at h
      obtain ⟨q', a, b⟩ := ih q.1 q.2 r h
      refine ⟨q', ?_, b⟩
      show (pushItem io i nb s >>= fun q => pushItems io pre q.1 q.2) = _
      rw [h1]; exact a

/-- C11: whatever was pushed before, once a value with key `k` went in, the next value or run of shared leaves is
accepted only if its first key is greater than `k`. -/
theorem build_rejects_after_value (io : NIO V V) (capL capI : Nat) (pre post : List (Item V)) (k : Nat) (v : V)
    (j : Item V) (s : St V) (r : Nat × St V)
    (h : build io capL capI (pre ++ .val k v :: j :: post) s = .ok r) : k < j.first := by
  unfold build buildLeaves at h
  cases h1 : pushItems io (pre ++ .val k v :: j :: post) (NB.new capL false) s with
  | error x => rw [h1] at h; cases h
  | ok q =>
    obtain ⟨q1, -, h2⟩ := pushItems_split pre (.val k v :: j :: post) _ _ _ h1
    replace h2 : (pushValue io k v q1.1 q1.2 >>= fun q => pushItems io (j :: post) q.1 q.2) = .ok q := h2
    cases h3 : pushValue io k v q1.1 q1.2 with
    | error e => rw [h3] at h2; cases h2
    | ok q3 =>
      rw [h3] at h2
      replace h2 : (pushItem io j q3.1 q3.2 >>= fun q => pushItems io post q.1 q.2) = .ok q := h2
      obtain ⟨-, g2⟩ := pushValue_order h3
      have g3 := pushValue_nonempty h3
      cases h4 : pushItem io j q3.1 q3.2 with
      | error e => rw [h4] at h2; cases h2
      | ok q4 =>
        cases j with
        | val k' v' => exact (pushValue_order h4).1 k g2
        | leaves n ns => exact (pushNodes_order h4 (.inr (.inr g3))).1 k g2

/-- C11: after a run of two or more shared leaves, the next item is accepted only if its first key is above the first
key of the last of them (the highest key the builder remembers). -/
theorem build_rejects_after_leaves (io : NIO V V) (capL capI : Nat) (pre post : List (Item V)) (n m : Summary)
    (ns : List Summary) (j : Item V) (hj : ∀ n', j ≠ .leaves n' []) (s : St V) (r : Nat × St V)
    (h : build io capL capI (pre ++ .leaves n (m :: ns) :: j :: post) s = .ok r) :
    ((m :: ns).getLast (by simp)).key < j.first := by
  unfold build buildLeaves at h
  cases h1 : pushItems io (pre ++ .leaves n (m :: ns) :: j :: post) (NB.new capL false) s with
  | error x => rw [h1] at h; cases h
  | ok q =>
    obtain ⟨q1, -, h2⟩ := pushItems_split pre _ _ _ _ h1
    replace h2 : (pushNodes io n (m :: ns) q1.1 q1.2 >>= fun q => pushItems io (j :: post) q.1 q.2) = .ok q := h2
    cases h3 : pushNodes io n (m :: ns) q1.1 q1.2 with
    | error e => rw [h3] at h2; cases h2
    | ok q3 =>
      rw [h3] at h2
      replace h2 : (pushItem io j q3.1 q3.2 >>= fun q => pushItems io post q.1 q.2) = .ok q := h2
      obtain ⟨-, g2⟩ := pushNodes_order h3 (.inl (by simp))
      rw [List.getLast_cons (by simp)] at g2
      cases h4 : pushItem io j q3.1 q3.2 with
      | error e => rw [h4] at h2; cases h2
      | ok q4 =>
        cases j with
        | val k' v' => exact (pushValue_order h4).1 _ g2
        | leaves n' ns' =>
          refine (pushNodes_order h4 (.inl ?_)).1 _ g2
          intro e; subst e; exact hj n' rfl

/-! ### Releasing the temporary references to shared leaves -/

theorem decRefs_ok : ∀ (rs log L : List Nat), log.Perm (L ++ rs) → ∃ log', decRefs rs log = .ok log' ∧ log'.Perm L := by
  intro rs
  induction rs with
  | nil => intro log L h; exact ⟨log, rfl, by simpa using h⟩
  | cons r rs ih =>
    intro log L h
    have hmem : r ∈ log := h.mem_iff.mpr (by simp)
    unfold decRefs
    rw [if_pos hmem]
    refine ih _ L ?_
    have h1 : (log.erase r).Perm ((L ++ r :: rs).erase r) := h.erase r
    refine h1.trans ?_
    have h2 : (L ++ r :: rs).Perm (r :: (L ++ rs)) := List.perm_middle
    have := h2.erase r
    simpa using this

/-- `release_leaves` on the distinct leaves of the shared subtrees: every leaf loses one reference, and for exactly the
leaves that drop to zero one reference is given back on every data block they map.  It cannot fail. -/
theorem releaseLeaves_correct (refs : V → List Nat) (ok : List Nat → V → Bool) {n max : Nat} :
    ∀ (ns : List Summary) (s : St V) (L : List Nat), s.sm.Inv n max → (ns.map (·.block)).Nodup →
    (∀ m ∈ ns, m.block < n ∧ 0 < s.sm.abs m.block ∧ ∃ es, s.mem m.block = some (.leaf es) ∧ Sorted es) →
    s.log.Perm (L ++ (ns.filter fun m => s.sm.abs m.block == 1).flatMap fun m =>
      (leafEntries s.mem m.block).flatMap fun e => refs e.2) →
    ∃ s', releaseLeaves (leafIO refs ok) ns s = .ok s' ∧ s'.sm.Inv n max ∧ s'.mem = s.mem ∧ s'.log.Perm L ∧
      ∀ b, s'.sm.abs b = s.sm.abs b - (ns.map (·.block)).count b := by
  intro ns
  induction ns with
  | nil => intro s L hs _ _ hl; exact ⟨s, rfl, hs, rfl, by simpa using hl, by simp⟩
  | cons m ns ih =>
    intro s L hs hnd hm hl
    obtain ⟨hb, hpos, es, hes, hsort⟩ := hm m (by simp)
    have hnd' := List.nodup_cons.mp hnd
    obtain ⟨t, t1, t2, t3, t4, t5⟩ := decBlock_post hs hb hpos
    have hother : ∀ q ∈ ns, q.block ≠ m.block := by
      intro q hq e; exact hnd'.1 (List.mem_map.mpr ⟨q, hq, e⟩)
    have habs : ∀ q ∈ ns, t.sm.abs q.block = s.sm.abs q.block := by
      intro q hq
      rw [t3]
      simp only [SM.Counts.upd]
      rw [if_neg (hother q hq)]
    have hfilter : (ns.filter fun q => t.sm.abs q.block == 1) = ns.filter fun q => s.sm.abs q.block == 1 :=
      List.filter_congr fun q hq => by rw [habs q hq]
    have hm' : ∀ u : St V, u.sm = t.sm → u.mem = t.mem → ∀ q ∈ ns, q.block < n ∧ 0 < u.sm.abs q.block ∧
        ∃ es, u.mem q.block = some (.leaf es) ∧ Sorted es := by
      intro u u1 u2 q hq
      obtain ⟨a1, a2, es, a3, a4⟩ := hm q (by simp [hq])
      exact ⟨a1, by rw [u1, habs q hq]; exact a2, es, by rw [u2, t4]; exact a3, a4⟩
    have fin : ∀ u : St V, u.sm = t.sm → u.mem = t.mem →
        u.log.Perm (L ++ (ns.filter fun m => s.sm.abs m.block == 1).flatMap fun m =>
          (leafEntries s.mem m.block).flatMap fun e => refs e.2) →
        ∃ s', releaseLeaves (leafIO refs ok) ns u = .ok s' ∧ s'.sm.Inv n max ∧ s'.mem = s.mem ∧ s'.log.Perm L ∧
          ∀ b, s'.sm.abs b = s.sm.abs b - ((m :: ns).map (·.block)).count b := by
      intro u u1 u2 u3
      obtain ⟨s', g1, g2, g3, g4, g5⟩ := ih u L (by rw [u1]; exact t2) hnd'.2 (hm' u u1 u2) (by
        rw [u1, u2, t4, hfilter]; exact u3)
      refine ⟨s', g1, g2, by rw [g3, u2, t4], g4, ?_⟩
      intro b
      rw [g5 b, u1, t3]
      simp only [SM.Counts.upd, List.map_cons, List.count_cons, beq_iff_eq]
      by_cases e : b = m.block
      · subst e
        have : (ns.map (·.block)).count m.block = 0 := List.count_eq_zero.mpr hnd'.1
        simp [this]
      · rw [if_neg e, if_neg (Ne.symm e)]; rfl
    unfold releaseLeaves
    rw [t1]
    by_cases h1 : s.sm.abs m.block = 1
    · have hle : leafEntries s.mem m.block = es := by simp [leafEntries, hes]
      have hf : ((m :: ns).filter fun q => s.sm.abs q.block == 1) = m :: ns.filter fun q => s.sm.abs q.block == 1 := by
        simp [h1]
      rw [hf, List.flatMap_cons, hle] at hl
      have hl' : t.log.Perm ((L ++ (ns.filter fun m => s.sm.abs m.block == 1).flatMap fun m =>
          (leafEntries s.mem m.block).flatMap fun e => refs e.2) ++ es.flatMap fun e => refs e.2) := by
        rw [t5]
        refine hl.trans ?_
        rw [List.append_assoc]
        exact (List.perm_append_comm).append_left _
      obtain ⟨log', d1, d2⟩ := decRefs_ok _ _ _ hl'
      have hread : readNode (leafIO refs ok) m.block t = .ok es :=
        readNode_ok (leafIO_law refs ok) (by rw [t4]; exact hes) hsort
      obtain ⟨s', g⟩ := fin { t with log := log' } rfl rfl d2
      refine ⟨s', ?_, g.2⟩
      rw [← g.1]
      have hb1 : (s.sm.abs m.block == 1) = true := by simp [h1]
      show (if (s.sm.abs m.block == 1) = true then _ else _) = _
      rw [if_pos hb1]
      show (readNode (leafIO refs ok) m.block t >>= _) = _
      rw [hread]
      show (decRefs (es.flatMap fun e => refs e.2) t.log >>= _) = _
      rw [d1]
      rfl
    · have hf : ((m :: ns).filter fun q => s.sm.abs q.block == 1) = ns.filter fun q => s.sm.abs q.block == 1 := by
        simp [h1]
      rw [hf] at hl
      obtain ⟨s', g⟩ := fin t rfl rfl (by rw [t5]; exact hl)
      refine ⟨s', ?_, g.2⟩
      rw [← g.1]
      have hb1 : ¬ (s.sm.abs m.block == 1) = true := by simp [h1]
      show (if (s.sm.abs m.block == 1) = true then _ else _) = _
      rw [if_neg hb1]

/-! ### Non-vacuity, and what is false -/

/-- thirteen values -/
def demoItems : List (Item Nat) := (List.range 13).map fun i => .val (10 * i) i

/-- an empty metadata device of `n` blocks -/
def demoSt (n : Nat) : St Nat := { mem := fun _ => none, sm := SM.Core.new 100 n, log := [] }

/-- the hypotheses of `build_correct` hold of it, and the build succeeds -/
example : (demoSt 20).sm.Inv 20 100 ∧ (∀ i ∈ demoItems, i.Valid 20 4 (demoSt 20)) ∧
    Sorted (demoItems.flatMap (Item.contents (demoSt 20).mem)) ∧
    (match build (leafIO (fun v => [v]) (fun _ _ => true)) 4 4 demoItems (demoSt 20) with
      | .ok r => r.1 == 4 && r.2.log == List.range 13
      | .error _ => false) = true := by
  refine ⟨SM.Core.new_inv 20 100 (by omega), ?_, by unfold Sorted; decide, by decide⟩
  intro i hi
  obtain ⟨k, -, rfl⟩ := List.mem_map.mp hi
  trivial

/-- A device that refers to a shared leaf first: the key of the next value is compared with nothing. -/
def holeSt : St Nat :=
  { mem := fun b => if b = 0 then some (.leaf [(100, 1), (110, 2)]) else none
    sm := { maxCount := 100, nrAlloc := 1, allocBegin := 1, counts := [1, 0, 0, 0, 0] }
    log := [1, 2] }

/-- C11, what fails: with a pre-built leaf first, a smaller key is accepted afterwards, and the resulting tree
(here one leaf with keys `100, 110, 5`) is not in order: reading it back is an error. -/
theorem build_order_refuted :
    (match build (leafIO (fun v => [v]) (fun _ _ => true)) 6 4
        [.leaves ⟨0, 100, 2, true⟩ [], .val 5 7] holeSt with
      | .ok r => r.2.mem r.1 == some (.leaf [(100, 1), (110, 2), (5, 7)]) &&
          (match readNode (leafIO (fun v => [v]) (fun _ _ => true)) r.1 r.2 with
            | .error .node => true
            | _ => false)
      | .error _ => false) = true := by
  decide

/-- An empty shared leaf after anything else is refused although nothing is out of order. -/
theorem empty_leaf_refused :
    build (leafIO (fun v : Nat => [v]) (fun _ _ => true)) 6 4 [.val 5 7, .leaves ⟨0, 0, 0, true⟩ []]
      { mem := fun b => if b = 0 then some (.leaf []) else none
        sm := { maxCount := 100, nrAlloc := 1, allocBegin := 1, counts := [1, 0, 0, 0, 0] }, log := [] } =
    .error .order := by
  rfl

/-- sharing: a device made of a shared half-full leaf, then values; the shared leaf gets one more reference and its
data blocks none -/
example : (match build (leafIO (fun v => [v]) (fun _ _ => true)) 4 4
      [.leaves ⟨0, 100, 2, true⟩ [], .val 120 3, .val 130 4] holeSt with
    | .ok r => r.2.sm.counts == [2, 1, 1, 0, 0] && r.2.log == [1, 2, 3, 4]
    | .error _ => false) = true := by
  decide

end Verif.Bld
