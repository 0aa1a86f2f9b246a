import Verif.Model.Builder
import Verif.Prop.SpaceMap

/-!
# C11, C12: the node builder (one level of a tree)
-/

namespace Verif.Bld

open Verif.BT (Blk)

variable {V E : Type} {P : Nat → Prop}

/-! ## Outcomes -/

/-- failures for lack of a resource: a free metadata block, or room in a reference counter -/
def Err.Resource : Err → Prop
  | .space => True
  | .valueRc => True
  | .metaRc => True
  | _ => False

/-- the call succeeds with `Q`, or fails for lack of resources only -/
def Post {α : Type} (r : Except Err α) (Q : α → Prop) : Prop :=
  match r with
  | .ok a => Q a
  | .error e => e.Resource

theorem Post.bind {α β : Type} {x : Except Err α} {f : α → Except Err β} {Q : α → Prop} {R : β → Prop}
    (h : Post x Q) (hf : ∀ a, Q a → Post (f a) R) : Post (x >>= f) R := by
  cases x with
  | error e => exact h
  | ok a => exact hf a h

theorem Post.mono {α : Type} {x : Except Err α} {Q R : α → Prop} (h : Post x Q) (hq : ∀ a, Q a → R a) : Post x R := by
  cases x with
  | error e => exact h
  | ok a => exact hq a h

theorem Post.ok {α : Type} {a : α} {Q : α → Prop} (h : Q a) : Post (.ok a) Q := h

/-! ## Primitive steps -/

/-- strictly increasing keys -/
def Sorted (es : List (Nat × E)) : Prop := es.Pairwise (fun a b => a.1 < b.1)

theorem Sorted.left {a b : List (Nat × E)} (h : Sorted (a ++ b)) : Sorted a := (List.pairwise_append.mp h).1
theorem Sorted.right {a b : List (Nat × E)} (h : Sorted (a ++ b)) : Sorted b := (List.pairwise_append.mp h).2.1

theorem ordered_of_sorted {es : List (Nat × E)} (h : Sorted es) : ordered es = true := by
  induction es with
  | nil => rfl
  | cons a l ih =>
    cases l with
    | nil => rfl
    | cons b l =>
      have h' := List.pairwise_cons.mp h
      simp only [ordered, Bool.and_eq_true, decide_eq_true_eq]
      exact ⟨h'.1 b (by simp), ih h'.2⟩

theorem alloc_post {n max : Nat} {s : St V} (hi : s.sm.Inv n max) :
    Post (alloc s) (fun r => r.1 < n ∧ s.sm.abs r.1 = 0 ∧ r.2.sm.Inv n max ∧
      r.2.sm.abs = s.sm.abs.upd r.1 1 ∧ r.2.mem = s.mem ∧ r.2.log = s.log) := by
  obtain ⟨h1, h2⟩ := SM.Core.alloc_spec hi
  unfold alloc
  generalize he : s.sm.alloc = r at h1 h2
  obtain ⟨sm, o⟩ := r
  generalize hc : sm.abs = c' at h2
  cases h2 with
  | alloc hb h0 => exact ⟨hb, h0, h1, hc, rfl, rfl⟩
  | allocFull h => trivial

theorem writeNode_post {n max : Nat} (io : NIO V E) (es : List (Nat × E)) {s : St V} (hi : s.sm.Inv n max) :
    Post (writeNode io es s) (fun r => r.1 < n ∧ s.sm.abs r.1 = 0 ∧ r.2.sm.Inv n max ∧
      r.2.sm.abs = s.sm.abs.upd r.1 1 ∧ r.2.mem r.1 = some (io.pack es) ∧ (∀ b, b ≠ r.1 → r.2.mem b = s.mem b) ∧
      r.2.log = s.log) := by
  unfold writeNode
  refine (alloc_post hi).bind ?_
  rintro ⟨b, t⟩ ⟨h1, h2, h3, h4, h5, h6⟩
  refine ⟨h1, h2, h3, h4, ?_, ?_, h6⟩
  · simp
  · intro x hx
    have hx : x ≠ b := hx
    show (if x = b then _ else t.mem x) = s.mem x
    rw [if_neg hx, h5]

theorem readNode_ok {io : NIO V E} (hio : ∀ es, io.unpack (io.pack es) = some es) {b : Nat} {s : St V}
    {es : List (Nat × E)} (hm : s.mem b = some (io.pack es)) (hs : Sorted es) : readNode io b s = .ok es := by
  unfold readNode
  rw [hm]
  simp only [hio, ordered_of_sorted hs, if_true]

theorem incValue_post (io : NIO V E) (v : E) (s : St V) :
    Post (incValue io v s) (fun t => t.sm = s.sm ∧ t.mem = s.mem ∧ t.log = s.log ++ io.refs v) := by
  unfold incValue
  split
  · exact ⟨rfl, rfl, rfl⟩
  · trivial

theorem incAll_post (io : NIO V E) (es : List (Nat × E)) (s : St V) :
    Post (incAll io es s) (fun t => t.sm = s.sm ∧ t.mem = s.mem ∧ t.log = s.log ++ es.flatMap (fun e => io.refs e.2)) := by
  induction es generalizing s with
  | nil => exact ⟨rfl, rfl, by simp⟩
  | cons e es ih =>
    unfold incAll
    refine (incValue_post io e.2 s).bind ?_
    rintro t ⟨h1, h2, h3⟩
    refine (ih t).mono ?_
    rintro u ⟨g1, g2, g3⟩
    exact ⟨g1.trans h1, g2.trans h2, by rw [g3, h3]; simp⟩

theorem incBlock_post {n max : Nat} {s : St V} (hi : s.sm.Inv n max) (hn : n < 2 ^ 64) {b : Nat} (hb : b < n) :
    Post (incBlock b s) (fun t => t.sm.Inv n max ∧ t.sm.abs = s.sm.abs.upd b (s.sm.abs b + 1) ∧
      t.mem = s.mem ∧ t.log = s.log) := by
  obtain ⟨h1, h2⟩ := SM.Core.inc_spec hi b 1 (by omega)
  unfold incBlock
  generalize he : s.sm.inc b 1 = r at h1 h2
  obtain ⟨sm, o⟩ := r
  generalize hc : sm.abs = c' at h2
  cases h2 with
  | inc _ _ =>
    refine ⟨h1, ?_, rfl, rfl⟩
    show sm.abs = _
    rw [hc]
    funext x
    simp only [SM.Counts.incd, SM.Counts.upd]
    by_cases hx : x = b
    · subst hx; rw [if_pos ⟨by omega, by omega⟩, if_pos rfl]
    · rw [if_neg (by omega), if_neg hx]
  | incFull => trivial
  | incOut => trivial

theorem decBlock_post {n max : Nat} {s : St V} (hi : s.sm.Inv n max) {b : Nat} (hb : b < n) (h0 : 0 < s.sm.abs b) :
    ∃ t, decBlock b s = .ok (s.sm.abs b == 1, t) ∧ t.sm.Inv n max ∧ t.sm.abs = s.sm.abs.upd b (s.sm.abs b - 1) ∧
      t.mem = s.mem ∧ t.log = s.log := by
  obtain ⟨h1, h2⟩ := SM.Core.dec_spec hi b
  unfold decBlock
  generalize he : s.sm.dec b = r at h1 h2
  obtain ⟨sm, o⟩ := r
  generalize hc : sm.abs = c' at h2
  cases h2 with
  | dec _ _ => exact ⟨_, rfl, h1, hc, rfl, rfl⟩
  | decOut h => rcases h with h | h <;> omega

/-! ## The invariant of a builder -/

/-- a produced or imported node: its summary, whether this builder wrote it, its entries -/
structure NodeRec (E : Type) where
  sum : Summary
  own : Bool
  es : List (Nat × E)

/-- the summary describes the node in memory; own nodes use blocks that were free at the start, the others are
pre-built nodes that were in use -/
structure NodeOK (P : Nat → Prop) (io : NIO V E) (n : Nat) (s0 s : St V) (shared : Bool) (p : NodeRec E) : Prop where
  mem : s.mem p.sum.block = some (io.pack p.es)
  nr : p.sum.nr = p.es.length
  key : p.sum.key = firstKey p.es
  bnd : p.sum.block < n
  own : p.own = true → s0.sm.abs p.sum.block = 0 ∧ p.sum.shared = shared
  pre : p.own = false → 0 < s0.sm.abs p.sum.block ∧ p.sum.shared = true ∧ P p.sum.block

/-- references to data blocks held by entries -/
def refsOf (io : NIO V E) (es : List (Nat × E)) : List Nat := es.flatMap (fun e => io.refs e.2)

theorem refsOf_append (io : NIO V E) (a b : List (Nat × E)) : refsOf io (a ++ b) = refsOf io a ++ refsOf io b := by
  simp [refsOf]

/-- the entries of the nodes a builder wrote itself -/
def ownEntries (ps : List (NodeRec E)) : List (Nat × E) := (ps.filter (·.own)).flatMap (·.es)

theorem ownEntries_append (a b : List (NodeRec E)) : ownEntries (a ++ b) = ownEntries a ++ ownEntries b := by
  simp [ownEntries]

/-- What holds of every builder: `pushed` is everything pushed so far, `ps` the nodes. -/
structure Core (P : Nat → Prop) (io : NIO V E) (n max : Nat) (s0 : St V) (nb : NB E) (s : St V) (pushed : List (Nat × E))
    (ps : List (NodeRec E)) : Prop where
  sm : s.sm.Inv n max
  nodes : nb.nodes = ps.map (·.sum)
  ok : ∀ p ∈ ps, NodeOK P io n s0 s nb.shared p
  cont : ps.flatMap (·.es) ++ nb.values = pushed
  rc : ∀ b, s.sm.abs b = s0.sm.abs b + (ps.map (·.sum.block)).count b
  mem : ∀ b, 0 < s0.sm.abs b → s.mem b = s0.mem b
  log : s.log.Perm (s0.log ++ refsOf io (ownEntries ps ++ nb.values))
  full : ∀ p ∈ ps, p.es.length ≤ nb.cap
  last : ∀ k, nb.lastKey = some k → ∃ e ∈ pushed, e.1 = k
  sorted : Sorted pushed

theorem NodeOK.frame {io : NIO V E} {n : Nat} {s0 s t : St V} {sh : Bool} {p : NodeRec E}
    (h : NodeOK P io n s0 s sh p) (hm : t.mem p.sum.block = s.mem p.sum.block) : NodeOK P io n s0 t sh p :=
  ⟨by rw [hm]; exact h.mem, h.nr, h.key, h.bnd, h.own, h.pre⟩

theorem count_pos_of_mem {ps : List (NodeRec E)} {p : NodeRec E} (hp : p ∈ ps) :
    0 < (ps.map (·.sum.block)).count p.sum.block :=
  List.count_pos_iff.mpr (List.mem_map.mpr ⟨p, hp, rfl⟩)

/-- a free block is not among the nodes, and was free from the start -/
theorem Core.free {io : NIO V E} {n max : Nat} {s0 : St V} {nb : NB E} {s : St V} {pushed : List (Nat × E)}
    {ps : List (NodeRec E)} (h : Core P io n max s0 nb s pushed ps) {b : Nat} (hb : s.sm.abs b = 0) :
    s0.sm.abs b = 0 ∧ (∀ p ∈ ps, p.sum.block ≠ b) := by
  have := h.rc b
  refine ⟨by omega, ?_⟩
  intro p hp e
  have := count_pos_of_mem hp
  rw [e] at this
  omega

theorem emitValues_post {io : NIO V E} {n max : Nat} {s0 : St V} {nb : NB E} {s : St V} {pushed : List (Nat × E)}
    {ps : List (NodeRec E)} (h : Core P io n max s0 nb s pushed ps) (k : Nat) (hk : k ≤ nb.values.length) (hc : k ≤ nb.cap) :
    Post (emitValues io k nb s) (fun r => ∃ q : NodeRec E, q.own = true ∧ q.es = nb.values.take k ∧
      Core P io n max s0 r.1 r.2 pushed (ps ++ [q]) ∧
      r.1.values = nb.values.drop k ∧ r.1.cap = nb.cap ∧ r.1.shared = nb.shared ∧ r.1.lastKey = nb.lastKey) := by
  unfold emitValues
  rw [if_pos hk]
  refine (writeNode_post io (nb.values.take k) h.sm).bind ?_
  rintro ⟨b, t⟩ ⟨h1, h2, h3, h4, h5, h6, h7⟩
  obtain ⟨f1, f2⟩ := h.free h2
  have hlen : (nb.values.take k).length = k := by simp; omega
  refine ⟨⟨⟨b, firstKey (nb.values.take k), k, nb.shared⟩, true, nb.values.take k⟩, rfl, rfl, ?_, rfl, rfl, rfl, rfl⟩
  refine ⟨h3, ?_, ?_, ?_, ?_, ?_, ?_, ?_, h.last, h.sorted⟩
  · simp [h.nodes]
  · intro p hp
    rcases List.mem_append.mp hp with hp | hp
    · exact (h.ok p hp).frame (h6 _ (f2 p hp))
    · rw [List.mem_singleton] at hp
      subst hp
      exact ⟨h5, hlen.symm, rfl, h1, fun _ => ⟨f1, rfl⟩, by simp⟩
  · rw [← h.cont]; simp
  · intro x
    show t.sm.abs x = _
    have := h.rc x
    simp only at h4
    rw [h4, List.map_append, List.count_append]
    simp only [SM.Counts.upd, List.map_cons, List.map_nil, List.count_cons, List.count_nil, beq_iff_eq]
    by_cases hx : x = b
    · subst hx; simp only at h2; simp; omega
    · rw [if_neg hx, if_neg (Ne.symm hx)]; omega
  · intro x hx
    show t.mem x = s0.mem x
    rw [h6 x (by intro e; simp only at f1 e; rw [e] at hx; omega), h.mem x hx]
  · show t.log.Perm _
    simp only at h7
    rw [h7]
    refine h.log.trans ?_
    rw [ownEntries_append]
    simp [ownEntries]
  · intro p hp
    rcases List.mem_append.mp hp with hp | hp
    · exact h.full p hp
    · rw [List.mem_singleton] at hp
      subst hp
      show (nb.values.take k).length ≤ nb.cap
      omega

theorem emitAll_post {io : NIO V E} {n max : Nat} {s0 : St V} {nb : NB E} {s : St V} {pushed : List (Nat × E)}
    {ps : List (NodeRec E)} (h : Core P io n max s0 nb s pushed ps) (hc : nb.values.length ≤ nb.cap * 2) :
    Post (emitAll io nb s) (fun r => ∃ qs, Core P io n max s0 r.1 r.2 pushed (ps ++ qs) ∧ r.1.values = [] ∧
      r.1.cap = nb.cap ∧ r.1.shared = nb.shared ∧ r.1.lastKey = nb.lastKey ∧ (∀ q ∈ qs, q.own = true) ∧
      (nb.values = [] → qs = []) ∧ (nb.values ≠ [] → qs ≠ []) ∧
      (nb.values.length ≤ nb.cap → qs.length ≤ 1) ∧
      (nb.cap / 2 ≤ nb.values.length → ∀ q ∈ qs, nb.cap / 2 ≤ q.es.length)) := by
  unfold emitAll
  simp only
  split
  · next h0 =>
    have h0 : nb.values = [] := List.eq_nil_of_length_eq_zero h0
    exact ⟨[], by simpa using h, h0, rfl, rfl, rfl, by simp, by simp, by simp [h0], by simp, by simp⟩
  · next h0 =>
    have hne : nb.values ≠ [] := by intro e; simp [e] at h0
    split
    · next h1 =>
      refine (emitValues_post h _ (Nat.le_refl _) h1).mono ?_
      rintro r ⟨q, e1, e2, e3, e4, e5, e6, e7⟩
      refine ⟨[q], e3, by simp [e4], e5, e6, e7, by simp [e1], by simp [hne], by simp, by simp, ?_⟩
      intro hh p hp
      rw [List.mem_singleton] at hp
      subst hp
      rw [e2]; simpa using hh
    · next h1 =>
      refine (emitValues_post h (nb.values.length / 2) (by omega) (by omega)).bind ?_
      rintro r ⟨q, e1, e2, e3, e4, e5, e6, e7⟩
      have hl : r.1.values.length = nb.values.length - nb.values.length / 2 := by rw [e4]; simp
      refine (emitValues_post e3 (nb.values.length - nb.values.length / 2) (by omega) (by rw [e5]; omega)).mono ?_
      rintro r' ⟨q', d1, d2, d3, d4, d5, d6, d7⟩
      refine ⟨[q, q'], by simpa using d3, ?_, d5.trans e5, d6.trans e6, d7.trans e7, by simp [e1, d1], by simp [hne],
        by simp, by omega, ?_⟩
      · rw [d4, ← hl]; simp
      · intro _ p hp
        have : p = q ∨ p = q' := by simpa using hp
        rcases this with rfl | rfl
        · rw [e2]; simp; omega
        · rw [d2, List.length_take, hl]; omega

theorem unshift_post {io : NIO V E} (hio : ∀ es, io.unpack (io.pack es) = some es) {n max : Nat} {s0 : St V} {nb : NB E}
    {s : St V} {pushed : List (Nat × E)}
    {ps : List (NodeRec E)} {p : NodeRec E} (h : Core P io n max s0 nb s pushed (ps ++ [p]))
    (hsh : p.own = true → nb.shared = false) :
    Post (unshiftNode io nb s) (fun r => Core P io n max s0 r.1 r.2 pushed ps ∧ r.1.values = p.es ++ nb.values ∧
      r.1.cap = nb.cap ∧ r.1.shared = nb.shared ∧ r.1.lastKey = nb.lastKey) := by
  have hp := h.ok p (by simp)
  have hl : nb.nodes.getLast? = some p.sum := by rw [h.nodes]; simp
  have hsp : Sorted p.es := by
    have := h.sorted
    rw [← h.cont] at this
    simp only [List.flatMap_append, List.flatMap_cons, List.flatMap_nil, List.append_nil] at this
    exact this.left.right
  have hcnt : 0 < s.sm.abs p.sum.block := by
    have := h.rc p.sum.block
    have := count_pos_of_mem (ps := ps ++ [p]) (p := p) (by simp)
    omega
  unfold unshiftNode
  rw [hl]
  simp only [readNode_ok hio hp.mem hsp]
  obtain ⟨t, t1, t2, t3, t4, t5⟩ := decBlock_post h.sm hp.bnd hcnt
  simp only [t1]
  -- the state after the optional increments
  have key : ∀ u : St V, u.sm = t.sm → u.mem = t.mem →
      u.log.Perm (s0.log ++ refsOf io (ownEntries ps ++ (p.es ++ nb.values))) →
      Core P io n max s0 { nb with nodes := nb.nodes.dropLast, values := p.es ++ nb.values } u pushed ps := by
    intro u u1 u2 u3
    refine ⟨by rw [u1]; exact t2, by simp [h.nodes], ?_, ?_, ?_, ?_, u3, ?_, h.last, h.sorted⟩
    · intro q hq
      exact (h.ok q (by simp [hq])).frame (by rw [u2, t4])
    · rw [← h.cont]; simp
    · intro x
      have := h.rc x
      rw [u1, t3]
      rw [List.map_append, List.count_append] at this
      simp only [SM.Counts.upd, List.map_cons, List.map_nil, List.count_cons, List.count_nil, beq_iff_eq] at this ⊢
      by_cases hx : x = p.sum.block
      · subst hx; simp at this ⊢; omega
      · rw [if_neg (Ne.symm hx)] at this; rw [if_neg hx]; omega
    · intro x hx
      rw [u2, t4, h.mem x hx]
    · intro q hq; exact h.full q (by simp [hq])
  have hlog := h.log
  rw [ownEntries_append] at hlog
  by_cases hown : p.own = true
  · have : p.sum.shared = false := by rw [(hp.own hown).2, hsh hown]
    rw [this]
    simp only [Bool.false_eq_true, if_false]
    refine ⟨key t rfl rfl ?_, rfl, rfl, rfl, rfl⟩
    rw [t5]
    simpa [ownEntries, hown] using hlog
  · have hown : p.own = false := by simpa using hown
    rw [(hp.pre hown).2.1]
    simp only [if_true]
    refine (incAll_post io p.es t).bind ?_
    rintro u ⟨u1, u2, u3⟩
    refine ⟨key u u1 u2 ?_, rfl, rfl, rfl, rfl⟩
    rw [u3, t5]
    have e : ownEntries [p] = [] := by simp [ownEntries, hown]
    rw [e, List.append_nil] at hlog
    have h1 := hlog.append_right (refsOf io p.es)
    refine h1.trans ?_
    rw [refsOf_append, refsOf_append, refsOf_append]
    simp only [List.append_assoc]
    exact ((List.perm_append_comm).append_left _).append_left _

/-! ## Pushing -/

/-- The invariant between pushes. -/
structure Inv (P : Nat → Prop) (io : NIO V E) (n max : Nat) (s0 : St V) (nb : NB E) (s : St V) (pushed : List (Nat × E))
    (ps : List (NodeRec E)) : Prop extends Core P io n max s0 nb s pushed ps where
  half : ∀ p ∈ ps, nb.cap / 2 ≤ p.es.length ∨ (nb.values = [] ∧ ps = [p] ∧ p.own = false)
  vals : nb.values.length ≤ nb.cap * 2
  shv : nb.shared = true → (∀ p ∈ ps, p.own = true) ∧ (ps ≠ [] → nb.cap ≤ nb.values.length)
  capPos : 2 ≤ nb.cap

theorem Inv.new (io : NIO V E) {n max cap : Nat} (hcap : 2 ≤ cap) (shared : Bool) {s : St V} (hs : s.sm.Inv n max) :
    Inv P io n max s (NB.new cap shared) s [] [] where
  sm := hs
  nodes := rfl
  ok := by simp
  cont := rfl
  rc := by simp
  mem := fun _ _ => rfl
  log := by simp [refsOf, ownEntries, NB.new]
  full := by simp
  last := by simp [NB.new]
  sorted := List.Pairwise.nil
  half := by simp
  vals := by simp [NB.new]
  shv := by simp
  capPos := hcap

theorem loneUnderfull_iff {io : NIO V E} {n max : Nat} {s0 : St V} {nb : NB E} {s : St V} {pushed : List (Nat × E)}
    {ps : List (NodeRec E)} (h : Core P io n max s0 nb s pushed ps) :
    loneUnderfull nb = true ↔ ∃ p, ps = [p] ∧ p.es.length < nb.cap / 2 := by
  unfold loneUnderfull
  rw [h.nodes]
  match ps, h with
  | [], _ => simp
  | [p], h => 
    have := (h.ok p (by simp)).nr
    simp [this]
  | _ :: _ :: _, _ => simp

/-- the first step of both kinds of push: afterwards every node is at least half full -/
structure Settled (P : Nat → Prop) (io : NIO V E) (n max : Nat) (s0 : St V) (nb0 nb : NB E) (s : St V) (pushed : List (Nat × E))
    (ps : List (NodeRec E)) : Prop extends Core P io n max s0 nb s pushed ps where
  half : ∀ p ∈ ps, nb.cap / 2 ≤ p.es.length
  vals : nb.values.length ≤ nb.cap * 2
  cap : nb.cap = nb0.cap
  shared : nb.shared = nb0.shared
  lastKey : nb.lastKey = nb0.lastKey
  capPos : 2 ≤ nb.cap

theorem unshift_lone {io : NIO V E} (hio : ∀ es, io.unpack (io.pack es) = some es) {n max : Nat} {s0 : St V} {nb : NB E}
    {s : St V} {pushed : List (Nat × E)} {ps : List (NodeRec E)} (h : Inv P io n max s0 nb s pushed ps)
    (hl : loneUnderfull nb = true) :
    Post (unshiftNode io nb s) (fun r => Settled P io n max s0 nb r.1 r.2 pushed [] ∧ nb.shared = false ∧
      r.1.values.length < nb.cap / 2) := by
  obtain ⟨p, rfl, hp⟩ := (loneUnderfull_iff h.toCore).mp hl
  rcases h.half p (by simp) with hh | ⟨hv, -, hown⟩
  · omega
  · have hns : nb.shared = false := by
      cases hsh : nb.shared with
      | false => rfl
      | true => have := (h.shv hsh).1 p (by simp); simp [hown] at this
    refine (unshift_post hio (ps := []) (by simpa using h.toCore) (by simp [hown])).mono ?_
    rintro r ⟨h1, h2, h3, h4, h5⟩
    have : r.1.values.length < nb.cap / 2 := by rw [h2, hv]; simpa using hp
    exact ⟨⟨h1, by simp, by rw [h3]; omega, h3, h4, h5, by rw [h3]; exact h.capPos⟩, hns, this⟩

theorem settled_of_inv {io : NIO V E} {n max : Nat} {s0 : St V} {nb : NB E}
    {s : St V} {pushed : List (Nat × E)} {ps : List (NodeRec E)} (h : Inv P io n max s0 nb s pushed ps)
    (hl : ¬ loneUnderfull nb = true) : Settled P io n max s0 nb nb s pushed ps := by
  refine ⟨h.toCore, ?_, h.vals, rfl, rfl, rfl, h.capPos⟩
  intro p hp
  rcases h.half p hp with hh | ⟨-, e, -⟩
  · exact hh
  · rcases Nat.lt_or_ge p.es.length (nb.cap / 2) with hlt | hge
    · exact absurd ((loneUnderfull_iff h.toCore).mpr ⟨p, e, hlt⟩) hl
    · exact hge

theorem sorted_snoc {l : List (Nat × E)} {e : Nat × E} (h : Sorted (l ++ [e])) : ∀ x ∈ l, x.1 < e.1 := by
  intro x hx
  exact (List.pairwise_append.mp h).2.2 x hx e (by simp)

theorem checkKey_ok {nb : NB E} {key : Nat} (h : ∀ k, nb.lastKey = some k → k < key) :
    checkKey key nb = .ok { nb with lastKey := some key } := by
  unfold checkKey
  cases hl : nb.lastKey with
  | none => rfl
  | some l => have := h l hl; simp only; rw [if_neg (by omega)]

/-- adding one value to a settled builder -/
theorem push_settled {io : NIO V E} {n max : Nat} {s0 : St V} {nb0 nb : NB E}
    {s : St V} {pushed : List (Nat × E)} {ps : List (NodeRec E)} (h : Settled P io n max s0 nb0 nb s pushed ps)
    (hv : nb.values.length < nb.cap * 2) (key : Nat) (v : E) (hs : Sorted (pushed ++ [(key, v)]))
    (hsh : nb.shared = true → (∀ p ∈ ps, p.own = true) ∧ (ps ≠ [] → nb.cap ≤ nb.values.length)) :
    Post (do
      let nb ← checkKey key nb
      let s ← incValue io v s
      .ok ({ nb with values := nb.values ++ [(key, v)] }, s))
      (fun r : NB E × St V => Inv P io n max s0 r.1 r.2 (pushed ++ [(key, v)]) ps ∧ r.1.cap = nb0.cap ∧
        r.1.shared = nb0.shared) := by
  rw [checkKey_ok (by
    intro k hk
    obtain ⟨e, he, rfl⟩ := h.last k hk
    exact sorted_snoc hs e he)]
  refine (incValue_post io v s).bind (x := incValue io v s) ?_
  rintro t ⟨t1, t2, t3⟩
  refine ⟨?_, h.cap, h.shared⟩
  refine ⟨⟨by rw [t1]; exact h.sm, h.nodes, ?_, ?_, ?_, ?_, ?_, h.full, ?_, hs⟩, ?_, ?_, ?_, h.capPos⟩
  · intro p hp; exact (h.ok p hp).frame (by rw [t2])
  · rw [← h.cont]; simp
  · intro b; rw [t1]; exact h.rc b
  · intro b hb; rw [t2]; exact h.mem b hb
  · rw [t3]
    refine (h.log.append_right _).trans ?_
    simp [refsOf]
  · intro k hk
    have : key = k := by simpa using hk
    exact ⟨(key, v), by simp, this⟩
  · intro p hp; exact Or.inl (h.half p hp)
  · simp only [List.length_append, List.length_cons, List.length_nil]; omega
  · intro e
    obtain ⟨g1, g2⟩ := hsh e
    refine ⟨g1, ?_⟩
    intro hne
    have := g2 hne
    simp only [List.length_append, List.length_cons, List.length_nil]
    omega

theorem pushValue_post {io : NIO V E} (hio : ∀ es, io.unpack (io.pack es) = some es) {n max : Nat} {s0 : St V} {nb : NB E}
    {s : St V} {pushed : List (Nat × E)} {ps : List (NodeRec E)} (h : Inv P io n max s0 nb s pushed ps)
    (key : Nat) (v : E) (hs : Sorted (pushed ++ [(key, v)])) :
    Post (pushValue io key v nb s) (fun r => ∃ ps', Inv P io n max s0 r.1 r.2 (pushed ++ [(key, v)]) ps' ∧
      r.1.cap = nb.cap ∧ r.1.shared = nb.shared) := by
  unfold pushValue
  have hcp := h.capPos
  by_cases hl : loneUnderfull nb = true
  · rw [if_pos hl]
    refine (unshift_lone hio h hl).bind ?_
    rintro r ⟨r1, r2, r3⟩
    refine (push_settled r1 ?_ key v hs ?_).mono ?_
    · rw [r1.cap]; omega
    · rw [r1.shared, r2]; simp
    · intro a ha; exact ⟨[], ha⟩
  · rw [if_neg hl]
    have hset := settled_of_inv h hl
    by_cases hv : nb.values.length = nb.cap * 2
    · rw [if_pos hv]
      refine (emitValues_post h.toCore nb.cap (by omega) (Nat.le_refl _)).bind ?_
      rintro r ⟨q, e1, e2, e3, e4, e5, e6, e7⟩
      have hlen : r.1.values.length = nb.cap := by rw [e4, List.length_drop]; omega
      have hset' : Settled P io n max s0 nb r.1 r.2 pushed (ps ++ [q]) := by
        refine ⟨e3, ?_, by rw [e5]; omega, e5, e6, e7, by rw [e5]; exact hcp⟩
        intro p hp
        rcases List.mem_append.mp hp with hp | hp
        · rw [e5]; exact hset.half p hp
        · rw [List.mem_singleton] at hp
          subst hp
          rw [e2, e5, List.length_take]; omega
      refine (push_settled hset' (by rw [e5]; omega) key v hs ?_).mono ?_
      · intro hsh
        rw [e6] at hsh
        refine ⟨?_, fun _ => by rw [e5]; omega⟩
        intro p hp
        rcases List.mem_append.mp hp with hp | hp
        · exact (h.shv hsh).1 p hp
        · rw [List.mem_singleton] at hp
          subst hp; exact e1
      · intro a ha; exact ⟨_, ha⟩
    · rw [if_neg hv]
      refine (push_settled hset (by have := h.vals; omega) key v hs h.shv).mono ?_
      intro a ha; exact ⟨_, ha⟩

/-- pre-built nodes a caller may push: in use, described by their summary, not empty and not above capacity -/
structure PreOK (P : Nat → Prop) (io : NIO V E) (n cap : Nat) (s0 : St V) (m : Summary) (es : List (Nat × E)) : Prop where
  mem : s0.mem m.block = some (io.pack es)
  nr : m.nr = es.length
  key : m.key = firstKey es
  bnd : m.block < n
  used : 0 < s0.sm.abs m.block
  shared : m.shared = true
  allowed : P m.block
  nonempty : es ≠ []
  full : es.length ≤ cap

theorem firstKey_mem {es : List (Nat × E)} (h : es ≠ []) : ∃ e ∈ es, e.1 = firstKey es := by
  cases es with
  | nil => exact absurd rfl h
  | cons e es => exact ⟨e, by simp, by simp [firstKey]⟩

/-- taking a pre-built node as it is -/
theorem addNode_core {io : NIO V E} {n max cap : Nat} {s0 : St V} {nb : NB E}
    {s : St V} {pushed : List (Nat × E)} {ps : List (NodeRec E)} (h : Core P io n max s0 nb s pushed ps)
    (hn : n < 2 ^ 64) {m : Summary} {es : List (Nat × E)} (hm : PreOK P io n cap s0 m es) (hcap : cap = nb.cap)
    (hv : nb.values = []) (hs : Sorted (pushed ++ es)) :
    Post (incBlock m.block s) (fun t =>
      Core P io n max s0 { nb with nodes := nb.nodes ++ [m] } t (pushed ++ es) (ps ++ [⟨m, false, es⟩])) := by
  refine (incBlock_post h.sm hn hm.bnd).mono ?_
  rintro t ⟨t1, t2, t3, t4⟩
  refine ⟨t1, by simp [h.nodes], ?_, ?_, ?_, ?_, ?_, ?_, ?_, hs⟩
  · intro p hp
    rcases List.mem_append.mp hp with hp | hp
    · exact (h.ok p hp).frame (by rw [t3])
    · rw [List.mem_singleton] at hp
      subst hp
      exact ⟨by rw [t3, h.mem _ hm.used]; exact hm.mem, hm.nr, hm.key, hm.bnd, by simp, fun _ => ⟨hm.used, hm.shared, hm.allowed⟩⟩
  · rw [← h.cont, hv]; simp
  · intro x
    have := h.rc x
    rw [t2, List.map_append, List.count_append]
    simp only [SM.Counts.upd, List.map_cons, List.map_nil, List.count_cons, List.count_nil, beq_iff_eq]
    by_cases hx : x = m.block
    · subst hx; simp; omega
    · rw [if_neg hx, if_neg (Ne.symm hx)]; omega
  · intro x hx; rw [t3, h.mem x hx]
  · rw [t4, ownEntries_append]
    simpa [ownEntries] using h.log
  · intro p hp
    rcases List.mem_append.mp hp with hp | hp
    · exact h.full p hp
    · rw [List.mem_singleton] at hp
      subst hp
      rw [← hcap]; exact hm.full
  · intro k hk
    obtain ⟨e, he, h'⟩ := h.last k hk
    exact ⟨e, by simp [he], h'⟩

theorem addNodes_post {io : NIO V E} {n max cap : Nat} {s0 : St V} {nb : NB E}
    {s : St V} {pushed : List (Nat × E)} {ps : List (NodeRec E)} (h : Core P io n max s0 nb s pushed ps)
    (hn : n < 2 ^ 64) (ms : List (Summary × List (Nat × E))) (hm : ∀ m ∈ ms, PreOK P io n cap s0 m.1 m.2) (hcap : cap = nb.cap)
    (hv : nb.values = []) (hs : Sorted (pushed ++ ms.flatMap (·.2))) :
    Post (addNodes (ms.map (·.1)) nb s) (fun r =>
      Core P io n max s0 r.1 r.2 (pushed ++ ms.flatMap (·.2)) (ps ++ ms.map fun m => ⟨m.1, false, m.2⟩) ∧
      r.1.values = [] ∧ r.1.cap = nb.cap ∧ r.1.shared = nb.shared) := by
  induction ms generalizing nb s pushed ps with
  | nil => exact ⟨by simpa using h, hv, rfl, rfl⟩
  | cons m ms ih =>
    have hs' : Sorted (pushed ++ m.2 ++ ms.flatMap (·.2)) := by simpa using hs
    simp only [List.map_cons, addNodes]
    refine (addNode_core h hn (hm m (by simp)) hcap hv hs'.left).bind ?_
    intro t ht
    refine (ih ht (fun q hq => hm q (by simp [hq])) hcap hv hs').mono ?_
    rintro r ⟨r1, r2, r3, r4⟩
    exact ⟨by simpa using r1, r2, r3, r4⟩

/-- unpacking a pre-built node into the buffer -/
theorem appendValues_post {io : NIO V E} (hio : ∀ es, io.unpack (io.pack es) = some es) {n max cap : Nat} {s0 : St V}
    {nb : NB E} {s : St V} {pushed : List (Nat × E)} {ps : List (NodeRec E)} (h : Core P io n max s0 nb s pushed ps)
    {m : Summary} {es : List (Nat × E)} (hm : PreOK P io n cap s0 m es) (hs : Sorted (pushed ++ es)) :
    Post (appendValues io m nb s) (fun r => Core P io n max s0 r.1 r.2 (pushed ++ es) ps ∧
      r.1.values = nb.values ++ es ∧ r.1.cap = nb.cap ∧ r.1.shared = nb.shared) := by
  unfold appendValues
  rw [readNode_ok hio (by rw [h.mem _ hm.used]; exact hm.mem) hs.right]
  refine (incAll_post io es s).bind (x := incAll io es s) ?_
  rintro t ⟨t1, t2, t3⟩
  refine ⟨⟨by rw [t1]; exact h.sm, h.nodes, ?_, ?_, ?_, ?_, ?_, h.full, ?_, hs⟩, rfl, rfl, rfl⟩
  · intro p hp; exact (h.ok p hp).frame (by rw [t2])
  · rw [← h.cont]; simp
  · intro b; rw [t1]; exact h.rc b
  · intro b hb; rw [t2]; exact h.mem b hb
  · rw [t3]
    refine (h.log.append_right _).trans ?_
    simp [refsOf]
  · intro k hk
    obtain ⟨e, he, h'⟩ := h.last k hk
    exact ⟨e, by simp [he], h'⟩

theorem Core.setLast {io : NIO V E} {n max : Nat} {s0 : St V}
    {nb : NB E} {s : St V} {pushed : List (Nat × E)} {ps : List (NodeRec E)} (h : Core P io n max s0 nb s pushed ps)
    {k : Nat} (hk : ∃ e ∈ pushed, e.1 = k) : Core P io n max s0 { nb with lastKey := some k } s pushed ps :=
  ⟨h.sm, h.nodes, h.ok, h.cont, h.rc, h.mem, h.log, h.full, by
    intro k' e; have : k = k' := by simpa using e
    subst this; exact hk, h.sorted⟩

theorem pushNodes_post {io : NIO V E} (hio : ∀ es, io.unpack (io.pack es) = some es) {n max : Nat} {s0 : St V} {nb : NB E}
    {s : St V} {pushed : List (Nat × E)} {ps : List (NodeRec E)} (h : Inv P io n max s0 nb s pushed ps) (hn : n < 2 ^ 64)
    (m : Summary × List (Nat × E)) (ms : List (Summary × List (Nat × E)))
    (hm : ∀ q ∈ m :: ms, PreOK P io n nb.cap s0 q.1 q.2)
    (hhalf : ms ≠ [] → ∀ q ∈ m :: ms, nb.cap / 2 ≤ q.2.length) (hsh : nb.shared = false)
    (hs : Sorted (pushed ++ (m :: ms).flatMap (·.2))) :
    Post (pushNodes io m.1 (ms.map (·.1)) nb s) (fun r =>
      ∃ ps', Inv P io n max s0 r.1 r.2 (pushed ++ (m :: ms).flatMap (·.2)) ps' ∧
      r.1.cap = nb.cap ∧ r.1.shared = nb.shared) := by
  have hcp := h.capPos
  have hm0 := hm m (by simp)
  have hs' : Sorted (pushed ++ m.2 ++ ms.flatMap (·.2)) := by simpa using hs
  unfold pushNodes
  split
  · next hroot =>
    obtain ⟨e1, e2, e3⟩ := hroot
    have e1 : ms = [] := by simpa using e1
    subst e1
    have hps : ps = [] := by have := h.nodes; rw [e2] at this; simpa using this.symm
    subst hps
    have := addNode_core h.toCore hn hm0 rfl e3 (by simpa using hs)
    refine this.bind ?_
    intro t ht
    refine ⟨[⟨m.1, false, m.2⟩], ⟨?_, ?_, ?_, ?_, hcp⟩, rfl, rfl⟩
    · simpa [e2] using ht
    · intro p hp
      rw [List.mem_singleton] at hp
      subst hp
      exact Or.inr ⟨e3, rfl, rfl⟩
    · show nb.values.length ≤ _; rw [e3]; simp
    · intro e; have : nb.shared = true := e; simp [hsh] at this
  · next hroot =>
    rw [if_neg (by
      rintro ⟨e1, e2⟩
      have e1 : ms ≠ [] := by simpa using e1
      obtain ⟨x, hx, hx2⟩ := List.any_eq_true.mp e2
      have hx2 : x.nr < nb.cap / 2 := by simpa using hx2
      have : ∃ q ∈ m :: ms, q.1 = x := by
        have : x ∈ (m :: ms).map (·.1) := by simpa using hx
        exact List.mem_map.mp this
      obtain ⟨q, hq, rfl⟩ := this
      have := hhalf e1 q hq
      have := (hm q hq).nr
      omega)]
    have hcf : checkFirst m.1 nb = .ok () := by
      unfold checkFirst
      cases hl : nb.lastKey with
      | none => rfl
      | some l =>
        simp only
        rw [if_neg]
        obtain ⟨e, he, rfl⟩ := h.last l hl
        obtain ⟨e', he', hk⟩ := firstKey_mem hm0.nonempty
        have := (List.pairwise_append.mp hs'.left).2.2 e he e' he'
        rw [hm0.key]
        omega
    rw [hcf]
    -- after the optional unshift
    have hset : Post (if loneUnderfull nb = true then unshiftNode io nb s else .ok (nb, s)) (fun r =>
        ∃ ps', Settled P io n max s0 nb r.1 r.2 pushed ps') := by
      split
      · next hl => exact (unshift_lone hio h hl).mono fun r hr => ⟨[], hr.1⟩
      · next hl => exact ⟨ps, settled_of_inv h hl⟩
    refine Post.bind (x := Except.ok ()) (Q := fun _ => True) trivial (fun _ _ => ?_)
    refine hset.bind ?_
    rintro ⟨nb1, s1⟩ ⟨ps1, hS⟩
    simp only at hS ⊢
    have hc1 : nb1.cap = nb.cap := hS.cap
    -- the last key
    have hlast : ((m.1 :: ms.map (·.1)).getLast (by simp)).key =
        firstKey ((m :: ms).getLast (by simp)).2 := by
      have e : (m.1 :: ms.map (·.1)).getLast (by simp) = ((m :: ms).getLast (by simp)).1 := by
        have := List.getLast_map (f := fun q : Summary × List (Nat × E) => q.1) (l := m :: ms) (by simp)
        simpa using this
      rw [e]; exact (hm _ (List.getLast_mem _)).key
    have hlk : ∃ e ∈ pushed ++ (m :: ms).flatMap (·.2), e.1 = ((m.1 :: ms.map (·.1)).getLast (by simp)).key := by
      obtain ⟨e, he, hk⟩ := firstKey_mem (hm _ (List.getLast_mem (l := m :: ms) (by simp))).nonempty
      refine ⟨e, ?_, by rw [hlast, hk]⟩
      exact List.mem_append_right _ (List.mem_flatMap.mpr ⟨_, List.getLast_mem (by simp), he⟩)
    -- a sufficient form of the result
    have finish : ∀ (nb2 : NB E) (s2 : St V) ps2, Core P io n max s0 nb2 s2 (pushed ++ (m :: ms).flatMap (·.2)) ps2 →
        (∀ p ∈ ps2, nb.cap / 2 ≤ p.es.length) → nb2.values.length ≤ nb.cap * 2 → nb2.cap = nb.cap →
        nb2.shared = nb.shared →
        Post (.ok ({ nb2 with lastKey := some ((m.1 :: ms.map (·.1)).getLast (by simp)).key }, s2)) (fun r : NB E × St V =>
          ∃ ps', Inv P io n max s0 r.1 r.2 (pushed ++ (m :: ms).flatMap (·.2)) ps' ∧
          r.1.cap = nb.cap ∧ r.1.shared = nb.shared) := by
      intro nb2 s2 ps2 a1 a2 a3 a4 a5
      refine ⟨ps2, ⟨a1.setLast hlk, ?_, by simpa [a4] using a3, ?_, by simpa [a4] using hcp⟩, a4, a5⟩
      · intro p hp; exact Or.inl (by simpa [a4] using a2 p hp)
      · intro e
        have e : nb2.shared = true := e
        rw [a5, hsh] at e; cases e
    refine Post.bind (Q := fun r => ∃ ps2, Core P io n max s0 r.1 r.2 (pushed ++ (m :: ms).flatMap (·.2)) ps2 ∧
        (∀ p ∈ ps2, nb.cap / 2 ≤ p.es.length) ∧ r.1.values.length ≤ nb.cap * 2 ∧ r.1.cap = nb.cap ∧
        r.1.shared = nb.shared) ?_ ?_
    · split
      · next hc =>
        refine (appendValues_post hio hS.toCore hm0 hs'.left).bind ?_
        rintro ⟨nb2, s2⟩ ⟨b1, b2, b3, b4⟩
        simp only at b1 b2 b3 b4 ⊢
        have hfull := hm0.full
        have hlen : nb2.values.length = nb1.values.length + m.2.length := by rw [b2]; simp
        split
        · next e =>
          have e : ms = [] := by simpa using e
          subst e
          refine ⟨ps1, by simpa using b1, ?_, ?_, b3.trans hc1, b4.trans hS.shared⟩
          · intro p hp; have := hS.half p hp; omega
          · show nb2.values.length ≤ _; omega
        · next e =>
          have e : ms ≠ [] := by simpa using e
          refine (emitAll_post b1 (by rw [b3]; omega)).bind ?_
          rintro ⟨nb3, s3⟩ ⟨qs, c1, c2, c3, c4, c5, c6, c7, c8, c9, c10⟩
          simp only at c1 c2 c3 c4 c5 ⊢
          refine (addNodes_post c1 hn ms (fun q hq => hm q (by simp [hq])) (by rw [c3, b3, hc1]) c2 hs').mono ?_
          rintro ⟨nb4, s4⟩ ⟨d1, d2, d3, d4⟩
          refine ⟨_, by simpa using d1, ?_, by (show nb4.values.length ≤ _; simp only at d2; rw [d2]; simp), by rw [d3, c3, b3, hc1], by rw [d4, c4, b4, hS.shared]⟩
          intro p hp
          have hp : p ∈ ps1 ∨ p ∈ qs ∨ ∃ q ∈ ms, (⟨q.1, false, q.2⟩ : NodeRec E) = p := by simpa using hp
          rcases hp with hp | hp | ⟨q, hq, rfl⟩
          · have := hS.half p hp; omega
          · have hh := hhalf e m (by simp)
            have := c10 (by rw [b3]; omega) p hp
            rw [b3] at this; omega
          · exact hhalf e q (by simp [hq])
      · next hc =>
        refine (emitAll_post hS.toCore hS.vals).bind ?_
        rintro ⟨nb3, s3⟩ ⟨qs, c1, c2, c3, c4, c5, c6, c7, c8, c9, c10⟩
        simp only at c1 c2 c3 c4 c5 ⊢
        have hqs : ∀ p ∈ ps1 ++ qs, nb.cap / 2 ≤ p.es.length := by
          intro p hp
          rcases List.mem_append.mp hp with hp | hp
          · have := hS.half p hp; omega
          · by_cases hv : nb1.values = []
            · rw [c7 hv] at hp; cases hp
            · have : nb1.cap / 2 ≤ nb1.values.length := by
                rcases Nat.lt_or_ge nb1.values.length (nb.cap / 2) with hlt | hge
                · exact absurd ⟨hv, hlt⟩ hc
                · omega
              have := c10 this p hp
              omega
        split
        · next hu =>
          have hu : m.2.length < nb.cap / 2 := by rw [← hm0.nr]; exact hu
          have e : ms = [] := by
            rcases ms with _ | ⟨q, ms⟩
            · rfl
            · have := hhalf (by simp) m (by simp); omega
          subst e
          refine (appendValues_post hio c1 hm0 hs'.left).mono ?_
          rintro ⟨nb2, s2⟩ ⟨b1, b2, b3, b4⟩
          refine ⟨_, by simpa using b1, hqs, ?_, by rw [b3, c3, hc1], by rw [b4, c4, hS.shared]⟩
          show nb2.values.length ≤ _
          simp only at b2
          rw [b2, c2]; simp; omega
        · next hu =>
          have hu : nb.cap / 2 ≤ m.2.length := by rw [← hm0.nr]; omega
          refine (addNodes_post c1 hn (m :: ms) hm (by rw [c3, hc1]) c2 hs).mono ?_
          rintro ⟨nb4, s4⟩ ⟨d1, d2, d3, d4⟩
          refine ⟨_, d1, ?_, by (show nb4.values.length ≤ _; simp only at d2; rw [d2]; simp), by rw [d3, c3, hc1], by rw [d4, c4, hS.shared]⟩
          intro p hp
          rcases List.mem_append.mp hp with hp | hp
          · exact hqs p hp
          · obtain ⟨q, hq, rfl⟩ := List.mem_map.mp hp
            by_cases e : ms = []
            · subst e
              rw [List.mem_singleton] at hq
              subst hq; exact hu
            · exact hhalf e q hq
    · rintro ⟨nb2, s2⟩ ⟨ps2, a1, a2, a3, a4, a5⟩
      exact finish nb2 s2 ps2 a1 a2 a3 a4 a5

/-! ## Completion -/

/-- The result of a builder: nodes in memory whose entries are exactly what was pushed, in order. -/
structure Built (P : Nat → Prop) (io : NIO V E) (n max cap : Nat) (shared : Bool) (s0 s : St V) (pushed : List (Nat × E))
    (ps : List (NodeRec E)) : Prop where
  sm : s.sm.Inv n max
  ok : ∀ p ∈ ps, NodeOK P io n s0 s shared p
  cont : ps.flatMap (·.es) = pushed
  rc : ∀ b, s.sm.abs b = s0.sm.abs b + (ps.map (·.sum.block)).count b
  mem : ∀ b, 0 < s0.sm.abs b → s.mem b = s0.mem b
  log : s.log.Perm (s0.log ++ refsOf io (ownEntries ps))
  full : ∀ p ∈ ps, p.es.length ≤ cap
  half : (∀ p ∈ ps, cap / 2 ≤ p.es.length) ∨ ps.length = 1
  nonempty : ps ≠ []

theorem complete_post {io : NIO V E} (hio : ∀ es, io.unpack (io.pack es) = some es) {n max : Nat} {s0 : St V} {nb : NB E}
    {s : St V} {pushed : List (Nat × E)} {ps : List (NodeRec E)} (h : Inv P io n max s0 nb s pushed ps) :
    Post (complete io nb s) (fun r => ∃ ps', r.1 = ps'.map (·.sum) ∧ Built P io n max nb.cap nb.shared s0 r.2 pushed ps') := by
  have hcp := h.capPos
  unfold complete
  have hnodes : nb.nodes = [] ↔ ps = [] := by rw [h.nodes]; simp
  -- after the optional unshift: enough values, or no nodes, or no values
  have st1 : Post (if nb.values ≠ [] ∧ nb.values.length < nb.cap / 2 ∧ nb.nodes ≠ [] then unshiftNode io nb s
      else .ok (nb, s)) (fun r => ∃ ps1, Core P io n max s0 r.1 r.2 pushed ps1 ∧ r.1.values.length ≤ r.1.cap * 2 ∧
        r.1.cap = nb.cap ∧ r.1.shared = nb.shared ∧
        ((r.1.values = [] ∧ ((∀ p ∈ ps1, nb.cap / 2 ≤ p.es.length) ∨ ps1.length = 1)) ∨
          (ps1 = [] ∧ r.1.values.length < nb.cap / 2) ∨
          (nb.cap / 2 ≤ r.1.values.length ∧ r.1.values ≠ [] ∧ ∀ p ∈ ps1, nb.cap / 2 ≤ p.es.length))) := by
    split
    · next hc =>
      obtain ⟨hv, hlt, hne⟩ := hc
      have hall : ∀ p ∈ ps, nb.cap / 2 ≤ p.es.length := by
        intro p hp
        rcases h.half p hp with hh | ⟨e, -, -⟩
        · exact hh
        · exact absurd e hv
      have hps : ps ≠ [] := fun e => hne (hnodes.mpr e)
      obtain ⟨qs, q, rfl⟩ : ∃ qs q, ps = qs ++ [q] := ⟨ps.dropLast, ps.getLast hps, (List.dropLast_concat_getLast hps).symm⟩
      have hsh : nb.shared = false := by
        cases e : nb.shared with
        | false => rfl
        | true => have := (h.shv e).2 (by simp); omega
      refine (unshift_post hio h.toCore (fun _ => hsh)).mono ?_
      rintro ⟨nb1, s1⟩ ⟨b1, b2, b3, b4, b5⟩
      simp only at b1 b2 b3 b4 b5 ⊢
      have hlen : nb1.values.length = q.es.length + nb.values.length := by rw [b2]; simp
      have h1 := hall q (by simp)
      have h2 := h.full q (by simp)
      refine ⟨qs, b1, by rw [b3]; omega, b3, b4, Or.inr (Or.inr ⟨by omega, ?_, fun p hp => hall p (by simp [hp])⟩)⟩
      intro e; rw [e] at hlen; simp only [List.length_nil] at hlen; exact hv (List.eq_nil_of_length_eq_zero (by omega))
    · next hc =>
      refine ⟨ps, h.toCore, h.vals, rfl, rfl, ?_⟩
      by_cases hv : nb.values = []
      · refine Or.inl ⟨hv, ?_⟩
        by_cases hall : ∀ p ∈ ps, nb.cap / 2 ≤ p.es.length
        · exact Or.inl hall
        · refine Or.inr ?_
          have : ∃ p ∈ ps, ¬ nb.cap / 2 ≤ p.es.length := by
            apply Classical.byContradiction
            intro hno
            apply hall
            intro p hp
            apply Classical.byContradiction
            intro hx
            exact hno ⟨p, hp, hx⟩
          obtain ⟨p, hp, hx⟩ := this
          rcases h.half p hp with hh | ⟨-, e, -⟩
          · exact absurd hh hx
          · rw [e]; rfl
      · have hall : ∀ p ∈ ps, nb.cap / 2 ≤ p.es.length := by
          intro p hp
          rcases h.half p hp with hh | ⟨e, -, -⟩
          · exact hh
          · exact absurd e hv
        rcases Nat.lt_or_ge nb.values.length (nb.cap / 2) with hlt | hge
        · refine Or.inr (Or.inl ⟨?_, hlt⟩)
          apply Classical.byContradiction
          intro hne
          exact hc ⟨hv, hlt, fun e => hne (hnodes.mp e)⟩
        · exact Or.inr (Or.inr ⟨hge, hv, hall⟩)
  refine st1.bind ?_
  rintro ⟨nb1, s1⟩ ⟨ps1, b1, b2, b3, b4, b5⟩
  simp only at b1 b2 b3 b4 b5 ⊢
  refine (emitAll_post b1 b2).bind ?_
  rintro ⟨nb2, s2⟩ ⟨qs, c1, c2, c3, c4, c5, c6, c7, c8, c9, c10⟩
  simp only at c1 c2 c3 c4 c5 ⊢
  have hhalf : (∀ p ∈ ps1 ++ qs, nb.cap / 2 ≤ p.es.length) ∨ (ps1 ++ qs).length = 1 ∨ ps1 ++ qs = [] := by
    rcases b5 with ⟨e1, e2⟩ | ⟨e1, e2⟩ | ⟨e1, e2, e3⟩
    · rw [c7 e1, List.append_nil]
      rcases e2 with e2 | e2
      · exact Or.inl e2
      · exact Or.inr (Or.inl e2)
    · subst e1
      rw [List.nil_append]
      have := c9 (by omega)
      rcases qs with _ | ⟨q, _ | ⟨q', qs⟩⟩
      · exact Or.inr (Or.inr rfl)
      · exact Or.inr (Or.inl rfl)
      · simp at this
    · refine Or.inl ?_
      intro p hp
      rcases List.mem_append.mp hp with hp | hp
      · exact e3 p hp
      · have := c10 (by omega) p hp; omega
  have fin : ∀ (nb3 : NB E) (s3 : St V) ps3, Core P io n max s0 nb3 s3 pushed ps3 → nb3.values = [] →
      nb3.cap = nb.cap → nb3.shared = nb.shared → ps3 ≠ [] →
      ((∀ p ∈ ps3, nb.cap / 2 ≤ p.es.length) ∨ ps3.length = 1) →
      Post (.ok (nb3.nodes, s3)) (fun r : List Summary × St V =>
        ∃ ps', r.1 = ps'.map (·.sum) ∧ Built P io n max nb.cap nb.shared s0 r.2 pushed ps') := by
    intro nb3 s3 ps3 d1 d2 d3 d4 d5 d6
    refine ⟨ps3, d1.nodes, d1.sm, ?_, ?_, d1.rc, d1.mem, ?_, ?_, d6, d5⟩
    · intro p hp; have := d1.ok p hp; rwa [d4] at this
    · rw [← d1.cont, d2]; simp
    · have := d1.log; rwa [d2, List.append_nil] at this
    · intro p hp; have := d1.full p hp; rwa [d3] at this
  by_cases hps : ps1 ++ qs = []
  · have : nb2.nodes = [] := by rw [c1.nodes, hps]; rfl
    rw [if_pos this]
    refine (emitValues_post c1 0 (by simp) (by simp)).bind ?_
    rintro ⟨nb3, s3⟩ ⟨q, e1, e2, e3, e4, e5, e6, e7⟩
    simp only at e3 e4 e5 e6 ⊢
    refine fin nb3 s3 _ e3 (by rw [e4, c2]; rfl) (by rw [e5, c3, b3]) (by rw [e6, c4, b4]) (by simp) (Or.inr ?_)
    rw [hps]; rfl
  · have : nb2.nodes ≠ [] := by rw [c1.nodes]; simpa using hps
    rw [if_neg this]
    refine fin nb2 s2 _ c1 c2 (by rw [c3, b3]) (by rw [c4, b4]) hps ?_
    rcases hhalf with hh | hh | hh
    · exact Or.inl hh
    · exact Or.inr hh
    · exact absurd hh hps

theorem pushAll_post {io : NIO V E} (hio : ∀ es, io.unpack (io.pack es) = some es) {n max : Nat} {s0 : St V}
    (es : List (Nat × E)) : ∀ {nb : NB E} {s : St V} {pushed : List (Nat × E)} {ps : List (NodeRec E)},
    Inv P io n max s0 nb s pushed ps → Sorted (pushed ++ es) →
    Post (pushAll io es nb s) (fun r => ∃ ps', Inv P io n max s0 r.1 r.2 (pushed ++ es) ps' ∧
      r.1.cap = nb.cap ∧ r.1.shared = nb.shared) := by
  induction es with
  | nil => intro nb s pushed ps h _; exact ⟨ps, by simpa using h, rfl, rfl⟩
  | cons e es ih =>
    intro nb s pushed ps h hs
    have hs' : Sorted (pushed ++ [e] ++ es) := by simpa using hs
    unfold pushAll
    refine (pushValue_post hio h e.1 e.2 hs'.left).bind ?_
    rintro ⟨nb1, s1⟩ ⟨ps1, h1, h2, h3⟩
    refine (ih h1 hs').mono ?_
    rintro ⟨nb2, s2⟩ ⟨ps2, g1, g2, g3⟩
    exact ⟨ps2, by simpa using g1, g2.trans h2, g3.trans h3⟩

end Verif.Bld
