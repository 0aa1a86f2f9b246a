import Verif.Prop.RepairFind
import Verif.Prop.Delta
import Verif.Prop.CacheDump

/-!
# What the readers of the tools guarantee on damaged metadata

`btree_to_map`, `thin_delta` and `cache_dump` on arbitrary devices: what they return was read from blocks that can be read, and if anything
they need cannot be read they fail.
-/

namespace Verif.LW

open Verif.BT (Blk Event WSt KeyRange)

variable {V : Type}

theorem insertId_spec (k : Nat) (v : V) : ∀ (l : List (Nat × V)), l.Pairwise (fun a b => a.1 < b.1) →
    (Rst.insertId k v l).Pairwise (fun a b => a.1 < b.1) ∧
    (∀ e, e ∈ Rst.insertId k v l ↔ e = (k, v) ∨ (e ∈ l ∧ e.1 ≠ k)) := by
  intro l
  induction l with
  | nil => intro _; exact ⟨List.pairwise_singleton _ _, fun e => by simp [Rst.insertId]⟩
  | cons p l ih =>
    intro h
    obtain ⟨h1, h2⟩ := List.pairwise_cons.mp h
    rw [Rst.insertId]
    by_cases c1 : k < p.1
    · rw [if_pos c1]
      refine ⟨List.pairwise_cons.mpr ⟨?_, h⟩, fun e => ?_⟩
      · intro q hq
        rcases List.mem_cons.mp hq with rfl | hq
        · exact c1
        · have := h1 q hq; show k < q.1; omega
      · rw [List.mem_cons]
        constructor
        · rintro (h | h)
          · exact Or.inl h
          · refine Or.inr ⟨h, ?_⟩
            rcases List.mem_cons.mp h with rfl | h
            · omega
            · have := h1 e h; omega
        · rintro (h | h)
          · exact Or.inl h
          · exact Or.inr h.1
    · rw [if_neg c1]
      by_cases c2 : k = p.1
      · rw [if_pos c2]
        refine ⟨List.pairwise_cons.mpr ⟨fun q hq => by show k < q.1; rw [c2]; exact h1 q hq, h2⟩, fun e => ?_⟩
        rw [List.mem_cons, List.mem_cons]
        constructor
        · rintro (h | h)
          · exact Or.inl h
          · exact Or.inr ⟨Or.inr h, by have := h1 e h; omega⟩
        · rintro (h | ⟨rfl | h, h'⟩)
          · exact Or.inl h
          · exact absurd c2.symm h'
          · exact Or.inr h
      · rw [if_neg c2]
        obtain ⟨i1, i2⟩ := ih h2
        refine ⟨List.pairwise_cons.mpr ⟨fun q hq => ?_, i1⟩, fun e => ?_⟩
        · rcases (i2 q).mp hq with rfl | ⟨h, -⟩
          · show p.1 < k; omega
          · exact h1 q h
        · rw [List.mem_cons, i2, List.mem_cons]
          constructor
          · rintro (rfl | h | h)
            · exact Or.inr ⟨Or.inl rfl, fun h => c2 h.symm⟩
            · exact Or.inl h
            · exact Or.inr ⟨Or.inr h.1, h.2⟩
          · rintro (h | ⟨rfl | h, h'⟩)
            · exact Or.inr (Or.inl h)
            · exact Or.inl rfl
            · exact Or.inr (Or.inr ⟨h, h'⟩)

theorem foldInsert_spec : ∀ (es m : List (Nat × V)), m.Pairwise (fun a b => a.1 < b.1) →
    (es.foldl (fun m e => Rst.insertId e.1 e.2 m) m).Pairwise (fun a b => a.1 < b.1) ∧
    (∀ e ∈ es.foldl (fun m e => Rst.insertId e.1 e.2 m) m, e ∈ m ∨ e ∈ es) ∧
    ∀ e, e ∈ m ∨ e ∈ es → ∃ v, (e.1, v) ∈ es.foldl (fun m e => Rst.insertId e.1 e.2 m) m := by
  intro es
  induction es with
  | nil =>
    intro m h
    refine ⟨h, fun e he => Or.inl he, fun e he => ⟨e.2, ?_⟩⟩
    rcases he with h | h
    · exact h
    · cases h
  | cons x es ih =>
    intro m h
    obtain ⟨i1, i2⟩ := insertId_spec x.1 x.2 m h
    obtain ⟨j1, j2, j3⟩ := ih _ i1
    refine ⟨j1, fun e he => ?_, fun e he => ?_⟩
    · rcases j2 e he with h | h
      · rcases (i2 e).mp h with rfl | h
        · exact Or.inr (by simp)
        · exact Or.inl h.1
      · exact Or.inr (by simp [h])
    · by_cases hk : e.1 = x.1
      · obtain ⟨v, hv⟩ := j3 (x.1, x.2) (Or.inl ((i2 _).mpr (Or.inl rfl)))
        exact ⟨v, by rw [hk]; exact hv⟩
      · rcases he with h | h
        · exact j3 e (Or.inl ((i2 _).mpr (Or.inr ⟨h, hk⟩)))
        · rcases List.mem_cons.mp h with rfl | h
          · exact absurd rfl hk
          · exact j3 e (Or.inr h)

theorem collected_spec : ∀ (log : List (Event V)) (m : List (Nat × V)), m.Pairwise (fun a b => a.1 < b.1) →
    (collected log m).Pairwise (fun a b => a.1 < b.1) ∧
    (∀ e ∈ collected log m, e ∈ m ∨ ∃ p kr es, Event.visit p kr es ∈ log ∧ e ∈ es) ∧
    ∀ e, (e ∈ m ∨ ∃ p kr es, Event.visit p kr es ∈ log ∧ e ∈ es) → ∃ v, (e.1, v) ∈ collected log m := by
  intro log
  induction log with
  | nil =>
    intro m h
    refine ⟨h, fun e he => Or.inl he, fun e he => ⟨e.2, ?_⟩⟩
    rcases he with h | ⟨p, kr, es, h, -⟩
    · exact h
    · cases h
  | cons x log ih =>
    intro m h
    have other : collected (x :: log) m = collected log m → (∀ p kr es, x ≠ .visit p kr es) →
        (collected (x :: log) m).Pairwise (fun a b => a.1 < b.1) ∧
        (∀ e ∈ collected (x :: log) m, e ∈ m ∨ ∃ p kr es, Event.visit p kr es ∈ x :: log ∧ e ∈ es) ∧
        ∀ e, (e ∈ m ∨ ∃ p kr es, Event.visit p kr es ∈ x :: log ∧ e ∈ es) → ∃ v, (e.1, v) ∈ collected (x :: log) m := by
      intro heq hne
      obtain ⟨i1, i2, i3⟩ := ih m h
      rw [heq]
      refine ⟨i1, fun e he => ?_, fun e he => i3 e ?_⟩
      · rcases i2 e he with h | ⟨p, kr, es, h1, h2⟩
        · exact Or.inl h
        · exact Or.inr ⟨p, kr, es, by simp [h1], h2⟩
      · rcases he with h | ⟨p, kr, es, h1, h2⟩
        · exact Or.inl h
        · rcases List.mem_cons.mp h1 with h1 | h1
          · exact absurd h1.symm (hne p kr es)
          · exact Or.inr ⟨p, kr, es, h1, h2⟩
    cases x with
    | visit p kr es =>
      obtain ⟨f1, f2, f3⟩ := foldInsert_spec es m h
      obtain ⟨i1, i2, i3⟩ := ih _ f1
      refine ⟨i1, fun e he => ?_, fun e he => ?_⟩
      · rcases i2 e he with h | ⟨p', kr', es', h1, h2⟩
        · rcases f2 e h with h | h
          · exact Or.inl h
          · exact Or.inr ⟨p, kr, es, by simp, h⟩
        · exact Or.inr ⟨p', kr', es', by simp [h1], h2⟩
      · rcases he with h | ⟨p', kr', es', h1, h2⟩
        · obtain ⟨v, hv⟩ := f3 e (Or.inl h)
          exact i3 (e.1, v) (Or.inl hv)
        · rcases List.mem_cons.mp h1 with h1 | h1
          · cases h1
            obtain ⟨v, hv⟩ := f3 e (Or.inr h2)
            exact i3 (e.1, v) (Or.inl hv)
          · exact i3 e (Or.inr ⟨p', kr', es', h1, h2⟩)
    | again p b => exact other rfl (fun _ _ _ h => by cases h)
    | endWalk => exact other rfl (fun _ _ _ h => by cases h)

/-- what a map read from a tree has to do with the tree: every block of the tree can be read, internal nodes have sorted keys, what is in the
map is in a leaf, and every key of a leaf is in the map -/
structure ReadFrom (rd : Bool → Nat → Option (Blk V)) (nr root : Nat) (m : List (Nat × V)) : Prop where
  sorted : m.Pairwise (fun a b => a.1 < b.1)
  readable : ∀ b, BT.Reach rd nr root b → ∃ n, rd true b = some n
  nodes : ∀ b ch, BT.Reach rd nr root b → rd true b = some (.internal ch) → ch ≠ [] ∧ (ch.map (·.1)).Pairwise (· < ·)
  sound : ∀ e ∈ m, ∃ b es, BT.Reach rd nr root b ∧ rd true b = some (.leaf es) ∧ e ∈ es
  full : ∀ b es, BT.Reach rd nr root b → rd true b = some (.leaf es) → ∀ e ∈ es, ∃ v, (e.1, v) ∈ m

/-- a walk that is accepted has shown all leaves below the root and nothing else -/
theorem walk_accepted {rd : Bool → Nat → Option (Blk V)} {nr root : Nat} (hrd : ∀ b n, rd false b = some n → rd true b = some n)
    {vis : List (Event V) → Event V → Bool}
    (hok : (BT.walk (fun b => decide (b < nr)) rd vis (nr + 1) [0] root (WSt.fresh nr 1 true)).2 = .ok) :
    ReadFrom rd nr root (collected (BT.walk (fun b => decide (b < nr)) rd vis (nr + 1) [0] root (WSt.fresh nr 1 true)).1.log []) := by
  have hcov := BT.walk_ok_covers (fun b => decide (b < nr)) rd hrd vis nr 1 (by omega) true (nr + 1) [0] root hok
  have hs := Rep.walk_seen (nr := nr) (rv := rd) hrd vis [0] root
  generalize (BT.walk (fun b => decide (b < nr)) rd vis (nr + 1) [0] root (WSt.fresh nr 1 true)).1.log = log at hcov hs
  obtain ⟨c1, c2, c3⟩ := collected_spec log [] List.Pairwise.nil
  refine ⟨c1, fun b hb => ?_, fun b ch hb hr => ?_, fun e he => ?_, fun b es hb hr e he => ?_⟩
  · have := hcov b hb
    unfold BT.Covered at this
    cases hr : rd true b with
    | none => rw [hr] at this; exact this.elim
    | some n => exact ⟨n, rfl⟩
  · have := hcov b hb
    unfold BT.Covered at this
    rw [hr] at this
    exact this
  · rcases c2 e he with h | ⟨p, kr, es, h1, h2⟩
    · cases h
    · obtain ⟨b, b1, b2⟩ := hs _ h1
      exact ⟨b, es, b1, b2, h2⟩
  · have := hcov b hb
    unfold BT.Covered at this
    rw [hr] at this
    obtain ⟨pre, post, path, kr, hl, -⟩ := this
    exact c3 e (Or.inr ⟨path ++ [b], kr, es, by rw [hl]; simp, he⟩)

/-- `btree_to_map` of any tree, damaged or not: a map is returned only if every block of the tree can be read, and then it has the keys
of the leaves, in order, with values from the leaves. -/
theorem btreeToMap_sound {rd : Bool → Nat → Option (Blk V)} {nr root : Nat} {m : List (Nat × V)}
    (hrd : ∀ b n, rd false b = some n → rd true b = some n) (h : btreeToMap rd nr root = some m) : ReadFrom rd nr root m := by
  unfold btreeToMap at h
  simp only at h
  by_cases hok : (BT.walk (fun b => decide (b < nr)) rd (fun _ _ => true) (nr + 1) [0] root (WSt.fresh nr 1 true)).2 = .ok
  · rw [if_pos hok] at h
    cases h
    exact walk_accepted hrd hok
  · rw [if_neg hok] at h
    cases h

/-- a tree with a block that cannot be read -/
def holeMem : Nat → Option (Blk Nat)
  | 1 => some (.internal [(0, 2), (5, 3)])
  | 2 => some (.leaf [(0, 7)])
  | _ => none

example : btreeToMap (fun _ b => holeMem b) 8 1 = none := by
  cases h : btreeToMap (fun _ b => holeMem b) 8 1 with
  | none => rfl
  | some m =>
    obtain ⟨n, hn⟩ := (btreeToMap_sound (rd := fun _ b => holeMem b) (fun _ _ h => h) h).readable 3 (.child (c := (5, 3)) .root rfl (by decide) (by decide))
    cases hn

/-- and one without: the map is found -/
example : btreeToMap (fun _ b => holeMem b) 8 2 = some [(0, 7)] := by decide

end Verif.LW

namespace Verif.Delta

open Verif.BT (Blk Event WSt)
open Verif.Rst (Val)

theorem mem_visited {V : Type} {log : List (Event V)} {e : Nat × V} (h : e ∈ log.flatMap visited) : ∃ p kr es, Event.visit p kr es ∈ log ∧ e ∈ es := by
  obtain ⟨x, h1, h2⟩ := List.mem_flatMap.mp h
  cases x with
  | visit p kr es => exact ⟨p, kr, es, h1, h2⟩
  | again p b => cases h2
  | endWalk => cases h2

theorem collect_mem {α β : Type} (f : α → Option β) : ∀ (l : List α) (r : List β), Gather.collect f l = some r →
    (∀ x ∈ l, ∃ y ∈ r, f x = some y) ∧ ∀ y ∈ r, ∃ x ∈ l, f x = some y := by
  intro l
  induction l with
  | nil => intro r h; cases h; exact ⟨fun x hx => (by cases hx), fun y hy => (by cases hy)⟩
  | cons a l ih =>
    intro r h
    unfold Gather.collect at h
    cases ha : f a with
    | none => rw [ha] at h; simp at h
    | some y =>
      cases hl : Gather.collect f l with
      | none => rw [ha, hl] at h; simp at h
      | some r' =>
        rw [ha, hl] at h
        simp at h
        subst h
        obtain ⟨i1, i2⟩ := ih r' hl
        refine ⟨fun x hx => ?_, fun z hz => ?_⟩
        · rcases List.mem_cons.mp hx with rfl | hx
          · exact ⟨y, by simp, ha⟩
          · obtain ⟨w, w1, w2⟩ := i1 x hx
            exact ⟨w, by simp [w1], w2⟩
        · rcases List.mem_cons.mp hz with rfl | hz
          · exact ⟨a, by simp, ha⟩
          · obtain ⟨w, w1, w2⟩ := i2 z hz
            exact ⟨w, by simp [w1], w2⟩

/-- the runs recorded say exactly what was seen, in whatever order -/
theorem record_says : ∀ (es : List (Nat × Nat)) (run : Option DM) (b d : Nat),
    M (record run es) b d ↔ (M run.toList b d ∨ (b, d) ∈ es) := by
  intro es
  induction es with
  | nil => intro run b d; simp [record]
  | cons e es ih =>
    intro run b d
    obtain ⟨k, v⟩ := e
    have happ : ∀ (x y : List DM), M (x ++ y) b d ↔ M x b d ∨ M y b d := by
      intro x y
      unfold M
      constructor
      · rintro ⟨m, hm, h⟩
        rcases List.mem_append.mp hm with hm | hm
        · exact Or.inl ⟨m, hm, h⟩
        · exact Or.inr ⟨m, hm, h⟩
      · rintro (⟨m, hm, h⟩ | ⟨m, hm, h⟩)
        · exact ⟨m, by simp [hm], h⟩
        · exact ⟨m, by simp [hm], h⟩
    have hone : ∀ r : DM, M [r] b d ↔ (r.thin ≤ b ∧ b < r.thin + r.len ∧ d = r.data + (b - r.thin)) := by
      intro r
      unfold M
      constructor
      · rintro ⟨m, hm, h⟩; rw [List.mem_singleton.mp hm] at h; exact h
      · intro h; exact ⟨r, by simp, h⟩
    show M ((next run k v).2.toList ++ record (next run k v).1 es) b d ↔ _
    rw [happ, ih, List.mem_cons, Prod.mk.injEq]
    have hnew : M [⟨k, v, 1⟩] b d ↔ (b = k ∧ d = v) := by
      rw [hone]
      simp only
      constructor
      · rintro ⟨h1, h2, h3⟩
        have : b = k := by omega
        subst this
        exact ⟨rfl, by omega⟩
      · rintro ⟨rfl, rfl⟩
        exact ⟨by omega, by omega, by omega⟩
    have hnil : ¬ M [] b d := M_nil b d
    cases run with
    | none =>
      show (M [] b d ∨ M [⟨k, v, 1⟩] b d ∨ (b, d) ∈ es) ↔ (M [] b d ∨ (b = k ∧ d = v) ∨ (b, d) ∈ es)
      rw [hnew]
    | some r =>
      by_cases hc : r.thin + r.len = k ∧ r.data + r.len = v
      · have : next (some r) k v = (some { r with len := r.len + 1 }, none) := by unfold next; simp only [if_pos hc]
        rw [this]
        show (M [] b d ∨ M [{ r with len := r.len + 1 }] b d ∨ (b, d) ∈ es) ↔ (M [r] b d ∨ (b = k ∧ d = v) ∨ (b, d) ∈ es)
        rw [hone, hone]
        simp only
        obtain ⟨c1, c2⟩ := hc
        constructor
        · rintro (h | ⟨h1, h2, h3⟩ | h)
          · exact absurd h hnil
          · by_cases hb : b = k
            · exact Or.inr (Or.inl ⟨hb, by omega⟩)
            · exact Or.inl ⟨h1, by omega, h3⟩
          · exact Or.inr (Or.inr h)
        · rintro (⟨h1, h2, h3⟩ | ⟨rfl, rfl⟩ | h)
          · exact Or.inr (Or.inl ⟨h1, by omega, h3⟩)
          · exact Or.inr (Or.inl ⟨by omega, by omega, by omega⟩)
          · exact Or.inr (Or.inr h)
      · have : next (some r) k v = (some ⟨k, v, 1⟩, some r) := by unfold next; simp only [if_neg hc]
        rw [this]
        show (M [r] b d ∨ M [⟨k, v, 1⟩] b d ∨ (b, d) ∈ es) ↔ _
        rw [hnew]
        rfl

/-- **C33**, damaged trees: `thin_delta` works with the mappings of a device only if every block of its tree can be read; then it works with
all the mappings in the leaves and no others. -/
theorem getMappings_sound {mem : Nat → Option (Blk Val)} {nr root : Nat} {ds : List DM} (h : getMappings mem nr root = some ds) :
    (∀ b, BT.Reach (fun _ b => mem b) nr root b → ∃ n, mem b = some n) ∧
    ∀ k d, M ds k d ↔ ∃ b es t, BT.Reach (fun _ b => mem b) nr root b ∧ mem b = some (.leaf es) ∧ (k, Val.bt d t) ∈ es := by
  unfold getMappings at h
  simp only at h
  by_cases hok : (BT.walk (fun b => decide (b < nr)) (fun _ b => mem b) (fun _ _ => true) (nr + 1) [] root (WSt.fresh nr 1 true)).2 = .ok
  · rw [if_pos hok] at h
    have hcov := BT.walk_ok_covers (fun b => decide (b < nr)) (fun _ b => mem b) (fun _ _ h => h) (fun _ _ => true) nr 1 (by omega) true (nr + 1) [] root hok
    have hs := Rep.walk_seen (nr := nr) (rv := fun _ b => mem b) (fun _ _ h => h) (fun _ _ => true) [] root
    generalize (BT.walk (fun b => decide (b < nr)) (fun _ b => mem b) (fun _ _ => true) (nr + 1) [] root (WSt.fresh nr 1 true)).1.log = log at hcov hs h
    cases hsh : shown log with
    | none => rw [hsh] at h; cases h
    | some es0 =>
      rw [hsh] at h
      cases h
      obtain ⟨g1, g2⟩ := collect_mem _ _ _ hsh
      refine ⟨fun b hb => ?_, fun k d => ?_⟩
      · have := hcov b hb
        unfold BT.Covered at this
        cases hr : mem b with
        | none => simp only [hr] at this
        | some n => exact ⟨n, rfl⟩
      · rw [record_says]
        constructor
        · rintro (h | h)
          · exact absurd h (M_nil k d)
          · obtain ⟨x, x1, x2⟩ := g2 _ h
            obtain ⟨p, kr, es, e1, e2⟩ := mem_visited x1
            obtain ⟨b, b1, b2⟩ := hs _ e1
            obtain ⟨x1', xv⟩ := x
            cases xv with
            | bt d' t => simp only [Option.some.injEq, Prod.mk.injEq] at x2; obtain ⟨rfl, rfl⟩ := x2; exact ⟨b, es, t, b1, b2, e2⟩
            | det _ => cases x2
            | root _ => cases x2
        · rintro ⟨b, es, t, hb, hr, he⟩
          have := hcov b hb
          unfold BT.Covered at this
          simp only [hr] at this
          obtain ⟨pre, post, path, kr, hl, -⟩ := this
          obtain ⟨y, y1, y2⟩ := g1 (k, .bt d t) (by rw [hl]; simp [visited, he])
          cases y2
          exact Or.inr y1
  · rw [if_neg hok] at h
    cases h

/-- an XML reader of the verbose output: which element is open; ranges have to be in an element of their kind -/
def nesting : Option Kind → List Tag → Option (Option Kind)
  | cur, [] => some cur
  | none, .opened k :: ts => nesting (some k) ts
  | some c, .closed k :: ts => if c = k then nesting none ts else none
  | some c, .range _ _ _ :: ts => if c = .differ then none else nesting (some c) ts
  | some c, .diffRange _ _ _ _ :: ts => if c = .differ then nesting (some c) ts else none
  | _, _ :: _ => none

/-- **C33**: the verbose output of `thin_delta` is well formed: every element is closed before the next one is opened, and at the end
none is open. -/
theorem verboseTags_nested : ∀ (ds : List Delta) (cur : Option Kind), nesting cur (verboseTags cur ds) = some none := by
  intro ds
  induction ds with
  | nil =>
    intro cur
    cases cur with
    | none => rfl
    | some c => show nesting (some c) [.closed c] = _; rw [nesting, if_pos rfl, nesting]
  | cons d ds ih =>
    intro cur
    have hd : ∀ ts, nesting (some d.kind) (verboseTag d :: ts) = nesting (some d.kind) ts := by
      intro ts
      cases d <;> rfl
    cases cur with
    | none =>
      show nesting none (.opened d.kind :: verboseTag d :: verboseTags (some d.kind) ds) = _
      rw [nesting, hd, ih]
    | some c =>
      show nesting (some c) (updateType (some c) d.kind ++ verboseTag d :: verboseTags (some d.kind) ds) = _
      unfold updateType
      by_cases hk : d.kind ≠ c
      · simp only [if_pos hk, List.cons_append, List.nil_append]
        rw [nesting, if_pos rfl, nesting, hd, ih]
      · simp only [if_neg hk, List.nil_append]
        rw [← Classical.not_not.mp hk, hd, ih]

end Verif.Delta

namespace Verif.CacheM

open Verif.BT (Blk Event WSt KeyRange)
open Verif.Bits (ABlock Checked)

/-- an array was read: every node of its index can be read, and for every index in it a block of values -/
structure ArrayRead (d : Dev) (read : Nat → Option ABlock) (root : Nat) : Prop where
  nodes : ∀ b, BT.Reach d.rd d.nr root b → ∃ n, d.rd true b = some n
  blocks : ∀ b es, BT.Reach d.rd d.nr root b → d.rd true b = some (.leaf es) → ∀ e ∈ es,
    ∃ b' es' v, BT.Reach d.rd d.nr root b' ∧ d.rd true b' = some (.leaf es') ∧ (e.1, v) ∈ es' ∧ (read v).isSome

theorem collectBlocks_sound {d : Dev} (hrd : ∀ b n, d.rd false b = some n → d.rd true b = some n) {root : Nat} {m : List (Nat × Nat)}
    (h : collectBlocks d root = .ok m) : LW.ReadFrom d.rd d.nr root m := by
  unfold collectBlocks at h
  simp only at h
  split at h
  · cases h
  · split at h
    · cases h
      rename_i hok
      exact LW.walk_accepted hrd hok
    · cases h

theorem walkBlocks_sound {α : Type} {read : Nat → Option ABlock} {visit : Nat → ABlock → Except DErr (List α)} : ∀ {m : List (Nat × Nat)} {evs : List α},
    walkBlocks read visit m = .ok evs →
    (∀ e ∈ m, ∃ ab evs', read e.2 = some ab ∧ visit e.1 ab = .ok evs' ∧ ∀ x ∈ evs', x ∈ evs) ∧
    ∀ x ∈ evs, ∃ e ∈ m, ∃ ab evs', read e.2 = some ab ∧ visit e.1 ab = .ok evs' ∧ x ∈ evs' := by
  intro m
  induction m with
  | nil => intro evs h; cases h; exact ⟨fun e he => (by cases he), fun x hx => (by cases hx)⟩
  | cons p m ih =>
    intro evs h
    obtain ⟨i, b⟩ := p
    unfold walkBlocks at h
    cases hr : read b with
    | none => simp only [hr] at h; cases h
    | some ab =>
      simp only [hr] at h
      cases hv : visit i ab with
      | error e => simp only [hv] at h; cases h
      | ok e1 =>
        simp only [hv] at h
        cases hw : walkBlocks read visit m with
        | error e => simp only [hw] at h; cases h
        | ok e2 =>
          simp only [hw] at h
          cases h
          obtain ⟨i1, i2⟩ := ih hw
          refine ⟨fun e he => ?_, fun x hx => ?_⟩
          · rcases List.mem_cons.mp he with rfl | he
            · exact ⟨ab, e1, hr, hv, fun x hx => by simp [hx]⟩
            · obtain ⟨a, c, h1, h2, h3⟩ := i1 e he
              exact ⟨a, c, h1, h2, fun x hx => by simp [h3 x hx]⟩
          · rcases List.mem_append.mp hx with hx | hx
            · exact ⟨(i, b), by simp, ab, e1, hr, hv, hx⟩
            · obtain ⟨e, he, r⟩ := i2 x hx
              exact ⟨e, by simp [he], r⟩

theorem arrayRead_of {d : Dev} {read : Nat → Option ABlock} {root : Nat} {m : List (Nat × Nat)} (h : LW.ReadFrom d.rd d.nr root m)
    (hr : ∀ e ∈ m, (read e.2).isSome) : ArrayRead d read root :=
  ⟨h.readable, fun b es hb hl e he => by
    obtain ⟨v, hv⟩ := h.full b es hb hl e he
    obtain ⟨b', es', h1, h2, h3⟩ := h.sound _ hv
    exact ⟨b', es', v, h1, h2, h3, hr _ hv⟩⟩

theorem walked_read {α : Type} {d : Dev} (hrd : ∀ b n, d.rd false b = some n → d.rd true b = some n) {root : Nat} {m : List (Nat × Nat)}
    {read : Nat → Option ABlock} {visit : Nat → ABlock → Except DErr (List α)} {evs : List α}
    (h : collectBlocks d root = .ok m) (hw : walkBlocks read visit m = .ok evs) : ArrayRead d read root :=
  arrayRead_of (collectBlocks_sound hrd h) (fun e he => by
    obtain ⟨ab, -, h1, -⟩ := (walkBlocks_sound hw).1 e he
    rw [h1]; rfl)

theorem emitMaps_mem {dirty : Nat → Mapping → Bool} {n : Nat} : ∀ {l : List (Nat × Nat)} {evs : List Ev}, emitMaps dirty n l = .ok evs →
    ∀ x ∈ evs, ∃ w c, (w, c) ∈ l ∧ (ofWord w).isValid = true ∧ c < n ∧ x = .mapping c (ofWord w).oblock (dirty c (ofWord w)) := by
  intro l
  induction l with
  | nil => intro evs h; cases h; intro x hx; cases hx
  | cons p l ih =>
    intro evs h x hx
    obtain ⟨w, c⟩ := p
    unfold emitMaps at h
    simp only at h
    by_cases hv : (ofWord w).isValid = true
    · rw [hv] at h
      simp only [Bool.not_true, Bool.false_eq_true, if_false] at h
      by_cases hc : c ≥ n
      · rw [if_pos hc] at h; cases h
      · rw [if_neg hc] at h
        cases he : emitMaps dirty n l with
        | error e => rw [he] at h; cases h
        | ok e' =>
          rw [he] at h
          cases h
          rcases List.mem_cons.mp hx with rfl | hx
          · exact ⟨w, c, by simp, hv, by omega, rfl⟩
          · obtain ⟨w', c', h1, h2⟩ := ih he x hx
            exact ⟨w', c', by simp [h1], h2⟩
    · have hv : (ofWord w).isValid = false := by simpa using hv
      rw [hv] at h
      simp only [Bool.not_false, if_true] at h
      obtain ⟨w', c', h1, h2⟩ := ih h x hx
      exact ⟨w', c', by simp [h1], h2⟩

/-- where a mapping of the output comes from: an entry of a block of the mapping array -/
def FromArray (d : Dev) (root c o : Nat) : Prop :=
  ∃ b es k v ab w, BT.Reach d.rd d.nr root b ∧ d.rd true b = some (.leaf es) ∧ (k, v) ∈ es ∧ d.maps v = some ab ∧
    (w, c) ∈ ab.values.zip (cblocks k ab.maxEntries ab.values.length) ∧ (ofWord w).isValid = true ∧ (ofWord w).oblock = o

theorem maps_sound {d : Dev} (hrd : ∀ b n, d.rd false b = some n → d.rd true b = some n) {dirty : Nat → Mapping → Bool} {root n : Nat}
    {m : List (Nat × Nat)} {evs : List Ev} (h : collectBlocks d root = .ok m) (hw : walkBlocks d.maps (visitMaps dirty n) m = .ok evs) :
    ∀ x ∈ evs, ∃ c o w, x = .mapping c o (dirty c (ofWord w)) ∧ c < n ∧ FromArray d root c o := by
  intro x hx
  obtain ⟨e, he, ab, evs', h1, h2, h3⟩ := (walkBlocks_sound hw).2 x hx
  obtain ⟨w, c, w1, w2, w3, rfl⟩ := emitMaps_mem h2 x h3
  obtain ⟨b, es, b1, b2, b3⟩ := (collectBlocks_sound hrd h).sound e he
  exact ⟨c, _, w, rfl, w3, b, es, e.1, e.2, ab, w, b1, b2, b3, h1, w1, w2, rfl⟩

theorem walkLeaves_zero {read : Nat → Option ABlock} {S : Type} {visit : Nat → ABlock → S → Bool × S} {ls : List (KeyRange × List (Nat × Nat))} {s : S}
    (h : (Bits.walkLeaves read visit ls (0, s)).1 = 0) : ∀ l ∈ ls, ∀ e ∈ l.2, (read e.2).isSome :=
  fun l hl e he => ((Bits.walkLeaves_errs ls 0 s).2 h l hl).2 e he

theorem leavesOf_mem {log : List (Event Nat)} {p : List Nat} {kr : KeyRange} {es : List (Nat × Nat)} (h : Event.visit p kr es ∈ log) : (kr, es) ∈ leavesOf log := by
  induction log with
  | nil => cases h
  | cons x log ih =>
    rcases List.mem_cons.mp h with rfl | h'
    · simp [leavesOf]
    · cases x with
      | visit p' kr' es' => simp [leavesOf, ih h']
      | again p' b' => exact ih h'
      | endWalk => exact ih h'

/-- the dirty bitset was read without an error -/
theorem readDirty_sound {d : Dev} (hrd : ∀ b n, d.rd false b = some n → d.rd true b = some n) {root n : Nat} (h : (readDirty d root n).1 = false) :
    ArrayRead d d.words root := by
  unfold readDirty at h
  simp only [Bool.or_eq_false_iff, Bool.not_eq_false', decide_eq_true_eq, beq_iff_eq] at h
  obtain ⟨h1, h2⟩ := h
  unfold walkIndex at h1 h2
  have hcov := BT.walk_ok_covers (fun b => decide (b < d.nr)) d.rd hrd arrayVis d.nr 1 (by omega) true (d.nr + 1) [0] root h1
  have hz := walkLeaves_zero h2
  refine ⟨(LW.walk_accepted hrd h1).readable, fun b es hb hl e he => ⟨b, es, e.2, hb, hl, he, ?_⟩⟩
  have := hcov b hb
  unfold BT.Covered at this
  rw [hl] at this
  obtain ⟨pre, post, path, kr, hlog, -⟩ := this
  exact hz (kr, es) (leavesOf_mem (p := path ++ [b]) (by rw [hlog]; simp)) e he

/-- **C32**, damaged metadata: without `--repair`, `cache_dump` succeeds only if everything it dumps can be read: the index of the mapping array
and its blocks, the dirty bits (version 2), and the hints.  Whatever it prints as a mapping is an entry of a block of the mapping array. -/
theorem dump_sound {d : Dev} (hrd : ∀ b n, d.rd false b = some n → d.rd true b = some n) {sb : Cache.Superblock} {repair : Bool} {evs : List Ev}
    (h : dump d sb repair = .ok evs) :
    ArrayRead d d.maps sb.mapping_root ∧ ArrayRead d d.hints sb.hint_root ∧
    (sb.version = 2 → repair = false → ∃ r, sb.dirty_root = some r ∧ ArrayRead d d.words r) ∧
    (∀ c o y, Ev.mapping c o y ∈ evs → c < sb.cache_blocks ∧ FromArray d sb.mapping_root c o ∧
      (sb.version = 2 → ∃ r, sb.dirty_root = some r ∧ y = ((readDirty d r sb.cache_blocks).2 c).getD true)) := by
  unfold dump at h
  simp only at h
  have key : ∀ ms, (if sb.version = 1 then dumpV1 d sb.mapping_root sb.cache_blocks
      else if sb.version = 2 then dumpV2 d sb.mapping_root sb.cache_blocks sb.dirty_root repair else .error .err) = .ok ms →
      ArrayRead d d.maps sb.mapping_root ∧
      (sb.version = 2 → repair = false → ∃ r, sb.dirty_root = some r ∧ ArrayRead d d.words r) ∧
      (∀ x ∈ ms, ∃ c o y, x = Ev.mapping c o y ∧ c < sb.cache_blocks ∧ FromArray d sb.mapping_root c o ∧
        (sb.version = 2 → ∃ r, sb.dirty_root = some r ∧ y = ((readDirty d r sb.cache_blocks).2 c).getD true)) := by
    intro ms hms
    by_cases h1 : sb.version = 1
    · rw [if_pos h1] at hms
      unfold dumpV1 at hms
      cases hc : collectBlocks d sb.mapping_root with
      | error e => rw [hc] at hms; cases hms
      | ok m =>
        simp only [hc] at hms
        refine ⟨walked_read hrd hc hms, fun h2 => absurd (h1.symm.trans h2) (by decide), fun x hx => ?_⟩
        obtain ⟨c, o, w, e1, e2, e3⟩ := maps_sound hrd hc hms x hx
        exact ⟨c, o, _, e1, e2, e3, fun h2 => absurd (h1.symm.trans h2) (by decide)⟩
    · rw [if_neg h1] at hms
      by_cases h2 : sb.version = 2
      · rw [if_pos h2] at hms
        unfold dumpV2 at hms
        cases hdr : sb.dirty_root with
        | none => rw [hdr] at hms; cases hms
        | some dr =>
          simp only [hdr] at hms
          split at hms
          · cases hms
          · rename_i hbits
            cases hc : collectBlocks d sb.mapping_root with
            | error e => rw [hc] at hms; cases hms
            | ok m =>
              simp only [hc] at hms
              refine ⟨walked_read hrd hc hms, fun _ hrep => ⟨dr, rfl, readDirty_sound (n := sb.cache_blocks) hrd ?_⟩, fun x hx => ?_⟩
              · rw [hrep] at hbits
                simpa using hbits
              · obtain ⟨c, o, w, e1, e2, e3⟩ := maps_sound hrd hc hms x hx
                exact ⟨c, o, _, e1, e2, e3, fun _ => ⟨dr, rfl, rfl⟩⟩
      · rw [if_neg h2] at hms; cases hms
  generalize (if sb.version = 1 then dumpV1 d sb.mapping_root sb.cache_blocks
      else if sb.version = 2 then dumpV2 d sb.mapping_root sb.cache_blocks sb.dirty_root repair else .error .err) = R at h key
  cases R with
  | error e => cases h
  | ok ms =>
    simp only at h
    obtain ⟨k1, k2, k3⟩ := key ms rfl
    unfold dumpHints at h
    cases hc : collectBlocks d sb.hint_root with
    | error e => simp only [hc] at h; cases h
    | ok m =>
      simp only [hc] at h
      cases hw : walkBlocks d.hints (visitHints (validIn ms)) m with
      | error e => simp only [hw] at h; cases h
      | ok hs =>
        simp only [hw] at h
        cases h
        refine ⟨k1, walked_read hrd hc hw, k2, fun c o y hx => ?_⟩
        have hin : Ev.mapping c o y ∈ ms := by
          simp only [List.mem_append, List.mem_cons, reduceCtorEq, false_or, or_false, List.not_mem_nil] at hx
          rcases hx with hx | hx
          · exact hx
          · exfalso
            obtain ⟨e, -, ab, evs', -, h2, h3⟩ := (walkBlocks_sound hw).2 _ hx
            have : ∀ (l : List (Nat × Nat)), Ev.mapping c o y ∉ emitHints (validIn ms) l := by
              intro l
              induction l with
              | nil => intro h; cases h
              | cons p l ih =>
                intro h
                rw [emitHints] at h
                split at h
                · rcases List.mem_cons.mp h with h | h
                  · cases h
                  · exact ih h
                · exact ih h
            cases h2
            exact this _ h3
        obtain ⟨c', o', y', e1, e2⟩ := k3 _ hin
        cases e1
        exact e2

/-- **C32**: with `--repair`, a cache block whose dirty bit could not be read is dumped as dirty, so that no data is lost. -/
theorem dump_unread_dirty {d : Dev} (hrd : ∀ b n, d.rd false b = some n → d.rd true b = some n) {sb : Cache.Superblock} {repair : Bool} {evs : List Ev}
    (h : dump d sb repair = .ok evs) (h2 : sb.version = 2) {r c o : Nat} {y : Bool} (hr : sb.dirty_root = some r)
    (hx : Ev.mapping c o y ∈ evs) (hun : (readDirty d r sb.cache_blocks).2 c = none) : y = true := by
  obtain ⟨r', e1, e2⟩ := ((dump_sound hrd h).2.2.2 c o y hx).2.2 h2
  rw [hr] at e1
  cases e1
  rw [e2, hun]
  rfl

/-- two cache blocks, the first one mapped; the block with the dirty bits is lost -/
def lostBits : Dev :=
  { nr := 8
    rd := fun _ b => if b = 1 then some (.leaf [(0, 2)]) else if b = 3 then some (.leaf [(0, 4)]) else if b = 5 then some (.leaf [(0, 6)]) else none
    maps := fun b => if b = 2 then some ⟨510, [7 * 65536 + 1, 0]⟩ else none
    words := fun _ => none
    hints := fun b => if b = 6 then some ⟨1018, [0, 0]⟩ else none }

def lostSb : Cache.Superblock :=
  { clean_shutdown := true, needs_check := true, block := 0, version := 2, policy_name := [], policy_version := [], policy_hint_size := 4,
    metadata_sm_root := [], mapping_root := 1, dirty_root := some 3, hint_root := 5, discard_root := 0, discard_block_size := 64,
    discard_nr_blocks := 10, data_block_size := 64, cache_blocks := 2, compat_flags := 0, compat_ro_flags := 0, incompat_flags := 0,
    read_hits := 0, read_misses := 0, write_hits := 0, write_misses := 0 }

/-- refused without `--repair`, dumped as dirty with it -/
example : dump lostBits lostSb false = .error .err ∧ ∃ evs, dump lostBits lostSb true = .ok evs ∧ Ev.mapping 0 7 true ∈ evs ∧
    (readDirty lostBits 3 2).2 0 = none := by
  refine ⟨rfl, _, rfl, ?_, rfl⟩
  decide

end Verif.CacheM
