import Verif.Model.Rmap
import Verif.Prop.WalkerShared
import Verif.Prop.SpaceMapCheck
import Verif.Prop.Delta

/-!
# C28: `thin_rmap`
-/

namespace Verif.Rmap

open Verif.BT (Tree Blk Event WSt)
open Verif.Rst (Val)
open Verif.TDump (Metadata)
open Verif.Rst (DevT)

/-! ## Specification -/

/-- device, thin block, data block -/
abbrev Row := Nat × Nat × Nat

/-- what a line of the output says: data blocks `first .. fin` are the blocks of `dev` from `thin` on -/
def Region.rows (r : Region) : List Row := (List.range (r.fin - r.first)).map fun i => (r.dev, r.thin + i, r.first + i)

/-- the mappings of a device to the requested data blocks -/
def wanted (regions : List (Nat × Nat)) (d : DevT) : List Row :=
  (d.t.contents d.h).filterMap fun e => match e.2 with
    | .bt b _ => if ∃ r ∈ regions, r.1 ≤ b ∧ b < r.2 then some (d.id, e.1, b) else none
    | _ => none

/-- no two devices have a block of metadata in common -/
def Unshared (devs : List DevT) : Prop := devs.Pairwise fun a b => ∀ x ∈ a.t.blocks a.h, x ∉ b.t.blocks b.h

/-! ## The visitor -/

theorem inRegions_iff {regions : List (Nat × Nat)} {b : Nat} : inRegions regions b = true ↔ ∃ r ∈ regions, r.1 ≤ b ∧ b < r.2 := by
  simp [inRegions]

/-- everything the visitor knows of -/
def RSt.rows (st : RSt) : List Row := st.rmap.flatMap Region.rows ++ st.current.rows

theorem visit_rows (regions : List (Nat × Nat)) (st : RSt) (k d : Nat) :
    (visit regions st (k, d)).rows = st.rows ++ (if inRegions regions d then [(st.dev, k, d)] else []) ∧ (visit regions st (k, d)).dev = st.dev := by
  unfold visit
  cases h : inRegions regions d with
  | false => simp
  | true =>
    simp only [Bool.not_true, Bool.false_eq_true, if_false, if_true]
    unfold adjacent
    by_cases h0 : st.current.fin - st.current.first = 0
    · rw [if_pos h0]
      simp only [if_true, RSt.rows, Region.rows]
      refine ⟨?_, trivial⟩
      rw [h0, show d + 1 - d = 1 by omega]
      simp [List.range_succ]
    · rw [if_neg h0]
      by_cases h1 : st.dev ≠ st.current.dev ∨ d ≠ st.current.fin ∨ k ≠ st.current.thin + (st.current.fin - st.current.first)
      · rw [if_pos h1]
        simp only [Bool.false_eq_true, if_false, RSt.rows, List.flatMap_append, List.flatMap_cons, List.flatMap_nil, List.append_nil]
        refine ⟨?_, trivial⟩
        congr 1
        simp only [Region.rows]
        rw [show d + 1 - d = 1 by omega]
        simp [List.range_succ]
      · rw [if_neg h1]
        simp only [ne_eq, not_or, Classical.not_not] at h1
        obtain ⟨e1, e2, e3⟩ := h1
        simp only [if_true, RSt.rows, Region.rows]
        refine ⟨?_, trivial⟩
        rw [show st.current.fin + 1 - st.current.first = (st.current.fin - st.current.first) + 1 by omega, List.range_succ, List.map_append,
          List.append_assoc]
        congr 2
        simp only [List.map_cons, List.map_nil]
        rw [← e3, ← e1, show st.current.first + (st.current.fin - st.current.first) = d by omega]

theorem fold_rows (regions : List (Nat × Nat)) : ∀ (es : List (Nat × Nat)) (st : RSt),
    (es.foldl (visit regions) st).rows = st.rows ++ (es.filter fun e => inRegions regions e.2).map (fun e => (st.dev, e.1, e.2)) ∧
      (es.foldl (visit regions) st).dev = st.dev := by
  intro es
  induction es with
  | nil => intro st; simp
  | cons e es ih =>
    intro st
    obtain ⟨k, d⟩ := e
    obtain ⟨h1, h2⟩ := visit_rows regions st k d
    obtain ⟨h3, h4⟩ := ih (visit regions st (k, d))
    rw [List.foldl_cons, h3, h4, h1, h2]
    refine ⟨?_, rfl⟩
    rw [List.filter_cons]
    cases inRegions regions d <;> simp

theorem le_total (a b : Region) : (le a b || le b a) = true := by
  unfold le
  repeat' split
  all_goals first
    | rfl
    | omega

theorem le_iff (a b : Region) : le a b = true ↔ a.first < b.first ∨ a.first = b.first ∧ (a.fin < b.fin ∨ a.fin = b.fin ∧ (a.dev < b.dev ∨
    a.dev = b.dev ∧ a.thin ≤ b.thin)) := by
  unfold le
  repeat' split
  all_goals simp only [Bool.false_eq_true, true_iff, false_iff]
  all_goals omega

theorem le_trans (a b c : Region) (h1 : le a b = true) (h2 : le b c = true) : le a c = true := by
  rw [le_iff] at *
  omega

theorem insertSorted_perm (r : Region) : ∀ l, (insertSorted r l).Perm (r :: l) := by
  intro l
  induction l with
  | nil => exact List.Perm.refl _
  | cons x l ih =>
    unfold insertSorted
    split
    · exact List.Perm.refl _
    · exact (ih.cons x).trans (List.Perm.swap r x l)

theorem sort_perm : ∀ l, (sort l).Perm l := by
  intro l
  induction l with
  | nil => exact List.Perm.refl _
  | cons x l ih => exact (insertSorted_perm x (sort l)).trans (ih.cons x)

theorem insertSorted_sorted (r : Region) : ∀ l, l.Pairwise (fun a b => le a b = true) → (insertSorted r l).Pairwise (fun a b => le a b = true) := by
  intro l
  induction l with
  | nil => intro _; simp [insertSorted]
  | cons x l ih =>
    intro h
    obtain ⟨h1, h2⟩ := List.pairwise_cons.mp h
    unfold insertSorted
    split
    · next hr =>
      refine List.pairwise_cons.mpr ⟨?_, h⟩
      intro y hy
      rcases List.mem_cons.mp hy with rfl | hy
      · exact hr
      · exact le_trans r x y hr (h1 y hy)
    · next hr =>
      refine List.pairwise_cons.mpr ⟨?_, ih h2⟩
      intro y hy
      rcases List.mem_cons.mp ((insertSorted_perm r l).mem_iff.mp hy) with rfl | hy
      · have := le_total y x
        rw [Bool.eq_false_iff.mpr hr, Bool.false_or] at this
        exact this
      · exact h1 y hy

theorem sort_sorted : ∀ l, (sort l).Pairwise (fun a b => le a b = true) := by
  intro l
  induction l with
  | nil => exact List.Pairwise.nil
  | cons x l ih => exact insertSorted_sorted x (sort l) ih

/-- the lines are exactly what was collected, sorted by data block -/
theorem complete_spec (st : RSt) : ((complete st).flatMap Region.rows).Perm st.rows ∧ (complete st).Pairwise (fun a b => a.first ≤ b.first) := by
  unfold complete
  constructor
  · have h := Pack.flatMap_perm (f := Region.rows) (sort_perm (if st.current.fin > st.current.first then st.rmap ++ [st.current] else st.rmap))
    refine h.trans ?_
    by_cases hc : st.current.fin > st.current.first
    · rw [if_pos hc, List.flatMap_append]
      simp [RSt.rows]
    · rw [if_neg hc]
      have : st.current.rows = [] := by
        simp only [Region.rows]
        rw [show st.current.fin - st.current.first = 0 by omega]; rfl
      rw [RSt.rows, this, List.append_nil]
  · refine (sort_sorted _).imp ?_
    intro a b h
    have := (le_iff a b).mp h
    omega

/-! ## The devices -/

theorem shown_ok {l : List (Event Val)} (h : ∀ e ∈ l, ∀ x ∈ Delta.visited e, ∃ b t, x.2 = Val.bt b t) :
    ∃ es, Delta.shown l = some es ∧ ∀ k b, (k, b) ∈ es ↔ ∃ e ∈ l, ∃ t, (k, Val.bt b t) ∈ Delta.visited e := by
  have : Delta.shown l = some ((l.flatMap Delta.visited).map fun e => (e.1, match e.2 with | .bt b _ => b | _ => 0)) := by
    apply TDump.collect_map
    intro x hx
    obtain ⟨e, he, hx⟩ := List.mem_flatMap.mp hx
    obtain ⟨b, t, e'⟩ := h e he x hx
    simp only [e']
  refine ⟨_, this, ?_⟩
  intro k b
  rw [List.mem_map]
  constructor
  · rintro ⟨⟨k', v⟩, hx, e'⟩
    obtain ⟨e, he, hx⟩ := List.mem_flatMap.mp hx
    obtain ⟨b', t, e''⟩ := h e he _ hx
    simp only at e''
    subst e''
    cases e'
    exact ⟨e, he, t, hx⟩
  · rintro ⟨e, he, t, hx⟩
    exact ⟨_, List.mem_flatMap.mpr ⟨e, he, hx⟩, rfl⟩

theorem mem_wanted {regions : List (Nat × Nat)} {d : DevT} {r : Row} :
    r ∈ wanted regions d ↔ r.1 = d.id ∧ inRegions regions r.2.2 = true ∧ ∃ t, (r.2.1, Val.bt r.2.2 t) ∈ d.t.contents d.h := by
  obtain ⟨i, k, b⟩ := r
  simp only [wanted, List.mem_filterMap, inRegions_iff]
  constructor
  · rintro ⟨⟨k', v⟩, he, h⟩
    cases v with
    | bt b' t =>
      simp only at h
      split at h
      · next hr => cases h; exact ⟨rfl, hr, t, he⟩
      · cases h
    | _ => cases h
  · rintro ⟨rfl, hr, t, he⟩
    exact ⟨_, he, by simp only [if_pos hr]⟩

theorem blk_mem {V : Type} (h : Nat) (t : Tree V h) : t.blk h ∈ t.blocks h := by cases h <;> simp [Tree.blk, Tree.blocks]

/-- the visitor that never fails -/
abbrev yes : List (Event Val) → Event Val → Bool := fun _ _ => true

theorem walkDevs_shared {mem : Nat → Option (Blk Val)} {nr : Nat} (regions : List (Nat × Nat)) : ∀ (devs : List DevT) (w : WSt Val) (st : RSt),
    (∀ d ∈ devs, d.id < 2 ^ 32 ∧ LW.Clean mem nr d.h d.t ∧ ∀ e ∈ d.t.contents d.h, ∃ b t, e.2 = .bt b t) →
    w.nr = nr → w.mx = 1 → w.sat = true → (∀ x, w.fails x = false) → BT.AllClosed (fun _ b => mem b) yes w →
    ∃ (st' : RSt) (w' : WSt Val), walkDevs mem nr regions (devs.map fun d => (d.id, d.t.blk d.h)) w st = some st' ∧
      BT.Mono w w' ∧ BT.AllClosed (fun _ b => mem b) yes w' ∧ (∀ d ∈ devs, 0 < w'.seen (d.t.blk d.h)) ∧
      (∀ r ∈ st.rows, r ∈ st'.rows) ∧ (∀ r ∈ st'.rows, r ∈ st.rows ∨ ∃ d ∈ devs, r ∈ wanted regions d) ∧
      (∃ l, w'.log = w.log ++ l ∧ ∀ e ∈ l, ∀ k b t, (k, Val.bt b t) ∈ Delta.visited e → inRegions regions b = true → ∃ i, (i, k, b) ∈ st'.rows) := by
  intro devs
  induction devs with
  | nil =>
    intro w st _ _ _ _ _ hall
    exact ⟨st, w, rfl, BT.Mono.refl w, hall, by simp, fun _ h => h, fun _ h => Or.inl h, [], by simp, by simp⟩
  | cons d devs ih =>
    intro w st hd hnr hmx hsat hfl hall
    obtain ⟨hid, hc, hv⟩ := hd d (by simp)
    have hroot : d.t.blk d.h < nr := hc.bound _ (blk_mem d.h d.t)
    obtain ⟨r1, r2⟩ := BT.walk_sh (fun b => decide (b < nr)) (fun _ b => mem b) yes (fun _ _ => rfl) d.h d.t [] (nr + 1)
      (by have := hc.height; omega) hc.stored hc.ordered hc.noEmpty w hsat (by simpa using hroot) (by rw [hnr]; exact hroot) hfl
    have hm := BT.walk_mono (fun b => decide (b < nr)) (fun _ b => mem b) yes (nr + 1) [] (d.t.blk d.h) w (by omega)
    obtain ⟨c1, c2⟩ := BT.walk_closed (fun b => decide (b < nr)) (fun _ b => mem b) (fun _ _ h => h) yes w (by omega) (nr + 1) [] (d.t.blk d.h) hall r1
    obtain ⟨hfl', l, l1, l2⟩ := r2
    obtain ⟨es, e1, e2⟩ := shown_ok (l := l) (fun e he x hx => hv x (l2 e he x hx))
    obtain ⟨f1, f2⟩ := fold_rows regions es { st with dev := d.id % 2 ^ 32 }
    rw [List.map_cons]
    unfold walkDevs
    simp only
    generalize hW : BT.walk (fun b => decide (b < nr)) (fun _ b => mem b) (fun _ _ => true) (nr + 1) [] (d.t.blk d.h) w = W at *
    obtain ⟨st', w', i1, i2, i3, i4, i5, i6, l', i7, i8⟩ := ih W.1 (es.foldl (visit regions) { st with dev := d.id % 2 ^ 32 })
      (fun d hd' => hd d (List.mem_cons_of_mem _ hd')) (by rw [hm.nr, hnr]) (by rw [hm.mx, hmx]) (by rw [hm.sat, hsat]) hfl' c1
    have hst : ∀ r, r ∈ (es.foldl (visit regions) { st with dev := d.id % 2 ^ 32 }).rows ↔ r ∈ st.rows ∨ r.1 = d.id ∧ inRegions regions r.2.2 = true ∧ (r.2.1, r.2.2) ∈ es := by
      intro r
      rw [f1, List.mem_append]
      refine or_congr Iff.rfl ?_
      simp only [List.mem_map, List.mem_filter, Nat.mod_eq_of_lt hid]
      obtain ⟨i, k, b⟩ := r
      constructor
      · rintro ⟨⟨k', b'⟩, ⟨h1, h2⟩, h3⟩
        cases h3
        exact ⟨rfl, h2, h1⟩
      · rintro ⟨rfl, h2, h1⟩
        exact ⟨(k, b), ⟨h1, h2⟩, rfl⟩
    refine ⟨st', w', ?_, hm.trans i2, i3, ?_, ?_, ?_, l ++ l', ?_, ?_⟩
    · rw [if_pos r1, l1, List.drop_left, e1, Option.bind_some]
      exact i1
    · intro d' hd'
      rcases List.mem_cons.mp hd' with rfl | hd'
      · exact Nat.lt_of_lt_of_le c2 (i2.seen _)
      · exact i4 d' hd'
    · exact fun r hr => i5 r ((hst r).mpr (Or.inl hr))
    · intro r hr
      rcases i6 r hr with h | ⟨d', hd', h⟩
      · rcases (hst r).mp h with h | ⟨h1, h2, h3⟩
        · exact Or.inl h
        · obtain ⟨e, he, t, hx⟩ := (e2 _ _).mp h3
          exact Or.inr ⟨d, by simp, mem_wanted.mpr ⟨h1, h2, t, l2 e he _ hx⟩⟩
      · exact Or.inr ⟨d', List.mem_cons_of_mem _ hd', h⟩
    · rw [i7, l1, List.append_assoc]
    · intro e he k b t hx hr
      rcases List.mem_append.mp he with he | he
      · exact ⟨d.id, i5 _ ((hst _).mpr (Or.inr ⟨rfl, hr, (e2 k b).mpr ⟨e, he, t, hx⟩⟩))⟩
      · exact i8 e he k b t hx hr

theorem devs_collect {devs : List DevT} : Gather.collect (fun e : Nat × Val => (TDump.asRoot e.2).map fun r => (e.1, r))
    (devs.map fun d => (d.id, Val.root (d.t.blk d.h))) = some (devs.map fun d => (d.id, d.t.blk d.h)) := by
  have := TDump.collect_map (f := fun e : Nat × Val => (TDump.asRoot e.2).map fun r => (e.1, r))
    (g := fun e : Nat × Val => (e.1, match e.2 with | .root b => b | _ => 0)) (devs.map fun d => (d.id, Val.root (d.t.blk d.h))) (by
      intro e he
      obtain ⟨d, -, rfl⟩ := List.mem_map.mp he
      rfl)
  rw [this, List.map_map]
  rfl

/-- **C28**, what holds with any sharing between the devices.  On consistent metadata the tool succeeds; the lines are sorted by data block;
every block they list is mapped as they say and lies in a requested region; and every mapping to a requested data block is listed for at least
one of the devices that have it.
Missing: it is not listed for *every* device (`rmap_shared_refuted`). -/
theorem rmap_shared_partial {mem : Nat → Option (Blk Val)} {nr mappingRoot detailsRoot : Nat} {devs : List DevT}
    (h : Metadata mem nr mappingRoot detailsRoot devs) (regions : List (Nat × Nat)) :
    ∃ out, rmap mem nr mappingRoot regions = some out ∧ out.Pairwise (fun a b => a.first ≤ b.first) ∧
      (∀ r ∈ out.flatMap Region.rows, ∃ d ∈ devs, r ∈ wanted regions d) ∧
      (∀ d ∈ devs, ∀ r ∈ wanted regions d, ∃ d' ∈ devs, (d'.id, r.2) ∈ out.flatMap Region.rows ∧ (d'.id, r.2) ∈ wanted regions d') := by
  obtain ⟨hm, tm, c1, c2, c3⟩ := h.top
  obtain ⟨st, w, i1, i2, i3, i4, -, i6, l, i7, i8⟩ := walkDevs_shared (mem := mem) (nr := nr) regions devs (WSt.fresh nr 1 true) RSt.init
    (fun d hd => ⟨h.ids d hd, h.dev d hd⟩) rfl rfl rfl (fun _ => rfl) (by intro x hx; simp [WSt.fresh] at hx)
  obtain ⟨s1, s2⟩ := complete_spec st
  have hrow : ∀ r ∈ st.rows, ∃ d ∈ devs, r ∈ wanted regions d := by
    intro r hr
    rcases i6 r hr with h' | h'
    · simp [RSt.rows, RSt.init, Region.rows] at h'
    · exact h'
  refine ⟨complete st, ?_, s2, fun r hr => hrow r (s1.mem_iff.mp hr), ?_⟩
  · unfold rmap
    rw [← c2, LW.btreeToMap_contents c1, c3]
    simp only [bind, Option.bind_some]
    rw [devs_collect, Option.bind_some, i1, Option.bind_some]
  · intro d hd r hr
    obtain ⟨h1, h2, t, h3⟩ := mem_wanted.mp hr
    have hc := (h.dev d hd).1
    obtain ⟨b, hb, es, e1, e2⟩ := SMC.leaf_of_entry d.h d.t true hc.stored _ h3
    have hnr : w.nr = nr := i2.nr
    obtain ⟨-, hcov⟩ := BT.covered_of_seen i3 (i4 d hd) (SMC.reach_tree d.h d.t true hc.stored (by rw [hnr]; exact hc.bound) .root b hb)
    unfold BT.Covered at hcov
    simp only [e1] at hcov
    obtain ⟨pre, post, path, kr, hl, -⟩ := hcov
    rw [i7] at hl
    have hin : Event.visit (path ++ [b]) kr es ∈ l := by
      have e : (WSt.fresh (V := Val) nr 1 true).log = [] := rfl
      rw [e, List.nil_append] at hl
      rw [hl]; simp
    obtain ⟨i, hi⟩ := i8 _ hin r.2.1 r.2.2 t e2 h2
    obtain ⟨d', hd', hw⟩ := hrow _ hi
    have : i = d'.id := (mem_wanted.mp hw).1
    subst this
    exact ⟨d', hd', s1.mem_iff.mpr hi, hw⟩

theorem filter_wanted (regions : List (Nat × Nat)) (d : DevT) (hv : ∀ e ∈ d.t.contents d.h, ∃ b t, e.2 = Val.bt b t) :
    (((d.t.contents d.h).map fun e => (e.1, match e.2 with | .bt b _ => b | _ => 0)).filter fun e => inRegions regions e.2).map
      (fun e => (d.id, e.1, e.2)) = wanted regions d := by
  unfold wanted
  generalize d.t.contents d.h = l at hv
  induction l with
  | nil => rfl
  | cons e l ih =>
    obtain ⟨k, v⟩ := e
    obtain ⟨b, t, e'⟩ := hv (k, v) (by simp)
    simp only at e'
    subst e'
    have ih' := ih (fun e he => hv e (List.mem_cons_of_mem _ he))
    rw [List.map_cons, List.filter_cons, List.filterMap_cons]
    simp only
    by_cases hr : ∃ r ∈ regions, r.1 ≤ b ∧ b < r.2
    · rw [if_pos (inRegions_iff.mpr hr), if_pos hr, List.map_cons, ih']
    · rw [if_neg (by rw [inRegions_iff]; exact hr), if_neg hr, ih']

theorem walkDevs_unshared {mem : Nat → Option (Blk Val)} {nr : Nat} (regions : List (Nat × Nat)) : ∀ (devs : List DevT) (w : WSt Val) (st : RSt),
    (∀ d ∈ devs, d.id < 2 ^ 32 ∧ LW.Clean mem nr d.h d.t ∧ ∀ e ∈ d.t.contents d.h, ∃ b t, e.2 = .bt b t) → Unshared devs →
    w.nr = nr → w.mx = 1 → (∀ d ∈ devs, ∀ b ∈ d.t.blocks d.h, w.seen b = 0) →
    ∃ st' : RSt, walkDevs mem nr regions (devs.map fun d => (d.id, d.t.blk d.h)) w st = some st' ∧
      st'.rows = st.rows ++ devs.flatMap (wanted regions) := by
  intro devs
  induction devs with
  | nil => intro w st _ _ _ _ _; exact ⟨st, rfl, by simp⟩
  | cons d devs ih =>
    intro w st hd hun hnr hmx hse
    obtain ⟨hid, hc, hv⟩ := hd d (by simp)
    have hroot : d.t.blk d.h < nr := hc.bound _ (blk_mem d.h d.t)
    obtain ⟨r1, r2, r3, r4, r5⟩ := BT.walk_clean_from (fun b => decide (b < nr)) (fun _ b => mem b) (fun _ _ => true) d.h d.t w (by omega) (nr + 1)
      (by have := hc.height; omega) [] (fun _ _ _ => rfl) (by simpa using hroot) hc.stored hc.ordered hc.noEmpty hc.nodup
      (fun x hx => ⟨by rw [hnr]; exact hc.bound x hx, hse d (by simp) x hx⟩)
    obtain ⟨u1, u2⟩ := List.pairwise_cons.mp hun
    rw [List.map_cons]
    unfold walkDevs
    simp only
    rw [if_pos r1, r2, List.append_assoc, List.drop_left]
    have hshown : Delta.shown (BT.leafEvents d.h [] ⟨none, none⟩ d.t ++ [Event.endWalk]) =
        some ((d.t.contents d.h).map fun e => (e.1, match e.2 with | .bt b _ => b | _ => 0)) := by
      unfold Delta.shown
      rw [List.flatMap_append, Delta.leafEvents_flat]
      simp only [List.flatMap_cons, List.flatMap_nil, Delta.visited, List.append_nil]
      apply TDump.collect_map
      intro e he
      obtain ⟨b, t, e'⟩ := hv e he
      simp only [e']
    rw [hshown, Option.bind_some]
    obtain ⟨f1, -⟩ := fold_rows regions ((d.t.contents d.h).map fun e => (e.1, match e.2 with | .bt b _ => b | _ => 0)) { st with dev := d.id % 2 ^ 32 }
    simp only [Nat.mod_eq_of_lt hid] at f1
    rw [filter_wanted regions d hv] at f1
    obtain ⟨st', i1, i2⟩ := ih _ (((d.t.contents d.h).map fun e => (e.1, match e.2 with | .bt b _ => b | _ => 0)).foldl (visit regions) { st with dev := d.id % 2 ^ 32 })
      (fun d hd' => hd d (List.mem_cons_of_mem _ hd')) u2 (by rw [r4, hnr]) (by rw [r5, hmx]) (by
        intro d' hd' b hb
        rw [r3 b (fun hx => u1 d' hd' b hx hb)]
        exact hse d' (List.mem_cons_of_mem _ hd') b hb)
    refine ⟨st', i1, ?_⟩
    rw [i2, Nat.mod_eq_of_lt hid, f1, List.flatMap_cons, List.append_assoc]
    rfl

/-- **C28**.  If the devices do not share metadata, the lines list exactly the mappings to the requested data blocks, each once, and are sorted by data
block. -/
theorem rmap_exact_partial {mem : Nat → Option (Blk Val)} {nr mappingRoot detailsRoot : Nat} {devs : List DevT}
    (h : Metadata mem nr mappingRoot detailsRoot devs) (hun : Unshared devs) (regions : List (Nat × Nat)) :
    ∃ out, rmap mem nr mappingRoot regions = some out ∧ out.Pairwise (fun a b => a.first ≤ b.first) ∧
      (out.flatMap Region.rows).Perm (devs.flatMap (wanted regions)) := by
  obtain ⟨hm, tm, c1, c2, c3⟩ := h.top
  obtain ⟨st, i1, i2⟩ := walkDevs_unshared (mem := mem) (nr := nr) regions devs (WSt.fresh nr 1 true) RSt.init
    (fun d hd => ⟨h.ids d hd, h.dev d hd⟩) hun rfl rfl (fun _ _ _ _ => rfl)
  obtain ⟨s1, s2⟩ := complete_spec st
  refine ⟨complete st, ?_, s2, ?_⟩
  · unfold rmap
    rw [← c2, LW.btreeToMap_contents c1, c3]
    simp only [bind, Option.bind_some]
    rw [devs_collect, Option.bind_some, i1, Option.bind_some]
  · rw [i2] at s1
    simpa [RSt.rows, RSt.init, Region.rows] using s1

/-! ## Not vacuous, and what fails -/

/-- two devices of one leaf each -/
def demoMem : Nat → Option (Blk Val)
  | 1 => some (.leaf [(3, .root 2), (8, .root 5)])
  | 2 => some (.leaf [(0, .bt 20 0), (1, .bt 21 0), (2, .bt 12 0), (7, .bt 3 0)])
  | 5 => some (.leaf [(1, .bt 11 0), (2, .bt 12 2), (8, .bt 100 2)])
  | 7 => some (.leaf [(3, .det ⟨4, 0, 0, 0⟩), (8, .det ⟨3, 0, 0, 0⟩)])
  | _ => none

/-- its devices -/
def demoDevs : List DevT :=
  [⟨3, ⟨4, 0, 0, 0⟩, 0, (2, [(0, .bt 20 0), (1, .bt 21 0), (2, .bt 12 0), (7, .bt 3 0)])⟩,
   ⟨8, ⟨3, 0, 0, 0⟩, 0, (5, [(1, .bt 11 0), (2, .bt 12 2), (8, .bt 100 2)])⟩]

example : Metadata demoMem 10 1 7 demoDevs where
  sorted := by decide
  ids := by intro d hd; simp [demoDevs] at hd; rcases hd with rfl | rfl <;> decide
  top := ⟨0, (1, [(3, .root 2), (8, .root 5)]), ⟨rfl, by simp [Tree.Ordered, BT.Chain, BT.Below], Or.inl rfl, by simp [Tree.blocks]⟩, rfl, rfl⟩
  details := ⟨0, (7, [(3, .det ⟨4, 0, 0, 0⟩), (8, .det ⟨3, 0, 0, 0⟩)]), ⟨rfl, by simp [Tree.Ordered, BT.Chain, BT.Below], Or.inl rfl,
    by simp [Tree.blocks]⟩, rfl, rfl⟩
  dev := by
    intro d hd
    simp only [demoDevs, List.mem_cons, List.not_mem_nil, or_false] at hd
    rcases hd with rfl | rfl
    · refine ⟨⟨rfl, ?_, Or.inl rfl, ?_⟩, ?_⟩ <;> simp [Tree.Ordered, BT.Chain, BT.Below, Tree.blocks, Tree.contents]
    · refine ⟨⟨rfl, ?_, Or.inl rfl, ?_⟩, ?_⟩ <;> simp [Tree.Ordered, BT.Chain, BT.Below, Tree.blocks, Tree.contents]

example : Unshared demoDevs := by simp [Unshared, demoDevs, Tree.blocks]

example : rmap demoMem 10 1 [(10, 21), (50, 200)] =
    some [⟨11, 13, 8, 1⟩, ⟨12, 13, 3, 2⟩, ⟨20, 21, 3, 0⟩, ⟨100, 101, 8, 8⟩] := by decide

/-- two devices that are snapshots of each other -/
def snapMem : Nat → Option (Blk Val)
  | 1 => some (.leaf [(3, .root 2), (8, .root 2)])
  | 2 => some (.leaf [(0, .bt 20 0)])
  | 7 => some (.leaf [(3, .det ⟨1, 0, 0, 0⟩), (8, .det ⟨1, 0, 0, 0⟩)])
  | _ => none

/-- **C28 fails with sharing**: two devices that are snapshots of each other, with the same root, both with block 0 at data block 20.  The tool lists
that block for the first device only. -/
theorem rmap_shared_refuted : ∃ devs : List DevT, Metadata snapMem 10 1 7 devs ∧
    ∃ out, rmap snapMem 10 1 [(0, 100)] = some out ∧ ∃ d ∈ devs, ∃ r ∈ wanted [(0, 100)] d, r ∉ out.flatMap Region.rows := by
  refine ⟨[⟨3, ⟨1, 0, 0, 0⟩, 0, (2, [(0, .bt 20 0)])⟩, ⟨8, ⟨1, 0, 0, 0⟩, 0, (2, [(0, .bt 20 0)])⟩], ?_, [⟨20, 21, 3, 0⟩], by decide,
    ⟨8, ⟨1, 0, 0, 0⟩, 0, (2, [(0, .bt 20 0)])⟩, by simp, (8, 0, 20), ?_, by decide⟩
  · refine ⟨by decide, ?_, ⟨0, (1, [(3, .root 2), (8, .root 2)]), ⟨rfl, by simp [Tree.Ordered, BT.Chain, BT.Below], Or.inl rfl,
      by simp [Tree.blocks]⟩, rfl, rfl⟩, ⟨0, (7, [(3, .det ⟨1, 0, 0, 0⟩), (8, .det ⟨1, 0, 0, 0⟩)]),
      ⟨rfl, by simp [Tree.Ordered, BT.Chain, BT.Below], Or.inl rfl, by simp [Tree.blocks]⟩, rfl, rfl⟩, ?_⟩
    · intro d hd; simp at hd; rcases hd with rfl | rfl <;> decide
    · intro d hd
      simp only [List.mem_cons, List.not_mem_nil, or_false] at hd
      rcases hd with rfl | rfl
      · refine ⟨⟨rfl, ?_, Or.inl rfl, ?_⟩, ?_⟩ <;> simp [Tree.Ordered, BT.Chain, BT.Below, Tree.blocks, Tree.contents]
      · refine ⟨⟨rfl, ?_, Or.inl rfl, ?_⟩, ?_⟩ <;> simp [Tree.Ordered, BT.Chain, BT.Below, Tree.blocks, Tree.contents]
  · simp [wanted, Tree.contents]

end Verif.Rmap
