import Verif.Model.Delta
import Verif.Prop.ThinDump

/-!
# C27: `thin_delta` reports exactly the differences
-/

namespace Verif.Delta

open Verif.BT (Tree Blk Event WSt)
open Verif.Rst (Val)
open Verif.LW (Clean)

/-! ## Specification -/

/-- what is to be said of a thin block that is mapped in at least one of the two devices, with its data blocks -/
inductive Cls where
  | left (d : Nat)
  | right (d : Nat)
  | same (d : Nat)
  | differ (d e : Nat)
  deriving DecidableEq, Repr

/-- `L b d`: block `b` is mapped to `d` on the left; likewise `R` -/
def Is (L R : Nat → Nat → Prop) (b : Nat) : Cls → Prop
  | .left d => L b d ∧ ∀ e, ¬ R b e
  | .right e => R b e ∧ ∀ d, ¬ L b d
  | .same d => L b d ∧ R b d
  | .differ d e => L b d ∧ R b e ∧ d ≠ e

def Cls.kind : Cls → Kind
  | .left _ => .leftOnly
  | .right _ => .rightOnly
  | .same _ => .same
  | .differ .. => .differ

/-- a list of statements on blocks, in order, that are exactly the true ones -/
structure Exact (B : Nat) (E : List (Nat × Cls)) (L R : Nat → Nat → Prop) : Prop where
  lower : ∀ x ∈ E, B ≤ x.1
  sorted : E.Pairwise fun a b => a.1 < b.1
  mem : ∀ b c, (b, c) ∈ E ↔ Is L R b c

/-- what a call of the visitor says of every block -/
def Delta.says : Delta → List (Nat × Cls)
  | .leftOnly m => (List.range m.len).map fun i => (m.thin + i, .left (m.data + i))
  | .rightOnly m => (List.range m.len).map fun i => (m.thin + i, .right (m.data + i))
  | .same m => (List.range m.len).map fun i => (m.thin + i, .same (m.data + i))
  | .differ t l r n => (List.range n).map fun i => (t + i, .differ (l + i) (r + i))

/-- the mapping that a list of runs describes -/
def M (ms : List DM) (b d : Nat) : Prop := ∃ m ∈ ms, m.thin ≤ b ∧ b < m.thin + m.len ∧ d = m.data + (b - m.thin)

/-- the mapping in a tree -/
def Maps (es : List (Nat × Val)) (b d : Nat) : Prop := ∃ t, (b, Val.bt d t) ∈ es

/-! ## Streams -/

/-- runs that follow each other from block `B` on, none of them empty -/
def Good : Nat → List DM → Prop
  | _, [] => True
  | B, m :: ms => B ≤ m.thin ∧ 1 ≤ m.len ∧ Good (m.thin + m.len) ms

theorem Good.mono {B C : Nat} : ∀ {ms : List DM}, Good B ms → C ≤ B → Good C ms
  | [], _, _ => trivial
  | _ :: _, h, hc => ⟨Nat.le_trans hc h.1, h.2.1, h.2.2⟩

theorem good_lower : ∀ {ms : List DM} {B b d : Nat}, Good B ms → M ms b d → B ≤ b := by
  intro ms
  induction ms with
  | nil => rintro B b d _ ⟨m, hm, _⟩; cases hm
  | cons m ms ih =>
    rintro B b d ⟨h1, h2, h3⟩ ⟨x, hx, h4, h5, h6⟩
    rcases List.mem_cons.mp hx with rfl | hx
    · omega
    · have := ih h3 ⟨x, hx, h4, h5, h6⟩
      omega

theorem good_head {B : Nat} {m : DM} {ms : List DM} (h : Good B (m :: ms)) {i : Nat} (hi : i < m.len) (d : Nat) :
    M (m :: ms) (m.thin + i) d ↔ d = m.data + i := by
  constructor
  · rintro ⟨x, hx, h4, h5, h6⟩
    rcases List.mem_cons.mp hx with rfl | hx
    · rw [h6]; omega
    · have := good_lower h.2.2 ⟨x, hx, h4, h5, h6⟩
      omega
  · rintro rfl
    exact ⟨m, by simp, by omega, by omega, by omega⟩

theorem size_cons (m : DM) (ms : List DM) : size (m :: ms) = m.len + 1 + size ms := by simp [size]

theorem consume_cons (n : Nat) (cur : DM) (rest : List DM) : consume n (cur :: rest) =
    if n > cur.len then none else if n = cur.len then some rest else some (⟨cur.thin + n, cur.data + n, cur.len - n⟩ :: rest) := rfl

theorem consume_spec {B : Nat} {m : DM} {ms : List DM} (h : Good B (m :: ms)) {n : Nat} (hn : n ≤ m.len) (hp : 0 < n) :
    ∃ ms', consume n (m :: ms) = some ms' ∧ Good (m.thin + n) ms' ∧ (∀ b d, M ms' b d ↔ M (m :: ms) b d ∧ m.thin + n ≤ b) ∧
      size ms' < size (m :: ms) := by
  rw [consume_cons]
  rw [if_neg (by omega)]
  by_cases e : n = m.len
  · rw [if_pos e]
    refine ⟨ms, rfl, by rw [e]; exact h.2.2, ?_, by rw [size_cons]; omega⟩
    intro b d
    constructor
    · intro hm
      have := good_lower h.2.2 hm
      obtain ⟨x, hx, h4⟩ := hm
      exact ⟨⟨x, List.mem_cons_of_mem _ hx, h4⟩, by omega⟩
    · rintro ⟨⟨x, hx, h4, h5, h6⟩, h7⟩
      rcases List.mem_cons.mp hx with rfl | hx
      · omega
      · exact ⟨x, hx, h4, h5, h6⟩
  · rw [if_neg e]
    refine ⟨_, rfl, ⟨Nat.le_refl _, by simp only; omega, by
      simp only
      rw [show m.thin + n + (m.len - n) = m.thin + m.len by omega]
      exact h.2.2⟩, ?_, by rw [size_cons, size_cons]; simp only; omega⟩
    intro b d
    constructor
    · rintro ⟨x, hx, h4, h5, h6⟩
      rcases List.mem_cons.mp hx with rfl | hx
      · simp only at h4 h5 h6
        exact ⟨⟨m, by simp, by omega, by omega, by omega⟩, h4⟩
      · have := good_lower h.2.2 ⟨x, hx, h4, h5, h6⟩
        exact ⟨⟨x, List.mem_cons_of_mem _ hx, h4, h5, h6⟩, by omega⟩
    · rintro ⟨⟨x, hx, h4, h5, h6⟩, h7⟩
      rcases List.mem_cons.mp hx with rfl | hx
      · exact ⟨_, List.mem_cons_self, h7, by simp only; omega, by simp only; omega⟩
      · exact ⟨x, List.mem_cons_of_mem _ hx, h4, h5, h6⟩

/-! ## One step -/

theorem is_left {L R : Nat → Nat → Prop} {b x : Nat} (hl : ∀ d, L b d ↔ d = x) (hr : ∀ e, ¬ R b e) (c : Cls) : Is L R b c ↔ c = .left x := by
  cases c with
  | left d => simp [Is, hl, hr]
  | right d => simp [Is, hr]
  | same d => simp [Is, hr]
  | differ d e => simp [Is, hr]

theorem is_right {L R : Nat → Nat → Prop} {b x : Nat} (hr : ∀ d, R b d ↔ d = x) (hl : ∀ e, ¬ L b e) (c : Cls) : Is L R b c ↔ c = .right x := by
  cases c with
  | left d => simp [Is, hl]
  | right d => simp [Is, hl, hr]
  | same d => simp [Is, hl]
  | differ d e => simp [Is, hl]

theorem is_both {L R : Nat → Nat → Prop} {b x y : Nat} (hl : ∀ d, L b d ↔ d = x) (hr : ∀ d, R b d ↔ d = y) (c : Cls) :
    Is L R b c ↔ c = if x = y then .same x else .differ x y := by
  have h1 : ¬ ∀ d, ¬ L b d := fun h => h x ((hl x).mpr rfl)
  have h2 : ¬ ∀ d, ¬ R b d := fun h => h y ((hr y).mpr rfl)
  by_cases e : x = y
  · rw [if_pos e]
    cases c with
    | left d => simp [Is, h2]
    | right d => simp [Is, h1]
    | same d =>
      simp only [Is, hl, hr, Cls.same.injEq]
      omega
    | differ d f =>
      simp only [Is, hl, hr, reduceCtorEq, iff_false]
      omega
  · rw [if_neg e]
    cases c with
    | left d => simp [Is, h2]
    | right d => simp [Is, h1]
    | same d =>
      simp only [Is, hl, hr, reduceCtorEq, iff_false]
      omega
    | differ d f =>
      simp only [Is, hl, hr, Cls.differ.injEq]
      omega

/-- a step says the right things of blocks `T … T + n - 1`, the rest of the rest -/
theorem Exact.step {B T n : Nat} {E : List (Nat × Cls)} {L R L' R' : Nat → Nat → Prop} (f : Nat → Cls) (h : Exact (T + n) E L' R') (hB : B ≤ T)
    (hL : ∀ b d, L' b d ↔ L b d ∧ T + n ≤ b) (hR : ∀ b d, R' b d ↔ R b d ∧ T + n ≤ b)
    (hl : ∀ b d, L b d → T ≤ b) (hr : ∀ b d, R b d → T ≤ b) (hf : ∀ i, i < n → ∀ c, Is L R (T + i) c ↔ c = f i) :
    Exact B ((List.range n).map (fun i => (T + i, f i)) ++ E) L R where
  lower := by
    intro x hx
    rcases List.mem_append.mp hx with hx | hx
    · obtain ⟨i, -, rfl⟩ := List.mem_map.mp hx
      simp only
      omega
    · have := h.lower x hx
      omega
  sorted := by
    rw [List.pairwise_append]
    refine ⟨?_, h.sorted, ?_⟩
    · rw [List.pairwise_map]
      exact List.pairwise_lt_range.imp (by intro a b hab; simp only; omega)
    · intro a ha b hb
      obtain ⟨i, hi, rfl⟩ := List.mem_map.mp ha
      have := List.mem_range.mp hi
      have := h.lower b hb
      simp only
      omega
  mem := by
    intro b c
    have hfar : T + n ≤ b → (Is L' R' b c ↔ Is L R b c) := by
      intro hb
      have a1 : ∀ d, L' b d ↔ L b d := fun d => by rw [hL]; exact ⟨fun h => h.1, fun h => ⟨h, hb⟩⟩
      have a2 : ∀ d, R' b d ↔ R b d := fun d => by rw [hR]; exact ⟨fun h => h.1, fun h => ⟨h, hb⟩⟩
      cases c <;> simp only [Is, a1, a2]
    have hmin : Is L R b c → T ≤ b := by
      intro hi
      cases c with
      | left d => exact hl b d hi.1
      | right d => exact hr b d hi.1
      | same d => exact hl b d hi.1
      | differ d e => exact hl b d hi.1
    rw [List.mem_append, h.mem]
    constructor
    · rintro (hx | hx)
      · obtain ⟨i, hi, e⟩ := List.mem_map.mp hx
        cases e
        exact (hf i (List.mem_range.mp hi) _).mpr rfl
      · have := h.lower _ ((h.mem b c).mpr hx)
        exact (hfar this).mp hx
    · intro hi
      have := hmin hi
      by_cases hb : b < T + n
      · left
        have e : b = T + (b - T) := by omega
        rw [e] at hi
        have := (hf (b - T) (by omega) c).mp hi
        exact List.mem_map.mpr ⟨b - T, List.mem_range.mpr (by omega), by rw [← this, ← e]⟩
      · exact Or.inr ((hfar (by omega)).mpr hi)

/-! ## The loop -/

theorem M_nil (b d : Nat) : ¬ M [] b d := by rintro ⟨m, hm, _⟩; cases hm

theorem drain_map (f : DM → Delta) : ∀ ms, drain f ms = some (ms.map f) := by
  intro ms
  induction ms with
  | nil => rfl
  | cons m ms ih =>
    show (consume m.len (m :: ms)).bind _ = _
    rw [consume_cons]
    rw [if_neg (by omega), if_pos rfl, ih]
    rfl

theorem drain_left : ∀ (ms : List DM) (B : Nat), Good B ms → Exact B ((ms.map Delta.leftOnly).flatMap Delta.says) (M ms) (M []) := by
  intro ms
  induction ms with
  | nil =>
    intro B _
    refine ⟨by simp, by simp, ?_⟩
    intro b c
    simp only [List.map_nil, List.flatMap_nil, List.not_mem_nil, false_iff]
    cases c <;> simp [Is, M_nil]
  | cons m ms ih =>
    intro B h
    obtain ⟨ms', h1, h2, h3, -⟩ := consume_spec h (Nat.le_refl m.len) h.2.1
    have e : ms' = ms := by
      rw [consume_cons] at h1
      rw [if_neg (by omega), if_pos rfl] at h1
      exact (Option.some.inj h1).symm
    subst e
    rw [List.map_cons, List.flatMap_cons]
    exact Exact.step (fun i => .left (m.data + i)) (ih _ h2) h.1 h3 (fun b d => by simp [M_nil])
      (fun b d hm => good_lower (h.mono (B := B) (C := B) (Nat.le_refl _) |> fun g => (show Good m.thin (m :: ms') from ⟨Nat.le_refl _, g.2⟩)) hm) (fun b d hm => absurd hm (M_nil b d))
      (fun i hi => is_left (good_head h hi) (fun e => M_nil _ e))

theorem drain_right : ∀ (ms : List DM) (B : Nat), Good B ms → Exact B ((ms.map Delta.rightOnly).flatMap Delta.says) (M []) (M ms) := by
  intro ms
  induction ms with
  | nil =>
    intro B _
    refine ⟨by simp, by simp, ?_⟩
    intro b c
    simp only [List.map_nil, List.flatMap_nil, List.not_mem_nil, false_iff]
    cases c <;> simp [Is, M_nil]
  | cons m ms ih =>
    intro B h
    obtain ⟨ms', h1, h2, h3, -⟩ := consume_spec h (Nat.le_refl m.len) h.2.1
    have e : ms' = ms := by
      rw [consume_cons] at h1
      rw [if_neg (by omega), if_pos rfl] at h1
      exact (Option.some.inj h1).symm
    subst e
    rw [List.map_cons, List.flatMap_cons]
    exact Exact.step (fun i => .right (m.data + i)) (ih _ h2) h.1 (fun b d => by simp [M_nil]) h3 (fun b d hm => absurd hm (M_nil b d))
      (fun b d hm => good_lower (show Good m.thin (m :: ms') from ⟨Nat.le_refl _, h.2⟩) hm)
      (fun i hi => is_right (good_head h hi) (fun e => M_nil _ e))

theorem loop_cons (fuel : Nat) (lm rm : DM) (ls rs : List DM) : loop (fuel + 1) (lm :: ls) (rm :: rs) =
    if lm.thin < rm.thin then
      (consume (min lm.len (rm.thin - lm.thin)) (lm :: ls)).bind fun ls =>
        (loop fuel ls (rm :: rs)).map (.leftOnly ⟨lm.thin, lm.data, min lm.len (rm.thin - lm.thin)⟩ :: ·)
    else if rm.thin < lm.thin then
      (consume (min rm.len (lm.thin - rm.thin)) (rm :: rs)).bind fun rs =>
        (loop fuel (lm :: ls) rs).map (.rightOnly ⟨rm.thin, rm.data, min rm.len (lm.thin - rm.thin)⟩ :: ·)
    else if lm.data = rm.data then
      (consume (min lm.len rm.len) (lm :: ls)).bind fun ls => (consume (min lm.len rm.len) (rm :: rs)).bind fun rs =>
        (loop fuel ls rs).map (.same ⟨lm.thin, lm.data, min lm.len rm.len⟩ :: ·)
    else
      (consume (min lm.len rm.len) (lm :: ls)).bind fun ls => (consume (min lm.len rm.len) (rm :: rs)).bind fun rs =>
        (loop fuel ls rs).map (.differ lm.thin lm.data rm.data (min lm.len rm.len) :: ·) := rfl

theorem loop_exact : ∀ (fuel : Nat) (ls rs : List DM) (B : Nat), Good B ls → Good B rs → size ls + size rs < fuel →
    ∃ ds, loop fuel ls rs = some ds ∧ Exact B (ds.flatMap Delta.says) (M ls) (M rs) := by
  intro fuel
  induction fuel with
  | zero => intro ls rs B _ _ h; omega
  | succ fuel ih =>
    intro ls rs B hl hr hf
    cases ls with
    | nil =>
      refine ⟨rs.map .rightOnly, ?_, drain_right rs B hr⟩
      show drain .rightOnly rs = _
      rw [drain_map]
    | cons lm ls =>
      cases rs with
      | nil =>
        refine ⟨(lm :: ls).map .leftOnly, ?_, drain_left (lm :: ls) B hl⟩
        show drain .leftOnly (lm :: ls) = _
        rw [drain_map]
      | cons rm rs =>
        have hl' : Good lm.thin (lm :: ls) := ⟨Nat.le_refl _, hl.2⟩
        have hr' : Good rm.thin (rm :: rs) := ⟨Nat.le_refl _, hr.2⟩
        have lpos := hl.2.1
        have rpos := hr.2.1
        rw [loop_cons]
        by_cases h1 : lm.thin < rm.thin
        · rw [if_pos h1]
          generalize hn : min lm.len (rm.thin - lm.thin) = n
          have hn1 : 0 < n := by omega
          have hn2 : n ≤ lm.len := by omega
          have hn3 : lm.thin + n ≤ rm.thin := by omega
          obtain ⟨ls', c1, c2, c3, c4⟩ := consume_spec hl' hn2 hn1
          obtain ⟨ds, d1, d2⟩ := ih ls' (rm :: rs) (lm.thin + n) c2 ⟨by omega, hr.2⟩ (by omega)
          rw [c1, Option.bind_some, d1]
          refine ⟨_, rfl, ?_⟩
          rw [List.flatMap_cons]
          refine Exact.step (T := lm.thin) (n := n) (fun i => .left (lm.data + i)) d2 hl.1 c3 ?_ (fun b d => good_lower hl') (fun b d hm => ?_) ?_
          · intro b d
            refine ⟨fun h => ⟨h, ?_⟩, fun h => h.1⟩
            have := good_lower hr' h
            omega
          · have := good_lower hr' hm
            omega
          · intro i hi
            refine is_left (good_head hl (by omega)) ?_
            intro e he
            have := good_lower hr' he
            omega
        · rw [if_neg h1]
          by_cases h2 : rm.thin < lm.thin
          · rw [if_pos h2]
            generalize hn : min rm.len (lm.thin - rm.thin) = n
            have hn1 : 0 < n := by omega
            have hn2 : n ≤ rm.len := by omega
            have hn3 : rm.thin + n ≤ lm.thin := by omega
            obtain ⟨rs', c1, c2, c3, c4⟩ := consume_spec hr' hn2 hn1
            obtain ⟨ds, d1, d2⟩ := ih (lm :: ls) rs' (rm.thin + n) ⟨by omega, hl.2⟩ c2 (by omega)
            rw [c1, Option.bind_some, d1]
            refine ⟨_, rfl, ?_⟩
            rw [List.flatMap_cons]
            refine Exact.step (T := rm.thin) (n := n) (fun i => .right (rm.data + i)) d2 hr.1 ?_ c3 (fun b d hm => ?_) (fun b d => good_lower hr') ?_
            · intro b d
              refine ⟨fun h => ⟨h, ?_⟩, fun h => h.1⟩
              have := good_lower hl' h
              omega
            · have := good_lower hl' hm
              omega
            · intro i hi
              refine is_right (good_head hr (by omega)) ?_
              intro e he
              have := good_lower hl' he
              omega
          · rw [if_neg h2]
            have he : lm.thin = rm.thin := by omega
            generalize hn : min lm.len rm.len = n
            have hn1 : 0 < n := by omega
            obtain ⟨ls', c1, c2, c3, c4⟩ := consume_spec hl' (n := n) (by omega) hn1
            obtain ⟨rs', e1, e2, e3, e4⟩ := consume_spec hr' (n := n) (by omega) hn1
            rw [← he] at e2 e3
            obtain ⟨ds, d1, d2⟩ := ih ls' rs' (lm.thin + n) c2 e2 (by omega)
            have hboth : ∀ i, i < n → ∀ c, Is (M (lm :: ls)) (M (rm :: rs)) (lm.thin + i) c ↔
                c = if lm.data + i = rm.data + i then .same (lm.data + i) else .differ (lm.data + i) (rm.data + i) := by
              intro i hi
              refine is_both (good_head hl (by omega)) ?_
              intro d
              rw [he]
              exact good_head hr (by omega) d
            have hrl : ∀ b d, M (rm :: rs) b d → lm.thin ≤ b := fun b d hm => by rw [he]; exact good_lower hr' hm
            by_cases h3 : lm.data = rm.data
            · rw [if_pos h3, c1, Option.bind_some, e1, Option.bind_some, d1]
              refine ⟨_, rfl, ?_⟩
              rw [List.flatMap_cons]
              refine Exact.step (T := lm.thin) (n := n) (fun i => .same (lm.data + i)) d2 hl.1 c3 e3 (fun b d => good_lower hl') hrl ?_
              intro i hi c
              rw [hboth i hi c, if_pos (by omega)]
            · rw [if_neg h3, c1, Option.bind_some, e1, Option.bind_some, d1]
              refine ⟨_, rfl, ?_⟩
              rw [List.flatMap_cons]
              refine Exact.step (T := lm.thin) (n := n) (fun i => .differ (lm.data + i) (rm.data + i)) d2 hl.1 c3 e3 (fun b d => good_lower hl') hrl ?_
              intro i hi c
              rw [hboth i hi c, if_neg (by omega)]

/-- **C27**, the comparison.  For any two streams of runs the calls of the visitor say of every block exactly what is true of it, and
nothing twice. -/
theorem dumpDelta_exact (ls rs : List DM) (hl : Good 0 ls) (hr : Good 0 rs) :
    ∃ ds, dumpDelta ls rs = some ds ∧ Exact 0 (ds.flatMap Delta.says) (M ls) (M rs) :=
  loop_exact _ ls rs 0 hl hr (by omega)

/-! ## Runs -/

theorem record_good : ∀ (es : List (Nat × Nat)) (run : Option DM) (B : Nat), es.Pairwise (fun a b => a.1 < b.1) →
    (∀ r, run = some r → 1 ≤ r.len ∧ B ≤ r.thin ∧ ∀ e ∈ es, r.thin + r.len ≤ e.1) → (∀ e ∈ es, B ≤ e.1) →
    Good B (record run es) ∧ ∀ b d, M (record run es) b d ↔ (M run.toList b d ∨ (b, d) ∈ es) := by
  intro es
  induction es with
  | nil =>
    intro run B _ hr _
    cases run with
    | none => exact ⟨trivial, fun b d => by simp [record]⟩
    | some r =>
      obtain ⟨h1, h2, -⟩ := hr r rfl
      exact ⟨⟨h2, h1, trivial⟩, fun b d => by simp [record]⟩
  | cons e es ih =>
    intro run B hs hr hB
    obtain ⟨k, v⟩ := e
    rw [List.pairwise_cons] at hs
    have hk : ∀ e ∈ es, k < e.1 := fun e he => hs.1 e he
    have fresh : ∀ C, C ≤ k → Good C (record (some ⟨k, v, 1⟩) es) ∧ ∀ b d, M (record (some ⟨k, v, 1⟩) es) b d ↔ (b, d) ∈ (k, v) :: es := by
      intro C hC
      obtain ⟨i1, i2⟩ := ih (some ⟨k, v, 1⟩) C hs.2 (by
        intro r h
        cases h
        exact ⟨Nat.le_refl _, hC, fun e he => hk e he⟩) (fun e he => by have := hk e he; omega)
      refine ⟨i1, ?_⟩
      intro b d
      rw [i2, List.mem_cons]
      constructor
      · rintro (⟨m, hm, h4, h5, h6⟩ | h)
        · rw [Option.toList_some, List.mem_singleton] at hm
          subst hm
          simp only at h4 h5 h6
          left
          have : b = k := by omega
          subst this
          rw [h6, Nat.sub_self, Nat.add_zero]
        · exact Or.inr h
      · rintro (h | h)
        · cases h
          exact Or.inl ⟨_, List.mem_singleton.mpr rfl, Nat.le_refl _, by simp, by simp⟩
        · exact Or.inr h
    cases run with
    | none =>
      show Good B (record (some ⟨k, v, 1⟩) es) ∧ _
      obtain ⟨f1, f2⟩ := fresh B (hB (k, v) (by simp))
      refine ⟨f1, ?_⟩
      intro b d
      show M (record (some ⟨k, v, 1⟩) es) b d ↔ _
      rw [f2]
      simp [M_nil]
    | some r =>
      obtain ⟨r1, r2, r3⟩ := hr r rfl
      have hrk := r3 (k, v) (by simp)
      simp only at hrk
      unfold record next
      simp only
      by_cases h : r.thin + r.len = k ∧ r.data + r.len = v
      · rw [if_pos h]
        simp only [Option.toList_none, List.nil_append]
        obtain ⟨i1, i2⟩ := ih (some { r with len := r.len + 1 }) B hs.2 (by
          intro q hq
          cases hq
          refine ⟨by simp, r2, ?_⟩
          intro e he
          have := hk e he
          simp only
          omega) (fun e he => by have := hk e he; omega)
        refine ⟨i1, ?_⟩
        intro b d
        rw [i2, List.mem_cons]
        obtain ⟨hk', hv'⟩ := h
        constructor
        · rintro (⟨m, hm, h4, h5, h6⟩ | h)
          · rw [Option.toList_some, List.mem_singleton] at hm
            subst hm
            simp only at h4 h5 h6
            by_cases hb : b < r.thin + r.len
            · exact Or.inl ⟨r, by simp, h4, hb, h6⟩
            · right; left
              have e1 : b = k := by omega
              have e2 : d = v := by omega
              rw [e1, e2]
          · exact Or.inr (Or.inr h)
        · rintro (⟨m, hm, h4, h5, h6⟩ | h | h)
          · rw [Option.toList_some, List.mem_singleton] at hm
            subst hm
            exact Or.inl ⟨_, List.mem_singleton.mpr rfl, h4, by simp only; omega, h6⟩
          · cases h
            refine Or.inl ⟨_, List.mem_singleton.mpr rfl, ?_, ?_, ?_⟩ <;> simp only <;> omega
          · exact Or.inr h
      · rw [if_neg h]
        simp only [Option.toList_some, List.cons_append, List.nil_append]
        obtain ⟨f1, f2⟩ := fresh (r.thin + r.len) hrk
        refine ⟨⟨r2, r1, f1⟩, ?_⟩
        intro b d
        rw [← f2]
        constructor
        · rintro ⟨m, hm, h4⟩
          rcases List.mem_cons.mp hm with rfl | hm
          · exact Or.inl ⟨_, by simp, h4⟩
          · exact Or.inr ⟨m, hm, h4⟩
        · rintro (⟨m, hm, h4⟩ | ⟨m, hm, h4⟩)
          · rw [List.mem_singleton] at hm
            exact ⟨m, by simp [hm], h4⟩
          · exact ⟨m, List.mem_cons_of_mem _ hm, h4⟩

theorem leafEvents_flat {V : Type} : ∀ (h : Nat) (path : List Nat) (kr : BT.KeyRange) (t : Tree V h),
    (BT.leafEvents h path kr t).flatMap visited = t.contents h := by
  intro h
  induction h with
  | zero => intro path kr t; simp [BT.leafEvents, Tree.contents, visited]
  | succ h ih =>
    intro path kr t
    simp only [BT.leafEvents, Tree.contents]
    generalize t.2 = l
    induction l with
    | nil => rfl
    | cons c l ihl =>
      obtain ⟨k, c⟩ := c
      rw [BT.eachRange, List.flatMap_append, ih, ihl, List.flatMap_cons]

theorem getMappings_spec {mem : Nat → Option (Blk Val)} {nr h : Nat} {t : Tree Val h} (hc : Clean mem nr h t)
    (hv : ∀ e ∈ t.contents h, ∃ b tm, e.2 = .bt b tm) :
    ∃ ms, getMappings mem nr (t.blk h) = some ms ∧ Good 0 ms ∧ ∀ b d, M ms b d ↔ Maps (t.contents h) b d := by
  have hroot : t.blk h < nr := hc.bound _ (by cases h <;> simp [Tree.blk, Tree.blocks])
  obtain ⟨h1, h2⟩ := BT.walk_clean (fun b => decide (b < nr)) (fun _ b => mem b) (fun _ _ => true) (fun _ _ => rfl) h t nr 1 (by omega) true
    (nr + 1) (by have := hc.height; omega) [] (by simpa using hroot) hc.stored hc.ordered hc.noEmpty hc.nodup hc.bound
  unfold getMappings
  simp only [h1, if_true, h2]
  have hsort := LW.ordered_sorted h t 0 none hc.ordered
  let g : Nat × Val → Nat × Nat := fun e => (e.1, match e.2 with | .bt b _ => b | _ => 0)
  have hshown : shown (BT.leafEvents h [] ⟨none, none⟩ t ++ [Event.endWalk]) = some ((t.contents h).map g) := by
    unfold shown
    rw [List.flatMap_append, leafEvents_flat]
    simp only [List.flatMap_cons, List.flatMap_nil, visited, List.append_nil]
    apply TDump.collect_map
    intro e he
    obtain ⟨b, tm, e'⟩ := hv e he
    simp only [g, e']
  rw [hshown, Option.map_some]
  obtain ⟨g1, g2⟩ := record_good ((t.contents h).map g) none 0 (by
    rw [List.pairwise_map]; exact hsort) (fun r h => by cases h) (fun e _ => Nat.zero_le _)
  refine ⟨_, rfl, g1, ?_⟩
  intro b d
  rw [g2]
  simp only [Option.toList_none, M_nil, false_or, Maps, List.mem_map]
  constructor
  · rintro ⟨e, he, e'⟩
    obtain ⟨b', tm, e''⟩ := hv e he
    obtain ⟨k, v⟩ := e
    simp only at e''
    subst e''
    cases e'
    exact ⟨tm, he⟩
  · rintro ⟨tm, he⟩
    exact ⟨_, he, rfl⟩

/-! ## The writers -/

/-- block by block: which class -/
def Delta.blocks (d : Delta) : List (Nat × Kind) := (List.range d.len).map fun i => (d.thin + i, d.kind)

theorem says_blocks (d : Delta) : d.says.map (fun x => (x.1, x.2.kind)) = d.blocks := by
  cases d <;> simp [Delta.says, Delta.blocks, Delta.kind, Delta.thin, Delta.len, Cls.kind, Function.comp_def]

theorem grow_blocks {c d : Delta} (hk : c.kind = d.kind) (ht : d.thin = c.thin + c.len) : (c.grow d.len).blocks = c.blocks ++ d.blocks := by
  have e1 : (c.grow d.len).kind = c.kind := by cases c <;> rfl
  have e2 : (c.grow d.len).thin = c.thin := by cases c <;> rfl
  have e3 : (c.grow d.len).len = c.len + d.len := by cases c <;> rfl
  unfold Delta.blocks
  rw [e1, e2, e3, List.range_add, List.map_append, List.map_map, ← hk, ht]
  congr 1
  apply List.map_congr_left
  intro i _
  simp only [Function.comp]
  rw [Nat.add_assoc]

theorem merge_blocks : ∀ (ds : List Delta) (run : Option Delta),
    (mergeRuns run ds).flatMap Delta.blocks = run.toList.flatMap Delta.blocks ++ ds.flatMap Delta.blocks := by
  intro ds
  induction ds with
  | nil => intro run; simp [mergeRuns]
  | cons d ds ih =>
    intro run
    unfold mergeRuns nextDelta
    cases run with
    | none => simp [ih]
    | some c =>
      simp only
      by_cases h : c.kind = d.kind ∧ d.thin = c.thin + c.len
      · rw [if_pos h]
        simp [ih, grow_blocks h.1 h.2]
      · rw [if_neg h]
        simp [ih]

/-- what the simple output says of every block -/
def Tag.blocks : Tag → List (Nat × Kind)
  | .run k t n => (List.range n).map fun i => (t + i, k)
  | _ => []

/-- the class of a block -/
def HasKind (L R : Nat → Nat → Prop) (b : Nat) (k : Kind) : Prop := ∃ c, Is L R b c ∧ c.kind = k

/-- what the verbose output says of every block: the class is that of the enclosing tag -/
def readVerbose : Option Kind → List Tag → List (Nat × Kind)
  | _, .opened k :: ts => readVerbose (some k) ts
  | _, .closed _ :: ts => readVerbose none ts
  | some k, .range t _ n :: ts => ((List.range n).map fun i => (t + i, k)) ++ readVerbose (some k) ts
  | some k, .diffRange t _ _ n :: ts => ((List.range n).map fun i => (t + i, k)) ++ readVerbose (some k) ts
  | k, _ :: ts => readVerbose k ts
  | _, [] => []

theorem readVerbose_runs : ∀ (ds : List Delta) (cur : Option Kind) (rest : List Tag),
    readVerbose cur (verboseTags cur ds ++ rest) = ds.flatMap Delta.blocks ++ readVerbose none rest ∨ (ds = [] ∧ cur = none) := by
  intro ds
  induction ds with
  | nil =>
    intro cur rest
    cases cur with
    | none => exact Or.inr ⟨rfl, rfl⟩
    | some k => exact Or.inl rfl
  | cons d ds ih =>
    intro cur rest
    left
    have t : readVerbose (some d.kind) (verboseTag d :: verboseTags (some d.kind) ds ++ rest) =
        d.blocks ++ (ds.flatMap Delta.blocks ++ readVerbose none rest) := by
      have h := (ih (some d.kind) rest).resolve_right (by simp)
      rw [← h]
      cases d <;> rfl
    rw [List.flatMap_cons, List.append_assoc, ← t]
    show readVerbose cur ((updateType cur d.kind ++ verboseTag d :: verboseTags (some d.kind) ds) ++ rest) = _
    unfold updateType
    cases cur with
    | none => rfl
    | some c =>
      simp only
      by_cases hc : d.kind ≠ c
      · rw [if_pos hc]; rfl
      · rw [if_neg hc]
        have : d.kind = c := Classical.not_not.mp hc
        rw [this]
        rfl

/-- the root of a snapshot: that of the device, or the one given -/
def SnapTree (mem : Nat → Option (Blk Val)) (nr mappingRoot : Nat) (s : Snap) (h : Nat) (t : Tree Val h) : Prop :=
  Clean mem nr h t ∧ (∀ e ∈ t.contents h, ∃ b tm, e.2 = .bt b tm) ∧
  match s with
  | .dev id => ∃ (hm : Nat) (tm : Tree Val hm), Clean mem nr hm tm ∧ tm.blk hm = mappingRoot ∧ (id, .root (t.blk h)) ∈ tm.contents hm
  | .root b => t.blk h = b

theorem snapRoot_spec {mem : Nat → Option (Blk Val)} {nr mappingRoot : Nat} {s : Snap} {h : Nat} {t : Tree Val h}
    (hs : SnapTree mem nr mappingRoot s h t) {hm : Nat} {tm : Tree Val hm} (hc : Clean mem nr hm tm) (hb : tm.blk hm = mappingRoot) :
    snapRoot (tm.contents hm) s = some (t.blk h) := by
  cases s with
  | root b => have := hs.2.2; simp only at this; rw [this]; rfl
  | dev id =>
    obtain ⟨hm', tm', c1, c2, c3⟩ := hs.2.2
    have e : tm'.contents hm' = tm.contents hm := by
      have := LW.btreeToMap_contents c1
      rw [c2, ← hb, LW.btreeToMap_contents hc] at this
      exact (Option.some.inj this).symm
    rw [e] at c3
    have hsort := LW.ordered_sorted hm tm 0 none hc.ordered
    have : (tm.contents hm).find? (·.1 = id) = some (id, .root (t.blk h)) := by
      generalize tm.contents hm = l at c3 hsort
      induction l with
      | nil => cases c3
      | cons a l ih =>
        have hs' := List.pairwise_cons.mp hsort
        rcases List.mem_cons.mp c3 with h1 | h1
        · subst h1
          simp
        · have := hs'.1 _ h1
          simp only at this
          rw [List.find?_cons_of_neg (by simp; omega)]
          exact ih h1 hs'.2
    show ((tm.contents hm).find? (·.1 = id)).bind _ = _
    rw [this]
    rfl

/-- **C27**.  For two clean mapping trees, found by device or by root, `thin_delta` writes a document in which exactly the blocks that are
mapped on one of the sides appear, once each and in increasing order, each in the right class: only left, only right, same data
block, or different data blocks. -/
theorem dumpDiff_exact {mem : Nat → Option (Blk Val)} {nr mappingRoot hm : Nat} {tm : Tree Val hm} (hc : Clean mem nr hm tm)
    (hb : tm.blk hm = mappingRoot) {s1 s2 : Snap} {h1 h2 : Nat} {t1 : Tree Val h1} {t2 : Tree Val h2}
    (ht1 : SnapTree mem nr mappingRoot s1 h1 t1) (ht2 : SnapTree mem nr mappingRoot s2 h2 t2) (verbose : Bool) :
    ∃ tags, dumpDiff mem nr mappingRoot verbose s1 s2 = some ([.superblock, .diff s1 s2] ++ tags ++ [.endDiff, .endSuperblock]) ∧
      ∃ bs : List (Nat × Kind), (if verbose then readVerbose none tags else tags.flatMap Tag.blocks) = bs ∧
        bs.Pairwise (fun a b => a.1 < b.1) ∧
        ∀ b k, (b, k) ∈ bs ↔ HasKind (Maps (t1.contents h1)) (Maps (t2.contents h2)) b k := by
  obtain ⟨m1, a1, a2, a3⟩ := getMappings_spec ht1.1 ht1.2.1
  obtain ⟨m2, b1, b2, b3⟩ := getMappings_spec ht2.1 ht2.2.1
  obtain ⟨ds, d1, d2⟩ := dumpDelta_exact m1 m2 a2 b2
  have hbs : (ds.flatMap Delta.says).map (fun x => (x.1, x.2.kind)) = (mergeRuns none ds).flatMap Delta.blocks := by
    rw [merge_blocks, List.map_flatMap]
    simp only [says_blocks]
    rfl
  have hread : ∀ v : Bool, (if v then readVerbose none (verboseTags none (mergeRuns none ds)) else ((mergeRuns none ds).map simpleTag).flatMap Tag.blocks) =
      (mergeRuns none ds).flatMap Delta.blocks := by
    intro v
    cases v with
    | false =>
      simp only [Bool.false_eq_true, if_false]
      rw [List.flatMap_map]
      rfl
    | true =>
      simp only [if_true]
      have := readVerbose_runs (mergeRuns none ds) none []
      simp only [List.append_nil] at this
      rcases this with h | ⟨h, -⟩
      · rw [h]; simp [readVerbose]
      · rw [h]; rfl
  refine ⟨if verbose then verboseTags none (mergeRuns none ds) else (mergeRuns none ds).map simpleTag, ?_,
    (ds.flatMap Delta.says).map (fun x => (x.1, x.2.kind)), ?_, ?_, ?_⟩
  · unfold dumpDiff
    rw [← hb, LW.btreeToMap_contents hc]
    simp only [bind, Option.bind_some]
    rw [snapRoot_spec ht1 hc hb, Option.bind_some, a1, Option.bind_some, snapRoot_spec ht2 hc hb, Option.bind_some, b1, Option.bind_some, d1,
      Option.bind_some]
  · rw [hbs, ← hread verbose]
    cases verbose <;> rfl
  · rw [List.pairwise_map]
    exact d2.sorted
  · intro b k
    have hL : ∀ b d, M m1 b d ↔ Maps (t1.contents h1) b d := a3
    have hR : ∀ b d, M m2 b d ↔ Maps (t2.contents h2) b d := b3
    have hI : ∀ c, Is (M m1) (M m2) b c ↔ Is (Maps (t1.contents h1)) (Maps (t2.contents h2)) b c := by
      intro c
      cases c <;> simp only [Is, hL, hR]
    rw [List.mem_map]
    constructor
    · rintro ⟨⟨b', c⟩, hm, e⟩
      cases e
      exact ⟨c, (hI c).mp ((d2.mem _ c).mp hm), rfl⟩
    · rintro ⟨c, hc', rfl⟩
      exact ⟨(b, c), (d2.mem b c).mpr ((hI c).mpr hc'), rfl⟩

/-! ## Not vacuous -/

/-- two devices with two leaves each -/
def demoMem : Nat → Option (Blk Val)
  | 1 => some (.leaf [(3, .root 2), (8, .root 5)])
  | 2 => some (.leaf [(0, .bt 10 0), (1, .bt 11 0), (2, .bt 12 0), (7, .bt 3 0), (8, .bt 9 1)])
  | 5 => some (.leaf [(1, .bt 11 0), (2, .bt 20 2), (8, .bt 9 2), (9, .bt 10 2)])
  | _ => none

example : dumpDiff demoMem 10 1 false (.dev 3) (.dev 8) = some [.superblock, .diff (.dev 3) (.dev 8),
    .run .leftOnly 0 1, .run .same 1 1, .run .differ 2 1, .run .leftOnly 7 1, .run .same 8 1, .run .rightOnly 9 1, .endDiff, .endSuperblock] := by
  decide

example : SnapTree demoMem 10 1 (.dev 3) 0 ((2, [(0, .bt 10 0), (1, .bt 11 0), (2, .bt 12 0), (7, .bt 3 0), (8, .bt 9 1)]) : Nat × List (Nat × Val)) := by
  refine ⟨⟨rfl, ?_, Or.inl rfl, by simp [Tree.blocks]⟩, ?_, 0, ((1, [(3, .root 2), (8, .root 5)]) : Nat × List (Nat × Val)),
    ⟨rfl, ?_, Or.inl rfl, by simp [Tree.blocks]⟩, rfl, ?_⟩
  · simp [Tree.Ordered, BT.Chain, BT.Below, BT.nextKey]
  · intro e he
    simp only [Tree.contents, List.mem_cons, List.not_mem_nil, or_false] at he
    rcases he with rfl | rfl | rfl | rfl | rfl <;> exact ⟨_, _, rfl⟩
  · simp [Tree.Ordered, BT.Chain, BT.Below, BT.nextKey]
  · simp [Tree.contents, Tree.blk]

/-! ## What the verbose output gets wrong -/

/-- The ranges of the verbose output do not give the right data blocks: runs that touch in the thin device are joined even if their data blocks
do not.  Here the left device maps block 0 to 10 and block 1 to 20, and the output says that blocks 0 and 1 are at 10 and 11. -/
theorem verbose_data_refuted : ∃ (mem : Nat → Option (Blk Val)),
    mem 2 = some (.leaf [(0, .bt 10 0), (1, .bt 20 0)]) ∧ mem 5 = some (.leaf []) ∧
    dumpDiff mem 10 1 true (.dev 3) (.dev 8) = some [.superblock, .diff (.dev 3) (.dev 8), .opened .leftOnly, .range 0 10 2, .closed .leftOnly,
      .endDiff, .endSuperblock] := by
  refine ⟨fun b => if b = 1 then some (.leaf [(3, .root 2), (8, .root 5)]) else if b = 2 then some (.leaf [(0, .bt 10 0), (1, .bt 20 0)])
    else if b = 5 then some (.leaf []) else none, rfl, rfl, by decide⟩

end Verif.Delta
