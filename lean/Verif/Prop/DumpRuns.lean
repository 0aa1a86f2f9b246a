import Verif.Model.DumpRuns

/-!
# C23: the runs emitted by `thin_dump` are lossless and maximal
-/

namespace Verif.Dump

/-! ## Specification -/

/-- the entries a run stands for -/
def Run.entries (r : Run) : List Entry := (List.range r.len).map fun i => ⟨r.thin + i, r.data + i, r.time⟩

/-- `b` continues `a`: they describe one longer run -/
def Run.Continues (a b : Run) : Prop := b.thin = a.thin + a.len ∧ b.data = a.data + a.len ∧ b.time = a.time

/-- no run is empty and none continues its predecessor -/
def Maximal : List Run → Prop
  | [] => True
  | [a] => 1 ≤ a.len
  | a :: b :: l => 1 ≤ a.len ∧ ¬ Run.Continues a b ∧ Maximal (b :: l)

/-! ## Proof -/

theorem entries_one (e : Entry) : Run.entries ⟨e.thin, e.data, e.time, 1⟩ = [e] := rfl

theorem entries_succ (r : Run) : Run.entries { r with len := r.len + 1 } =
    r.entries ++ [⟨r.thin + r.len, r.data + r.len, r.time⟩] := by
  unfold Run.entries
  rw [List.range_succ, List.map_append]
  rfl

/-- the state of the run builder: nothing, or a non-empty run -/
def Good (o : Option Run) : Prop := ∀ r, o = some r → 1 ≤ r.len

/-- the pending run as entries -/
def pend (o : Option Run) : List Entry := o.toList.flatMap Run.entries

theorem next_good (o : Option Run) (e : Entry) : Good (next o e).1 := by
  intro r h
  unfold next at h
  cases o with
  | none => cases h; exact Nat.le_refl 1
  | some q =>
    simp only at h
    split at h
    · cases h; simp only; omega
    · cases h; exact Nat.le_refl 1

theorem next_entries (o : Option Run) (e : Entry) :
    (next o e).2.toList.flatMap Run.entries ++ pend (next o e).1 = pend o ++ [e] := by
  unfold next
  cases o with
  | none => rfl
  | some q =>
    simp only
    split
    · next h =>
      obtain ⟨h1, h2, h3⟩ := h
      simp only [Option.toList, List.flatMap_nil, List.nil_append, pend, List.flatMap_cons, List.append_nil]
      rw [entries_succ, ← h1, ← h2, h3]
    · simp [Option.toList, pend, entries_one]

theorem visit_entries (es : List Entry) : ∀ o,
    (visit o es).2.flatMap Run.entries ++ pend (visit o es).1 = pend o ++ es := by
  induction es with
  | nil => intro o; simp [visit]
  | cons e es ih =>
    intro o
    have h1 := next_entries o e
    have h2 := ih (next o e).1
    simp only [visit, List.flatMap_append, List.append_assoc]
    rw [h2, ← List.append_assoc, h1]
    simp

theorem visitLeaves_entries (ls : List (List Entry)) : ∀ o,
    (visitLeaves o ls).flatMap Run.entries = pend o ++ ls.flatten := by
  induction ls with
  | nil => intro o; simp [visitLeaves, pend]
  | cons l ls ih =>
    intro o
    simp only [visitLeaves, List.flatMap_append, ih, List.flatten_cons]
    rw [← List.append_assoc, visit_entries, List.append_assoc]

theorem visit_append (a b : List Entry) : ∀ o,
    visit o (a ++ b) = ((visit (visit o a).1 b).1, (visit o a).2 ++ (visit (visit o a).1 b).2) := by
  induction a with
  | nil => intro o; simp [visit]
  | cons e a ih => intro o; simp only [List.cons_append, visit, ih, List.append_assoc]

/-- where the leaves end does not matter -/
theorem visitLeaves_flatten (ls : List (List Entry)) : ∀ o,
    visitLeaves o ls = (visit o ls.flatten).2 ++ (visit o ls.flatten).1.toList := by
  induction ls with
  | nil => intro o; simp [visitLeaves, visit]
  | cons l ls ih => intro o; simp only [visitLeaves, List.flatten_cons, visit_append, ih, List.append_assoc]

theorem visit_maximal (es : List Entry) : ∀ (q : Run), 1 ≤ q.len →
    Maximal ((visit (some q) es).2 ++ (visit (some q) es).1.toList) ∧
    ∃ h, ((visit (some q) es).2 ++ (visit (some q) es).1.toList).head? = some h ∧
      h.thin = q.thin ∧ h.data = q.data ∧ h.time = q.time := by
  induction es with
  | nil => intro q hq; exact ⟨hq, q, rfl, rfl, rfl, rfl⟩
  | cons e es ih =>
    intro q hq
    simp only [visit, next]
    split
    · next hc =>
      obtain ⟨h1, h, h2, h3⟩ := ih { q with len := q.len + 1 } (by simp only; omega)
      exact ⟨by simpa using h1, h, by simpa using h2, h3⟩
    · next hc =>
      obtain ⟨h1, h, h2, h3, h4, h5⟩ := ih ⟨e.thin, e.data, e.time, 1⟩ (Nat.le_refl 1)
      have e0 : (some q : Option Run).toList = [q] := rfl
      rw [e0]
      simp only [List.cons_append, List.nil_append]
      refine ⟨?_, q, rfl, rfl, rfl, rfl⟩
      generalize (visit (some ⟨e.thin, e.data, e.time, 1⟩) es).2 ++
        (visit (some ⟨e.thin, e.data, e.time, 1⟩) es).1.toList = l at *
      cases l with
      | nil => cases h2
      | cons b l =>
        cases h2
        refine ⟨hq, ?_, h1⟩
        rintro ⟨c1, c2, c3⟩
        simp only at h3 h4 h5
        exact hc ⟨by omega, by omega, by omega⟩

/-- C23: for any leaves of a device, the runs that are emitted describe exactly the mapping entries, in order, and no two
consecutive runs could be merged. -/
theorem dump_runs_exact (leaves : List (List Entry)) :
    (dumpDevice leaves).flatMap Run.entries = leaves.flatten ∧ Maximal (dumpDevice leaves) := by
  refine ⟨by unfold dumpDevice; rw [visitLeaves_entries]; rfl, ?_⟩
  unfold dumpDevice
  rw [visitLeaves_flatten]
  cases leaves.flatten with
  | nil => trivial
  | cons e es =>
    have := (visit_maximal es ⟨e.thin, e.data, e.time, 1⟩ (Nat.le_refl 1)).1
    simpa [visit, next] using this

/-- the runs depend only on the entries, not on how they are spread over leaves -/
theorem dump_runs_layout (l l' : List (List Entry)) (h : l.flatten = l'.flatten) : dumpDevice l = dumpDevice l' := by
  unfold dumpDevice
  rw [visitLeaves_flatten, visitLeaves_flatten, h]

example : dumpDevice [[⟨0, 5, 1⟩, ⟨1, 6, 1⟩], [⟨2, 7, 1⟩, ⟨3, 8, 2⟩], [⟨9, 9, 2⟩]] =
    [⟨0, 5, 1, 3⟩, ⟨3, 8, 2, 1⟩, ⟨9, 9, 2, 1⟩] := by decide

end Verif.Dump
