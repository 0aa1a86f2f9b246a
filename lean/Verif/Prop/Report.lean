import Verif.Model.Report

/-!
# C80: reports from many threads
-/

namespace Verif.Rpt

/-! ## Specification -/

/-- `Merge ls l`: `l` is an interleaving of the threads `ls`, each in its own order -/
inductive Merge {α : Type} : List (List α) → List α → Prop where
  | done {ls} : (∀ l ∈ ls, l = []) → Merge ls []
  | next {pre post : List (List α)} {x : α} {t r} : Merge (pre ++ t :: post) r → Merge (pre ++ (x :: t) :: post) (x :: r)

/-- did this thread report a fatal error? -/
def saysFatal {T : Type} (cs : List (Call T)) : Prop := ∃ t, Call.fatal t ∈ cs

/-- did this thread report a non fatal error? -/
def saysNonFatal {T : Type} (cs : List (Call T)) : Prop := ∃ t, Call.nonFatal t ∈ cs

/-! ## Lemmas -/

/-- severity -/
def sev : Outcome → Nat
  | .success => 0
  | .nonFatal => 1
  | .fatal => 2

theorem sev_combine (a b : Outcome) : sev (combine a b) = max (sev a) (sev b) := by
  cases a <;> cases b <;> rfl

/-- the outcome updates among the steps -/
def updates {T : Type} : List (Step T) → List Outcome
  | [] => []
  | .update o :: l => o :: updates l
  | _ :: l => updates l

theorem run_outcome {T : Type} (l : List (Step T)) : ∀ s : St T, ∀ n, n ≤ sev (s.run l).outcome ↔ n ≤ sev s.outcome ∨ ∃ o, Step.update o ∈ l ∧ n ≤ sev o := by
  induction l with
  | nil => intro s n; simp [St.run]
  | cons x l ih =>
    intro s n
    have h : s.run (x :: l) = (s.step x).run l := rfl
    rw [h, ih]
    cases x with
    | update o =>
      simp only [St.step, sev_combine]
      constructor
      · rintro (h | ⟨o', h1, h2⟩)
        · by_cases hn : n ≤ sev s.outcome
          · exact Or.inl hn
          · exact Or.inr ⟨o, by simp, by omega⟩
        · exact Or.inr ⟨o', by simp [h1], h2⟩
      · rintro (h | ⟨o', h1, h2⟩)
        · exact Or.inl (by omega)
        · simp only [List.mem_cons, Step.update.injEq] at h1
          rcases h1 with rfl | h1
          · exact Or.inl (by omega)
          · exact Or.inr ⟨o', h1, h2⟩
    | log t lv =>
      have e : (s.step (.log t lv)).outcome = s.outcome := by
        simp only [St.step]
        by_cases hc : s.inner = .loud ∧ lv.num ≤ s.level.num
        · rw [if_pos hc]
        · rw [if_neg hc]
      rw [e]; simp
    | setLevel lv => simp [St.step]

theorem merge_mem {α : Type} {ls : List (List α)} {l : List α} (h : Merge ls l) : ∀ x, x ∈ l ↔ ∃ t ∈ ls, x ∈ t := by
  induction h with
  | done h0 =>
    intro x
    simp only [List.not_mem_nil, false_iff, not_exists, not_and]
    intro t ht; rw [h0 t ht]; simp
  | @next pre post y t r _ ih =>
    intro x
    simp only [List.mem_cons, ih, List.mem_append]
    constructor
    · rintro (rfl | ⟨u, hu, hx⟩)
      · exact ⟨x :: t, by simp, by simp⟩
      · rcases hu with hu | rfl | hu
        · exact ⟨u, by simp [hu], hx⟩
        · exact ⟨y :: u, by simp, by simp [hx]⟩
        · exact ⟨u, by simp [hu], hx⟩
    · rintro ⟨u, hu, hx⟩
      rcases hu with hu | rfl | hu
      · exact Or.inr ⟨u, by simp [hu], hx⟩
      · simp only [List.mem_cons] at hx
        rcases hx with rfl | hx
        · exact Or.inl rfl
        · exact Or.inr ⟨t, by simp, hx⟩
      · exact Or.inr ⟨u, by simp [hu], hx⟩

theorem steps_update {T : Type} (cs : List (Call T)) (o : Outcome) : Step.update o ∈ cs.flatMap Call.steps ↔
    (o = .fatal ∧ saysFatal cs) ∨ (o = .nonFatal ∧ saysNonFatal cs) := by
  simp only [List.mem_flatMap, saysFatal, saysNonFatal]
  constructor
  · rintro ⟨c, hc, h⟩
    cases c <;> simp [Call.steps] at h
    · exact Or.inr ⟨h, _, hc⟩
    · exact Or.inl ⟨h, _, hc⟩
  · rintro (⟨rfl, t, h⟩ | ⟨rfl, t, h⟩)
    · exact ⟨_, h, by simp [Call.steps]⟩
    · exact ⟨_, h, by simp [Call.steps]⟩

theorem level_log {T : Type} (l : List (Step T)) (hl : ∀ x ∈ l, ∀ lv, x ≠ .setLevel lv) : ∀ s : St T, (s.run l).level = s.level ∧ (s.run l).inner = s.inner := by
  induction l with
  | nil => intro s; exact ⟨rfl, rfl⟩
  | cons x l ih =>
    intro s
    have h : s.run (x :: l) = (s.step x).run l := rfl
    rw [h]
    obtain ⟨a, b⟩ := ih (fun y hy => hl y (by simp [hy])) (s.step x)
    rw [a, b]
    cases x with
    | update o => exact ⟨rfl, rfl⟩
    | log t lv =>
      simp only [St.step]
      by_cases hc : s.inner = .loud ∧ lv.num ≤ s.level.num
      · rw [if_pos hc]; exact ⟨rfl, rfl⟩
      · rw [if_neg hc]; exact ⟨rfl, rfl⟩
    | setLevel lv => exact absurd rfl (hl (.setLevel lv) (by simp) lv)

/-- what a step prints -/
def shown {T : Type} (i : Inner) (lv : Level) : Step T → Option T
  | .log t l => if i = .loud ∧ l.num ≤ lv.num then some t else none
  | _ => none

theorem run_printed {T : Type} (l : List (Step T)) (hl : ∀ x ∈ l, ∀ lv, x ≠ .setLevel lv) : ∀ s : St T,
    (s.run l).printed = s.printed ++ l.filterMap (shown s.inner s.level) := by
  induction l with
  | nil => intro s; simp [St.run]
  | cons x l ih =>
    intro s
    have h : s.run (x :: l) = (s.step x).run l := rfl
    rw [h, ih (fun y hy => hl y (by simp [hy]))]
    cases x with
    | update o => rfl
    | log t lv =>
      by_cases hc : s.inner = .loud ∧ lv.num ≤ s.level.num
      · have e : s.step (.log t lv) = { s with printed := s.printed ++ [t] } := if_pos hc
        have e2 : shown s.inner s.level (Step.log t lv) = some t := if_pos hc
        rw [e, List.filterMap_cons, e2]; simp
      · have e : s.step (.log t lv) = s := if_neg hc
        have e2 : shown s.inner s.level (Step.log t lv) = none := if_neg hc
        rw [e, List.filterMap_cons, e2]
    | setLevel lv => exact absurd rfl (hl (.setLevel lv) (by simp) lv)

theorem calls_noSet {T : Type} (cs : List (Call T)) : ∀ x ∈ cs.flatMap Call.steps, ∀ lv, x ≠ .setLevel lv := by
  intro x hx lv e
  subst e
  obtain ⟨c, _, h⟩ := List.mem_flatMap.mp hx
  cases c <;> simp [Call.steps] at h

/-! ## Theorems -/

/-- C80.  Whatever the threads report and however their calls interleave, the outcome is fatal if and only if some thread
reported a fatal error, and a success if and only if none reported an error of either kind.  Printing does not matter. -/
theorem outcome_any_schedule {T : Type} (inner : Inner) (threads : List (List (Call T))) (l : List (Step T))
    (h : Merge (threads.map fun cs => cs.flatMap Call.steps) l) :
    (((St.new T inner).run l).outcome = .fatal ↔ ∃ cs ∈ threads, saysFatal cs) ∧
    (((St.new T inner).run l).outcome = .success ↔ ∀ cs ∈ threads, ¬ saysFatal cs ∧ ¬ saysNonFatal cs) := by
  have hm : ∀ o, Step.update o ∈ l ↔ ∃ cs ∈ threads, (o = .fatal ∧ saysFatal cs) ∨ (o = .nonFatal ∧ saysNonFatal cs) := by
    intro o
    rw [merge_mem h]
    constructor
    · rintro ⟨t, ht, hx⟩
      obtain ⟨cs, hcs, rfl⟩ := List.mem_map.mp ht
      exact ⟨cs, hcs, (steps_update cs o).mp hx⟩
    · rintro ⟨cs, hcs, hx⟩
      exact ⟨_, List.mem_map.mpr ⟨cs, hcs, rfl⟩, (steps_update cs o).mpr hx⟩
  have hr := run_outcome l (St.new T inner)
  constructor
  · have h2 := hr 2
    constructor
    · intro e
      rw [e] at h2
      rcases h2.mp (by decide) with h | ⟨o, ho, hn⟩
      · exact absurd h (by simp [St.new, sev])
      · obtain ⟨cs, hcs, (⟨rfl, hf⟩ | ⟨rfl, hf⟩)⟩ := (hm o).mp ho
        · exact ⟨cs, hcs, hf⟩
        · exact absurd hn (by decide)
    · rintro ⟨cs, hcs, hf⟩
      have := h2.mpr (Or.inr ⟨.fatal, (hm .fatal).mpr ⟨cs, hcs, Or.inl ⟨rfl, hf⟩⟩, by decide⟩)
      revert this
      cases ((St.new T inner).run l).outcome <;> simp [sev]
  · have h1 := hr 1
    constructor
    · intro e cs hcs
      rw [e] at h1
      constructor
      · intro hf
        exact absurd (h1.mpr (Or.inr ⟨.fatal, (hm .fatal).mpr ⟨cs, hcs, Or.inl ⟨rfl, hf⟩⟩, by decide⟩)) (by decide)
      · intro hf
        exact absurd (h1.mpr (Or.inr ⟨.nonFatal, (hm .nonFatal).mpr ⟨cs, hcs, Or.inr ⟨rfl, hf⟩⟩, by decide⟩)) (by decide)
    · intro hall
      have : ¬ 1 ≤ sev ((St.new T inner).run l).outcome := by
        intro hc
        rcases h1.mp hc with h | ⟨o, ho, hn⟩
        · exact absurd h (by simp [St.new, sev])
        · obtain ⟨cs, hcs, (⟨_, hf⟩ | ⟨_, hf⟩)⟩ := (hm o).mp ho
          · exact (hall cs hcs).1 hf
          · exact (hall cs hcs).2 hf
      revert this
      cases ((St.new T inner).run l).outcome <;> simp [sev]

/-- C80, messages: with a level at or above `error` (the default is `warning`, and `-v` only raises it) every message of
an error is printed, whatever the schedule; warnings are printed from `warning` on. -/
theorem errors_printed {T : Type} (s : St T) (hi : s.inner = .loud) (threads : List (List (Call T))) (l : List (Step T))
    (h : Merge (threads.map fun cs => cs.flatMap Call.steps) l) (cs : List (Call T)) (hcs : cs ∈ threads) (t : T) :
    (Call.fatal t ∈ cs → t ∈ (s.run l).printed) ∧
    (Call.nonFatal t ∈ cs → s.level ≠ .fatal → t ∈ (s.run l).printed) ∧
    (Call.warning t ∈ cs → (s.level = .warning ∨ s.level = .info ∨ s.level = .debug) → t ∈ (s.run l).printed) := by
  have hno : ∀ x ∈ l, ∀ lv, x ≠ .setLevel lv := by
    intro x hx
    obtain ⟨u, hu, hxu⟩ := (merge_mem h x).mp hx
    obtain ⟨cs', _, rfl⟩ := List.mem_map.mp hu
    exact calls_noSet cs' x hxu
  have key : ∀ (c : Call T) (lv : Level), c ∈ cs → Step.log t lv ∈ c.steps → lv.num ≤ s.level.num → t ∈ (s.run l).printed := by
    intro c lv hc hs hle
    rw [run_printed l hno]
    refine List.mem_append_right _ (List.mem_filterMap.mpr ⟨.log t lv, ?_, ?_⟩)
    · exact (merge_mem h _).mpr ⟨_, List.mem_map.mpr ⟨cs, hcs, rfl⟩, List.mem_flatMap.mpr ⟨c, hc, hs⟩⟩
    · exact if_pos ⟨hi, hle⟩
  refine ⟨fun hc => key _ .fatal hc (by simp [Call.steps]) ?_, fun hc hl => key _ .error hc (by simp [Call.steps]) ?_,
    fun hc hl => key _ .warning hc (by simp [Call.steps]) ?_⟩
  · cases s.level <;> decide
  · revert hl; cases s.level <;> simp [Level.num]
  · rcases hl with e | e | e <;> rw [e] <;> decide

/-- nothing else is printed: a printed message was reported by some thread, and a quiet report prints nothing -/
theorem printed_reported {T : Type} (s : St T) (h0 : s.printed = []) (threads : List (List (Call T))) (l : List (Step T))
    (h : Merge (threads.map fun cs => cs.flatMap Call.steps) l) (t : T) (ht : t ∈ (s.run l).printed) :
    s.inner = .loud ∧ ∃ cs ∈ threads, Call.fatal t ∈ cs ∨ Call.nonFatal t ∈ cs ∨ Call.warning t ∈ cs ∨
      (Call.info t ∈ cs ∧ (s.level = .info ∨ s.level = .debug)) ∨ (Call.debug t ∈ cs ∧ s.level = .debug) := by
  have hno : ∀ x ∈ l, ∀ lv, x ≠ .setLevel lv := by
    intro x hx
    obtain ⟨u, hu, hxu⟩ := (merge_mem h x).mp hx
    obtain ⟨cs', _, rfl⟩ := List.mem_map.mp hu
    exact calls_noSet cs' x hxu
  rw [run_printed l hno, h0, List.nil_append] at ht
  obtain ⟨x, hx, hxt⟩ := List.mem_filterMap.mp ht
  cases x with
  | update o => simp [shown] at hxt
  | setLevel lv => simp [shown] at hxt
  | log t' lv =>
    simp only [shown] at hxt
    by_cases hc : s.inner = .loud ∧ lv.num ≤ s.level.num
    · rw [if_pos hc] at hxt
      simp only [Option.some.injEq] at hxt
      subst hxt
      refine ⟨hc.1, ?_⟩
      obtain ⟨u, hu, hxu⟩ := (merge_mem h _).mp hx
      obtain ⟨cs, hcs, rfl⟩ := List.mem_map.mp hu
      obtain ⟨c, hcc, hs⟩ := List.mem_flatMap.mp hxu
      refine ⟨cs, hcs, ?_⟩
      have hle := hc.2
      cases c <;> simp [Call.steps] at hs <;> obtain ⟨rfl, rfl⟩ := hs
      · refine Or.inr (Or.inr (Or.inr (Or.inl ⟨hcc, ?_⟩)))
        revert hle; cases s.level <;> simp [Level.num]
      · refine Or.inr (Or.inr (Or.inr (Or.inr ⟨hcc, ?_⟩)))
        revert hle; cases s.level <;> simp [Level.num]
      · exact Or.inr (Or.inr (Or.inl hcc))
      · exact Or.inr (Or.inl hcc)
      · exact Or.inl hcc
    · rw [if_neg hc] at hxt; simp at hxt

/-- C80, verbosity: up to 252 times `-v` never lowers the level, so nothing that is printed by default is lost -/
theorem verbose_ok (cnt : Nat) (h : cnt ≤ 252) : ∃ l, parseLevel cnt = some l ∧ 3 ≤ l.num ∧ (1 ≤ cnt → 4 ≤ l.num) ∧ (2 ≤ cnt → l = .debug) := by
  unfold parseLevel
  by_cases h0 : cnt > 0
  · rw [if_pos h0, Nat.mod_eq_of_lt (by omega)]
    by_cases h1 : cnt = 1
    · subst h1; exact ⟨.info, rfl, by decide, by decide, by omega⟩
    · obtain ⟨k, rfl⟩ : ∃ k, cnt = k + 2 := ⟨cnt - 2, by omega⟩
      refine ⟨.debug, ?_, by decide, by intro _; decide, fun _ => rfl⟩
      rw [show 3 + (k + 2) = k + 5 by omega]; rfl
  · rw [if_neg h0]
    exact ⟨.warning, rfl, by decide, by omega, by omega⟩

/-- and beyond that the 8 bit sum wraps: one more is refused, and the next leaves only fatal errors -/
theorem verbose_wraps_refuted : parseLevel 253 = none ∧ parseLevel 254 = some .fatal := by decide

/-- The progress shown never exceeds 100 per cent while what was processed is at most the total, for totals the word size
allows. -/
theorem percent_le (p t : Nat) (h0 : 0 < t) (h : p ≤ t) (hw : p * 100 < 2 ^ 64) : ∃ n, percent p t = some n ∧ n ≤ 100 ∧ n * t ≤ p * 100 ∧ p * 100 < (n + 1) * t := by
  unfold percent
  rw [if_neg (by omega), Nat.mod_eq_of_lt hw]
  have h1 : p * 100 / t ≤ 100 := by
    have : p * 100 ≤ 100 * t := by omega
    exact Nat.div_le_of_le_mul (by rw [Nat.mul_comm t]; exact this)
  refine ⟨_, rfl, ?_⟩
  rw [Nat.mod_eq_of_lt (by omega)]
  exact ⟨h1, Nat.div_mul_le_self _ _, by rw [Nat.mul_comm (p * 100 / t + 1)]; exact Nat.lt_mul_div_succ _ h0⟩

/-- with nothing to process the progress thread divides by zero -/
theorem percent_zero_refuted (p : Nat) : percent p 0 = none := rfl

/-- non-vacuity: two threads, one schedule -/
example : Merge ([[Call.warning 1, .nonFatal 2], [.fatal 3]].map fun cs : List (Call Nat) => cs.flatMap Call.steps)
    [.log 1 .warning, .update .fatal, .update .nonFatal, .log 2 .error, .log 3 .fatal] :=
  .next (pre := []) (.next (pre := [_]) (.next (pre := []) (.next (pre := []) (.next (pre := [_]) (.done (by simp))))))

end Verif.Rpt
