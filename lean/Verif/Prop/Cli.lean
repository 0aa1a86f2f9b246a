import Verif.Model.Cli
import Verif.Prop.Units
import Verif.Prop.Sizes

/-!
# C84, C85: command lines
-/

namespace Verif.Cli

open Verif.Units (Unit' showNat)

/-! ## Specification -/

/-- what may follow the name of a file in a path: slashes, each followed by a dot or not -/
inductive Trail : Str → Prop where
  | nil : Trail []
  | slash {s} : Trail s → Trail ('/' :: s)
  | dot {s} : Trail s → Trail ('/' :: '.' :: s)

/-- the path `p` names the file `n` of some directory -/
def Names (p n : Str) : Prop :=
  ∃ dir trail, p = dir ++ n ++ trail ∧ (dir = [] ∨ ∃ d, dir = d ++ ['/']) ∧ Trail trail ∧ '/' ∉ n ∧ n ≠ [] ∧ n ≠ ['.'] ∧ n ≠ ['.', '.']

/-- what each family of tools can do -/
def verbs : List (String × List String) :=
  [("thin", ["check", "repair", "dump", "restore", "ls", "delta", "rmap", "trim", "shrink", "migrate", "metadata_pack", "metadata_unpack", "metadata_size"]),
   ("cache", ["check", "repair", "dump", "restore", "writeback", "metadata_size"]),
   ("era", ["check", "repair", "dump", "restore", "invalidate"])]

/-- the name of a tool: family, underscore, verb -/
def ToolName (t : Str) : Prop := ∃ f vs v, (f, vs) ∈ verbs ∧ v ∈ vs ∧ t = (f ++ "_" ++ v).toList

/-! ## Paths -/

theorem pieces_ne (p : Str) : pieces p ≠ [] := by
  cases p with
  | nil => simp [pieces]
  | cons c cs =>
    unfold pieces
    split
    · simp
    · split <;> simp

theorem pieces_noSlash {n : Str} (h : '/' ∉ n) : pieces n = [n] := by
  induction n with
  | nil => rfl
  | cons c cs ih =>
    unfold pieces
    rw [if_neg (fun e => h (by simp [e])), ih (fun e => h (List.mem_cons_of_mem _ e))]

theorem pieces_slash (a b : Str) : pieces (a ++ '/' :: b) = pieces a ++ pieces b := by
  induction a with
  | nil => simp [pieces]
  | cons c cs ih =>
    simp only [List.cons_append, pieces]
    by_cases hc : c = '/'
    · rw [if_pos hc, if_pos hc, ih]; rfl
    · rw [if_neg hc, if_neg hc, ih]
      cases hp : pieces cs with
      | nil => exact absurd hp (pieces_ne cs)
      | cons p ps => rfl

/-- pieces that name nothing -/
def Dead (q : Str) : Prop := q = [] ∨ q = ['.']

theorem pieces_mem_noSlash {p q : Str} (h : q ∈ pieces p) : '/' ∉ q := by
  induction p generalizing q with
  | nil => simp [pieces] at h; subst h; simp
  | cons c cs ih =>
    unfold pieces at h
    split at h
    · rcases List.mem_cons.mp h with h | h
      · subst h; simp
      · exact ih h
    · rename_i hc
      split at h
      · simp at h; subst h
        simp [Ne.symm hc]
      · rename_i p ps hp
        rcases List.mem_cons.mp h with h | h
        · subst h
          have := ih (q := p) (by rw [hp]; simp)
          simp [Ne.symm hc, this]
        · exact ih (by rw [hp]; simp [h])

/-- pieces, each followed by a slash -/
def pre : List Str → Str
  | [] => []
  | q :: qs => q ++ '/' :: pre qs

/-- pieces, each preceded by a slash -/
def post : List Str → Str
  | [] => []
  | q :: qs => '/' :: (q ++ post qs)

theorem pieces_join (p : Str) : ∀ q qs, pieces p = q :: qs → p = q ++ post qs := by
  induction p with
  | nil => intro q qs h; simp [pieces] at h; rw [h.1, h.2]; rfl
  | cons c cs ih =>
    intro q qs h
    unfold pieces at h
    obtain ⟨q1, qs1, hp⟩ := List.exists_cons_of_ne_nil (pieces_ne cs)
    by_cases hc : c = '/'
    · rw [if_pos hc, hp] at h
      obtain ⟨rfl, rfl⟩ := List.cons.inj h
      rw [ih q1 qs1 hp, hc]; rfl
    · rw [if_neg hc, hp] at h
      obtain ⟨rfl, rfl⟩ := List.cons.inj h
      rw [ih q1 _ hp]; rfl

theorem post_split (ps : List Str) (n : Str) (qs : List Str) : ∀ q rs, ps ++ n :: qs = q :: rs → q ++ post rs = pre ps ++ n ++ post qs := by
  induction ps with
  | nil => intro q rs h; obtain ⟨rfl, rfl⟩ := List.cons.inj h; rfl
  | cons a b ih =>
    intro q rs h
    obtain ⟨rfl, rfl⟩ := List.cons.inj h
    obtain ⟨q1, rs1, hq⟩ := List.exists_cons_of_ne_nil (l := b ++ n :: qs) (by simp)
    rw [List.append_eq, hq]
    have := ih q1 rs1 hq
    simp only [post, pre, List.append_assoc, List.cons_append] at this ⊢
    rw [this]

theorem pieces_split {p n : Str} {ps qs : List Str} (h : pieces p = ps ++ n :: qs) : p = pre ps ++ n ++ post qs := by
  obtain ⟨q, rs, hq⟩ := List.exists_cons_of_ne_nil (pieces_ne p)
  rw [pieces_join p q rs hq]
  exact post_split ps n qs q rs (by rw [← h, hq])

theorem pre_end (ps : List Str) : pre ps = [] ∨ ∃ d, pre ps = d ++ ['/'] := by
  induction ps with
  | nil => exact .inl rfl
  | cons a b ih =>
    right
    rcases ih with h | ⟨d, h⟩
    · exact ⟨a, by simp [pre, h]⟩
    · exact ⟨a ++ '/' :: d, by simp [pre, h]⟩

theorem post_trail {qs : List Str} (h : ∀ q ∈ qs, Dead q) : Trail (post qs) := by
  induction qs with
  | nil => exact .nil
  | cons a b ih =>
    have hb := ih fun q hq => h q (by simp [hq])
    rcases h a (by simp) with e | e <;> subst e
    · exact .slash hb
    · exact .dot hb

theorem trail_pieces {s : Str} (h : Trail s) : ∀ n, '/' ∉ n → ∃ qs, pieces (n ++ s) = n :: qs ∧ ∀ q ∈ qs, Dead q := by
  induction h with
  | nil => intro n hn; exact ⟨[], by rw [List.append_nil, pieces_noSlash hn], by simp⟩
  | slash h ih =>
    intro n hn
    obtain ⟨qs, h1, h2⟩ := ih [] (by simp)
    refine ⟨[] :: qs, ?_, ?_⟩
    · rw [pieces_slash, pieces_noSlash hn]
      simp only [List.nil_append] at h1
      rw [h1]; rfl
    · intro q hq
      rcases List.mem_cons.mp hq with e | e
      · exact .inl e
      · exact h2 q e
  | dot h ih =>
    intro n hn
    obtain ⟨qs, h1, h2⟩ := ih ['.'] (by decide)
    refine ⟨['.'] :: qs, ?_, ?_⟩
    · rw [pieces_slash, pieces_noSlash hn]
      simp only [List.cons_append, List.nil_append] at h1
      rw [h1]; rfl
    · intro q hq
      rcases List.mem_cons.mp hq with e | e
      · exact .inr e
      · exact h2 q e

theorem filter_last {l : List Str} {n : Str} : (l.filter fun q => q ≠ [] ∧ q ≠ ['.']).getLast? = some n ↔
    ∃ ps qs, l = ps ++ n :: qs ∧ ¬ Dead n ∧ ∀ q ∈ qs, Dead q := by
  constructor
  · intro h
    obtain ⟨as, has⟩ := List.getLast?_eq_some_iff.mp h
    obtain ⟨l1, l2, rfl, h1, h2⟩ := List.filter_eq_append_iff.mp has
    obtain ⟨l3, l4, rfl, h3, h4, h5⟩ := List.filter_eq_cons_iff.mp h2
    refine ⟨l1 ++ l3, l4, by simp, ?_, ?_⟩
    · simpa [Dead] using h4
    · intro q hq
      have := List.filter_eq_nil_iff.mp h5 q hq
      simp only [decide_eq_true_eq] at this
      unfold Dead
      by_cases e : q = []
      · exact .inl e
      · exact .inr (Decidable.not_not.mp fun e2 => this ⟨e, e2⟩)
  · rintro ⟨ps, qs, rfl, hn, hq⟩
    have e1 : (qs.filter fun q => decide (q ≠ [] ∧ q ≠ ['.'])) = [] := by
      rw [List.filter_eq_nil_iff]
      intro q h
      have := hq q h
      rcases this with e | e <;> simp [e]
    rw [List.filter_append, List.filter_cons_of_pos (by simpa [Dead] using hn), e1]
    simp

/-- C84: the name of a path is what its text says it is -/
theorem fileName_iff (p n : Str) : fileName p = some n ↔ Names p n := by
  have key : fileName p = some n ↔ ((pieces p).filter fun q => q ≠ [] ∧ q ≠ ['.']).getLast? = some n ∧ n ≠ ['.', '.'] := by
    unfold fileName
    cases ((pieces p).filter fun q => q ≠ [] ∧ q ≠ ['.']).getLast? with
    | none => simp
    | some m =>
      by_cases hm : m = ['.', '.']
      · subst hm
        simp only [if_true, Option.some.injEq]
        constructor
        · intro h; cases h
        · rintro ⟨rfl, h⟩; exact absurd rfl h
      · simp only [if_neg hm, Option.some.injEq]
        constructor
        · rintro rfl; exact ⟨rfl, hm⟩
        · exact And.left
  rw [key, filter_last]
  constructor
  · rintro ⟨⟨ps, qs, e, hn, hq⟩, hdd⟩
    refine ⟨pre ps, post qs, pieces_split e, pre_end ps, post_trail hq, pieces_mem_noSlash (p := p) (by simp [e]), ?_, ?_, hdd⟩
    · exact fun e => hn (.inl e)
    · exact fun e => hn (.inr e)
  · rintro ⟨dir, trail, rfl, hd, ht, hs, h0, h1, h2⟩
    refine ⟨?_, h2⟩
    obtain ⟨qs, e, hq⟩ := trail_pieces ht n hs
    have hdead : ¬ Dead n := fun h => h.elim h0 h1
    rcases hd with rfl | ⟨d, rfl⟩
    · exact ⟨[], qs, by simpa using e, hdead, hq⟩
    · refine ⟨pieces d, qs, ?_, hdead, hq⟩
      rw [show d ++ ['/'] ++ n ++ trail = d ++ '/' :: (n ++ trail) by simp, pieces_slash, e]

/-! ## C84: which tool runs -/

theorem tools_perm : ∀ t, t ∈ tools ↔ t ∈ (verbs.map fun fv => fv.2.map fun v => fv.1 ++ "_" ++ v).flatten := by
  have h1 : (tools.all fun t => (verbs.map fun fv => fv.2.map fun v => fv.1 ++ "_" ++ v).flatten.contains t) = true := by decide +kernel
  have h2 : ((verbs.map fun fv => fv.2.map fun v => fv.1 ++ "_" ++ v).flatten.all fun t => tools.contains t) = true := by decide +kernel
  intro t
  exact ⟨fun h => List.contains_iff_mem.mp (List.all_eq_true.mp h1 t h), fun h => List.contains_iff_mem.mp (List.all_eq_true.mp h2 t h)⟩

theorem isTool_iff (t : Str) : isTool t = true ↔ ToolName t := by
  unfold isTool
  rw [List.any_eq_true]
  constructor
  · rintro ⟨x, hx, e⟩
    have := (tools_perm x).mp hx
    simp only [List.mem_flatten, List.mem_map] at this
    obtain ⟨_, ⟨⟨f, vs⟩, h1, rfl⟩, h2⟩ := this
    obtain ⟨v, h3, rfl⟩ := List.mem_map.mp h2
    exact ⟨f, vs, v, h1, h3, by simpa using (eq_of_beq e).symm⟩
  · rintro ⟨f, vs, v, h1, h2, rfl⟩
    exact ⟨f ++ "_" ++ v, (tools_perm _).mpr (List.mem_flatten.mpr ⟨_, List.mem_map.mpr ⟨_, h1, rfl⟩, List.mem_map.mpr ⟨v, h2, rfl⟩⟩), by simp⟩

/-- the names are distinct, so looking a tool up by its name cannot find another -/
theorem tools_distinct : tools.Nodup := by decide +kernel

theorem names_unique {p n m : Str} (h1 : Names p n) (h2 : Names p m) : n = m :=
  Option.some.inj (((fileName_iff p n).mpr h1).symm.trans ((fileName_iff p m).mpr h2))

theorem pick_run_iff (args : List Str) (t : Str) (rest : List Str) :
    pick args = .run t rest ↔ ToolName t ∧ ∃ q as, rest = q :: as ∧ Names q t ∧ args = rest := by
  cases args with
  | nil =>
    simp only [pick]
    constructor
    · intro h; cases h
    · rintro ⟨_, q, as, rfl, _, h⟩; cases h
  | cons q qs =>
    unfold pick
    cases hf : fileName q with
    | none =>
      simp only [hf]
      constructor
      · intro h; cases h
      · rintro ⟨_, q1, as, rfl, hn, h⟩
        obtain ⟨rfl, rfl⟩ := List.cons.inj h
        rw [(fileName_iff _ _).mpr hn] at hf
        cases hf
    | some n =>
      simp only [hf]
      have hn := (fileName_iff _ _).mp hf
      by_cases ht : isTool n = true
      · rw [if_pos ht]
        constructor
        · intro h
          cases h
          exact ⟨(isTool_iff _).mp ht, q, qs, rfl, hn, rfl⟩
        · rintro ⟨_, q1, as, rfl, hn1, h⟩
          obtain ⟨rfl, rfl⟩ := List.cons.inj h
          rw [names_unique hn hn1]
      · rw [if_neg ht]
        constructor
        · intro h; cases h
        · rintro ⟨h1, q1, as, rfl, hn1, h⟩
          obtain ⟨rfl, rfl⟩ := List.cons.inj h
          exact absurd ((isTool_iff _).mpr (names_unique hn hn1 ▸ h1)) ht

theorem pdata_not_tool : ¬ ToolName "pdata_tools".toList := by
  rw [← isTool_iff]; decide +kernel

/-- C84: a tool runs if and only if the path it is called by names it, or the program is called by its own name and the
first argument names it; it gets the arguments from its own name on. -/
theorem main_run_iff (args : List Str) (t : Str) (rest : List Str) :
    main args = .run t rest ↔
      ToolName t ∧ ∃ q as, rest = q :: as ∧ Names q t ∧ (args = rest ∨ ∃ p, Names p "pdata_tools".toList ∧ args = p :: rest) := by
  cases args with
  | nil =>
    simp only [main]
    constructor
    · intro h; cases h
    · rintro ⟨_, q, as, rfl, _, h | ⟨p, _, h⟩⟩ <;> cases h
  | cons p ps =>
    unfold main
    cases hf : fileName p with
    | none =>
      simp only [hf]
      constructor
      · intro h; cases h
      · rintro ⟨_, q, as, rfl, hn, h | ⟨p1, hp1, h⟩⟩
        · obtain ⟨rfl, rfl⟩ := List.cons.inj h
          rw [(fileName_iff _ _).mpr hn] at hf; cases hf
        · obtain ⟨rfl, _⟩ := List.cons.inj h
          rw [(fileName_iff _ _).mpr hp1] at hf; cases hf
    | some n =>
      simp only [hf]
      have hn := (fileName_iff _ _).mp hf
      by_cases hp : n = "pdata_tools".toList
      · rw [if_pos hp, pick_run_iff]
        subst hp
        refine and_congr_right fun ht => ?_
        constructor
        · rintro ⟨q, as, h1, h2, h3⟩
          exact ⟨q, as, h1, h2, .inr ⟨p, hn, by rw [h3]⟩⟩
        · rintro ⟨q, as, rfl, h2, h | ⟨p1, _, h⟩⟩
          · obtain ⟨rfl, rfl⟩ := List.cons.inj h
            exact absurd (names_unique hn h2 ▸ ht) pdata_not_tool
          · exact ⟨q, as, rfl, h2, (List.cons.inj h).2⟩
      · rw [if_neg hp, pick_run_iff]
        refine and_congr_right fun ht => ?_
        constructor
        · rintro ⟨q, as, h1, h2, h3⟩
          exact ⟨q, as, h1, h2, .inl h3⟩
        · rintro ⟨q, as, rfl, h2, h | ⟨p1, h1, h⟩⟩
          · exact ⟨q, as, rfl, h2, h⟩
          · obtain ⟨rfl, _⟩ := List.cons.inj h
            exact absurd (names_unique hn h1) hp

/-- C84: the program panics if and only if a path that decides what runs names nothing: the first, or the second when the
first names the program itself. -/
theorem main_panic_iff (args : List Str) :
    main args = .panic ↔ ∃ p ps, args = p :: ps ∧
      ((∀ n, ¬ Names p n) ∨ (Names p "pdata_tools".toList ∧ ∃ q qs, ps = q :: qs ∧ ∀ n, ¬ Names q n)) := by
  have nonames (q : Str) : fileName q = none ↔ ∀ n, ¬ Names q n := by
    rw [Option.eq_none_iff_forall_not_mem]
    exact forall_congr' fun n => not_congr (fileName_iff q n)
  have hpick (l : List Str) : pick l = .panic ↔ ∃ q qs, l = q :: qs ∧ ∀ n, ¬ Names q n := by
    cases l with
    | nil =>
      simp only [pick]
      exact ⟨fun h => (by cases h), fun ⟨_, _, h, _⟩ => (by cases h)⟩
    | cons q qs =>
      unfold pick
      cases hf : fileName q with
      | none => simp only [hf, true_iff]; exact ⟨q, qs, rfl, (nonames q).mp hf⟩
      | some n =>
        simp only [hf]
        constructor
        · intro h
          by_cases ht : isTool n = true
          · rw [if_pos ht] at h; cases h
          · rw [if_neg ht] at h; cases h
        · rintro ⟨_, _, h, h2⟩
          obtain ⟨rfl, rfl⟩ := List.cons.inj h
          exact absurd ((fileName_iff _ _).mp hf) (h2 n)
  cases args with
  | nil =>
    simp only [main]
    exact ⟨fun h => (by cases h), fun ⟨_, _, h, _⟩ => (by cases h)⟩
  | cons p ps =>
    unfold main
    cases hf : fileName p with
    | none => simp only [hf, true_iff]; exact ⟨p, ps, rfl, .inl ((nonames p).mp hf)⟩
    | some n =>
      have hn := (fileName_iff _ _).mp hf
      simp only [hf]
      by_cases hp : n = "pdata_tools".toList
      · rw [if_pos hp, hpick]
        subst hp
        constructor
        · rintro ⟨q, qs, h1, h2⟩; exact ⟨p, ps, rfl, .inr ⟨hn, q, qs, h1, h2⟩⟩
        · rintro ⟨_, _, h, h1⟩
          obtain ⟨rfl, rfl⟩ := List.cons.inj h
          rcases h1 with h1 | ⟨_, h1⟩
          · exact absurd hn (h1 _)
          · exact h1
      · rw [if_neg hp, hpick]
        constructor
        · rintro ⟨_, _, h, h1⟩
          obtain ⟨rfl, rfl⟩ := List.cons.inj h
          exact absurd hn (h1 _)
        · rintro ⟨_, _, h, h1⟩
          obtain ⟨rfl, rfl⟩ := List.cons.inj h
          rcases h1 with h1 | ⟨h1, _⟩
          · exact absurd hn (h1 _)
          · exact absurd (names_unique hn h1) hp

/-- `pdata_tools ..` panics, and so does a program called with an empty name -/
theorem main_panic_refuted : main ["/usr/sbin/pdata_tools".toList, "..".toList] = .panic ∧ main [[]] = .panic := by decide +kernel

example : main ["/usr/sbin//thin_check/./".toList, "x".toList] = .run "thin_check".toList ["/usr/sbin//thin_check/./".toList, "x".toList] := by decide +kernel
example : main ["./pdata_tools".toList, "era_dump".toList, "x".toList] = .run "era_dump".toList ["era_dump".toList, "x".toList] := by decide +kernel
example : main ["pdata_tools".toList, "pdata_tools".toList, "era_dump".toList] = .usage := by decide +kernel

/-! ## C84: exit status and messages -/

/-- C84: the exit status is 0 or 64, and 0 if and only if the tool succeeded. -/
theorem exit_status {α : Type} (r : Except Failure α) :
    ((toExit r).1 = 0 ↔ ∃ a, r = .ok a) ∧ ((toExit r).1 = 0 ∨ (toExit r).1 = 64) := by
  cases r with
  | ok a => exact ⟨⟨fun _ => ⟨a, rfl⟩, fun _ => rfl⟩, .inl rfl⟩
  | error e => exact ⟨⟨fun h => by simp [toExit] at h, fun ⟨_, h⟩ => by cases h⟩, .inr rfl⟩

/-- C84: nothing is reported on success or when the root cause is a broken pipe; any other failure is reported exactly
once, with the outermost message and, if there is another, the root cause. -/
theorem exit_message {α : Type} (r : Except Failure α) (msgs : List Str) :
    (toExit r).2 = msgs ↔
      (msgs = [] ∧ ∀ e, r = .error e → e.brokenPipe = true) ∨
      (∃ e, r = .error e ∧ e.brokenPipe = false ∧
        ((e.inner = [] ∧ msgs = [e.outer]) ∨ ∃ mid root, e.inner = mid ++ [root] ∧ msgs = [e.outer ++ ": ".toList ++ root])) := by
  cases r with
  | ok a =>
    simp only [toExit]
    constructor
    · rintro rfl; exact .inl ⟨rfl, fun e h => by cases h⟩
    · rintro (⟨rfl, _⟩ | ⟨e, h, _⟩)
      · rfl
      · cases h
  | error e =>
    simp only [toExit]
    by_cases hb : e.brokenPipe = true
    · rw [if_pos hb]
      constructor
      · rintro rfl; exact .inl ⟨rfl, fun e1 h => by cases h; exact hb⟩
      · rintro (⟨rfl, _⟩ | ⟨e, h, h2, _⟩)
        · rfl
        · cases h; rw [hb] at h2; cases h2
    · rw [if_neg hb]
      constructor
      · rintro rfl
        refine .inr ⟨e, rfl, by simpa using hb, ?_⟩
        unfold Failure.text
        rcases List.eq_nil_or_concat e.inner with h | ⟨mid, root, h⟩
        · left; rw [h]; exact ⟨rfl, rfl⟩
        · right; exact ⟨mid, root, by simpa using h, by rw [h]; simp⟩
      · rintro (⟨rfl, h⟩ | ⟨e1, h, _, h2⟩)
        · exact absurd (h e rfl) hb
        · cases h
          unfold Failure.text
          rcases h2 with ⟨h, rfl⟩ | ⟨mid, root, h, rfl⟩
          · rw [h]; rfl
          · rw [h]; simp

/-! ## C84: engines -/

/-- C84: the engine asked for by name is the one used, without a name it is the synchronous one, and any other name is
refused; so is the asynchronous engine where it is not compiled in. -/
theorem engine_iff (io_uring : Bool) (s : Option Str) (e : Engine) :
    parseEngine io_uring s = some e ↔
      (e = .sync ∧ (s = none ∨ s = some "sync".toList)) ∨ (e = .spindle ∧ s = some "spindle".toList) ∨
      (e = .async ∧ s = some "async".toList ∧ io_uring = true) := by
  cases s with
  | none => cases e <;> simp [parseEngine]
  | some s =>
    unfold parseEngine
    by_cases h1 : s = "sync".toList
    · subst h1; cases e <;> simp
    · by_cases h2 : s = "spindle".toList
      · subst h2; cases e <;> simp
      · by_cases h3 : s = "async".toList
        · subst h3; cases e <;> cases io_uring <;> simp
        · dsimp only
          rw [if_neg h1, if_neg h2, if_neg h3]
          constructor
          · intro h; cases h
          · rintro (⟨_, h | h⟩ | ⟨_, h⟩ | ⟨_, h, _⟩)
            · cases h
            · exact absurd (Option.some.inj h) h1
            · exact absurd (Option.some.inj h) h2
            · exact absurd (Option.some.inj h) h3

/-- C84: the metadata snapshot is read exactly when a thin or an era tool is asked to. -/
theorem useSnap_iff (t : Tool) (flag : Bool) : useSnap t flag = true ↔ flag = true ∧ (t = .thin ∨ t = .era) := by
  cases t <;> cases flag <;> decide

/-- C84: every engine can be opened for every tool, but the spindle engine for cache and era tools: those panic. -/
theorem builds_partial (t : Tool) (e : Engine) (h : e ≠ .spindle ∨ (t ≠ .cache ∧ t ≠ .era)) : builds t e = true := by
  cases t <;> cases e <;> simp_all [builds]

theorem builds_refuted : builds .cache .spindle = false ∧ builds .era .spindle = false := by decide

end Verif.Cli
