import Verif.Model.ThinRestore

/-!
# C24: `thin_restore` accepts only well-nested metadata
-/

namespace Verif.Rst

open Verif.Bld (NB)

variable {N : Type} [DecidableEq N]

/-! ## Specification -/

/-- a mapping -/
def IsMap (e : Ev N) : Prop := ∃ r, e = .map r

/-- what may occur inside a device: mappings, and references to definitions of `s` -/
def InDev (s : List (Ev N)) (e : Ev N) : Prop := IsMap e ∨ ∃ n, e = .ref n ∧ Ev.defB n ∈ s

/-- A sequence of complete definitions and devices.  Definitions contain mappings only; a device refers to definitions
that were completed before it. -/
inductive Sections : List (Ev N) → Prop where
  | nil : Sections []
  | def (s : List (Ev N)) (n : N) (body : List (Ev N)) : Sections s → (∀ e ∈ body, IsMap e) →
      Sections (s ++ .defB n :: body ++ [.defE])
  | dev (s : List (Ev N)) (d : DevIR) (body : List (Ev N)) : Sections s → (∀ e ∈ body, InDev s e) →
      Sections (s ++ .devB d :: body ++ [.devE])

/-- nothing, or a definition or device that has been started but not ended -/
inductive Unfinished (s : List (Ev N)) : List (Ev N) → Prop where
  | none : Unfinished s []
  | def (n : N) (body : List (Ev N)) : (∀ e ∈ body, IsMap e) → Unfinished s (.defB n :: body)
  | dev (d : DevIR) (body : List (Ev N)) : (∀ e ∈ body, InDev s e) → Unfinished s (.devB d :: body)

/-- block sizes that are accepted: 64 KiB to 1 GiB in steps of 64 KiB (in sectors) -/
def SizeOK (sb : SbIR) : Prop := 128 ≤ sb.blockSize ∧ sb.blockSize ≤ 2097152 ∧ 128 ∣ sb.blockSize

/-- A well-nested document: one superblock around complete sections, then the end of the input. -/
def WellNested (es : List (Ev N)) : Prop := ∃ sb s, SizeOK sb ∧ Sections s ∧ es = .sbB sb :: s ++ [.sbE, .eof]

/-- tags with an end tag -/
inductive Tag where
  | superblock | def | device
  deriving DecidableEq

/-- The check of an XML parser: end tags match the innermost open start tag, and at the end of the input no tag is open. -/
def balanced : List Tag → List (Ev N) → Bool
  | st, [] => st.isEmpty
  | st, .sbB _ :: es => balanced (.superblock :: st) es
  | st, .defB _ :: es => balanced (.def :: st) es
  | st, .devB _ :: es => balanced (.device :: st) es
  | .superblock :: st, .sbE :: es => balanced st es
  | .def :: st, .defE :: es => balanced st es
  | .device :: st, .devE :: es => balanced st es
  | _, .sbE :: _ => false
  | _, .defE :: _ => false
  | _, .devE :: _ => false
  | st, .map _ :: es => balanced st es
  | st, .ref _ :: es => balanced st es
  | st, .eof :: es => balanced st es

/-! ## The invariant -/

/-- `lookupName` finds inserted names -/
theorem lookup_insert {α : Type} (k : N) (v : α) (l : List (N × α)) (n : N) :
    (lookupName n (insertName k v l)).isSome = (decide (n = k) || (lookupName n l).isSome) := by
  induction l with
  | nil => by_cases h : k = n <;> simp [insertName, lookupName, h, eq_comm]
  | cons p l ih =>
    by_cases hp : p.1 = k
    · by_cases h : k = n
      · simp [insertName, lookupName, hp, h]
      · simp [insertName, lookupName, hp, h, Ne.symm h]
    · by_cases h : p.1 = n
      · subst h; simp [insertName, lookupName, hp]
      · have e1 : lookupName n (insertName k v (p :: l)) = lookupName n (insertName k v l) := by
          simp [insertName, lookupName, hp, h]
        have e2 : lookupName n (p :: l) = lookupName n l := by simp [lookupName, h]
        rw [e1, e2, ih]

/-- what a state says about an unfinished section -/
inductive OpenSec (s : List (Ev N)) (r : R N) : List (Ev N) → Prop where
  | none : r.cur = none → r.dev = none → OpenSec s r []
  | def (n : N) (nb : NB Val) (body : List (Ev N)) : r.cur = some (.def n, nb) → r.dev = none → (∀ e ∈ body, IsMap e) →
      OpenSec s r (.defB n :: body)
  | dev (d : DevIR) (nb : NB Val) (det : Detail) (body : List (Ev N)) : r.cur = some (.dev d.id, nb) → r.dev = some det →
      (∀ e ∈ body, InDev s e) → OpenSec s r (.devB d :: body)

theorem OpenSec.unfinished {s : List (Ev N)} {r : R N} {o : List (Ev N)} (h : OpenSec s r o) : Unfinished s o := by
  cases h with
  | none => exact .none
  | «def» n nb body _ _ h => exact .def n body h
  | dev d nb det body _ _ h => exact .dev d body h

/-- names known to the state are those of completed definitions -/
def Names (s : List (Ev N)) (r : R N) : Prop := ∀ n, (lookupName n r.subs).isSome = true → Ev.defB n ∈ s

/-- The states a restore goes through, and what has been consumed then. -/
inductive Ctl (r : R N) : List (Ev N) → Prop where
  | start : r.sec = .none → r.cur = none → r.dev = none → r.sb = none → r.out = none → r.subs = [] → Ctl r []
  | open (sb : SbIR) (s o : List (Ev N)) : SizeOK sb → Sections s → OpenSec s r o → Names s r →
      r.sec ≠ .none → r.sec ≠ .finalized → (r.sec = .superblock → o = []) → r.out = none →
      Ctl r (.sbB sb :: s ++ o)
  | done (sb : SbIR) (s o tail : List (Ev N)) : SizeOK sb → Sections s → Unfinished s o → r.sec = .finalized → r.sb = none →
      r.out ≠ none → (o = [] → r.cur = none) → (o = [] → ∀ e ∈ tail, e = .eof) → (∀ e ∈ tail, e = .eof ∨ IsMap e ∨ ∃ n, e = .ref n) →
      Ctl r (.sbB sb :: s ++ o ++ .sbE :: tail)
  | junk (sb : SbIR) (s o tail : List (Ev N)) : SizeOK sb → Sections s → Unfinished s o → r.sb = none → r.sec ≠ .finalized → r.sec ≠ .none →
      r.out ≠ none → Ctl r (.sbB sb :: s ++ o ++ .sbE :: tail)

theorem lift_ok {α : Type} {x : Except Bld.Err α} {a : α} (h : lift x = .ok a) : x = .ok a := by
  cases x with
  | ok b => cases h; rfl
  | error e => cases h

theorem bind_ok {α β : Type} {x : Except RErr α} {f : α → Except RErr β} {b : β} (h : (x >>= f) = .ok b) :
    ∃ a, x = .ok a ∧ f a = .ok b := by
  cases x with
  | ok a => exact ⟨a, rfl, h⟩
  | error e => cases h

theorem endSection_ok {r : R N} {x : MS N × List Bld.Summary × R N} (h : endSection r = .ok x) :
    ∃ nb st, r.cur = some (x.1, nb) ∧ x.2.2 = { r with cur := none, st := st } := by
  unfold endSection at h
  cases e : r.cur with
  | none => rw [e] at h; cases h
  | some p =>
    rw [e] at h
    obtain ⟨c, h1, h2⟩ := bind_ok h
    cases h2
    exact ⟨p.2, c.2, rfl, rfl⟩

theorem finalize_ok {r r' : R N} (h : finalize r = .ok r') :
    ∃ st out, r' = { r with sb := none, st := st, sec := .finalized, out := some out } := by
  unfold finalize at h
  cases e : r.sb with
  | none => rw [e] at h; cases h
  | some sb =>
    rw [e] at h
    obtain ⟨b, h1, h2⟩ := bind_ok h
    obtain ⟨st, h3, h4⟩ := bind_ok h2
    unfold buildDetails at h1
    obtain ⟨d, h5, h6⟩ := bind_ok h1
    obtain ⟨m, h7, h8⟩ := bind_ok h6
    cases h8
    cases h4
    exact ⟨_, _, rfl⟩

theorem beginSection_ok {r r' : R N} {sh : Bool} {m : MS N} (h : beginSection sh m r = .ok r') :
    r.cur = none ∧ r' = { r with cur := some (m, NB.new capBt sh) } := by
  unfold beginSection at h
  cases e : r.cur with
  | none => rw [e] at h; cases h; exact ⟨rfl, rfl⟩
  | some p => rw [e] at h; cases h

theorem sections_names {s : List (Ev N)} {r : R N} (h : Names s r) (l : List (Ev N)) : Names (s ++ l) r :=
  fun n hn => List.mem_append_left _ (h n hn)

theorem step_ctl {r r' : R N} {es : List (Ev N)} {e : Ev N} (hc : Ctl r es) (h : step e r = .ok r') : Ctl r' (es ++ [e]) := by
  cases e with
  | sbB sb =>
    simp only [step] at h
    by_cases h1 : r.sec = .none
    · rw [if_neg (by simp [h1])] at h
      by_cases h2 : ¬ (128 ≤ sb.blockSize ∧ sb.blockSize ≤ 2097152) ∨ sb.blockSize % 128 ≠ 0
      · rw [if_pos h2] at h; cases h
      · rw [if_neg h2] at h
        obtain ⟨a, h3, h4⟩ := bind_ok h
        by_cases h5 : a.1 ≠ 0
        · rw [if_pos h5] at h4; cases h4
        · rw [if_neg h5] at h4
          cases h4
          cases hc with
          | start g1 g2 g3 g4 g5 g6 =>
            refine Ctl.open sb [] [] ?_ .nil (.none g2 g3) ?_ (by simp) (by simp) (by simp) g5
            · refine ⟨by omega, by omega, by omega⟩
            · intro n hn
              simp only [g6] at hn
              cases hn
          | «open» _ _ _ _ _ _ _ g => exact absurd h1 g
          | done _ _ _ _ _ _ _ g => rw [g] at h1; cases h1
          | junk _ _ _ _ _ _ _ _ _ g => exact absurd h1 g
    · rw [if_pos (by simp [h1])] at h; cases h
  | sbE =>
    simp only [step] at h
    obtain ⟨st, out, rfl⟩ := finalize_ok h
    have hsb : r.sb ≠ none := by
      intro e; unfold finalize at h; rw [e] at h; cases h
    cases hc with
    | start g1 g2 g3 g4 => exact absurd g4 hsb
    | «open» sb s o g1 g2 g3 g4 g5 g6 g7 g8 =>
      refine Ctl.done sb s o [] g1 g2 g3.unfinished rfl rfl (by simp) ?_ (by simp) (by simp)
      rintro rfl
      cases g3 with
      | none a b => exact a
    | done _ _ _ _ _ _ _ _ g => exact absurd g hsb
    | junk _ _ _ _ _ _ _ g => exact absurd g hsb
  | defB name =>
    simp only [step] at h
    by_cases h1 : r.sec = .superblock
    · rw [if_neg (by simp [h1])] at h
      obtain ⟨h2, rfl⟩ := beginSection_ok h
      cases hc with
      | start g1 => rw [g1] at h1; cases h1
      | «open» sb s o g1 g2 g3 g4 g5 g6 g7 g8 =>
        obtain rfl := g7 h1
        have : Ev.sbB sb :: s ++ [] ++ [.defB name] = Ev.sbB sb :: s ++ [.defB name] := by simp
        rw [this]
        refine Ctl.open sb s _ g1 g2 (.def name _ [] rfl ?_ (by simp)) g4 (by simp) (by simp) (by simp) g8
        cases g3 with
        | none a b => exact b
      | done _ _ _ _ _ _ _ g => rw [g] at h1; cases h1
      | junk sb s o tail g1 g2 g3 g4 g5 g6 g7 =>
        rw [List.append_assoc, List.cons_append]
        exact Ctl.junk sb s o _ g1 g2 g3 g4 (by simp) (by simp) g7
    · rw [if_pos h1] at h; cases h
  | defE =>
    simp only [step] at h
    obtain ⟨x, h1, h2⟩ := bind_ok h
    obtain ⟨nb, st, h3, h4⟩ := endSection_ok h1
    obtain ⟨m, ls, r1⟩ := x
    simp only at h2 h3 h4
    subst h4
    cases m with
    | dev id => cases h2
    | «def» name =>
      cases h2
      cases hc with
      | start g1 g2 => rw [g2] at h3; cases h3
      | «open» sb s o g1 g2 g3 g4 g5 g6 g7 g8 =>
        cases g3 with
        | none a b => rw [a] at h3; cases h3
        | «def» n nb' body a b c =>
          rw [a] at h3
          obtain rfl : n = name := by cases h3; rfl
          have e : Ev.sbB sb :: s ++ .defB n :: body ++ [.defE] = Ev.sbB sb :: (s ++ .defB n :: body ++ [.defE]) ++ [] := by simp
          rw [e]
          refine Ctl.open sb _ [] g1 (.def s n body g2 c) (.none rfl b) ?_ (by simp) (by simp) (by simp) g8
          intro k hk
          simp only [lookup_insert] at hk
          rcases Bool.or_eq_true _ _ ▸ hk with hk | hk
          · have : k = n := by simpa using hk
            subst this
            simp
          · have := g4 k hk
            simp [this]
        | dev d nb' det body a b c => rw [a] at h3; cases h3
      | done sb s o tail g1 g2 g3 g4 g5 g6 g7 g8 g9 =>
        rw [List.append_assoc, List.cons_append]
        exact Ctl.junk sb s o _ g1 g2 g3 g5 (by simp) (by simp) g6
      | junk sb s o tail g1 g2 g3 g4 g5 g6 g7 =>
        rw [List.append_assoc, List.cons_append]
        exact Ctl.junk sb s o _ g1 g2 g3 g4 (by simp) (by simp) g7
  | devB d =>
    simp only [step] at h
    by_cases h1 : r.sec = .superblock
    · rw [if_neg (by simp [h1])] at h
      obtain ⟨h2, rfl⟩ := beginSection_ok h
      cases hc with
      | start g1 => rw [g1] at h1; cases h1
      | «open» sb s o g1 g2 g3 g4 g5 g6 g7 g8 =>
        obtain rfl := g7 h1
        have : Ev.sbB sb :: s ++ [] ++ [.devB d] = Ev.sbB sb :: s ++ [.devB d] := by simp
        rw [this]
        exact Ctl.open sb s _ g1 g2 (.dev d _ _ [] rfl rfl (by simp)) g4 (by simp) (by simp) (by simp) g8
      | done _ _ _ _ _ _ _ g => rw [g] at h1; cases h1
      | junk sb s o tail g1 g2 g3 g4 g5 g6 g7 =>
        rw [List.append_assoc, List.cons_append]
        exact Ctl.junk sb s o _ g1 g2 g3 g4 (by simp) (by simp) g7
    · rw [if_pos h1] at h; cases h
  | devE =>
    simp only [step] at h
    cases hd : r.dev with
    | none => rw [hd] at h; cases h
    | some det =>
      rw [hd] at h
      simp only at h
      obtain ⟨x, h1, h2⟩ := bind_ok h
      obtain ⟨nb, st, h3, h4⟩ := endSection_ok h1
      obtain ⟨m, ls, r1⟩ := x
      simp only at h2 h3 h4
      subst h4
      cases m with
      | «def» name => cases h2
      | dev id =>
        obtain ⟨t, h5, h6⟩ := bind_ok h2
        cases h6
        cases hc with
        | start g1 g2 => rw [g2] at h3; cases h3
        | «open» sb s o g1 g2 g3 g4 g5 g6 g7 g8 =>
          cases g3 with
          | none a b => rw [a] at h3; cases h3
          | «def» n nb' body a b c => rw [a] at h3; cases h3
          | dev d nb' det' body a b c =>
            have e : Ev.sbB sb :: s ++ .devB d :: body ++ [.devE] = Ev.sbB sb :: (s ++ .devB d :: body ++ [.devE]) ++ [] := by simp
            rw [e]
            refine Ctl.open sb _ [] g1 (.dev s d body g2 c) (.none rfl rfl) ?_ (by simp) (by simp) (by simp) g8
            intro k hk
            have := g4 k hk
            simp [this]
        | done sb s o tail g1 g2 g3 g4 g5 g6 g7 g8 g9 =>
          rw [List.append_assoc, List.cons_append]
          exact Ctl.junk sb s o _ g1 g2 g3 g5 (by simp) (by simp) g6
        | junk sb s o tail g1 g2 g3 g4 g5 g6 g7 =>
          rw [List.append_assoc, List.cons_append]
          exact Ctl.junk sb s o _ g1 g2 g3 g4 (by simp) (by simp) g7
  | map run =>
    simp only [step] at h
    cases hcur : r.cur with
    | none => rw [hcur] at h; cases h
    | some p =>
      obtain ⟨m, nb⟩ := p
      rw [hcur] at h
      simp only at h
      obtain ⟨x, h1, h2⟩ := bind_ok h
      cases h2
      cases hc with
      | start g1 g2 => rw [g2] at hcur; cases hcur
      | «open» sb s o g1 g2 g3 g4 g5 g6 g7 g8 =>
        rw [List.append_assoc]
        cases g3 with
        | none a b => rw [a] at hcur; cases hcur
        | «def» n nb' body a b c =>
          rw [a] at hcur; cases hcur
          refine Ctl.open sb s _ g1 g2 (OpenSec.def (r := { r with cur := some (.def n, x.1), st := x.2 }) n x.1 (body ++ [.map run]) rfl b ?_) g4 g5 g6 (fun e => absurd (g7 e) (by simp)) g8
          intro e he
          rcases List.mem_append.mp he with he | he
          · exact c e he
          · exact ⟨run, by simpa using he⟩
        | dev d nb' det body a b c =>
          rw [a] at hcur; cases hcur
          refine Ctl.open sb s _ g1 g2 (OpenSec.dev (r := { r with cur := some (.dev d.id, x.1), st := x.2 }) d x.1 det (body ++ [.map run]) rfl b ?_) g4 g5 g6 (fun e => absurd (g7 e) (by simp)) g8
          intro e he
          rcases List.mem_append.mp he with he | he
          · exact c e he
          · exact Or.inl ⟨run, by simpa using he⟩
      | done sb s o tail g1 g2 g3 g4 g5 g6 g7 g8 g9 =>
        rw [List.append_assoc, List.cons_append]
        have ho : o ≠ [] := fun e => by rw [g7 e] at hcur; cases hcur
        refine Ctl.done sb s o _ g1 g2 g3 g4 g5 g6 (fun e => absurd e ho) (fun e => absurd e ho) ?_
        intro e he
        rcases List.mem_append.mp he with he | he
        · exact g9 e he
        · exact Or.inr (Or.inl ⟨run, by simpa using he⟩)
      | junk sb s o tail g1 g2 g3 g4 g5 g6 g7 =>
        rw [List.append_assoc, List.cons_append]
        exact Ctl.junk sb s o _ g1 g2 g3 g4 g5 g6 g7
  | ref name =>
    simp only [step] at h
    cases hd : r.dev with
    | none => rw [hd] at h; cases h
    | some det =>
      rw [hd] at h
      simp only at h
      cases hl : lookupName name r.subs with
      | none => rw [hl] at h; cases h
      | some leaves =>
        rw [hl] at h
        simp only at h
        cases hcur : r.cur with
        | none => rw [hcur] at h; cases h
        | some p =>
          obtain ⟨m, nb⟩ := p
          rw [hcur] at h
          simp only at h
          cases leaves with
          | nil => cases h
          | cons n ns =>
            simp only at h
            obtain ⟨x, h1, h2⟩ := bind_ok h
            cases h2
            cases hc with
            | start g1 g2 => rw [g2] at hcur; cases hcur
            | «open» sb s o g1 g2 g3 g4 g5 g6 g7 g8 =>
              rw [List.append_assoc]
              cases g3 with
              | none a b => rw [a] at hcur; cases hcur
              | «def» n nb' body a b c => rw [b] at hd; cases hd
              | dev d nb' det' body a b c =>
                rw [a] at hcur; cases hcur
                refine Ctl.open sb s _ g1 g2 (OpenSec.dev (r := { r with cur := some (.dev d.id, x.1), st := x.2, dev := some det }) d x.1 det (body ++ [.ref name]) rfl rfl ?_) g4 g5 g6 (fun e => absurd (g7 e) (by simp)) g8
                intro e he
                rcases List.mem_append.mp he with he | he
                · exact c e he
                · exact Or.inr ⟨name, by simpa using he, g4 name (by rw [hl]; rfl)⟩
            | done sb s o tail g1 g2 g3 g4 g5 g6 g7 g8 g9 =>
              rw [List.append_assoc, List.cons_append]
              have ho : o ≠ [] := fun e => by rw [g7 e] at hcur; cases hcur
              refine Ctl.done sb s o _ g1 g2 g3 g4 g5 g6 (fun e => absurd e ho) (fun e => absurd e ho) ?_
              intro e he
              rcases List.mem_append.mp he with he | he
              · exact g9 e he
              · exact Or.inr (Or.inr ⟨name, by simpa using he⟩)
            | junk sb s o tail g1 g2 g3 g4 g5 g6 g7 =>
              rw [List.append_assoc, List.cons_append]
              exact Ctl.junk sb s o _ g1 g2 g3 g4 g5 g6 g7
  | eof =>
    simp only [step] at h
    by_cases h1 : r.sec = .finalized
    · rw [if_neg (by simp [h1])] at h
      cases h
      cases hc with
      | start g1 g2 => rw [g1] at h1; cases h1
      | «open» sb s o g1 g2 g3 g4 g5 g6 g7 g8 => exact absurd h1 g6
      | done sb s o tail g1 g2 g3 g4 g5 g6 g7 g8 g9 =>
        rw [List.append_assoc, List.cons_append]
        refine Ctl.done sb s o _ g1 g2 g3 g4 g5 g6 g7 ?_ ?_
        · intro e x hx
          rcases List.mem_append.mp hx with hx | hx
          · exact g8 e x hx
          · simpa using hx
        · intro x hx
          rcases List.mem_append.mp hx with hx | hx
          · exact g9 x hx
          · exact Or.inl (by simpa using hx)
      | junk sb s o tail g1 g2 g3 g4 g5 g6 g7 => exact absurd h1 g5
    · rw [if_pos h1] at h; cases h

theorem run_ctl : ∀ (es done : List (Ev N)) (r r' : R N), Ctl r done → run es r = .ok r' → Ctl r' (done ++ es) := by
  intro es
  induction es with
  | nil => intro done r r' hc h; cases h; simpa using hc
  | cons e es ih =>
    intro done r r' hc h
    unfold run at h
    obtain ⟨r1, h1, h2⟩ := bind_ok h
    have := ih _ _ _ (step_ctl hc h1) h2
    simpa using this

theorem run_append (a b : List (Ev N)) (r : R N) : run (a ++ b) r = (run a r >>= run b) := by
  induction a generalizing r with
  | nil => rfl
  | cons e a ih =>
    show (step e r >>= fun r => run (a ++ b) r) = ((step e r >>= fun r => run a r) >>= run b)
    cases step e r with
    | error x => rfl
    | ok r1 => exact ih r1

/-! ## Theorems -/

/-- C24, first half: the superblock is written only at the end tag of a superblock with a valid block size, after sections that are
properly nested (the last of them may lack its end tag, see `unclosed_section_accepted`). -/
theorem superblock_written_after (st : Bld.St Val) (es : List (Ev N)) (r : R N) (h : run es (R.new N st) = .ok r)
    (hw : r.out ≠ none) :
    ∃ sb s o tail, SizeOK sb ∧ Sections s ∧ Unfinished s o ∧ es = .sbB sb :: s ++ o ++ .sbE :: tail := by
  have hc := run_ctl es [] _ r (Ctl.start rfl rfl rfl rfl rfl rfl) h
  rw [List.nil_append] at hc
  cases hc with
  | start _ _ _ _ g => exact absurd g hw
  | «open» _ _ _ _ _ _ _ _ _ _ g => exact absurd g hw
  | done sb s o tail g1 g2 g3 => exact ⟨sb, s, o, tail, g1, g2, g3, rfl⟩
  | junk sb s o tail g1 g2 g3 => exact ⟨sb, s, o, tail, g1, g2, g3, rfl⟩

/-- The end of the input is accepted only after the superblock has been written, and nothing but mappings and references (of a section
that lacks its end tag) may follow the end tag of the superblock. -/
theorem eof_accepted_only_when_complete (st : Bld.St Val) (es : List (Ev N)) (r : R N)
    (h : run (es ++ [.eof]) (R.new N st) = .ok r) :
    r.out ≠ none ∧ ∃ sb s o tail, SizeOK sb ∧ Sections s ∧ Unfinished s o ∧ es ++ [.eof] = .sbB sb :: s ++ o ++ .sbE :: tail ∧
      (o = [] → ∀ e ∈ tail, e = .eof) ∧ ∀ e ∈ tail, e = .eof ∨ IsMap e ∨ ∃ n, e = .ref n := by
  have hc := run_ctl _ [] _ r (Ctl.start rfl rfl rfl rfl rfl rfl) h
  have hf : r.sec = .finalized := by
    rw [run_append] at h
    obtain ⟨r1, h1, h2⟩ := bind_ok h
    unfold run at h2
    obtain ⟨r2, h3, h4⟩ := bind_ok h2
    cases h4
    simp only [step] at h3
    by_cases h5 : r1.sec = .finalized
    · rw [if_neg (by simp [h5])] at h3; cases h3; exact h5
    · rw [if_pos h5] at h3; cases h3
  rw [List.nil_append] at hc
  generalize hes : es ++ [Ev.eof] = l at hc
  cases hc with
  | start _ => simp at hes
  | «open» _ _ _ _ _ _ _ _ g => exact absurd hf g
  | done sb s o tail g1 g2 g3 g4 g5 g6 g7 g8 g9 => exact ⟨g6, sb, s, o, tail, g1, g2, g3, rfl, g8, g9⟩
  | junk _ _ _ _ _ _ _ _ g => exact absurd hf g

theorem balanced_maps (body rest : List (Ev N)) (st : List Tag) (h : ∀ e ∈ body, IsMap e ∨ ∃ n, e = .ref n) :
    balanced st (body ++ rest) = balanced st rest := by
  induction body with
  | nil => rfl
  | cons e body ih =>
    have := ih (fun x hx => h x (by simp [hx]))
    rcases h e (by simp) with ⟨r, rfl⟩ | ⟨n, rfl⟩ <;> simpa [balanced] using this

theorem balanced_sections {s : List (Ev N)} (h : Sections s) : ∀ (rest : List (Ev N)) (st : List Tag),
    balanced st (s ++ rest) = balanced st rest := by
  induction h with
  | nil => intro rest st; rfl
  | «def» s n body hs hb ih =>
    intro rest st
    have e : s ++ .defB n :: body ++ [.defE] ++ rest = s ++ (.defB n :: (body ++ .defE :: rest)) := by simp
    rw [e, ih]
    have : balanced st (.defB n :: (body ++ .defE :: rest)) = balanced (.def :: st) (body ++ .defE :: rest) := by
      simp [balanced]
    rw [this, balanced_maps _ _ _ (fun x hx => Or.inl (hb x hx))]
    simp [balanced]
  | dev s d body hs hb ih =>
    intro rest st
    have e : s ++ .devB d :: body ++ [.devE] ++ rest = s ++ (.devB d :: (body ++ .devE :: rest)) := by simp
    rw [e, ih]
    have : balanced st (.devB d :: (body ++ .devE :: rest)) = balanced (.device :: st) (body ++ .devE :: rest) := by
      simp [balanced]
    rw [this, balanced_maps _ _ _ (fun x hx => (hb x hx).elim Or.inl (fun ⟨n, e, _⟩ => Or.inr ⟨n, e⟩))]
    simp [balanced]

/-- C24: an input with matching start and end tags (the XML parser refuses others) that is accepted up to its end is well nested. -/
theorem accepted_well_nested_partial (st : Bld.St Val) (es : List (Ev N)) (r : R N) (hb : balanced [] es = true) (he : Ev.eof ∉ es)
    (h : run (es ++ [.eof]) (R.new N st) = .ok r) : WellNested (es ++ [.eof]) ∧ r.out ≠ none := by
  obtain ⟨hw, sb, s, o, tail, h1, h2, h3, h4, h5, h6⟩ := eof_accepted_only_when_complete st es r h
  refine ⟨?_, hw⟩
  have hlast : ∃ t, tail = t ++ [.eof] ∧ es = .sbB sb :: s ++ o ++ .sbE :: t := by
    rcases List.eq_nil_or_concat tail with rfl | ⟨t, x, rfl⟩
    · obtain ⟨-, b⟩ := List.append_inj' h4 rfl
      cases b
    · have e : Ev.sbB sb :: s ++ o ++ .sbE :: (t ++ [x]) = (Ev.sbB sb :: s ++ o ++ .sbE :: t) ++ [x] := by simp
      rw [List.concat_eq_append, e] at h4
      obtain ⟨a, b⟩ := List.append_inj' h4 rfl
      obtain rfl : Ev.eof = x := by simpa using b
      exact ⟨t, by simp, a⟩
  obtain ⟨t, rfl, e⟩ := hlast
  have ht : ∀ x ∈ t, x ≠ .eof := by
    rintro x hx rfl
    exact he (by rw [e]; simp [hx])
  have hbal : balanced [.superblock] (o ++ .sbE :: t) = true := by
    rw [e] at hb
    have e1 : Ev.sbB sb :: s ++ o ++ .sbE :: t = Ev.sbB sb :: (s ++ (o ++ .sbE :: t)) := by simp
    rw [e1] at hb
    have e2 : balanced [] (Ev.sbB sb :: (s ++ (o ++ .sbE :: t))) = balanced [.superblock] (s ++ (o ++ .sbE :: t)) := by simp [balanced]
    rw [e2, balanced_sections h2] at hb
    exact hb
  have ho : o = [] := by
    cases h3 with
    | none => rfl
    | «def» n body hm =>
      have e3 : balanced [.superblock] (.defB n :: body ++ .sbE :: t) = balanced [.def, .superblock] (body ++ .sbE :: t) := by
        simp [balanced]
      rw [e3, balanced_maps _ _ _ (fun x hx => Or.inl (hm x hx))] at hbal
      simp [balanced] at hbal
    | dev d body hm =>
      have e3 : balanced [.superblock] (.devB d :: body ++ .sbE :: t) = balanced [.device, .superblock] (body ++ .sbE :: t) := by
        simp [balanced]
      rw [e3, balanced_maps _ _ _ (fun x hx => (hm x hx).elim Or.inl (fun ⟨n, e, _⟩ => Or.inr ⟨n, e⟩))] at hbal
      simp [balanced] at hbal
  subst ho
  have htn : t = [] := by
    cases t with
    | nil => rfl
    | cons x t => exact absurd (h5 rfl x (by simp)) (ht x (by simp))
  subst htn
  exact ⟨sb, s, h1, h2, by rw [e]; simp⟩

/-! ### Witnesses -/

/-- an empty metadata device of twenty blocks -/
def demo0 : Bld.St Val := { mem := fun _ => none, sm := SM.Core.new 100 20, log := [] }

/-- a superblock -/
def demoSb : SbIR := ⟨0, 1, 128, 100⟩

/-- whether a stream is accepted up to its end, and the superblock written -/
def accepts (es : List (Ev Nat)) : Bool :=
  match run es (R.new Nat demo0) with
  | .ok r => r.out.isSome
  | .error _ => false

/-- a definition, and two devices, one of which uses it -/
def demoDoc : List (Ev Nat) :=
  [.sbB demoSb, .defB 7, .map ⟨0, 10, 0, 2⟩, .defE, .devB ⟨1, ⟨3, 0, 0, 0⟩⟩, .ref 7, .map ⟨5, 40, 0, 1⟩, .devE,
   .devB ⟨2, ⟨2, 0, 0, 0⟩⟩, .ref 7, .devE, .sbE, .eof]

example : accepts demoDoc = true ∧ balanced [] (demoDoc.dropLast) = true := by decide

/-- The consumer itself, without the XML parser, accepts a device without end tag: the device is silently lost, and the result is valid
metadata. -/
theorem unclosed_section_accepted :
    accepts [.sbB demoSb, .devB ⟨1, ⟨1, 0, 0, 0⟩⟩, .map ⟨0, 10, 0, 1⟩, .sbE, .eof] = true ∧
    (match run (N := Nat) [.sbB demoSb, .devB ⟨1, ⟨1, 0, 0, 0⟩⟩, .map ⟨0, 10, 0, 1⟩, .sbE, .eof] (R.new Nat demo0) with
      | .ok r => r.devices.isEmpty
      | .error _ => false) = true := by decide

/-- What follows the end of the superblock is refused, but the superblock has been written by then. -/
theorem trailing_error_after_write_refuted :
    accepts [.sbB demoSb, .sbE] = true ∧
    (match run (N := Nat) [.sbB demoSb, .sbE, .sbB demoSb] (R.new Nat demo0) with
      | .error .ctl => true
      | _ => false) = true := by decide

/-- Two devices with the same id: the later one replaces the earlier. -/
theorem duplicate_device_accepted :
    (match run (N := Nat) [.sbB demoSb, .devB ⟨1, ⟨1, 0, 0, 0⟩⟩, .map ⟨0, 10, 0, 1⟩, .devE, .devB ⟨1, ⟨0, 9, 0, 0⟩⟩, .devE, .sbE, .eof]
        (R.new Nat demo0) with
      | .ok r => r.devices.map (·.2.1) == [⟨0, 9, 0, 0⟩]
      | .error _ => false) = true := by decide

end Verif.Rst
