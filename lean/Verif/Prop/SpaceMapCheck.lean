import Verif.Model.SpaceMapCheck
import Verif.Prop.Walker
import Verif.Prop.SpaceMapDisk
import Verif.Prop.LeafWalker

/-!
# C20, C21: checking a space map and repairing leaks
-/

namespace Verif.SMC

open Verif.BT (Blk Event WSt Tree)
open Verif.SMD (SVal DiskCount)

/-! ## Specification -/

/-- what a bitmap block is: `epb` entries of two bits each -/
def Entries (epb : Nat) (rd : Nat → Option (Bool × List BE)) : Prop :=
  ∀ loc t es, rd loc = some (t, es) → es.length = epb ∧ ∀ n, BE.small n ∈ es → n ≤ 2

theorem Entries.len {epb : Nat} {rd : Nat → Option (Bool × List BE)} (h : Entries epb rd) : ∀ loc t es, rd loc = some (t, es) → es.length = epb :=
  fun loc t es hr => (h loc t es hr).1

/-- the entry for block `b` in the bitmaps at `locs`, `epb` blocks to a bitmap -/
def EntryAt (epb : Nat) (rd : Nat → Option (Bool × List BE)) (locs : List Nat) (b : Nat) (e : BE) : Prop :=
  ∃ loc t es, locs[b / epb]? = some loc ∧ rd loc = some (t, es) ∧ es[b % epb]? = some e

/-- a leak: the disk says that the block is used once, but nothing refers to it -/
def Leaked (e : BE) (c : Nat) : Prop := e = .small 1 ∧ c = 0

/-- a difference, other than a leak, that the checker sees between an entry and the expected count `c` -/
def Bad (e : BE) (c : Nat) : Prop :=
  match e with
  | .small n => ¬ Leaked e c ∧ n ≠ c % 256
  | .overflow => c < 3

/-- the view of bitmaps that `DiskCount` needs -/
def bitmapOf (rd : Nat → Option (Bool × List BE)) (loc : Nat) : Option (List BE) := (rd loc).map (·.2)

/-! ## One bitmap -/

theorem checkEntries_spec (exp : List Nat) : ∀ (es : List BE) (b0 : Nat), b0 ≤ exp.length →
    (checkEntries exp es b0).blocknr = min (b0 + es.length) exp.length ∧
    ((checkEntries exp es b0).failed = true ↔ ∃ (i : Nat) (e : BE) (c : Nat), es[i]? = some e ∧ exp[b0 + i]? = some c ∧ Bad e c) ∧
    (0 < (checkEntries exp es b0).leaks ↔ ∃ (i : Nat) (e : BE) (c : Nat), es[i]? = some e ∧ exp[b0 + i]? = some c ∧ Leaked e c) := by
  intro es
  induction es with
  | nil => intro b0 h; simp [checkEntries]; omega
  | cons e es ih =>
    intro b0 h
    unfold checkEntries
    by_cases hb : b0 < exp.length
    · rw [List.getElem?_eq_getElem hb]
      simp only
      obtain ⟨i1, i2, i3⟩ := ih (b0 + 1) (by omega)
      generalize checkEntries exp es (b0 + 1) = r at *
      generalize hc : exp[b0] = c at *
      have hc' : exp[b0]? = some c := by rw [List.getElem?_eq_getElem hb, hc]
      have shift : ∀ (P : BE → Nat → Prop), (∃ (i : Nat) (e' : BE) (c' : Nat), (e :: es)[i]? = some e' ∧ exp[b0 + i]? = some c' ∧ P e' c') ↔
          (P e c ∨ ∃ (i : Nat) (e' : BE) (c' : Nat), es[i]? = some e' ∧ exp[b0 + 1 + i]? = some c' ∧ P e' c') := by
        intro P
        constructor
        · rintro ⟨i, e', c', h1, h2, h3⟩
          cases i with
          | zero =>
            simp only [List.getElem?_cons_zero, Option.some.injEq] at h1
            rw [Nat.add_zero, hc'] at h2
            cases h2; subst h1; exact Or.inl h3
          | succ i =>
            exact Or.inr ⟨i, e', c', by simpa using h1, by rw [← h2]; congr 1; omega, h3⟩
        · rintro (h | ⟨i, e', c', h1, h2, h3⟩)
          · exact ⟨0, e, c, rfl, hc', h⟩
          · exact ⟨i + 1, e', c', by simpa using h1, by rw [← h2]; congr 1; omega, h3⟩
      have key : (r.blocknr = min (b0 + (e :: es).length) exp.length) := by
        rw [i1, List.length_cons]; congr 1; omega
      rw [shift Bad, shift Leaked]
      cases e with
      | small n =>
        simp only
        by_cases h1 : n = 1 ∧ c = 0
        · rw [if_pos h1]
          obtain ⟨rfl, rfl⟩ := h1
          refine ⟨key, ?_, ?_⟩
          · simp only [i2]
            constructor
            · intro h; exact Or.inr h
            · rintro (h | h)
              · exact absurd ⟨rfl, rfl⟩ h.1
              · exact h
          · simp only [Nat.zero_lt_succ, true_iff]
            exact Or.inl ⟨rfl, rfl⟩
        · have hnl : ¬ Leaked (.small n) c := fun hl => h1 ⟨by injection hl.1, hl.2⟩
          rw [if_neg h1]
          by_cases h2 : n = c % 256
          · rw [if_neg (by simpa using h2)]
            refine ⟨key, ?_, ?_⟩
            · rw [i2]
              simp [Bad, h2]
            · rw [i3]; simp [hnl]
          · rw [if_pos h2]
            refine ⟨key, ?_, ?_⟩
            · simp only [true_iff]
              exact Or.inl ⟨hnl, h2⟩
            · simp only [i3]; simp [hnl]
      | overflow =>
        simp only
        have hnl : ¬ Leaked .overflow c := fun hl => by cases hl.1
        by_cases h2 : c < 3
        · rw [if_pos h2]
          refine ⟨key, ?_, ?_⟩
          · simp only [true_iff]
            exact Or.inl h2
          · simp only [i3]; simp [hnl]
        · rw [if_neg h2]
          refine ⟨key, ?_, ?_⟩
          · rw [i2]
            simp [Bad, h2]
          · rw [i3]; simp [hnl]
    · rw [List.getElem?_eq_none (by omega)]
      have hn : ∀ i, exp[b0 + i]? = none := fun i => List.getElem?_eq_none (by omega)
      simp [hn]
      omega

/-! ## All bitmaps -/

/-- a bad entry among the bitmaps at `locs`, the first of which starts at block `b0` -/
def BadIn (epb : Nat) (rd : Nat → Option (Bool × List BE)) (exp locs : List Nat) (b0 : Nat) : Prop :=
  ∃ (j i loc : Nat) (t : Bool) (es : List BE) (e : BE) (c : Nat), locs[j]? = some loc ∧ rd loc = some (t, es) ∧ es[i]? = some e ∧
    exp[b0 + j * epb + i]? = some c ∧ Bad e c

/-- `l` stands for a bitmap with a leak -/
def LeakIn (epb : Nat) (rd : Nat → Option (Bool × List BE)) (exp locs : List Nat) (b0 : Nat) (l : Leak) : Prop :=
  ∃ (j i : Nat) (t : Bool) (es : List BE) (e : BE) (c : Nat), locs[j]? = some l.loc ∧ l.blocknr = b0 + j * epb ∧ rd l.loc = some (t, es) ∧
    es[i]? = some e ∧ exp[b0 + j * epb + i]? = some c ∧ Leaked e c

theorem checkLoop_spec {epb : Nat} (he : 0 < epb) {rd : Nat → Option (Bool × List BE)} (hlen : ∀ loc t es, rd loc = some (t, es) → es.length = epb)
    (exp : List Nat) : ∀ (locs : List Nat) (b0 : Nat), b0 ≤ exp.length →
      (checkLoop rd exp locs b0 = none ↔ ∃ loc ∈ locs, rd loc = none) ∧
      ∀ f L, checkLoop rd exp locs b0 = some (f, L) →
        (f = true ↔ (∃ loc ∈ locs, ∃ es, rd loc = some (false, es)) ∨ BadIn epb rd exp locs b0) ∧
        (∀ l, l ∈ L ↔ LeakIn epb rd exp locs b0 l) ∧ L.Pairwise (fun a b => a.blocknr < b.blocknr) := by
  intro locs
  induction locs with
  | nil =>
    intro b0 _
    refine ⟨by simp [checkLoop], ?_⟩
    intro f L h
    simp only [checkLoop, Option.some.injEq, Prod.mk.injEq] at h
    obtain ⟨rfl, rfl⟩ := h
    simp [BadIn, LeakIn]
  | cons loc locs ih =>
    intro b0 hb0
    unfold checkLoop
    cases hr : rd loc with
    | none => simp [hr]
    | some p =>
      obtain ⟨t, es⟩ := p
      simp only
      obtain ⟨c1, c2, c3⟩ := checkEntries_spec exp es b0 hb0
      generalize checkEntries exp es b0 = r at *
      have hel := hlen loc t es hr
      rw [hel] at c1
      obtain ⟨i1, i2⟩ := ih r.blocknr (by rw [c1]; omega)
      -- what block the rest starts at
      have hshift : ∀ j i, exp[r.blocknr + j * epb + i]? = exp[b0 + (j + 1) * epb + i]? := by
        intro j i
        have e : (j + 1) * epb = j * epb + epb := Nat.succ_mul j epb
        rw [c1]
        by_cases h : b0 + epb ≤ exp.length
        · congr 1; rw [Nat.min_eq_left h]; omega
        · rw [List.getElem?_eq_none (by omega), List.getElem?_eq_none (by omega)]
      have hbad : BadIn epb rd exp (loc :: locs) b0 ↔ r.failed = true ∨ BadIn epb rd exp locs r.blocknr := by
        rw [c2]
        constructor
        · rintro ⟨j, i, loc', t', es', e, c, h1, h2, h3, h4, h5⟩
          cases j with
          | zero =>
            simp only [List.getElem?_cons_zero, Option.some.injEq] at h1
            subst h1
            rw [hr] at h2
            cases h2
            exact Or.inl ⟨i, e, c, h3, by simpa using h4, h5⟩
          | succ j => exact Or.inr ⟨j, i, loc', t', es', e, c, by simpa using h1, h2, h3, by rw [hshift]; exact h4, h5⟩
        · rintro (⟨i, e, c, h3, h4, h5⟩ | ⟨j, i, loc', t', es', e, c, h1, h2, h3, h4, h5⟩)
          · exact ⟨0, i, loc, t, es, e, c, rfl, hr, h3, by simpa using h4, h5⟩
          · exact ⟨j + 1, i, loc', t', es', e, c, by simpa using h1, h2, h3, by rw [← hshift]; exact h4, h5⟩
      have hstart : ∀ l, LeakIn epb rd exp locs r.blocknr l → r.blocknr = b0 + epb := by
        rintro l ⟨j, i, t', es', e, c, h1, h2, h3, h4, h5, h6⟩
        have := (List.getElem?_eq_some_iff.mp h5).1
        omega
      have hleak : ∀ l, LeakIn epb rd exp (loc :: locs) b0 l ↔ (0 < r.leaks ∧ l = ⟨b0, loc⟩) ∨ LeakIn epb rd exp locs r.blocknr l := by
        intro l
        rw [c3]
        constructor
        · rintro ⟨j, i, t', es', e, c, h1, h2, h3, h4, h5, h6⟩
          cases j with
          | zero =>
            simp only [List.getElem?_cons_zero, Option.some.injEq] at h1
            rw [← h1, hr] at h3
            cases h3
            refine Or.inl ⟨⟨i, e, c, h4, by simpa using h5, h6⟩, ?_⟩
            obtain ⟨lb, ll⟩ := l
            simp only at h1 h2
            rw [h1, h2]
            simp
          | succ j =>
            have hlt := (List.getElem?_eq_some_iff.mp h5).1
            have e' : (j + 1) * epb = j * epb + epb := Nat.succ_mul j epb
            have : r.blocknr = b0 + epb := by omega
            exact Or.inr ⟨j, i, t', es', e, c, by simpa using h1, by rw [h2, this]; omega, h3, h4, by rw [hshift]; exact h5, h6⟩
        · rintro (⟨⟨i, e, c, h4, h5, h6⟩, rfl⟩ | h)
          · exact ⟨0, i, t, es, e, c, rfl, by simp, hr, h4, by simpa using h5, h6⟩
          · have hs := hstart l h
            obtain ⟨j, i, t', es', e, c, h1, h2, h3, h4, h5, h6⟩ := h
            have e' : (j + 1) * epb = j * epb + epb := Nat.succ_mul j epb
            exact ⟨j + 1, i, t', es', e, c, by simpa using h1, by rw [h2, hs]; omega, h3, h4, by rw [← hshift]; exact h5, h6⟩
      cases hcl : checkLoop rd exp locs r.blocknr with
      | none =>
        simp only
        have := i1.mp hcl
        obtain ⟨x, hx, hx'⟩ := this
        exact ⟨⟨fun _ => ⟨x, List.mem_cons_of_mem _ hx, hx'⟩, fun _ => trivial⟩, fun f L h => by cases h⟩
      | some q =>
        obtain ⟨f', L'⟩ := q
        obtain ⟨j1, j2, j3⟩ := i2 f' L' hcl
        simp only
        refine ⟨⟨fun h => (by cases h), ?_⟩, ?_⟩
        · rintro ⟨x, hx, hx'⟩
          rcases List.mem_cons.mp hx with rfl | hx
          · rw [hr] at hx'; cases hx'
          · rw [i1.mpr ⟨x, hx, hx'⟩] at hcl; cases hcl
        · intro f L h
          simp only [Option.some.injEq, Prod.mk.injEq] at h
          obtain ⟨rfl, rfl⟩ := h
          refine ⟨?_, ?_, ?_⟩
          · rw [hbad, Bool.or_eq_true, Bool.or_eq_true, j1]
            constructor
            · rintro ((h | h) | (⟨x, hx, hx'⟩ | h))
              · left; exact ⟨loc, by simp, es, by rw [hr]; simpa using h⟩
              · right; left; exact h
              · left; exact ⟨x, List.mem_cons_of_mem _ hx, hx'⟩
              · right; right; exact h
            · rintro (⟨x, hx, es', hx'⟩ | (h | h))
              · rcases List.mem_cons.mp hx with rfl | hx
                · rw [hr] at hx'; cases hx'; left; left; rfl
                · right; left; exact ⟨x, hx, es', hx'⟩
              · left; right; exact h
              · right; right; exact h
          · intro l
            rw [hleak, ← j2 l]
            by_cases h0 : r.leaks > 0
            · rw [if_pos h0, List.mem_cons]; simp [h0]
            · rw [if_neg h0]; simp [h0]
          · by_cases h0 : r.leaks > 0
            · rw [if_pos h0]
              refine List.Pairwise.cons ?_ j3
              intro l hl
              have hL := (j2 l).mp hl
              have := hstart l hL
              obtain ⟨j, i, t', es', e, c, h1, h2, h3, h4, h5, h6⟩ := hL
              simp only
              omega
            · rw [if_neg h0]; exact j3

theorem entryAt_iff {epb : Nat} (he : 0 < epb) {rd : Nat → Option (Bool × List BE)} (hlen : ∀ loc t es, rd loc = some (t, es) → es.length = epb)
    {locs : List Nat} {b : Nat} {e : BE} : EntryAt epb rd locs b e ↔
      ∃ (j i loc : Nat) (t : Bool) (es : List BE), b = j * epb + i ∧ locs[j]? = some loc ∧ rd loc = some (t, es) ∧ es[i]? = some e := by
  constructor
  · rintro ⟨loc, t, es, h1, h2, h3⟩
    exact ⟨b / epb, b % epb, loc, t, es, (Nat.div_add_mod' b epb).symm, h1, h2, h3⟩
  · rintro ⟨j, i, loc, t, es, rfl, h1, h2, h3⟩
    have hi : i < epb := by rw [← hlen loc t es h2]; exact (List.getElem?_eq_some_iff.mp h3).1
    have e1 : (j * epb + i) / epb = j := by
      rw [Nat.mul_comm, Nat.mul_add_div he, Nat.div_eq_of_lt hi]; rfl
    have e2 : (j * epb + i) % epb = i := by
      rw [Nat.mul_comm, Nat.mul_add_mod, Nat.mod_eq_of_lt hi]
    exact ⟨loc, t, es, by rw [e1]; exact h1, h2, by rw [e2]; exact h3⟩

/-- **C20**, the bitmaps.  The check of the bitmaps succeeds exactly if all of them can be read and have the checksum of a bitmap, and
no entry differs from the expected count other than by a leak.  It then lists exactly the bitmaps that have a leaked block, each
with its position and its first block, in order. -/
theorem checkLow_spec {epb : Nat} (he : 0 < epb) {rd : Nat → Option (Bool × List BE)}
    (hlen : ∀ loc t es, rd loc = some (t, es) → es.length = epb) (exp : List Nat)
    (ies : List IndexEntry) :
    ((∃ L, checkLow rd exp ies = some L) ↔ (∀ ie ∈ ies, ∃ es, rd ie.blocknr = some (true, es)) ∧
      ∀ b c e, exp[b]? = some c → EntryAt epb rd (ies.map (·.blocknr)) b e → ¬ Bad e c) ∧
    ∀ L, checkLow rd exp ies = some L → L.Pairwise (fun a b => a.blocknr < b.blocknr) ∧
      ∀ l, l ∈ L ↔ ∃ j, (ies.map (·.blocknr))[j]? = some l.loc ∧ l.blocknr = j * epb ∧
        ∃ b c, b / epb = j ∧ exp[b]? = some c ∧ ∃ e, EntryAt epb rd (ies.map (·.blocknr)) b e ∧ Leaked e c := by
  obtain ⟨s1, s2⟩ := checkLoop_spec he hlen exp (ies.map (·.blocknr)) 0 (by omega)
  have hbad : BadIn epb rd exp (ies.map (·.blocknr)) 0 ↔ ∃ b c e, exp[b]? = some c ∧ EntryAt epb rd (ies.map (·.blocknr)) b e ∧ Bad e c := by
    constructor
    · rintro ⟨j, i, loc, t, es, e, c, h1, h2, h3, h4, h5⟩
      exact ⟨j * epb + i, c, e, by simpa using h4, (entryAt_iff he hlen).mpr ⟨j, i, loc, t, es, rfl, h1, h2, h3⟩, h5⟩
    · rintro ⟨b, c, e, h4, hE, h5⟩
      obtain ⟨j, i, loc, t, es, rfl, h1, h2, h3⟩ := (entryAt_iff he hlen).mp hE
      exact ⟨j, i, loc, t, es, e, c, h1, h2, h3, by simpa using h4, h5⟩
  constructor
  · unfold checkLow
    cases hc : checkLoop rd exp (ies.map (·.blocknr)) 0 with
    | none =>
      obtain ⟨loc, hl, hn⟩ := s1.mp hc
      obtain ⟨ie, hie, rfl⟩ := List.mem_map.mp hl
      simp only [reduceCtorEq, exists_false, false_iff, not_and]
      intro h
      obtain ⟨es, h'⟩ := h ie hie
      rw [hn] at h'; cases h'
    | some p =>
      obtain ⟨f, L⟩ := p
      obtain ⟨t1, -, -⟩ := s2 f L hc
      have hsome : ∀ ie ∈ ies, rd ie.blocknr ≠ none := by
        intro ie hie hn
        rw [s1.mpr ⟨_, List.mem_map.mpr ⟨ie, hie, rfl⟩, hn⟩] at hc
        cases hc
      simp only
      cases f with
      | true =>
        simp only [if_true, reduceCtorEq, exists_false, false_iff]
        rintro ⟨h1, h2⟩
        rcases t1.mp rfl with ⟨loc, hl, es, h⟩ | h
        · obtain ⟨ie, hie, rfl⟩ := List.mem_map.mp hl
          obtain ⟨es', h'⟩ := h1 ie hie
          rw [h] at h'; cases h'
        · obtain ⟨b, c, e, g1, g2, g3⟩ := hbad.mp h
          exact h2 b c e g1 g2 g3
      | false =>
        simp only [Bool.false_eq_true, if_false, Option.some.injEq, exists_eq', true_iff]
        have t1' : ¬ ((∃ loc ∈ ies.map (·.blocknr), ∃ es, rd loc = some (false, es)) ∨ BadIn epb rd exp (ies.map (·.blocknr)) 0) :=
          fun h => by simpa using t1.mpr h
        refine ⟨?_, fun b c e g1 g2 g3 => t1' (Or.inr (hbad.mpr ⟨b, c, e, g1, g2, g3⟩))⟩
        intro ie hie
        cases h : rd ie.blocknr with
        | none => exact absurd h (hsome ie hie)
        | some q =>
          obtain ⟨t, es⟩ := q
          cases t with
          | true => exact ⟨es, rfl⟩
          | false => exact absurd (Or.inl ⟨_, List.mem_map.mpr ⟨ie, hie, rfl⟩, es, h⟩) t1'
  · intro L h
    unfold checkLow at h
    cases hc : checkLoop rd exp (ies.map (·.blocknr)) 0 with
    | none => rw [hc] at h; cases h
    | some p =>
      obtain ⟨f, L'⟩ := p
      rw [hc] at h
      simp only at h
      cases f with
      | true => simp at h
      | false =>
        simp only [Bool.false_eq_true, if_false, Option.some.injEq] at h
        subst h
        obtain ⟨-, t2, t3⟩ := s2 false L' hc
        refine ⟨t3, ?_⟩
        intro l
        rw [t2 l]
        constructor
        · rintro ⟨j, i, t, es, e, c, h1, h2, h3, h4, h5, h6⟩
          have hi : i < epb := by rw [← hlen _ t es h3]; exact (List.getElem?_eq_some_iff.mp h4).1
          refine ⟨j, h1, by simpa using h2, j * epb + i, c, ?_, by simpa using h5, e, (entryAt_iff he hlen).mpr ⟨j, i, l.loc, t, es, rfl, h1, h3, h4⟩, h6⟩
          rw [Nat.mul_comm, Nat.mul_add_div he, Nat.div_eq_of_lt hi]; rfl
        · rintro ⟨j, h1, h2, b, c, rfl, h5, e, ⟨loc, t, es, g1, g2, g3⟩, h6⟩
          rw [g1] at h1
          cases h1
          refine ⟨b / epb, b % epb, t, es, e, c, g1, by simpa using h2, g2, g3, ?_, h6⟩
          rw [Nat.zero_add, Nat.div_add_mod']
          exact h5

/-! ## The overflow tree -/

/-- an entry of the overflow tree that agrees with the expected counts -/
def OvOk (exp : List Nat) (e : Nat × SVal) : Prop := ∃ v, e.2 = .rc v ∧ exp[e.1]? = some v

theorem overflowOk_iff {exp : List Nat} {es : List (Nat × SVal)} : overflowOk exp es = true ↔ ∀ e ∈ es, OvOk exp e := by
  unfold overflowOk
  rw [List.all_eq_true]
  constructor
  · intro h e he
    have := h e he
    cases hv : e.2 with
    | rc v => rw [hv] at this; exact ⟨v, hv, by simpa using this⟩
    | ie i => rw [hv] at this; simp at this
  · intro h e he
    obtain ⟨v, h1, h2⟩ := h e he
    rw [h1]; simpa using h2

theorem reach_tree {V : Type} {mem : Nat → Option (Blk V)} {nr root : Nat} : ∀ (h : Nat) (t : Tree V h) (r : Bool), t.Stored (fun _ b => mem b) r h →
    (∀ b ∈ t.blocks h, b < nr) → BT.Reach (fun _ b => mem b) nr root (t.blk h) →
    ∀ b ∈ t.blocks h, BT.Reach (fun _ b => mem b) nr root b := by
  intro h
  induction h with
  | zero =>
    intro t r _ _ hr b hb
    simp only [BT.Tree.blocks, List.mem_singleton] at hb
    rw [hb]; exact hr
  | succ h ih =>
    intro t r hs hlt hr b hb
    simp only [BT.Tree.blocks, List.mem_cons] at hb
    rcases hb with rfl | hb
    · exact hr
    · obtain ⟨c, hc, hbc⟩ := List.mem_flatMap.mp hb
      have hsub : ∀ x ∈ c.2.blocks h, x < nr := fun x hx => hlt x (by
        simp only [BT.Tree.blocks, List.mem_cons]; exact Or.inr (List.mem_flatMap.mpr ⟨c, hc, hx⟩))
      refine ih c.2 false (hs.2 c hc) hsub ?_ b hbc
      exact BT.Reach.child (c := (c.1, Tree.blk h c.2)) hr hs.1 (List.mem_map.mpr ⟨c, hc, rfl⟩)
        (hsub _ (by cases h <;> simp [Tree.blk, Tree.blocks]))

theorem reach_only {V : Type} {mem : Nat → Option (Blk V)} {nr : Nat} {h : Nat} {t : Tree V h} (hs : t.Stored (fun _ b => mem b) true h) (b : Nat)
    (hr : BT.Reach (fun _ b => mem b) nr (t.blk h) b) : ∃ (h' : Nat) (u : Tree V h'), u.blk h' = b ∧ u.Stored (fun _ b => mem b) true h' ∧
      ∀ x ∈ u.blocks h', x ∈ t.blocks h := by
  induction hr with
  | root => exact ⟨h, t, rfl, hs, fun _ hx => hx⟩
  | child _ hch hc hlt ih =>
    rename_i b' ch c
    obtain ⟨h', u, e, hu, hsub⟩ := ih
    subst e
    cases h' with
    | zero =>
      have : mem (u.blk 0) = some (.leaf u.2) := hu
      simp only [this] at hch
      cases hch
    | succ h' =>
      have hu1 := hu.1
      simp only at hu1 hch
      rw [show Tree.blk (h' + 1) u = u.1 from rfl, hu1] at hch
      cases hch
      obtain ⟨q, hq, rfl⟩ := List.mem_map.mp hc
      refine ⟨h', q.2, rfl, LW.stored_any (hu.2 q hq), ?_⟩
      intro x hx
      apply hsub
      simp only [BT.Tree.blocks, List.mem_cons]
      exact Or.inr (List.mem_flatMap.mpr ⟨q, hq, hx⟩)

theorem leaf_of_entry {V : Type} {mem : Nat → Option (Blk V)} : ∀ (h : Nat) (t : Tree V h) (r : Bool), t.Stored (fun _ b => mem b) r h →
    ∀ e ∈ t.contents h, ∃ b ∈ t.blocks h, ∃ es, mem b = some (.leaf es) ∧ e ∈ es := by
  intro h
  induction h with
  | zero => intro t r hs e he; exact ⟨t.1, by simp [BT.Tree.blocks], t.2, hs, he⟩
  | succ h ih =>
    intro t r hs e he
    simp only [Tree.contents] at he
    obtain ⟨c, hc, hec⟩ := List.mem_flatMap.mp he
    obtain ⟨b, hb, es, h1, h2⟩ := ih c.2 false (hs.2 c hc) e hec
    refine ⟨b, ?_, es, h1, h2⟩
    simp only [BT.Tree.blocks, List.mem_cons]
    exact Or.inr (List.mem_flatMap.mpr ⟨c, hc, hb⟩)

/-- If the walk over the overflow tree succeeds, every entry in it agrees with the expected counts. -/
theorem overflow_sound {io : Nat → Bool} {mem : Nat → Option (Blk SVal)} {exp : List Nat} {fuel : Nat} {path : List Nat} {s : WSt SVal}
    (hmx : 0 < s.mx) {h : Nat} {t : Tree SVal h} (hs : t.Stored (fun _ b => mem b) true h)
    (hlt : ∀ b ∈ t.blocks h, b < s.nr ∧ s.seen b = 0)
    (hok : (BT.walk io (fun _ b => mem b) (overflowVis exp) fuel path (t.blk h) s).2 = .ok) : ∀ e ∈ t.contents h, OvOk exp e := by
  intro e he
  have hcov := BT.walk_ok_covers_from io (fun _ b => mem b) (fun _ _ h => h) (overflowVis exp) s hmx fuel path (t.blk h) (by
    intro b hb
    obtain ⟨h', u, rfl, -, hsub⟩ := reach_only hs b hb
    exact (hlt _ (hsub _ (by cases h' <;> simp [Tree.blk, Tree.blocks]))).2) hok
  obtain ⟨b, hb, es, h1, h2⟩ := leaf_of_entry h t true hs e he
  have hc := hcov b (reach_tree h t true hs (fun b hb => (hlt b hb).1) .root b hb)
  unfold BT.Covered at hc
  simp only [h1] at hc
  obtain ⟨pre, post, p, kr, -, hv⟩ := hc
  exact overflowOk_iff.mp hv e h2

theorem leafEvents_entries {V : Type} : ∀ (h : Nat) (path : List Nat) (kr : BT.KeyRange) (t : Tree V h), ∀ ev ∈ BT.leafEvents h path kr t,
    ∃ p kr' es, ev = .visit p kr' es ∧ ∀ e ∈ es, e ∈ t.contents h := by
  intro h
  induction h with
  | zero =>
    intro path kr t ev hev
    simp only [BT.leafEvents, List.mem_singleton] at hev
    exact ⟨_, _, _, hev, fun e he => he⟩
  | succ h ih =>
    intro path kr t ev hev
    simp only [BT.leafEvents] at hev
    have key : ∀ l : List (Nat × Tree V h), ev ∈ BT.eachRange (BT.leafEvents h (path ++ [t.1])) kr.fin l →
        ∃ p kr' es, ev = .visit p kr' es ∧ ∀ e ∈ es, e ∈ l.flatMap (fun c => c.2.contents h) := by
      intro l
      induction l with
      | nil => intro h; cases h
      | cons c l ihl =>
        intro hm
        obtain ⟨k, c⟩ := c
        simp only [BT.eachRange, List.mem_append] at hm
        rcases hm with hm | hm
        · obtain ⟨p, kr', es, h1, h2⟩ := ih _ _ c ev hm
          exact ⟨p, kr', es, h1, fun e he => List.mem_flatMap.mpr ⟨(k, c), by simp, h2 e he⟩⟩
        · obtain ⟨p, kr', es, h1, h2⟩ := ihl hm
          exact ⟨p, kr', es, h1, fun e he => by rw [List.flatMap_cons]; exact List.mem_append.mpr (Or.inr (h2 e he))⟩
    exact key t.2 hev

/-- And a clean overflow tree that agrees with the expected counts passes. -/
theorem overflow_complete {mem : Nat → Option (Blk SVal)} {exp : List Nat} {nr fuel : Nat} {path : List Nat} {s : WSt SVal}
    (hmx : 0 < s.mx) {h : Nat} {t : Tree SVal h} (hc : LW.Clean mem nr h t) (hf : h < fuel)
    (hlt : ∀ b ∈ t.blocks h, b < s.nr ∧ s.seen b = 0) (hok : ∀ e ∈ t.contents h, OvOk exp e) {io : Nat → Bool} (hio : io (t.blk h) = true) :
    (BT.walk io (fun _ b => mem b) (overflowVis exp) fuel path (t.blk h) s).2 = .ok := by
  refine (BT.walk_clean_from io (fun _ b => mem b) (overflowVis exp) h t s hmx fuel hf path ?_ hio hc.stored hc.ordered hc.noEmpty
    (LW.blocks_nodup h t true 0 none hc.stored hc.ordered hc.noEmpty) hlt).1
  intro l ev hev
  obtain ⟨p, kr, es, rfl, hsub⟩ := leafEvents_entries h _ _ t ev hev
  exact overflowOk_iff.mpr fun e he => hok e (hsub e he)

/-! ## The two checks together -/

/-- the counts on disk agree with the expected ones, but for leaks in the bitmaps that `L` lists -/
def AgreeBut (epb : Nat) (rd : Nat → Option (Bool × List BE)) (ies : List IndexEntry) (ov : List (Nat × SVal)) (exp : List Nat) (L : List Leak) : Prop :=
  ∀ b c c', exp[b]? = some c → (c < 256 ∨ 3 ≤ c % 256) → DiskCount epb (bitmapOf rd) ies ov b c' →
    c' = c ∨ (c' = 1 ∧ c = 0 ∧ ∃ l ∈ L, l.blocknr = b / epb * epb ∧ (ies.map (·.blocknr))[b / epb]? = some l.loc)

theorem agree_of {epb : Nat} (he : 0 < epb) {rd : Nat → Option (Bool × List BE)} (hrd : Entries epb rd) {exp : List Nat} {ies : List IndexEntry}
    {ov : List (Nat × SVal)} {L : List Leak} (hL : checkLow rd exp ies = some L) (hov : ∀ e ∈ ov, OvOk exp e) : AgreeBut epb rd ies ov exp L := by
  obtain ⟨s1, s2⟩ := checkLow_spec he hrd.len exp ies
  obtain ⟨-, hbad⟩ := s1.mp ⟨L, hL⟩
  obtain ⟨-, hleak⟩ := s2 L hL
  intro b c c' hc hbig hd
  cases hd with
  | small ie es h1 h2 h3 =>
    unfold bitmapOf at h2
    cases hr : rd ie.blocknr with
    | none => rw [hr] at h2; cases h2
    | some p =>
      obtain ⟨t, es'⟩ := p
      rw [hr] at h2
      cases h2
      have hE : EntryAt epb rd (ies.map (·.blocknr)) b (.small c') := ⟨ie.blocknr, t, es', by rw [List.getElem?_map, h1]; rfl, hr, h3⟩
      have hnb := hbad b c _ hc hE
      by_cases hl : Leaked (.small c') c
      · right
        have h1' : c' = 1 := by injection hl.1
        refine ⟨h1', hl.2, ⟨b / epb * epb, ie.blocknr⟩, ?_, rfl, by rw [List.getElem?_map, h1]; rfl⟩
        exact (hleak _).mpr ⟨b / epb, by rw [List.getElem?_map, h1]; rfl, rfl, b, c, rfl, hc, _, hE, hl⟩
      · left
        have h2' : c' = c % 256 := Classical.not_not.mp fun hne => hnb ⟨hl, hne⟩
        have h3' : c' ≤ 2 := (hrd _ _ _ hr).2 c' (List.mem_of_getElem? h3)
        omega
  | overflow ie es h1 h2 h3 h4 =>
    obtain ⟨v, e1, e2⟩ := hov _ h4
    left
    simp only [SVal.rc.injEq] at e1
    rw [hc] at e2
    cases e2
    exact e1

/-- **C20** for the metadata space map: if the check succeeds, the count on disk of every block is the expected one, except for leaks,
and these are in the bitmaps it returns. -/
theorem checkMeta_sound_partial {epb : Nat} (he : 0 < epb) {rd : Nat → Option (Bool × List BE)} (hrd : Entries epb rd) {io : Nat → Bool}
    {mem : Nat → Option (Blk SVal)} {fuel nr : Nat} {root : SMRoot} {exp : List Nat} {ies : List IndexEntry} {h : Nat} {t : Tree SVal h}
    (hblk : t.blk h = root.ref_count_root) (hs : t.Stored (fun _ b => mem b) true h) (hlt : ∀ b ∈ t.blocks h, b < nr) {L : List Leak}
    (hok : checkMeta io (fun _ b => mem b) rd fuel nr root exp ies = some L) : AgreeBut epb rd ies (t.contents h) exp L := by
  unfold checkMeta at hok
  rw [← hblk] at hok
  simp only at hok
  by_cases hw : (BT.walk io (fun _ b => mem b) (overflowVis exp) fuel [0] (t.blk h) (WSt.fresh nr 1 true)).2 = .ok
  · rw [if_pos hw] at hok
    exact agree_of he hrd hok (overflow_sound (s := WSt.fresh nr 1 true) Nat.one_pos hs (fun b hb => ⟨hlt b hb, rfl⟩) hw)
  · rw [if_neg hw] at hok
    cases hok

theorem incEntries_frame : ∀ (ies : List IndexEntry) (s t : WSt SVal), incEntries ies s = some t →
    t.nr = s.nr ∧ t.mx = s.mx ∧ ∀ x, x ∉ ies.map (·.blocknr) → t.seen x = s.seen x := by
  intro ies
  induction ies with
  | nil => intro s t h; cases h; exact ⟨rfl, rfl, fun _ _ => rfl⟩
  | cons ie ies ih =>
    intro s t h
    unfold incEntries at h
    cases hi : s.smInc ie.blocknr with
    | none => rw [hi] at h; cases h
    | some p =>
      obtain ⟨rc, u⟩ := p
      rw [hi] at h
      obtain ⟨m1, -, -, -, m5, -, -⟩ := BT.smInc_spec hi
      obtain ⟨a1, a2, a3⟩ := ih u t h
      refine ⟨by rw [a1, m1.nr], by rw [a2, m1.mx], ?_⟩
      intro x hx
      rw [List.map_cons, List.mem_cons, not_or] at hx
      rw [a3 x hx.2, m5 x hx.1]

theorem indexValues_contents (ies : List IndexEntry) (k : Nat) : indexValues ((ies.zipIdx k).map fun e => (e.2, SVal.ie e.1)) = ies := by
  induction ies generalizing k with
  | nil => rfl
  | cons a l ih =>
    rw [List.zipIdx_cons, List.map_cons]
    unfold indexValues at ih ⊢
    rw [List.filterMap_cons]
    simp only
    rw [ih (k + 1)]

/-- the index tree of a space map: a clean tree with the index entries under `0, 1, 2, …` -/
structure IndexTree (mem : Nat → Option (Blk SVal)) (nr : Nat) (root : Nat) (ies : List IndexEntry) (h : Nat) (t : Tree SVal h) : Prop where
  clean : LW.Clean mem nr h t
  blk : t.blk h = root
  contents : t.contents h = ies.zipIdx.map fun e => (e.2, SVal.ie e.1)

theorem gatherDisk_clean {io : Nat → Bool} {mem : Nat → Option (Blk SVal)} {fuel root : Nat} {ies : List IndexEntry} {h : Nat} {t : Tree SVal h}
    {st : WSt SVal} (ht : IndexTree mem st.nr root ies h t) (hmx : 0 < st.mx) (hun : ∀ b ∈ t.blocks h, st.seen b = 0) (hf : h < fuel)
    (hio : io root = true) :
    ∃ s1 : WSt SVal, s1.nr = st.nr ∧ s1.mx = st.mx ∧ (∀ x, x ∉ t.blocks h → s1.seen x = st.seen x) ∧
      gatherDisk io (fun _ b => mem b) fuel root st = (incEntries ies s1).map fun s => (ies, s) := by
  obtain ⟨w1, w2, w3, w4, w5⟩ := BT.walk_clean_from io (fun _ b => mem b) (fun _ _ => true) h t
    { st with log := [], fails := fun _ => false } hmx fuel hf [0] (fun _ _ _ => rfl) (by rw [ht.blk]; exact hio)
    ht.clean.stored ht.clean.ordered ht.clean.noEmpty (LW.blocks_nodup h t true 0 none ht.clean.stored ht.clean.ordered ht.clean.noEmpty)
    (fun x hx => ⟨ht.clean.bound x hx, hun x hx⟩)
  rw [ht.blk] at w1 w2 w3 w4 w5
  refine ⟨_, w4, w5, w3, ?_⟩
  unfold gatherDisk
  simp only [w1, if_true, w2]
  rw [List.nil_append, LW.collected_leaves h _ _ t _ [] (by
    rw [List.nil_append]; exact LW.ordered_sorted h t 0 none ht.clean.ordered), List.nil_append, ht.contents]
  rw [show LW.collected [Event.endWalk] (ies.zipIdx.map fun e => (e.2, SVal.ie e.1)) = ies.zipIdx.map fun e => (e.2, SVal.ie e.1) from rfl,
    indexValues_contents]

/-- **C20** for the data space map, when its trees are sound and nothing that was walked before shares their blocks: if the check
succeeds, the count on disk of every data block is the expected one, except for leaks, and these are in the bitmaps it returns. -/
theorem checkDisk_sound_partial {epb : Nat} (he : 0 < epb) {rd : Nat → Option (Bool × List BE)} (hrd : Entries epb rd) {io : Nat → Bool}
    {mem : Nat → Option (Blk SVal)} {fuel : Nat} {root : SMRoot} {exp : List Nat} {ies : List IndexEntry} {hx ho : Nat} {tx : Tree SVal hx}
    {to : Tree SVal ho} {st : WSt SVal} (hmx : 0 < st.mx) (htx : IndexTree mem st.nr root.bitmap_root ies hx tx) (hf : hx < fuel)
    (hio : io root.bitmap_root = true)
    (hblk : to.blk ho = root.ref_count_root) (hs : to.Stored (fun _ b => mem b) true ho) (hlt : ∀ b ∈ to.blocks ho, b < st.nr)
    (hun : ∀ b ∈ tx.blocks hx ++ to.blocks ho, st.seen b = 0)
    (hdis : ∀ b ∈ to.blocks ho, b ∉ tx.blocks hx ∧ b ∉ ies.map (·.blocknr)) {L : List Leak} {st' : WSt SVal}
    (hok : checkDisk io (fun _ b => mem b) rd fuel root exp st = some (L, st')) : AgreeBut epb rd ies (to.contents ho) exp L := by
  obtain ⟨s1, a1, a2, a3, a4⟩ := gatherDisk_clean htx hmx (fun b hb => hun b (List.mem_append.mpr (Or.inl hb))) hf hio
  unfold checkDisk at hok
  rw [a4] at hok
  cases hi : incEntries ies s1 with
  | none => rw [hi] at hok; cases hok
  | some s2 =>
    rw [hi] at hok
    obtain ⟨b1, b2, b3⟩ := incEntries_frame ies s1 s2 hi
    simp only [Option.map_some] at hok
    rw [← hblk] at hok
    by_cases hw : (BT.walk io (fun _ b => mem b) (overflowVis exp) fuel [0] (to.blk ho) { s2 with log := [], fails := fun _ => false }).2 = .ok
    · rw [if_pos hw] at hok
      cases hl : checkLow rd exp ies with
      | none => rw [hl] at hok; cases hok
      | some L' =>
        rw [hl] at hok
        simp only [Option.map_some, Option.some.injEq, Prod.mk.injEq] at hok
        rw [← hok.1]
        refine agree_of he hrd hl (overflow_sound (by simp only; rw [b2, a2]; exact hmx) hs ?_ hw)
        intro b hb
        obtain ⟨d1, d2⟩ := hdis b hb
        refine ⟨by simp only; rw [b1, a1]; exact hlt b hb, ?_⟩
        simp only
        rw [b3 b d2, a3 b d1]
        exact hun b (List.mem_append.mpr (Or.inr hb))
    · rw [if_neg hw] at hok
      cases hok

/-- A space map that agrees with the expected counts passes, without leaks. -/
theorem checkLow_complete {epb : Nat} (he : 0 < epb) {rd : Nat → Option (Bool × List BE)}
    (hlen : ∀ loc t es, rd loc = some (t, es) → es.length = epb) {exp : List Nat}
    {ies : List IndexEntry} (hread : ∀ ie ∈ ies, ∃ es, rd ie.blocknr = some (true, es))
    (hsmall : ∀ b c, exp[b]? = some c → c < 3 → EntryAt epb rd (ies.map (·.blocknr)) b (.small c))
    (hbig : ∀ b c, exp[b]? = some c → 3 ≤ c → EntryAt epb rd (ies.map (·.blocknr)) b .overflow) :
    checkLow rd exp ies = some [] := by
  have uniq : ∀ b e e', EntryAt epb rd (ies.map (·.blocknr)) b e → EntryAt epb rd (ies.map (·.blocknr)) b e' → e = e' := by
    rintro b e e' ⟨loc, t, es, h1, h2, h3⟩ ⟨loc', t', es', g1, g2, g3⟩
    rw [h1] at g1
    cases g1
    rw [h2] at g2
    cases g2
    rw [h3] at g3
    cases g3
    rfl
  have hent : ∀ b c e, exp[b]? = some c → EntryAt epb rd (ies.map (·.blocknr)) b e → e = if c < 3 then .small c else .overflow := by
    intro b c e hc hE
    by_cases h : c < 3
    · rw [if_pos h]; exact uniq b _ _ hE (hsmall b c hc h)
    · rw [if_neg h]; exact uniq b _ _ hE (hbig b c hc (by omega))
  obtain ⟨s1, s2⟩ := checkLow_spec he hlen exp ies
  obtain ⟨L, hL⟩ := s1.mpr ⟨hread, by
    intro b c e hc hE
    rw [hent b c e hc hE]
    by_cases h : c < 3
    · rw [if_pos h]
      rintro ⟨-, h2⟩
      omega
    · rw [if_neg h]
      intro h2
      exact h h2⟩
  obtain ⟨-, h4⟩ := s2 L hL
  rw [hL]
  congr 1
  apply List.eq_nil_iff_forall_not_mem.mpr
  intro l hl
  obtain ⟨j, -, -, b, c, -, hc, e, hE, hlk⟩ := (h4 l).mp hl
  have := hent b c e hc hE
  obtain ⟨h1, h2⟩ := hlk
  subst h2
  rw [if_pos (by omega), h1] at this
  cases this

/-! ## Repair -/

/-- what repair should make of the entry of a block with the expected count `c` -/
def mended (e : BE) (c : Nat) : BE := if e = .small 1 ∧ c = 0 then .small 0 else e

theorem repairEntries_length (exp : List Nat) : ∀ (es : List BE) (b0 : Nat), (repairEntries exp es b0).length = es.length := by
  intro es
  induction es with
  | nil => intro b0; rfl
  | cons e es ih =>
    intro b0
    unfold repairEntries
    cases exp[b0]? with
    | none => rfl
    | some c => simp [ih]

theorem repairEntries_getElem? (exp : List Nat) : ∀ (es : List BE) (b0 i : Nat),
    (repairEntries exp es b0)[i]? = es[i]?.map fun e => match exp[b0 + i]? with | none => e | some c => mended e c := by
  intro es
  induction es with
  | nil => intro b0 i; rfl
  | cons e es ih =>
    intro b0 i
    unfold repairEntries
    cases hc : exp[b0]? with
    | none =>
      have : ∀ k, exp[b0 + k]? = none := by
        intro k
        have := List.getElem?_eq_none_iff.mp hc
        exact List.getElem?_eq_none (by omega)
      simp [this]
    | some c =>
      cases i with
      | zero => simp [hc, mended]
      | succ i =>
        simp only [List.getElem?_cons_succ]
        rw [ih (b0 + 1) i, show b0 + 1 + i = b0 + (i + 1) by omega]

theorem writeMany_out (wr : Nat → Bool) : ∀ (ws : List (Nat × List BE)) (i : Nat) (rd : Nat → Option (Bool × List BE)) (x : Nat),
    x ∉ ws.map (·.1) → writeMany wr ws i rd x = rd x := by
  intro ws
  induction ws with
  | nil => intro i rd x _; rfl
  | cons w ws ih =>
    intro i rd x hx
    rw [List.map_cons, List.mem_cons, not_or] at hx
    unfold writeMany
    rw [ih _ _ _ hx.2]
    cases wr i <;> simp [hx.1]

theorem writeMany_in (wr : Nat → Bool) : ∀ (ws : List (Nat × List BE)) (i : Nat) (rd : Nat → Option (Bool × List BE)) (k : Nat) (x : Nat) (es : List BE),
    (ws.map (·.1)).Nodup → ws[k]? = some (x, es) → writeMany wr ws i rd x = if wr (i + k) then some (true, es) else rd x := by
  intro ws
  induction ws with
  | nil => intro i rd k x es _ h; cases h
  | cons w ws ih =>
    intro i rd k x es hnd hk
    rw [List.map_cons, List.nodup_cons] at hnd
    unfold writeMany
    cases k with
    | zero =>
      simp only [List.getElem?_cons_zero, Option.some.injEq] at hk
      subst hk
      rw [writeMany_out _ _ _ _ _ hnd.1]
      cases wr i <;> simp
    | succ k =>
      simp only [List.getElem?_cons_succ] at hk
      have hx : x ≠ w.1 := by
        intro e
        exact hnd.1 (e ▸ List.mem_map.mpr ⟨_, List.mem_of_getElem? hk, rfl⟩)
      rw [ih _ _ k x es hnd.2 hk, show i + 1 + k = i + (k + 1) by omega]
      cases wr i <;> simp [hx]

theorem repairPlan_spec (rd : Nat → Option (Bool × List BE)) (exp : List Nat) : ∀ (L : List Leak),
    ((∀ l ∈ L, rd l.loc ≠ none) → ∃ p, repairPlan rd exp L = some p) ∧
    ∀ p, repairPlan rd exp L = some p → p.map (·.1) = L.map (·.loc) ∧
      ∀ (k : Nat) (l : Leak) (t : Bool) (es : List BE), L[k]? = some l → rd l.loc = some (t, es) →
        p[k]? = some (l.loc, repairEntries exp es l.blocknr) := by
  intro L
  induction L with
  | nil =>
    refine ⟨fun _ => ⟨[], rfl⟩, ?_⟩
    intro p h
    cases h
    exact ⟨rfl, fun k l t es h => by cases h⟩
  | cons l L ih =>
    obtain ⟨i1, i2⟩ := ih
    constructor
    · intro h
      obtain ⟨p, hp⟩ := i1 fun x hx => h x (List.mem_cons_of_mem _ hx)
      have hl := h l (by simp)
      unfold repairPlan
      cases hr : rd l.loc with
      | none => exact absurd hr hl
      | some q => rw [hp]; exact ⟨_, rfl⟩
    · intro p h
      unfold repairPlan at h
      cases hr : rd l.loc with
      | none => rw [hr] at h; cases h
      | some q =>
        cases hp : repairPlan rd exp L with
        | none => rw [hr, hp] at h; cases h
        | some p' =>
          rw [hr, hp] at h
          obtain ⟨t, es⟩ := q
          simp only [Option.some.injEq] at h
          subst h
          obtain ⟨j1, j2⟩ := i2 p' hp
          refine ⟨by rw [List.map_cons, List.map_cons, j1], ?_⟩
          intro k l' t' es' hk hrl
          cases k with
          | zero =>
            simp only [List.getElem?_cons_zero, Option.some.injEq] at hk ⊢
            subst hk
            rw [hr] at hrl
            cases hrl
            rfl
          | succ k => exact j2 k l' t' es' hk hrl

/-- what the repair of the leaks found by a successful check does to a bitmap: nothing, or exactly the mending of all its entries;
with all writes done, only bitmaps without leaks are left alone -/
theorem repair_row {epb : Nat} (he : 0 < epb) {rd : Nat → Option (Bool × List BE)} (hrd : Entries epb rd) {exp : List Nat} {ies : List IndexEntry}
    (hnd : (ies.map (·.blocknr)).Nodup) {L : List Leak} (hL : checkLow rd exp ies = some L) (wr : Nat → Bool) :
    ∃ rd', repair wr rd exp L = some rd' ∧ (∀ loc, loc ∉ ies.map (·.blocknr) → rd' loc = rd loc) ∧
      ∀ j loc, (ies.map (·.blocknr))[j]? = some loc → ∃ es, rd loc = some (true, es) ∧
        ((rd' loc = some (true, es) ∧ ((∀ i, wr i = true) → ∀ i e c, es[i]? = some e → exp[j * epb + i]? = some c → ¬ Leaked e c)) ∨
         (rd' loc = some (true, repairEntries exp es (j * epb)))) := by
  obtain ⟨s1, s2⟩ := checkLow_spec he hrd.len exp ies
  obtain ⟨hread, -⟩ := s1.mp ⟨L, hL⟩
  obtain ⟨hord, hleak⟩ := s2 L hL
  obtain ⟨q1, q2⟩ := repairPlan_spec rd exp L
  have hLloc : ∀ l ∈ L, l.loc ∈ ies.map (·.blocknr) := by
    intro l hl
    obtain ⟨j, h1, -⟩ := (hleak l).mp hl
    exact List.mem_of_getElem? h1
  obtain ⟨p, hp⟩ := q1 (by
    intro l hl hn
    obtain ⟨ie, hie, e⟩ := List.mem_map.mp (hLloc l hl)
    obtain ⟨es, h⟩ := hread ie hie
    rw [e, hn] at h; cases h)
  obtain ⟨p1, p2⟩ := q2 p hp
  -- positions are determined by locations
  have hpos : ∀ (j j' loc : Nat), (ies.map (·.blocknr))[j]? = some loc → (ies.map (·.blocknr))[j']? = some loc → j = j' := by
    intro j j' loc h h'
    obtain ⟨a, -⟩ := List.getElem?_eq_some_iff.mp h
    exact (List.getElem?_inj a hnd).mp (h.trans h'.symm)
  have hLnd : (L.map (·.loc)).Nodup := by
    rw [List.Nodup, List.pairwise_map]
    refine (List.Pairwise.and_mem.mp hord).imp ?_
    rintro a b ⟨ha, hb, hlt⟩ e
    obtain ⟨j, h1, h2, -⟩ := (hleak a).mp ha
    obtain ⟨j', h1', h2', -⟩ := (hleak b).mp hb
    have := hpos j j' a.loc h1 (e ▸ h1')
    subst this
    omega
  refine ⟨writeMany wr p 0 rd, by rw [repair, hp]; rfl, ?_, ?_⟩
  · intro loc hl
    apply writeMany_out
    rw [p1]
    intro hm
    obtain ⟨l, hl', rfl⟩ := List.mem_map.mp hm
    exact hl (hLloc l hl')
  · intro j loc hj
    obtain ⟨ie, hie, rfl⟩ := List.mem_map.mp (List.mem_of_getElem? hj)
    obtain ⟨es, hes⟩ := hread ie hie
    refine ⟨es, hes, ?_⟩
    by_cases hm : ie.blocknr ∈ L.map (·.loc)
    · obtain ⟨l, hl, hloc⟩ := List.mem_map.mp hm
      obtain ⟨k, hk⟩ := List.getElem?_of_mem hl
      have hpk := p2 k l true es hk (by rw [hloc]; exact hes)
      obtain ⟨j', h1, h2, -⟩ := (hleak l).mp hl
      have := hpos j j' ie.blocknr hj (hloc ▸ h1)
      subst this
      rw [h2, hloc] at hpk
      rw [writeMany_in wr p 0 rd k _ _ (by rw [p1]; exact hLnd) hpk]
      cases hw : wr (0 + k) with
      | true => right; rfl
      | false =>
        left
        refine ⟨hes, ?_⟩
        intro hall
        rw [hall] at hw
        cases hw
    · left
      rw [writeMany_out _ _ _ _ _ (by rw [p1]; exact hm)]
      refine ⟨hes, ?_⟩
      intro _ i e c hi hc hlk
      apply hm
      have hii : i < epb := by rw [← (hrd _ _ _ hes).1]; exact (List.getElem?_eq_some_iff.mp hi).1
      have e1 : (j * epb + i) / epb = j := by
        rw [Nat.mul_comm, Nat.mul_add_div he, Nat.div_eq_of_lt hii]; rfl
      refine List.mem_map.mpr ⟨⟨j * epb, ie.blocknr⟩, (hleak _).mpr ⟨j, hj, rfl, j * epb + i, c, e1, hc, e, ?_, hlk⟩, rfl⟩
      exact (entryAt_iff he fun loc t es h => (hrd loc t es h).1).mpr ⟨j, i, ie.blocknr, true, es, rfl, hj, hes, hi⟩

/-- **C21**.  Repair after a successful check (so the only differences are leaks), for bitmaps that are in different blocks:

* it writes to no block that is not one of the bitmaps;
* whatever subset of its writes happens, for instance because it was interrupted, the entry of every block is the one it was, or that of a free
  block, and the latter only if the block had leaked; everything is still a bitmap, and a second check still succeeds
  and finds no leaks in other bitmaps;
* if all of its writes happen, the entries of exactly the leaked blocks have changed, and a second check succeeds without leaks. -/
theorem repair_correct {epb : Nat} (he : 0 < epb) {rd : Nat → Option (Bool × List BE)} (hrd : Entries epb rd) {exp : List Nat} {ies : List IndexEntry}
    (hnd : (ies.map (·.blocknr)).Nodup) {L : List Leak} (hL : checkLow rd exp ies = some L) (wr : Nat → Bool) :
    ∃ rd', repair wr rd exp L = some rd' ∧ (∀ loc, loc ∉ ies.map (·.blocknr) → rd' loc = rd loc) ∧
      (∀ b e', EntryAt epb rd' (ies.map (·.blocknr)) b e' → ∃ e, EntryAt epb rd (ies.map (·.blocknr)) b e ∧
        (e' = e ∨ (e' = .small 0 ∧ ∃ c, exp[b]? = some c ∧ Leaked e c))) ∧
      (∃ L', checkLow rd' exp ies = some L' ∧ ∀ l ∈ L', l ∈ L) ∧
      ((∀ i, wr i = true) →
        (∀ b e, EntryAt epb rd (ies.map (·.blocknr)) b e →
          (∀ c, exp[b]? = some c → Leaked e c → EntryAt epb rd' (ies.map (·.blocknr)) b (.small 0)) ∧
          ((∀ c, exp[b]? = some c → ¬ Leaked e c) → EntryAt epb rd' (ies.map (·.blocknr)) b e)) ∧
        checkLow rd' exp ies = some []) := by
  obtain ⟨rd', hr, hout, hrow⟩ := repair_row he hrd hnd hL wr
  have hlen : ∀ loc t es, rd loc = some (t, es) → es.length = epb := fun loc t es h => (hrd loc t es h).1
  have hmended : ∀ e c, mended e c = e ∨ (mended e c = .small 0 ∧ Leaked e c) := by
    intro e c
    unfold mended
    by_cases h : e = .small 1 ∧ c = 0
    · rw [if_pos h]; exact Or.inr ⟨rfl, h⟩
    · rw [if_neg h]; exact Or.inl rfl
  have hrd' : Entries epb rd' := by
    intro loc t es h
    by_cases hm : loc ∈ ies.map (·.blocknr)
    · obtain ⟨j, hj⟩ := List.getElem?_of_mem hm
      obtain ⟨es0, h0, (⟨h1, -⟩ | h1)⟩ := hrow j loc hj
      · rw [h1] at h; cases h; exact hrd _ _ _ h0
      · rw [h1] at h
        simp only [Option.some.injEq, Prod.mk.injEq] at h
        obtain ⟨-, rfl⟩ := h
        refine ⟨by rw [repairEntries_length]; exact hlen _ _ _ h0, ?_⟩
        intro n hn
        obtain ⟨i, hi⟩ := List.getElem?_of_mem hn
        rw [repairEntries_getElem?] at hi
        cases hes : es0[i]? with
        | none => rw [hes] at hi; cases hi
        | some e =>
          rw [hes] at hi
          simp only [Option.map_some, Option.some.injEq] at hi
          have hmem := (hrd _ _ _ h0).2
          cases hc : exp[j * epb + i]? with
          | none =>
            rw [hc] at hi
            simp only at hi
            subst hi
            exact hmem n (List.mem_of_getElem? hes)
          | some c =>
            rw [hc] at hi
            simp only at hi
            rcases hmended e c with h | ⟨h, -⟩
            · rw [h] at hi; subst hi; exact hmem n (List.mem_of_getElem? hes)
            · rw [h] at hi; cases hi; omega
    · rw [hout loc hm] at h
      exact hrd _ _ _ h
  have hlen' : ∀ loc t es, rd' loc = some (t, es) → es.length = epb := fun loc t es h => (hrd' loc t es h).1
  -- entry by entry
  have hentry : ∀ b e', EntryAt epb rd' (ies.map (·.blocknr)) b e' → ∃ e, EntryAt epb rd (ies.map (·.blocknr)) b e ∧
      (e' = e ∨ (e' = .small 0 ∧ ∃ c, exp[b]? = some c ∧ Leaked e c)) := by
    intro b e' hE
    obtain ⟨j, i, loc, t, es, rfl, h1, h2, h3⟩ := (entryAt_iff he hlen').mp hE
    obtain ⟨es0, h0, (⟨g1, -⟩ | g1)⟩ := hrow j loc h1
    · rw [g1] at h2
      simp only [Option.some.injEq, Prod.mk.injEq] at h2
      obtain ⟨-, rfl⟩ := h2
      exact ⟨e', (entryAt_iff he hlen).mpr ⟨j, i, loc, true, _, rfl, h1, h0, h3⟩, Or.inl rfl⟩
    · rw [g1] at h2
      cases h2
      rw [repairEntries_getElem?] at h3
      cases hes : es0[i]? with
      | none => rw [hes] at h3; cases h3
      | some e =>
        rw [hes] at h3
        simp only [Option.map_some, Option.some.injEq] at h3
        refine ⟨e, (entryAt_iff he hlen).mpr ⟨j, i, loc, true, es0, rfl, h1, h0, hes⟩, ?_⟩
        cases hc : exp[j * epb + i]? with
        | none => rw [hc] at h3; exact Or.inl h3.symm
        | some c =>
          rw [hc] at h3
          simp only at h3
          rcases hmended e c with h | ⟨h, hl⟩
          · left; rw [← h3, h]
          · right; exact ⟨by rw [← h3, h], c, rfl, hl⟩
  obtain ⟨s1, s2⟩ := checkLow_spec he hrd.len exp ies
  obtain ⟨hread, hbad⟩ := s1.mp ⟨L, hL⟩
  obtain ⟨-, hleak⟩ := s2 L hL
  obtain ⟨t1, t2⟩ := checkLow_spec he hrd'.len exp ies
  have hread' : ∀ ie ∈ ies, ∃ es, rd' ie.blocknr = some (true, es) := by
    intro ie hie
    obtain ⟨j, hj⟩ := List.getElem?_of_mem (List.mem_map.mpr ⟨ie, hie, rfl⟩ : ie.blocknr ∈ ies.map (·.blocknr))
    obtain ⟨es0, h0, (⟨g1, -⟩ | g1)⟩ := hrow j _ hj
    · exact ⟨_, g1⟩
    · exact ⟨_, g1⟩
  have hnl0 : ∀ c, ¬ Leaked (.small 0) c := fun c h => by cases h.1
  obtain ⟨L', hL'⟩ := t1.mpr ⟨hread', by
    intro b c e' hc hE hb
    obtain ⟨e, hE0, (rfl | ⟨rfl, c', hc', hl⟩)⟩ := hentry b e' hE
    · exact hbad b c e' hc hE0 hb
    · rw [hc] at hc'
      cases hc'
      have : c = 0 := hl.2
      subst this
      exact hb.2 rfl⟩
  obtain ⟨-, hleak'⟩ := t2 L' hL'
  refine ⟨rd', hr, hout, hentry, ⟨L', hL', ?_⟩, ?_⟩
  · intro l hl
    obtain ⟨j, h1, h2, b, c, h3, h4, e', hE, hlk⟩ := (hleak' l).mp hl
    obtain ⟨e, hE0, (rfl | ⟨rfl, -⟩)⟩ := hentry b e' hE
    · exact (hleak l).mpr ⟨j, h1, h2, b, c, h3, h4, _, hE0, hlk⟩
    · exact absurd hlk (hnl0 c)
  · intro hall
    have hboth : ∀ b e, EntryAt epb rd (ies.map (·.blocknr)) b e →
          (∀ c, exp[b]? = some c → Leaked e c → EntryAt epb rd' (ies.map (·.blocknr)) b (.small 0)) ∧
          ((∀ c, exp[b]? = some c → ¬ Leaked e c) → EntryAt epb rd' (ies.map (·.blocknr)) b e) := by
      intro b e hE
      obtain ⟨j, i, loc, t, es, rfl, h1, h2, h3⟩ := (entryAt_iff he hlen).mp hE
      obtain ⟨es0, h0, (⟨g1, g2⟩ | g1)⟩ := hrow j loc h1
      · rw [h2] at h0
        cases h0
        refine ⟨fun c hc hlk => absurd hlk (g2 hall i e c h3 hc), fun _ => ?_⟩
        exact (entryAt_iff he hlen').mpr ⟨j, i, loc, true, es, rfl, h1, g1, h3⟩
      · rw [h2] at h0
        cases h0
        have hi' := repairEntries_getElem? exp es (j * epb) i
        rw [h3] at hi'
        simp only [Option.map_some] at hi'
        constructor
        · intro c hc hlk
          rw [hc] at hi'
          simp only at hi'
          refine (entryAt_iff he hlen').mpr ⟨j, i, loc, true, _, rfl, h1, g1, ?_⟩
          rw [hi', mended, if_pos (show e = .small 1 ∧ c = 0 from hlk)]
        · intro hnl
          refine (entryAt_iff he hlen').mpr ⟨j, i, loc, true, _, rfl, h1, g1, ?_⟩
          rw [hi']
          cases hc : exp[j * epb + i]? with
          | none => rfl
          | some c =>
            simp only
            rw [mended, if_neg (show ¬ (e = .small 1 ∧ c = 0) from hnl c hc)]
    refine ⟨hboth, ?_⟩
    rw [hL']
    congr 1
    apply List.eq_nil_iff_forall_not_mem.mpr
    intro l hl
    obtain ⟨j, -, -, b, c, -, hc, e', hE, hlk⟩ := (hleak' l).mp hl
    obtain ⟨e, hE0, (rfl | ⟨rfl, -⟩)⟩ := hentry b e' hE
    · have h0 := (hboth b e' hE0).1 c hc hlk
      obtain ⟨loc, t, es, a1, a2, a3⟩ := h0
      obtain ⟨loc', t', es', b1, b2, b3⟩ := hE
      rw [a1] at b1
      cases b1
      rw [a2] at b2
      cases b2
      rw [a3] at b3
      cases b3
      exact hnl0 c hlk
    · exact hnl0 c hlk

/-! ## Not vacuous -/

/-- two bitmaps, with two leaked blocks in the second -/
def demoRd : Nat → Option (Bool × List BE)
  | 7 => some (true, [.small 0, .small 2, .overflow, .small 1])
  | 9 => some (true, [.small 1, .small 1, .small 1, .small 0])
  | _ => none

def demoIes : List IndexEntry := [⟨7, 1, 0⟩, ⟨9, 1, 3⟩]

example : Entries 4 demoRd ∧ (demoIes.map (·.blocknr)).Nodup ∧
    checkLow demoRd [0, 2, 5, 1, 1, 0, 0] demoIes = some [⟨4, 9⟩] ∧
    ((repair (fun _ => true) demoRd [0, 2, 5, 1, 1, 0, 0] [⟨4, 9⟩]).bind fun rd => rd 9) = some (true, [.small 1, .small 0, .small 0, .small 0]) := by
  refine ⟨?_, by decide, by decide, by decide⟩
  intro loc t es h
  unfold demoRd at h
  split at h
  · cases h; exact ⟨rfl, by intro n hn; simp at hn; omega⟩
  · cases h; exact ⟨rfl, by intro n hn; simp at hn; omega⟩
  · cases h

/-- an overflow tree of one leaf, in block 3, for the same -/
def demoMem : Nat → Option (Blk SVal)
  | 3 => some (.leaf [(2, .rc 5)])
  | 4 => some (.leaf [(0, .ie ⟨7, 1, 0⟩), (1, .ie ⟨9, 1, 3⟩)])
  | _ => none

example : checkMeta (fun _ => true) (fun _ b => demoMem b) demoRd 5 10 ⟨7, 5, 0, 3⟩ [0, 2, 5, 1, 1, 0, 0] demoIes = some [⟨4, 9⟩] ∧
    (checkDisk (fun _ => true) (fun _ b => demoMem b) demoRd 5 ⟨7, 5, 4, 3⟩ [0, 2, 5, 1, 1, 0, 0] (WSt.fresh 10 5 false)).map (·.1) = some [⟨4, 9⟩] ∧
    (checkDisk (fun _ => true) (fun _ b => demoMem b) demoRd 5 ⟨7, 5, 4, 3⟩ [0, 2, 4, 1, 1, 0, 0] (WSt.fresh 10 5 false)).map (·.1) = none ∧
    (checkDisk (fun _ => true) (fun _ b => demoMem b) demoRd 5 ⟨7, 5, 4, 3⟩ [0, 2, 5, 1, 1, 2, 0] (WSt.fresh 10 5 false)).map (·.1) = none := by
  refine ⟨by decide, by decide, by decide, by decide⟩

/-! ## What the check does not see -/

/-- A block with 256 references and a zero in the bitmap passes: the expected count is compared modulo 256. -/
theorem check_truncation_refuted : ∃ (rd : Nat → Option (Bool × List BE)) (exp : List Nat) (ies : List IndexEntry),
    Entries 1 rd ∧ checkLow rd exp ies = some [] ∧ exp[0]? = some 256 ∧ DiskCount 1 (bitmapOf rd) ies [] 0 0 := by
  refine ⟨fun _ => some (true, [.small 0]), [256], [⟨5, 0, 0⟩], ?_, by decide, rfl, ?_⟩
  · intro loc t es h; cases h; exact ⟨rfl, by intro n hn; simp at hn; omega⟩
  · exact .small ⟨5, 0, 0⟩ [.small 0] rfl rfl rfl

/-- A block whose entry says that its count is in the overflow tree passes if the tree does not have it, so there is no count at all. -/
theorem check_overflow_missing_refuted : ∃ (mem : Nat → Option (Blk SVal)) (rd : Nat → Option (Bool × List BE)) (exp : List Nat) (ies : List IndexEntry),
    Entries 1 rd ∧ mem 3 = some (.leaf []) ∧ checkMeta (fun _ => true) (fun _ b => mem b) rd 5 10 ⟨1, 1, 0, 3⟩ exp ies = some [] ∧ exp[0]? = some 7 ∧
      ∀ c, ¬ DiskCount 1 (bitmapOf rd) ies [] 0 c := by
  refine ⟨fun b => if b = 3 then some (.leaf []) else none, fun _ => some (true, [.overflow]), [7], [⟨5, 0, 0⟩], ?_, rfl, by decide, rfl, ?_⟩
  · intro loc t es h; cases h; exact ⟨rfl, by intro n hn; simp at hn⟩
  · intro c h
    cases h with
    | small ie es h1 h2 h3 => cases h1; cases h2; cases h3
    | overflow ie es h1 h2 h3 h4 => cases h4

/-- A space map with too few bitmaps passes: blocks that no bitmap covers are not looked at. -/
theorem check_short_index_refuted : ∃ (rd : Nat → Option (Bool × List BE)) (exp : List Nat),
    Entries 1 rd ∧ checkLow rd exp [] = some [] ∧ exp[0]? = some 1 ∧ ∀ c, ¬ DiskCount 1 (bitmapOf rd) [] [] 0 c := by
  refine ⟨fun _ => none, [1], (by intro loc t es h; cases h), by decide, rfl, ?_⟩
  intro c h
  cases h with
  | small ie es h1 h2 h3 => cases h1
  | overflow ie es h1 h2 h3 h4 => cases h1

/-- The keys of the index tree are not looked at: index entries under 5 and 9 pass for bitmaps 0 and 1. -/
theorem check_index_keys_refuted : ∃ (mem : Nat → Option (Blk SVal)) (rd : Nat → Option (Bool × List BE)) (exp : List Nat),
    mem 4 = some (.leaf [(5, .ie ⟨7, 0, 0⟩), (9, .ie ⟨8, 0, 0⟩)]) ∧ exp = [1, 2] ∧
    (checkDisk (fun _ => true) (fun _ b => mem b) rd 5 ⟨2, 2, 4, 3⟩ exp (WSt.fresh 10 5 false)).map (·.1) = some [] := by
  refine ⟨fun b => if b = 4 then some (.leaf [(5, .ie ⟨7, 0, 0⟩), (9, .ie ⟨8, 0, 0⟩)]) else if b = 3 then some (.leaf []) else none,
    fun b => if b = 7 then some (true, [.small 1]) else some (true, [.small 2]), [1, 2], rfl, rfl, by decide⟩

/-- If the root of the index tree was already counted for something else, no bitmap is looked at, and everything passes. -/
theorem check_index_counted_refuted : ∃ (mem : Nat → Option (Blk SVal)) (rd : Nat → Option (Bool × List BE)) (exp : List Nat) (st : WSt SVal),
    mem 4 = some (.leaf [(0, .ie ⟨7, 0, 0⟩)]) ∧ rd 7 = some (true, [.small 2]) ∧ exp = [1] ∧ st.seen 4 = 1 ∧
    (checkDisk (fun _ => true) (fun _ b => mem b) rd 5 ⟨1, 1, 4, 3⟩ exp st).map (·.1) = some [] := by
  refine ⟨fun b => if b = 4 then some (.leaf [(0, .ie ⟨7, 0, 0⟩)]) else if b = 3 then some (.leaf []) else none,
    fun b => if b = 7 then some (true, [.small 2]) else none, [1],
    { WSt.fresh 10 5 false with seen := fun b => if b = 4 then 1 else 0 }, rfl, rfl, rfl, rfl, by decide⟩

/-- Without different blocks for different bitmaps repair does harm: blocks 2 and 3, which are in use, become free. -/
theorem repair_shared_refuted : ∃ (rd rd' : Nat → Option (Bool × List BE)) (exp : List Nat) (ies : List IndexEntry) (L : List Leak),
    Entries 2 rd ∧ checkLow rd exp ies = some L ∧ repair (fun _ => true) rd exp L = some rd' ∧
    exp[2]? = some 1 ∧ EntryAt 2 rd (ies.map (·.blocknr)) 2 (.small 1) ∧ EntryAt 2 rd' (ies.map (·.blocknr)) 2 (.small 0) ∧
    checkLow rd' exp ies = none := by
  refine ⟨fun b => if b = 5 then some (true, [.small 1, .small 1]) else none,
    writeMany (fun _ => true) [(5, [.small 0, .small 0])] 0 (fun b => if b = 5 then some (true, [.small 1, .small 1]) else none),
    [0, 0, 1, 1], [⟨5, 0, 2⟩, ⟨5, 0, 2⟩], [⟨0, 5⟩], ?_, by decide, rfl, rfl, ⟨5, true, _, rfl, rfl, rfl⟩, ⟨5, true, _, rfl, rfl, rfl⟩, by decide⟩
  intro loc t es h
  simp only at h
  split at h
  · cases h; exact ⟨rfl, by intro n hn; simp at hn; omega⟩
  · cases h

/-- Repair does not touch the index: the number of free blocks it gives for a repaired bitmap is wrong afterwards. -/
theorem repair_index_refuted : ∃ (rd rd' : Nat → Option (Bool × List BE)) (exp : List Nat) (ie : IndexEntry) (L : List Leak),
    Entries 2 rd ∧ SMD.IndexOK (bitmapOf rd) ie ∧ checkLow rd exp [ie] = some L ∧ repair (fun _ => true) rd exp L = some rd' ∧
    ¬ SMD.IndexOK (bitmapOf rd') ie := by
  refine ⟨fun b => if b = 5 then some (true, [.small 1, .small 1]) else none,
    writeMany (fun _ => true) [(5, [.small 0, .small 1])] 0 (fun b => if b = 5 then some (true, [.small 1, .small 1]) else none),
    [0, 1], ⟨5, 0, 2⟩, [⟨0, 5⟩], ?_, ⟨?_, ?_⟩, by decide, rfl, ?_⟩
  · intro loc t es h
    simp only at h
    split at h
    · cases h; exact ⟨rfl, by intro n hn; simp at hn; omega⟩
    · cases h
  · intro es h
    cases h
    rfl
  · intro es h
    cases h
    intro i hi
    match i, hi with
    | 0, _ => decide
    | 1, _ => decide
  · intro h
    have := h.free [.small 0, .small 1] rfl
    simp at this

end Verif.SMC
