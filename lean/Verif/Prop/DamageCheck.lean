import Verif.Prop.DamageGen

/-!
# C73: the damage is noticed and repaired; C74: the blocks in use
-/

namespace Verif.Dmg

open Verif.SMC (Entries EntryAt Leaked Bad checkLow)

theorem entryAt_unique {epb : Nat} {rd : Nat → Option (Bool × List BE)} {locs : List Nat} {b : Nat} {e e' : BE} (h : EntryAt epb rd locs b e) (g : EntryAt epb rd locs b e') :
    e = e' := by
  obtain ⟨loc, t, es, h1, h2, h3⟩ := h
  obtain ⟨loc', t', es', g1, g2, g3⟩ := g
  rw [h1] at g1; cases g1
  rw [h2] at g2; cases g2
  rw [h3] at g3; cases g3
  rfl

/-- the bitmaps say what the counts are -/
structure Counts (epb : Nat) (rd : Nat → Option (Bool × List BE)) (locs : List Nat) (exp : List Nat) : Prop where
  bitmap : ∀ loc ∈ locs, ∃ es, rd loc = some (true, es)
  small : ∀ b c, exp[b]? = some c → c < 3 → EntryAt epb rd locs b (.small c)
  big : ∀ b c, exp[b]? = some c → 3 ≤ c → EntryAt epb rd locs b .overflow

theorem Counts.entry {epb : Nat} {rd : Nat → Option (Bool × List BE)} {locs exp : List Nat} (h : Counts epb rd locs exp) {b c : Nat} {e : BE} (hc : exp[b]? = some c)
    (hE : EntryAt epb rd locs b e) : e = if c < 3 then .small c else .overflow := by
  by_cases h3 : c < 3
  · rw [if_pos h3]; exact entryAt_unique hE (h.small b c hc h3)
  · rw [if_neg h3]; exact entryAt_unique hE (h.big b c hc (by omega))

theorem Damaged.entries {epb dev : Nat} (he : 0 < epb) {rd rd' : Nat → Option (Bool × List BE)} {locs : List Nat} {nr expected actual : Nat} {chosen : List Nat}
    (h : Damaged epb dev rd locs nr expected actual rd' chosen) (hrd : Entries epb rd) (hb : ∀ loc ∈ locs, ∃ t es, rd loc = some (t, es)) (h2 : actual ≤ 2) : Entries epb rd' := by
  intro loc t es hl
  by_cases c : loc ∈ locs
  · obtain ⟨t0, es0, g⟩ := hb loc c
    obtain ⟨t', es', k1, k2, _⟩ := h.readable loc t0 es0 g
    rw [hl] at k1
    cases k1
    have hlen := (hrd loc t0 es0 g).1
    refine ⟨by omega, fun n hn => ?_⟩
    obtain ⟨i, hi⟩ := List.mem_iff_getElem?.mp hn
    obtain ⟨j, hj⟩ := List.mem_iff_getElem?.mp c
    have hil := (List.getElem?_eq_some_iff.mp hi).1
    have hE : EntryAt epb rd' locs (epb * j + i) (.small n) := by
      refine ⟨loc, t, es, ?_, hl, ?_⟩
      · rw [Nat.mul_add_div he, Nat.div_eq_of_lt (by omega), Nat.add_zero]; exact hj
      · rw [Nat.mul_add_mod, Nat.mod_eq_of_lt (by omega)]; exact hi
    by_cases cc : epb * j + i ∈ chosen
    · have := entryAt_unique hE (h.new _ cc)
      cases this
      exact h2
    · obtain ⟨loc', t1, es1, _, a2, a3⟩ := (h.rest _ _ cc).mp hE
      exact (hrd loc' t1 es1 a2).2 n (List.mem_of_getElem? a3)
  · rw [h.other loc c] at hl
    exact hrd loc t es hl

/-- **C73**: leaks that were created are found by the checker, exactly the bitmaps of the chosen blocks are reported, and the repair puts everything back. -/
theorem leaks_found {epb dev : Nat} (he : 0 < epb) {rd rd' : Nat → Option (Bool × List BE)} {ies : List IndexEntry} (hrd : Entries epb rd) (hnd : (ies.map (·.blocknr)).Nodup)
    {exp : List Nat} (hlen : exp.length = dev) (hc : Counts epb rd (ies.map (·.blocknr)) exp) {nr : Nat} {chosen : List Nat}
    (h : Damaged epb dev rd (ies.map (·.blocknr)) nr 0 1 rd' chosen) :
    ∃ L, checkLow rd' exp ies = some L ∧
      (∀ l, l ∈ L ↔ ∃ b ∈ chosen, (ies.map (·.blocknr))[b / epb]? = some l.loc ∧ l.blocknr = b / epb * epb) ∧
      ∃ rd'', SMC.repair (fun _ => true) rd' exp L = some rd'' ∧ checkLow rd'' exp ies = some [] ∧
        (∀ b e, EntryAt epb rd'' (ies.map (·.blocknr)) b e ↔ EntryAt epb rd (ies.map (·.blocknr)) b e) ∧
        ∀ loc, loc ∉ ies.map (·.blocknr) → rd'' loc = rd loc := by
  have hb : ∀ loc ∈ ies.map (·.blocknr), ∃ t es, rd loc = some (t, es) := fun loc hl => ⟨true, hc.bitmap loc hl⟩
  have hrd' := h.entries he hrd hb (by decide)
  have hread' : ∀ ie ∈ ies, ∃ es, rd' ie.blocknr = some (true, es) := by
    intro ie hie
    obtain ⟨es, g⟩ := hc.bitmap ie.blocknr (List.mem_map.mpr ⟨ie, hie, rfl⟩)
    obtain ⟨t', es', k1, _, k3⟩ := h.readable _ _ _ g
    cases k3 rfl
    exact ⟨es', k1⟩
  -- the expected count of a chosen block is zero
  have hzero : ∀ b ∈ chosen, exp[b]? = some 0 := by
    intro b hbc
    obtain ⟨h1, h2⟩ := h.old b hbc
    have hcb : exp[b]? = some exp[b] := List.getElem?_eq_getElem (by omega)
    have := hc.entry hcb h2
    rw [hcb]
    by_cases c3 : exp[b] < 3
    · rw [if_pos c3] at this
      simp only [BE.small.injEq] at this
      rw [← this]
    · rw [if_neg c3] at this; cases this
  have hent : ∀ b c e, exp[b]? = some c → EntryAt epb rd' (ies.map (·.blocknr)) b e → (b ∈ chosen ∧ e = .small 1 ∧ c = 0) ∨ (b ∉ chosen ∧ e = if c < 3 then .small c else .overflow) := by
    intro b c e hcb hE
    by_cases cc : b ∈ chosen
    · have := hzero b cc
      rw [hcb] at this
      cases this
      exact .inl ⟨cc, entryAt_unique hE (h.new b cc), rfl⟩
    · exact .inr ⟨cc, hc.entry hcb ((h.rest b e cc).mp hE)⟩
  obtain ⟨s1, s2⟩ := SMC.checkLow_spec he hrd'.len exp ies
  obtain ⟨L, hL⟩ := s1.mpr ⟨hread', by
    intro b c e hcb hE
    rcases hent b c e hcb hE with ⟨_, rfl, rfl⟩ | ⟨_, rfl⟩
    · rintro ⟨h1, _⟩; exact h1 ⟨rfl, rfl⟩
    · by_cases h3 : c < 3
      · rw [if_pos h3]; rintro ⟨_, h2⟩; omega
      · rw [if_neg h3]; intro h2; exact h3 h2⟩
  have hleak : ∀ b c e, exp[b]? = some c → EntryAt epb rd' (ies.map (·.blocknr)) b e → Leaked e c → b ∈ chosen := by
    rintro b c e hcb hE ⟨rfl, rfl⟩
    rcases hent b 0 _ hcb hE with ⟨h1, _⟩ | ⟨_, h2⟩
    · exact h1
    · cases h2
  refine ⟨L, hL, fun l => ?_, ?_⟩
  · rw [(s2 L hL).2 l]
    constructor
    · rintro ⟨j, h1, h2, b, c, rfl, hcb, e, hE, hlk⟩
      exact ⟨b, hleak b c e hcb hE hlk, h1, h2⟩
    · rintro ⟨b, hbc, h1, h2⟩
      exact ⟨b / epb, h1, h2, b, 0, rfl, hzero b hbc, .small 1, h.new b hbc, rfl, rfl⟩
  · obtain ⟨rd'', q1, q2, q3, _, q5⟩ := SMC.repair_correct he hrd' hnd hL (fun _ => true)
    obtain ⟨q6, q7⟩ := q5 (fun _ => rfl)
    refine ⟨rd'', q1, q7, fun b e => ?_, fun loc hl => (q2 loc hl).trans (h.other loc hl)⟩
    have hfw : ∀ e', EntryAt epb rd (ies.map (·.blocknr)) b e' → EntryAt epb rd'' (ies.map (·.blocknr)) b e' := by
      intro e' hE
      by_cases cc : b ∈ chosen
      · have := entryAt_unique hE (h.old b cc).2
        subst this
        exact (q6 b (.small 1) (h.new b cc)).1 0 (hzero b cc) ⟨rfl, rfl⟩
      · have hE' := (h.rest b e' cc).mpr hE
        exact (q6 b e' hE').2 (fun c hcb hlk => cc (hleak b c e' hcb hE' hlk))
    refine ⟨fun hE => ?_, hfw e⟩
    obtain ⟨e1, hE1, _⟩ := q3 b e hE
    by_cases cc : b ∈ chosen
    · have hold := (h.old b cc).2
      rw [entryAt_unique hE (hfw _ hold)]
      exact hold
    · have hold := (h.rest b e1 cc).mp hE1
      rw [entryAt_unique hE (hfw _ hold)]
      exact hold

/-- **C73**: any other damage makes the check fail. -/
theorem damage_fails {epb dev : Nat} (he : 0 < epb) {rd rd' : Nat → Option (Bool × List BE)} {ies : List IndexEntry} (hrd : Entries epb rd)
    {exp : List Nat} (hlen : exp.length = dev) (hc : Counts epb rd (ies.map (·.blocknr)) exp) {nr expected actual : Nat} (hn : 0 < nr) (h1 : expected ≤ 2) (h2 : actual ≤ 2)
    (hne : expected ≠ actual) (hl : ¬ (expected = 0 ∧ actual = 1)) {chosen : List Nat} (h : Damaged epb dev rd (ies.map (·.blocknr)) nr expected actual rd' chosen) :
    checkLow rd' exp ies = none := by
  have hrd' := h.entries he hrd (fun loc hl => ⟨true, hc.bitmap loc hl⟩) h2
  cases hL : checkLow rd' exp ies with
  | none => rfl
  | some L =>
    exfalso
    obtain ⟨_, hgood⟩ := (SMC.checkLow_spec he hrd'.len exp ies).1.mp ⟨L, hL⟩
    obtain ⟨b, hb⟩ : ∃ b, b ∈ chosen := by
      cases hch : chosen with
      | nil => have := h.number; rw [hch] at this; simp at this; omega
      | cons b _ => exact ⟨b, List.mem_cons_self ..⟩
    obtain ⟨g1, g2⟩ := h.old b hb
    have hcb : exp[b]? = some exp[b] := List.getElem?_eq_getElem (by omega)
    have hexp := hc.entry hcb g2
    by_cases c3 : exp[b] < 3
    · rw [if_pos c3] at hexp
      simp only [BE.small.injEq] at hexp
      refine hgood b _ _ hcb (h.new b hb) ⟨?_, ?_⟩
      · rintro ⟨ha, hz⟩
        simp only [BE.small.injEq] at ha
        exact hl ⟨by omega, ha⟩
      · rw [← hexp, Nat.mod_eq_of_lt (by omega)]
        exact fun e => hne e.symm
    · rw [if_neg c3] at hexp; cases hexp

/-! ## What is false -/

/-- On a device that is a whole number of bitmaps the blocks of the last bitmap are never found. -/
theorem find_last_refuted {rd : Nat → Option (Bool × List BE)} {epb dev rc : Nat} (hrd : Entries epb rd) (he : 0 < epb) {ies : List IndexEntry}
    (hr : ∀ ie ∈ ies, ∃ t es, rd ie.blocknr = some (t, es)) (hm : dev % epb = 0) {found : List Nat} (h : findSmall rd epb dev rc ies = some found) :
    ∀ b ∈ found, b < (ies.length - 1) * epb := by
  obtain ⟨found', f1, _, f3⟩ := findLoop_spec (dev := dev) rc hrd.len he (ies.map (·.blocknr)) 0 (fun loc hl => by
    obtain ⟨ie, h, rfl⟩ := List.mem_map.mp hl
    exact hr ie h)
  unfold findSmall at h
  rw [h] at f1
  cases f1
  intro b hb
  obtain ⟨j, i, loc, t, es, g1, g2, g3, g4, rfl⟩ := (f3 b).mp hb
  have hj := (List.getElem?_eq_some_iff.mp g1).1
  have hi := (List.getElem?_eq_some_iff.mp g3).1
  rw [hrd.len _ _ _ g2] at hi
  rw [List.length_map] at g4 hj
  have hlast : j + 1 ≠ ies.length := fun e => by have := g4 e; omega
  have : (j + 1) * epb ≤ (ies.length - 1) * epb := Nat.mul_le_mul_right _ (by omega)
  rw [Nat.add_mul] at this
  omega

/-- six blocks on two bitmaps of four; blocks 1, 2, 4 are free -/
def demoRd : Nat → Option (Bool × List BE)
  | 7 => some (true, [.small 1, .small 0, .small 0, .overflow])
  | 9 => some (true, [.small 0, .small 2, .small 0, .small 0])
  | _ => none

def demoIes : List IndexEntry := [⟨7, 2, 1⟩, ⟨9, 1, 0⟩]

/-- two of the three free blocks are chosen -/
example : findSmall demoRd 4 6 0 demoIes = some [1, 2, 4] ∧
    (createLeaks (fun _ => true) demoRd 4 6 demoIes 2 0 1 List.reverse).map (fun rd' => (rd' 7, rd' 9)) =
      some (some (true, [.small 1, .small 0, .small 1, .overflow]), some (true, [.small 1, .small 2, .small 0, .small 0])) ∧
    (createLeaks (fun _ => true) demoRd 4 6 demoIes 4 0 1 List.reverse).isNone := by decide +kernel

/-- the hypotheses hold -/
example : Counts 4 demoRd (demoIes.map (·.blocknr)) [1, 0, 0, 5, 0, 2] ∧ Entries 4 demoRd := by
  refine ⟨⟨fun loc hl => ?_, fun b c hc h3 => ?_, fun b c hc h3 => ?_⟩, fun loc t es h => ?_⟩
  · simp only [demoIes, List.map_cons, List.map_nil, List.mem_cons, List.not_mem_nil, or_false] at hl
    rcases hl with rfl | rfl
    · exact ⟨_, rfl⟩
    · exact ⟨_, rfl⟩
  · rcases b with _ | _ | _ | _ | _ | _ | b
    · cases hc; exact ⟨7, _, _, rfl, rfl, rfl⟩
    · cases hc; exact ⟨7, _, _, rfl, rfl, rfl⟩
    · cases hc; exact ⟨7, _, _, rfl, rfl, rfl⟩
    · cases hc; omega
    · cases hc; exact ⟨9, _, _, rfl, rfl, rfl⟩
    · cases hc; exact ⟨9, _, _, rfl, rfl, rfl⟩
    · cases hc
  · rcases b with _ | _ | _ | _ | _ | _ | b
    · cases hc; omega
    · cases hc; omega
    · cases hc; omega
    · cases hc; exact ⟨7, _, _, rfl, rfl, rfl⟩
    · cases hc; omega
    · cases hc; omega
    · cases hc
  · unfold demoRd at h
    split at h
    · cases h; exact ⟨rfl, by simp⟩
    · cases h; exact ⟨rfl, by simp⟩
    · cases h

/-- A device of exactly one bitmap, all of it free but for two blocks: nothing is found. -/
theorem createLeaks_whole_refuted : EntryAt 4 demoRd [7] 1 (.small 0) ∧ EntryAt 4 demoRd [7] 2 (.small 0) ∧
    createLeaks (fun _ => true) demoRd 4 4 [⟨7, 2, 1⟩] 1 0 1 id = none :=
  ⟨⟨7, _, _, rfl, rfl, rfl⟩, ⟨7, _, _, rfl, rfl, rfl⟩, rfl⟩

/-- A device that is larger than its space map: a block beyond the end of the space map is chosen. -/
theorem createLeaks_larger_refuted : findSmall demoRd 4 7 0 demoIes = some [1, 2, 4, 6] ∧
    (createLeaks (fun _ => true) demoRd 4 7 demoIes 1 0 1 List.reverse).map (fun rd' => (rd' 7 == demoRd 7, rd' 9)) =
      some (true, some (true, [.small 0, .small 2, .small 1, .small 0])) := by decide +kernel

theorem findLoop_unreadable {rd : Nat → Option (Bool × List BE)} {epb dev rc : Nat} : ∀ (locs : List Nat) (b : Nat), (∃ loc ∈ locs, rd loc = none) →
    findLoop rd epb dev rc locs b = none := by
  intro locs
  induction locs with
  | nil => rintro b ⟨loc, h, _⟩; cases h
  | cons l locs ih =>
    rintro b ⟨loc, h, hn⟩
    rw [findLoop]
    cases hr : rd l with
    | none => rfl
    | some p =>
      obtain ⟨t, es⟩ := p
      have hm : loc ∈ locs := by
        rcases List.mem_cons.mp h with rfl | h
        · rw [hn] at hr; cases hr
        · exact h
      simp only
      rw [ih _ ⟨loc, hm, hn⟩]

/-- If a bitmap cannot be read the tool fails before it writes anything. -/
theorem createLeaks_unreadable {wr : Nat → Bool} {rd : Nat → Option (Bool × List BE)} {epb dev nr expected actual : Nat} {ies : List IndexEntry}
    {shuffle : List Nat → List Nat} (h : ∃ ie ∈ ies, rd ie.blocknr = none) : createLeaks wr rd epb dev ies nr expected actual shuffle = none := by
  have hf : findSmall rd epb dev expected ies = none := by
    obtain ⟨ie, h1, h2⟩ := h
    exact findLoop_unreadable _ _ ⟨ie.blocknr, List.mem_map.mpr ⟨ie, h1, rfl⟩, h2⟩
  unfold createLeaks
  by_cases he : expected > 2
  · rw [if_pos he]
  · rw [if_neg he, hf]

example : createLeaks (fun _ => true) demoRd 4 6 [⟨7, 2, 1⟩, ⟨8, 1, 0⟩] 1 0 1 id = none := createLeaks_unreadable ⟨⟨8, 1, 0⟩, by simp, rfl⟩

/-! ## The blocks in use -/

theorem mem_addUsed : ∀ (es : List BE) (b0 : Nat) (bits : List Nat) (x : Nat), x ∈ addUsed es b0 bits ↔
    x ∈ bits ∨ ∃ i e, es[i]? = some e ∧ e ≠ .small 0 ∧ x = (b0 + i) % 2 ^ 32 := by
  intro es
  induction es with
  | nil => intro b0 bits x; simp [addUsed]
  | cons e es ih =>
    intro b0 bits x
    have tail : (∃ i e', es[i]? = some e' ∧ e' ≠ .small 0 ∧ x = (b0 + 1 + i) % 2 ^ 32) ↔ ∃ i e', (e :: es)[i + 1]? = some e' ∧ e' ≠ .small 0 ∧ x = (b0 + (i + 1)) % 2 ^ 32 := by
      constructor
      · rintro ⟨i, e', h1, h2, h3⟩; exact ⟨i, e', h1, h2, by rw [h3, show b0 + 1 + i = b0 + (i + 1) by omega]⟩
      · rintro ⟨i, e', h1, h2, h3⟩; exact ⟨i, e', h1, h2, by rw [h3, show b0 + 1 + i = b0 + (i + 1) by omega]⟩
    unfold addUsed
    rw [ih, tail]
    by_cases c : e = .small 0
    · rw [if_pos c]
      constructor
      · rintro (h | ⟨i, h⟩)
        · exact .inl h
        · exact .inr ⟨i + 1, h⟩
      · rintro (h | ⟨i, e', h1, h2, h3⟩)
        · exact .inl h
        · cases i with
          | zero => exact absurd ((Option.some.inj h1).symm.trans c) h2
          | succ i => exact .inr ⟨i, e', h1, h2, h3⟩
    · rw [if_neg c, Gen.mem_insertSorted]
      constructor
      · rintro ((h | h) | ⟨i, h⟩)
        · exact .inr ⟨0, e, rfl, c, h⟩
        · exact .inl h
        · exact .inr ⟨i + 1, h⟩
      · rintro (h | ⟨i, e', h1, h2, h3⟩)
        · exact .inl (.inr h)
        · cases i with
          | zero => exact .inl (.inl h3)
          | succ i => exact .inr ⟨i, e', h1, h2, h3⟩

theorem usedLoop_spec {rd : Nat → Option (Bool × List BE)} (epb : Nat) : ∀ (infos : List (Nat × Nat)) (bits : List Nat),
    (∀ out, usedLoop rd epb infos bits = some out → ∀ x, x ∈ out ↔ x ∈ bits ∨ ∃ k loc t es i e, (k, loc) ∈ infos ∧ rd loc = some (t, es) ∧ es[i]? = some e ∧ e ≠ .small 0 ∧
      x = (k * epb + i) % 2 ^ 32) ∧ (usedLoop rd epb infos bits = none ↔ ∃ p ∈ infos, rd p.2 = none) := by
  intro infos
  induction infos with
  | nil =>
    intro bits
    refine ⟨fun out h x => ?_, ?_⟩
    · cases h
      simp
    · simp [usedLoop]
  | cons p infos ih =>
    intro bits
    obtain ⟨key, loc⟩ := p
    unfold usedLoop
    cases hr : rd loc with
    | none => exact ⟨fun out h => (by cases h), ⟨fun _ => ⟨_, List.mem_cons_self .., hr⟩, fun _ => rfl⟩⟩
    | some q =>
      obtain ⟨t, es⟩ := q
      simp only
      obtain ⟨i1, i2⟩ := ih (addUsed es (key * epb) bits)
      refine ⟨fun out h x => ?_, ?_⟩
      · rw [i1 out h x, mem_addUsed]
        constructor
        · rintro ((h | ⟨i, e, h1, h2, h3⟩) | ⟨k, l, t', es', i, e, h0, h⟩)
          · exact .inl h
          · exact .inr ⟨key, loc, t, es, i, e, List.mem_cons_self .., hr, h1, h2, h3⟩
          · exact .inr ⟨k, l, t', es', i, e, List.mem_cons_of_mem _ h0, h⟩
        · rintro (h | ⟨k, l, t', es', i, e, h0, h1, h2⟩)
          · exact .inl (.inl h)
          · rcases List.mem_cons.mp h0 with h0 | h0
            · cases h0
              rw [hr] at h1
              cases h1
              exact .inl (.inr ⟨i, e, h2⟩)
            · exact .inr ⟨k, l, t', es', i, e, h0, h1, h2⟩
      · rw [i2]
        constructor
        · rintro ⟨p, hp, h⟩; exact ⟨p, List.mem_cons_of_mem _ hp, h⟩
        · rintro ⟨p, hp, h⟩
          rcases List.mem_cons.mp hp with rfl | hp
          · rw [hr] at h; cases h
          · exact ⟨p, hp, h⟩

/-- **C74**: the blocks in use, modulo 2^32, are those whose entry in the bitmaps is not zero, whatever order the bitmaps are in; and all bitmaps were read. -/
theorem allocated_exact {rd : Nat → Option (Bool × List BE)} {epb : Nat} (he : 0 < epb) (hrd : Entries epb rd) (ies : List IndexEntry) :
    (allocated rd epb ies = none ↔ ∃ ie ∈ ies, rd ie.blocknr = none) ∧
    ∀ out, allocated rd epb ies = some out → ∀ x, x ∈ out ↔ ∃ b e, EntryAt epb rd (ies.map (·.blocknr)) b e ∧ e ≠ .small 0 ∧ x = b % 2 ^ 32 := by
  have hmem : ∀ k loc, (k, loc) ∈ Gen.sortBy (·.2) (ies.zipIdx.map fun e => (e.2, e.1.blocknr)) ↔ (ies.map (·.blocknr))[k]? = some loc := by
    intro k loc
    rw [(Gen.sortBy_perm _ _).mem_iff, List.mem_map, List.getElem?_map]
    constructor
    · rintro ⟨⟨ie, j⟩, h1, h2⟩
      cases h2
      rw [List.mk_mem_zipIdx_iff_getElem?] at h1
      rw [h1]
      rfl
    · intro h
      cases hk : ies[k]? with
      | none => rw [hk] at h; cases h
      | some ie =>
        rw [hk] at h
        cases h
        exact ⟨(ie, k), List.mk_mem_zipIdx_iff_getElem?.mpr hk, rfl⟩
  obtain ⟨u1, u2⟩ := usedLoop_spec (rd := rd) epb (Gen.sortBy (·.2) (ies.zipIdx.map fun e => (e.2, e.1.blocknr))) []
  refine ⟨?_, fun out h x => ?_⟩
  · unfold allocated
    rw [u2]
    constructor
    · rintro ⟨⟨k, loc⟩, hp, h⟩
      have := (hmem k loc).mp hp
      obtain ⟨ie, h1, rfl⟩ := List.mem_map.mp (List.mem_of_getElem? this)
      exact ⟨ie, h1, h⟩
    · rintro ⟨ie, h1, h⟩
      obtain ⟨k, hk⟩ := List.mem_iff_getElem?.mp h1
      exact ⟨(k, ie.blocknr), (hmem _ _).mpr (by rw [List.getElem?_map, hk]; rfl), h⟩
  · rw [u1 out h x]
    constructor
    · rintro (h | ⟨k, loc, t, es, i, e, h0, h1, h2, h3, h4⟩)
      · cases h
      · have hi := (List.getElem?_eq_some_iff.mp h2).1
        rw [hrd.len _ _ _ h1] at hi
        refine ⟨k * epb + i, e, ⟨loc, t, es, ?_, h1, ?_⟩, h3, h4⟩
        · rw [Nat.mul_comm, Nat.mul_add_div he, Nat.div_eq_of_lt hi, Nat.add_zero]; exact (hmem k loc).mp h0
        · rw [Nat.mul_comm, Nat.mul_add_mod, Nat.mod_eq_of_lt hi]; exact h2
    · rintro ⟨b, e, ⟨loc, t, es, h1, h2, h3⟩, h4, h5⟩
      refine .inr ⟨b / epb, loc, t, es, b % epb, e, (hmem _ _).mpr h1, h2, h3, h4, ?_⟩
      rw [h5, Nat.mul_comm, Nat.div_add_mod]

/-- **C74**: for fewer than 2^32 blocks, a block that is counted in the space map is one of the valid blocks of the spindle engine; and so are all blocks, if the space map cannot be
read. -/
theorem valid_covers {rd : Nat → Option (Bool × List BE)} {epb dev : Nat} (he : 0 < epb) (hrd : Entries epb rd) (h32 : dev < 2 ^ 32) (ies : Option (List IndexEntry)) {exp : List Nat}
    (hc : ∀ l, ies = some l → (∀ ie ∈ l, ∃ t es, rd ie.blocknr = some (t, es)) → Counts epb rd (l.map (·.blocknr)) exp) {b c : Nat} (hb : b < dev) (hcb : exp[b]? = some c) (hpos : 0 < c) :
    b ∈ validBlocks rd epb dev ies := by
  have hall : b ∈ List.range (dev % 2 ^ 32) := by rw [Nat.mod_eq_of_lt h32]; exact List.mem_range.mpr hb
  unfold validBlocks
  cases hi : ies with
  | none => exact hall
  | some l =>
    simp only
    cases ha : allocated rd epb l with
    | none => exact hall
    | some out =>
      have hread : ∀ ie ∈ l, ∃ t es, rd ie.blocknr = some (t, es) := by
        intro ie hie
        cases hr : rd ie.blocknr with
        | none =>
          have := (allocated_exact he hrd l).1.mpr ⟨ie, hie, hr⟩
          rw [ha] at this
          cases this
        | some p => exact ⟨p.1, p.2, rfl⟩
      have hC := hc l hi hread
      refine ((allocated_exact he hrd l).2 out ha b).mpr ?_
      by_cases h3 : c < 3
      · exact ⟨b, _, hC.small b c hcb h3, (by intro e; simp only [BE.small.injEq] at e; omega), (Nat.mod_eq_of_lt (by omega)).symm⟩
      · exact ⟨b, _, hC.big b c hcb (by omega), (by intro e; cases e), (Nat.mod_eq_of_lt (by omega)).symm⟩

example : allocated demoRd 4 demoIes = some [0, 3, 5] ∧ allocated demoRd 4 [⟨9, 1, 0⟩, ⟨7, 2, 1⟩] = some [1, 4, 7] ∧ allocated demoRd 4 [⟨8, 1, 0⟩] = none := by decide +kernel

end Verif.Dmg
