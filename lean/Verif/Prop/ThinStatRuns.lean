import Verif.Prop.ThinStatRefs
import Verif.Prop.WalkerOnce
import Verif.Prop.ThinLsDemo
import Verif.Prop.DumpRuns

/-!
# C69: run lengths of `thin_stat`
-/

namespace Verif.Stat

open Verif.BT (Blk WSt Event Tree shownLeaves)
open Verif.TChk (TDev Dev kids)
open Verif.Ls (TT)

/-! ## Specification -/

/-- the device's mapping tree holds these trees -/
structure Pool (d : TDev) (ts : List TT) : Prop where
  top : ∃ sb mem, ∃ (h : Nat) (t : Tree Nat h), d.sb = some sb ∧ d.tops = (fun _ b => mem b) ∧ LW.Clean mem d.nr h t ∧ t.blk h = sb.mapping_root ∧ (t.contents h).map (·.2) = ts.map TT.root
  lowNr : d.low.nr = d.nr
  clean : ∀ t ∈ ts, t.Clean d.low

/-- the mappings of a device: block, data block and time, as `BlockTime` packs them into one number -/
def TTmaps (t : TT) : List Dump.Entry := t.entries.map fun e => ⟨e.1, e.2 / 2 ^ 24, e.2 % 2 ^ 24⟩

theorem maps_eq (t : TT) : t.entries.map toEntry = TTmaps t := by
  unfold TTmaps
  refine List.map_congr_left fun e _ => ?_
  show (⟨e.1, e.2 >>> 24, e.2 % 2 ^ 24⟩ : Dump.Entry) = _
  rw [Nat.shiftRight_eq_div_pow]

/-- mappings covered by the runs of a histogram of lengths -/
def covered (h : Hist) : Nat := (h.map fun e => e.1 * e.2).sum

/-- the mappings of a leaf -/
def nMaps (d : Dev) (b : Nat) : Nat := match d.rd b with | some (.leaf es) => es.length | _ => 0

/-! ## Counting -/

theorem covered_bump (k : Nat) : ∀ h : Hist, covered (bump k h) = covered h + k := by
  intro h
  induction h with
  | nil => simp [bump, covered]
  | cons e h ih =>
    unfold bump
    by_cases h1 : k < e.1
    · rw [if_pos h1]; simp only [covered, List.map_cons, List.sum_cons]; omega
    · rw [if_neg h1]
      by_cases h2 : k = e.1
      · rw [if_pos h2]
        simp only [covered, List.map_cons, List.sum_cons, Nat.mul_add, Nat.mul_one]
        omega
      · rw [if_neg h2]
        simp only [covered, List.map_cons, List.sum_cons] at ih ⊢
        omega

/-- the runs that `countLeaf` adds are those of `thin_dump` -/
theorem countLeaf_eq : ∀ (es : List (Nat × Nat)) (h : Hist) (r : Option Dump.Run),
    countLeaf es h r = ((Dump.visit r (es.map toEntry)).2.foldl addRun h, (Dump.visit r (es.map toEntry)).1) := by
  intro es
  induction es with
  | nil => intro h r; rfl
  | cons e es ih =>
    intro h r
    show (match Dump.next r (toEntry e) with | (r, none) => countLeaf es h r | (r, some done) => countLeaf es (addRun h done) r) = _
    rw [List.map_cons]
    show _ = ((((Dump.next r (toEntry e)).2.toList ++ (Dump.visit (Dump.next r (toEntry e)).1 (es.map toEntry)).2)).foldl addRun h, (Dump.visit (Dump.next r (toEntry e)).1 (es.map toEntry)).1)
    generalize Dump.next r (toEntry e) = q
    obtain ⟨q, o⟩ := q
    cases o with
    | none => exact ih h q
    | some done => exact ih (addRun h done) q

def lenOf (r : Option Dump.Run) : Nat := match r with | none => 0 | some r => r.len

theorem next_len (r : Option Dump.Run) (e : Dump.Entry) : lenOf (Dump.next r e).1 + lenOf (Dump.next r e).2 = lenOf r + 1 := by
  cases r with
  | none => rfl
  | some q =>
    show lenOf (if _ then _ else _ : Option Dump.Run × Option Dump.Run).1 + lenOf (if _ then _ else _ : Option Dump.Run × Option Dump.Run).2 = _
    split
    · rfl
    · simp only [lenOf]; omega

theorem countLeaf_covered : ∀ (es : List (Nat × Nat)) (h : Hist) (r : Option Dump.Run), lenOf r + es.length < 2 ^ 32 →
    covered (countLeaf es h r).1 + lenOf (countLeaf es h r).2 = covered h + lenOf r + es.length := by
  intro es
  induction es with
  | nil => intro h r _; rfl
  | cons e es ih =>
    intro h r hb
    have hn := next_len r (toEntry e)
    have hstep : countLeaf (e :: es) h r = match Dump.next r (toEntry e) with | (r, none) => countLeaf es h r | (r, some done) => countLeaf es (addRun h done) r := rfl
    rw [hstep]
    generalize Dump.next r (toEntry e) = q at hn
    obtain ⟨q, o⟩ := q
    rw [List.length_cons] at hb ⊢
    cases o with
    | none =>
      simp only [show lenOf none = 0 from rfl] at hn
      show covered (countLeaf es h q).1 + lenOf (countLeaf es h q).2 = _
      rw [ih h q (by omega)]
      omega
    | some done =>
      simp only [show lenOf (some done) = done.len from rfl] at hn
      have e : done.len % 2 ^ 32 = done.len := Nat.mod_eq_of_lt (by omega)
      show covered (countLeaf es (addRun h done) q).1 + lenOf (countLeaf es (addRun h done) q).2 = _
      rw [ih (addRun h done) q (by omega)]
      unfold addRun
      rw [covered_bump, e]
      omega

/-- mappings in the leaves shown -/
def shownMaps (log : List (Event Nat)) : Nat := ((shownLeaves log).map fun p => p.2.length).sum

theorem steps_covered : ∀ (log : List (Event Nat)) (s : RunSt), lenOf s.run + shownMaps log < 2 ^ 32 →
    (log.foldl runStep s).leaves = s.leaves + (shownLeaves log).length ∧
    covered (log.foldl runStep s).hist + lenOf (log.foldl runStep s).run = covered s.hist + lenOf s.run + shownMaps log := by
  intro log
  induction log with
  | nil => intro s _; exact ⟨rfl, rfl⟩
  | cons e log ih =>
    intro s hb
    rw [List.foldl_cons]
    cases e with
    | visit path kr es =>
      have e1 : shownMaps (Event.visit path kr es :: log) = es.length + shownMaps log := rfl
      have e2 : (shownLeaves (Event.visit path kr es :: log)).length = (shownLeaves log).length + 1 := rfl
      rw [e1] at hb ⊢
      rw [e2]
      have h1 := countLeaf_covered es s.hist s.run (by omega)
      have h2 : lenOf (countLeaf es s.hist s.run).2 ≤ lenOf s.run + es.length := by
        have : ∀ (es : List (Nat × Nat)) (h : Hist) (r : Option Dump.Run), lenOf (countLeaf es h r).2 ≤ lenOf r + es.length := by
          intro es
          induction es with
          | nil => intro h r; exact Nat.le_refl _
          | cons e es ih =>
            intro h r
            have hn := next_len r (toEntry e)
            have hstep : countLeaf (e :: es) h r = match Dump.next r (toEntry e) with | (r, none) => countLeaf es h r | (r, some done) => countLeaf es (addRun h done) r := rfl
            rw [hstep]
            generalize Dump.next r (toEntry e) = q at hn
            obtain ⟨q, o⟩ := q
            rw [List.length_cons]
            cases o with
            | none => have := ih h q; simp only [lenOf] at hn this ⊢; omega
            | some done => have := ih (addRun h done) q; simp only [lenOf] at hn this ⊢; omega
        exact this es s.hist s.run
      obtain ⟨i1, i2⟩ := ih (runStep s (.visit path kr es)) (by show lenOf (countLeaf es s.hist s.run).2 + _ < _; omega)
      refine ⟨by rw [i1]; show s.leaves + 1 + _ = _; omega, ?_⟩
      rw [i2]
      show covered (countLeaf es s.hist s.run).1 + lenOf (countLeaf es s.hist s.run).2 + _ = _
      omega
    | again path b => exact ih s hb
    | endWalk =>
      have e1 : shownMaps (Event.endWalk :: log) = shownMaps log := rfl
      have e2 : shownLeaves (Event.endWalk :: log) = shownLeaves log := rfl
      rw [e1] at hb ⊢
      rw [e2]
      obtain ⟨i1, i2⟩ := ih (runStep s .endWalk) (by show 0 + _ < _; omega)
      refine ⟨i1, ?_⟩
      rw [i2]
      show covered (match s.run with | none => s.hist | some r => addRun s.hist r) + 0 + _ = _
      cases hr : s.run with
      | none => rfl
      | some r =>
        simp only [hr, lenOf] at hb ⊢
        unfold addRun
        rw [covered_bump, Nat.mod_eq_of_lt (by omega)]
        omega

/-! ## Every leaf once -/

theorem rdAny {d : Dev} : ∀ b n, (fun (_ : Bool) b => d.rd b) false b = some n → (fun (_ : Bool) b => d.rd b) true b = some n := fun _ _ h => h

theorem reach_nodes {d : Dev} {t : TT} (hc : t.Clean d) {x : Nat} : BT.Reach (fun _ b => d.rd b) d.nr t.root x ↔ x ∈ t.nodes := by
  constructor
  · intro h
    induction h with
    | root => exact TChk.blk_mem_blocks t.2
    | child _ hch hc' hlt ih =>
      refine hc.closed ih ?_
      unfold kids
      simp only [hch]
      exact List.mem_map.mpr ⟨_, hc', rfl⟩
  · intro hx
    have := Ls.subtree_in (d := d) (S := fun x => x ∈ t.nodes ∧ BT.Reach (fun _ b => d.rd b) d.nr t.root x) (fun y c h hk => by
      have hin := hc.closed h.1 hk
      refine ⟨hin, ?_⟩
      unfold kids at hk
      cases hr : d.rd y with
      | none => rw [hr] at hk; cases hk
      | some n =>
        rw [hr] at hk
        cases n with
        | leaf es => cases hk
        | internal ch =>
          obtain ⟨q, hq, rfl⟩ := List.mem_map.mp hk
          exact .child h.2 hr hq (hc.bound _ hin)) t.1 t.2 true hc.stored ⟨TChk.blk_mem_blocks t.2, .root⟩ x hx
    exact this.2

/-- the state after walking some of the trees -/
structure After (d : TDev) (done : List TT) (s : WSt Nat) : Prop where
  nr : s.nr = d.nr
  mx : s.mx = 1
  sat : s.sat = true
  fails : ∀ x, s.fails x = false
  once : BT.OnceInv (fun _ b => d.low.rd b) s
  closed : BT.AllClosed (fun _ b => d.low.rd b) (fun _ _ => true) s
  roots : ∀ t ∈ done, 0 < s.seen t.root
  only : ∀ x, 0 < s.seen x → ∃ t ∈ done, x ∈ t.nodes
  ends : s.log = [] ∨ ∃ l, s.log = l ++ [.endWalk]

theorem walk_ends (io : Nat → Bool) (rd : Bool → Nat → Option (Blk Nat)) (vis : List (Event Nat) → Event Nat → Bool) (fuel : Nat) (path : List Nat) (root : Nat) (s : WSt Nat)
    (hok : (BT.walk io rd vis fuel path root s).2 = .ok) : ∃ l, (BT.walk io rd vis fuel path root s).1.log = l ++ [.endWalk] := by
  unfold BT.walk at hok ⊢
  cases hi : s.smInc root with
  | none => rw [hi] at hok; cases hok
  | some p =>
    obtain ⟨rc, t⟩ := p
    rw [hi] at hok
    simp only at hok ⊢
    by_cases hrc : rc > 0
    · rw [if_pos hrc]
      by_cases hf : t.fails root
      · rw [if_pos hf]; exact ⟨_, rfl⟩
      · rw [if_neg hf]; exact ⟨_, rfl⟩
    · rw [if_neg hrc] at hok ⊢
      cases hio : io root with
      | false => simp [hio] at hok
      | true => exact ⟨_, rfl⟩

theorem walkRoots_after {d : TDev} (hlow : d.low.nr = d.nr) : ∀ (ts done : List TT) (s : WSt Nat), (∀ t ∈ ts, t.Clean d.low) → After d done s →
    ∃ s', walkRoots d (ts.map TT.root) s = some s' ∧ After d (done ++ ts) s' := by
  intro ts
  induction ts with
  | nil => intro done s _ h; exact ⟨s, rfl, by rw [List.append_nil]; exact h⟩
  | cons t ts ih =>
    intro done s hc h
    have ht := hc t (by simp)
    have hnr : t.root < d.nr := by rw [← hlow]; exact ht.bound _ (TChk.blk_mem_blocks t.2)
    have hh : t.1 < d.nr + 1 := by
      have := LW.Clean.height (V := Nat) ht
      omega
    obtain ⟨w1, w2⟩ := BT.walk_sh (fun b => decide (b < d.nr)) (fun _ b => d.low.rd b) (fun _ _ => true) (fun _ _ => rfl) t.1 t.2 [] (d.nr + 1) hh
      ht.stored ht.ordered ht.noEmpty s h.sat (decide_eq_true hnr) (by rw [h.nr]; exact hnr) h.fails
    have w1 : (BT.walk (fun b => decide (b < d.nr)) (fun _ b => d.low.rd b) (fun _ _ => true) (d.nr + 1) [] t.root s).2 = .ok := w1
    have hmx : 0 < s.mx := by rw [h.mx]; omega
    obtain ⟨o1, o2, o3⟩ := BT.walk_once (fun b => decide (b < d.nr)) (fun _ b => d.low.rd b) rdAny (fun _ _ => true) (d.nr + 1) [] t.root s hmx h.once
    obtain ⟨c1, c2⟩ := BT.walk_closed (fun b => decide (b < d.nr)) (fun _ b => d.low.rd b) rdAny (fun _ _ => true) s hmx (d.nr + 1) [] t.root h.closed w1
    have hA : After d (done ++ [t]) (BT.walk (fun b => decide (b < d.nr)) (fun _ b => d.low.rd b) (fun _ _ => true) (d.nr + 1) [] t.root s).1 := by
      refine ⟨o2.nr.trans h.nr, o2.mx.trans h.mx, o2.sat.trans h.sat, w2.1, o1, c1, ?_, ?_, Or.inr (walk_ends _ _ _ _ _ _ _ w1)⟩
      · intro u hu
        rcases List.mem_append.mp hu with hu | hu
        · exact Nat.lt_of_lt_of_le (h.roots u hu) (o2.seen _)
        · rw [List.mem_singleton.mp hu]; exact c2
      · intro x hx
        by_cases h0 : s.seen x = 0
        · have := o3 x h0 hx
          rw [h.nr, ← hlow] at this
          exact ⟨t, by simp, (reach_nodes ht).mp this⟩
        · obtain ⟨u, hu, hm⟩ := h.only x (by omega)
          exact ⟨u, by simp [hu], hm⟩
    obtain ⟨s', e, hs'⟩ := ih (done ++ [t]) _ (fun u hu => hc u (by simp [hu])) hA
    refine ⟨s', ?_, by rw [List.append_assoc] at hs'; exact hs'⟩
    show (if _ = BT.Res.ok then _ else _) = _
    rw [if_pos w1]
    exact e

theorem runLengths_some {d : TDev} {ts : List TT} (hp : Pool d ts) : ∃ sb s, d.sb = some sb ∧ After d ts s ∧ walkRoots d (ts.map TT.root) (WSt.fresh d.nr 1 true) = some s ∧
    runLengths d sb.mapping_root = some ((s.log.foldl runStep ⟨[], none, 0⟩).hist, (s.log.foldl runStep ⟨[], none, 0⟩).leaves) := by
  obtain ⟨sb, mem, h, t, e1, e2, e3, e4, e5⟩ := hp.top
  have h0 : After d [] (WSt.fresh d.nr 1 true) := ⟨rfl, rfl, rfl, fun _ => rfl, BT.fresh_once _ _ _ _, fun x hx => absurd hx (by simp [WSt.fresh]), by simp, fun x hx => absurd hx (by simp [WSt.fresh]), Or.inl rfl⟩
  obtain ⟨s, w, ha⟩ := walkRoots_after hp.lowNr ts [] _ hp.clean h0
  refine ⟨sb, s, e1, by simpa using ha, w, ?_⟩
  unfold runLengths
  rw [e2, ← e4, LW.btreeToMap_contents e3]
  simp only
  rw [e5, w]

/-- **C69, what is counted.**  On an undamaged pool, whatever its devices share: every distinct leaf is counted once, and the lengths times their numbers are the mappings of the distinct leaves. -/
theorem run_leaves_exact {d : TDev} {ts : List TT} (hp : Pool d ts) {ls : List Nat} (hnd : ls.Nodup)
    (hls : ∀ b, b ∈ ls ↔ (∃ t ∈ ts, b ∈ t.nodes) ∧ ∃ es, d.low.rd b = some (.leaf es)) (hsize : (ls.map (nMaps d.low)).sum < 2 ^ 32) :
    ∃ h, dataRuns d = some (h, total h, ls.length) ∧ covered h = (ls.map (nMaps d.low)).sum := by
  obtain ⟨sb, s, hsb, ha, -, hr⟩ := runLengths_some hp
  have hstored := ha.once.stored
  -- the blocks shown
  have hmap : ∀ l : List (Option Nat × List (Nat × Nat)), (∀ p ∈ l, ∃ b, p.1 = some b ∧ d.low.rd b = some (.leaf p.2)) →
      (l.filterMap (·.1)).length = l.length ∧ ((l.filterMap (·.1)).map (nMaps d.low)).sum = (l.map fun p => p.2.length).sum ∧ (∀ x, (l.filterMap (·.1)).count x = (l.map (·.1)).count (some x)) := by
    intro l
    induction l with
    | nil => intro _; exact ⟨rfl, rfl, fun _ => rfl⟩
    | cons p l ih =>
      intro hl
      obtain ⟨i1, i2, i3⟩ := ih (fun q hq => hl q (by simp [hq]))
      obtain ⟨b, hb, hb'⟩ := hl p (by simp)
      have hn : nMaps d.low b = p.2.length := by unfold nMaps; rw [hb']
      rw [List.filterMap_cons]
      simp only [hb]
      refine ⟨by simp [i1], by simp [i2, hn], fun x => ?_⟩
      rw [List.map_cons, hb, List.count_cons, List.count_cons, i3]
      simp
  obtain ⟨m1, m2, m3⟩ := hmap (shownLeaves s.log) hstored
  have hperm : ((shownLeaves s.log).filterMap (·.1)).Perm ls := by
    rw [List.perm_ext_iff_of_nodup ?_ hnd]
    · intro x
      rw [hls]
      constructor
      · intro hx
        have hc : 0 < BT.shows x s.log := by
          show 0 < ((shownLeaves s.log).map (·.1)).count (some x)
          rw [← m3]
          exact List.count_pos_iff.mpr hx
        refine ⟨ha.only x (ha.once.seen x hc), ?_⟩
        obtain ⟨p, hp', e⟩ := List.mem_filterMap.mp hx
        obtain ⟨b, e', hb⟩ := hstored p hp'
        rw [e] at e'
        cases e'
        exact ⟨_, hb⟩
      · rintro ⟨⟨t, ht, hx⟩, es, hes⟩
        have hcov := BT.covered_of_seen ha.closed (ha.roots t ht) (b := x) (by rw [ha.nr, ← hp.lowNr]; exact (reach_nodes (hp.clean t ht)).mpr hx)
        have := hcov.2
        unfold BT.Covered at this
        simp only [hes] at this
        obtain ⟨pre, post, path, kr, hl, -⟩ := this
        refine List.mem_filterMap.mpr ⟨(some x, es), ?_, rfl⟩
        rw [hl]
        unfold BT.shownLeaves
        rw [List.filterMap_append, List.filterMap_cons]
        simp
    · rw [List.nodup_iff_count]
      intro x
      rw [m3]
      exact ha.once.one x
  have hsum : shownMaps s.log = (ls.map (nMaps d.low)).sum := by
    unfold shownMaps
    rw [← m2]
    exact (hperm.map _).sum_nat
  obtain ⟨g1, g2⟩ := steps_covered s.log ⟨[], none, 0⟩ (by show 0 + _ < _; omega)
  have hrun : lenOf (s.log.foldl runStep ⟨[], none, 0⟩).run = 0 := by
    rcases ha.ends with e | ⟨l, e⟩
    · rw [e]; rfl
    · rw [e, List.foldl_append]; rfl
  refine ⟨(s.log.foldl runStep ⟨[], none, 0⟩).hist, ?_, ?_⟩
  · unfold dataRuns
    rw [hsb]
    simp only [hr, Option.map_some]
    rw [g1, ← hperm.length_eq, m1]
    simp
  · have : covered ([] : Hist) = 0 := rfl
    simp only [show lenOf none = 0 from rfl] at g2
    omega

/-! ## Pools without shared blocks -/

theorem addRuns_hist : ∀ (rs : List Dump.Run) (l : List Nat) (h : Hist), HistOf l h → (∀ r ∈ rs, r.len < 2 ^ 32) → HistOf (l ++ rs.map (·.len)) (rs.foldl addRun h) := by
  intro rs
  induction rs with
  | nil => intro l h hh _; simpa using hh
  | cons r rs ih =>
    intro l h hh hb
    have := ih (l ++ [r.len]) (addRun h r) (by unfold addRun; rw [Nat.mod_eq_of_lt (hb r (by simp))]; exact bump_hist hh r.len) (fun q hq => hb q (by simp [hq]))
    simpa using this

def isVisit : Event Nat → Bool
  | .visit _ _ _ => true
  | _ => false

theorem fold_visits : ∀ (log : List (Event Nat)) (s : RunSt), (∀ e ∈ log, isVisit e = true) →
    (log.foldl runStep s).hist = (Dump.visit s.run (((shownLeaves log).flatMap (·.2)).map toEntry)).2.foldl addRun s.hist ∧
    (log.foldl runStep s).run = (Dump.visit s.run (((shownLeaves log).flatMap (·.2)).map toEntry)).1 := by
  intro log
  induction log with
  | nil => intro s _; exact ⟨rfl, rfl⟩
  | cons e log ih =>
    intro s hv
    cases e with
    | again p b => exact absurd (hv (.again p b) (by simp)) (by simp [isVisit])
    | endWalk => exact absurd (hv .endWalk (by simp)) (by simp [isVisit])
    | visit path kr es =>
      obtain ⟨i1, i2⟩ := ih (runStep s (.visit path kr es)) (fun e he => hv e (by simp [he]))
      have e1 : (shownLeaves (Event.visit path kr es :: log)).flatMap (·.2) = es ++ (shownLeaves log).flatMap (·.2) := rfl
      have e2 : runStep s (.visit path kr es) = ⟨(countLeaf es s.hist s.run).1, (countLeaf es s.hist s.run).2, s.leaves + 1⟩ := rfl
      rw [List.foldl_cons, i1, i2, e1, e2, countLeaf_eq, List.map_append, Dump.visit_append]
      exact ⟨by simp, rfl⟩

theorem leafEvents_shown : ∀ (h : Nat) (path : List Nat) (kr : BT.KeyRange) (t : Tree Nat h), (∀ e ∈ BT.leafEvents h path kr t, isVisit e = true) ∧
    (shownLeaves (BT.leafEvents h path kr t)).flatMap (·.2) = t.contents h := by
  intro h
  induction h with
  | zero =>
    intro path kr t
    exact ⟨by intro e he; simp only [BT.leafEvents, List.mem_singleton] at he; rw [he]; rfl, by simp [BT.leafEvents, shownLeaves, Tree.contents]⟩
  | succ h ih =>
    intro path kr t
    obtain ⟨b, ch⟩ := t
    show (∀ e ∈ BT.eachRange (BT.leafEvents h (path ++ [b])) kr.fin ch, _) ∧ (shownLeaves (BT.eachRange (BT.leafEvents h (path ++ [b])) kr.fin ch)).flatMap (·.2) = ch.flatMap fun c => c.2.contents h
    generalize kr.fin = fin
    induction ch with
    | nil =>
      refine ⟨fun e he => ?_, rfl⟩
      cases he
    | cons c ch ihc =>
      obtain ⟨k, c⟩ := c
      obtain ⟨j1, j2⟩ := ih (path ++ [b]) ⟨some k, BT.nextKey fin ch⟩ c
      show (∀ e ∈ BT.leafEvents h (path ++ [b]) ⟨some k, BT.nextKey fin ch⟩ c ++ BT.eachRange (BT.leafEvents h (path ++ [b])) fin ch, _) ∧
        (shownLeaves (BT.leafEvents h (path ++ [b]) ⟨some k, BT.nextKey fin ch⟩ c ++ BT.eachRange (BT.leafEvents h (path ++ [b])) fin ch)).flatMap (·.2) = _
      refine ⟨fun e he => ?_, ?_⟩
      · rcases List.mem_append.mp he with he | he
        · exact j1 e he
        · exact ihc.1 e he
      · rw [BT.shownLeaves_append, List.flatMap_append, j2, ihc.2]
        rfl

/-- the runs of a device -/
def runsOf (t : TT) : List Dump.Run := Dump.dumpDevice [t.entries.map toEntry]

theorem runsOf_eq (t : TT) : runsOf t = (Dump.visit none (t.entries.map toEntry)).2 ++ (Dump.visit none (t.entries.map toEntry)).1.toList := by
  unfold runsOf Dump.dumpDevice
  rw [Dump.visitLeaves_flatten]
  simp

theorem runs_len {rs : List Dump.Run} {es : List Dump.Entry} (h : rs.flatMap Dump.Run.entries = es) : ∀ r ∈ rs, r.len ≤ es.length := by
  intro r hr
  rw [← h, List.length_flatMap]
  have h1 : r.entries.length = r.len := by simp [Dump.Run.entries]
  have : ∀ l : List Dump.Run, r ∈ l → r.entries.length ≤ (l.map fun a => a.entries.length).sum := by
    intro l
    induction l with
    | nil => intro h; cases h
    | cons a l ih =>
      intro h
      rw [List.map_cons, List.sum_cons]
      rcases List.mem_cons.mp h with rfl | h
      · omega
      · have := ih h; omega
  have := this rs hr
  omega

theorem walkRoots_disjoint {d : TDev} (hlow : d.low.nr = d.nr) : ∀ (ts : List TT) (s : WSt Nat), (∀ t ∈ ts, t.Clean d.low) → ts.Pairwise (fun t u => ∀ b ∈ t.nodes, b ∉ u.nodes) →
    (∀ t ∈ ts, t.entries.length < 2 ^ 32) → s.nr = d.nr → s.mx = 1 → (∀ t ∈ ts, ∀ b ∈ t.nodes, s.seen b = 0) → ∀ l, HistOf l (s.log.foldl runStep ⟨[], none, 0⟩).hist →
    (s.log.foldl runStep ⟨[], none, 0⟩).run = none →
    ∃ s', walkRoots d (ts.map TT.root) s = some s' ∧ HistOf (l ++ ts.flatMap fun t => (runsOf t).map (·.len)) (s'.log.foldl runStep ⟨[], none, 0⟩).hist := by
  intro ts
  induction ts with
  | nil => intro s _ _ _ _ _ _ l hl _; exact ⟨s, rfl, by simpa using hl⟩
  | cons t ts ih =>
    intro s hc hd hb hnr hmx hseen l hl hrun
    have ht := hc t (by simp)
    obtain ⟨hd1, hd2⟩ := List.pairwise_cons.mp hd
    have hroot : t.root < d.nr := by rw [← hlow]; exact ht.bound _ (TChk.blk_mem_blocks t.2)
    have hh : t.1 < d.nr + 1 := by
      have := LW.Clean.height (V := Nat) ht
      omega
    obtain ⟨w1, w2, w3, w4, w5⟩ := BT.walk_clean_from (fun b => decide (b < d.nr)) (fun _ b => d.low.rd b) (fun _ _ => true) t.1 t.2 s (by rw [hmx]; omega) (d.nr + 1) hh [] (fun _ _ _ => rfl)
      (decide_eq_true hroot) ht.stored ht.ordered ht.noEmpty ht.nodup (fun x hx => ⟨by rw [hnr, ← hlow]; exact ht.bound x hx, hseen t (by simp) x hx⟩)
    have w1 : (BT.walk (fun b => decide (b < d.nr)) (fun _ b => d.low.rd b) (fun _ _ => true) (d.nr + 1) [] t.root s).2 = .ok := w1
    have hstep : walkRoots d ((t :: ts).map TT.root) s = walkRoots d (ts.map TT.root) (BT.walk (fun b => decide (b < d.nr)) (fun _ b => d.low.rd b) (fun _ _ => true) (d.nr + 1) [] t.root s).1 := by
      show (if _ = BT.Res.ok then _ else _) = _
      rw [if_pos w1]
    rw [hstep]
    obtain ⟨v1, v2⟩ := leafEvents_shown t.1 [] ⟨none, none⟩ t.2
    obtain ⟨f1, f2⟩ := fold_visits (BT.leafEvents t.1 [] ⟨none, none⟩ t.2) (s.log.foldl runStep ⟨[], none, 0⟩) v1
    rw [v2, hrun] at f1 f2
    have hbound : ∀ r ∈ runsOf t, r.len < 2 ^ 32 := by
      intro r hr
      have h1 := runs_len (rs := runsOf t) (es := t.entries.map toEntry) (by unfold runsOf; rw [(Dump.dump_runs_exact _).1]; simp) r hr
      have h2 := hb t (by simp)
      rw [List.length_map] at h1
      omega
    have hfold : ∀ q : RunSt, q.run = none → (runStep (((BT.leafEvents t.1 [] ⟨none, none⟩ t.2).foldl runStep q)) .endWalk).hist = (runsOf t).foldl addRun q.hist := by
      intro q hq
      obtain ⟨f1, f2⟩ := fold_visits (BT.leafEvents t.1 [] ⟨none, none⟩ t.2) q v1
      rw [v2, hq] at f1 f2
      have hr := runsOf_eq t
      unfold TT.entries at hr
      show (match ((BT.leafEvents t.1 [] ⟨none, none⟩ t.2).foldl runStep q).run with | none => _ | some r => _) = _
      rw [f2, hr, List.foldl_append]
      cases hv : (Dump.visit none ((t.2.contents t.1).map toEntry)).1 with
      | none => exact f1
      | some r => exact congrArg (fun h => addRun h r) f1
    have hlog : (BT.walk (fun b => decide (b < d.nr)) (fun _ b => d.low.rd b) (fun _ _ => true) (d.nr + 1) [] t.root s).1.log.foldl runStep ⟨[], none, 0⟩ =
        runStep ((BT.leafEvents t.1 [] ⟨none, none⟩ t.2).foldl runStep (s.log.foldl runStep ⟨[], none, 0⟩)) .endWalk := by
      have : (BT.walk (fun b => decide (b < d.nr)) (fun _ b => d.low.rd b) (fun _ _ => true) (d.nr + 1) [] t.root s).1.log = _ := w2
      rw [this, List.foldl_append, List.foldl_append]
      rfl
    obtain ⟨s', i1, i2⟩ := ih (BT.walk (fun b => decide (b < d.nr)) (fun _ b => d.low.rd b) (fun _ _ => true) (d.nr + 1) [] t.root s).1 (fun u hu => hc u (by simp [hu])) hd2 (fun u hu => hb u (by simp [hu]))
      (w4.trans hnr) (w5.trans hmx) (fun u hu b hbu => by
        have := w3 b (fun h => hd1 u hu b h hbu)
        exact this.trans (hseen u (by simp [hu]) b hbu)) (l ++ (runsOf t).map (·.len)) (by
          rw [hlog, hfold _ hrun]
          exact addRuns_hist _ _ _ hl hbound) (by rw [hlog]; rfl)
    exact ⟨s', i1, by simpa using i2⟩

/-- **C69, devices that share no metadata.**  The histogram is that of the lengths of the longest runs of consecutive mappings, of all devices; every mapping is in one of them. -/
theorem run_hist_partial {d : TDev} {ts : List TT} (hp : Pool d ts) (hd : ts.Pairwise (fun t u => ∀ b ∈ t.nodes, b ∉ u.nodes)) (hb : ∀ t ∈ ts, t.entries.length < 2 ^ 32) :
    ∃ (runs : TT → List Dump.Run) (h : Hist) (n : Nat), (∀ t, (runs t).flatMap Dump.Run.entries = TTmaps t ∧ Dump.Maximal (runs t)) ∧
      dataRuns d = some (h, (ts.flatMap runs).length, n) ∧ HistOf (ts.flatMap fun t => (runs t).map (·.len)) h := by
  obtain ⟨sb, s, hsb, -, hw, hr⟩ := runLengths_some hp
  obtain ⟨s', w', hh⟩ := walkRoots_disjoint hp.lowNr ts (WSt.fresh d.nr 1 true) hp.clean hd hb rfl rfl (fun _ _ _ _ => rfl) [] hist_nil rfl
  rw [hw] at w'
  cases w'
  rw [List.nil_append] at hh
  refine ⟨runsOf, (s.log.foldl runStep ⟨[], none, 0⟩).hist, (s.log.foldl runStep ⟨[], none, 0⟩).leaves, fun t => ⟨by unfold runsOf; rw [(Dump.dump_runs_exact _).1, maps_eq]; simp, (Dump.dump_runs_exact _).2⟩, ?_, hh⟩
  unfold dataRuns
  rw [hsb]
  simp only [hr, Option.map_some]
  rw [hist_total hh]
  simp [List.length_flatMap]

end Verif.Stat
