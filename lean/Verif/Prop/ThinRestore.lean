import Verif.Prop.ThinRestoreNesting
import Verif.Prop.TreeLeaves
import Verif.Prop.PackTop
import Verif.Prop.DumpRuns
import Verif.Prop.LeafWalker

/-!
# C25, second half: what a restore builds
-/

namespace Verif.Rst

open Verif.Bld (St NB Summary NIO Item leafIO leafEntries Sorted NodeRec)
open Verif.Dump (Run)
open Verif.BT (Tree Blk)

variable {N : Type} [DecidableEq N]

/-! ## Specification: what a document means -/

/-- what a device is made of -/
inductive Seg (N : Type) where
  | run (r : Run)
  | ref (n : N)

/-- a definition with its mappings, or a device -/
inductive Sect (N : Type) where
  | def (n : N) (runs : List Run)
  | dev (d : DevIR) (segs : List (Seg N))

/-- the event for a segment -/
def Seg.ev : Seg N → Ev N
  | .run r => .map r
  | .ref n => .ref n

/-- the events for a section -/
def Sect.events : Sect N → List (Ev N)
  | .def n runs => .defB n :: (runs.map .map ++ [.defE])
  | .dev d segs => .devB d :: (segs.map Seg.ev ++ [.devE])

/-- the whole document -/
def docEvents (sb : SbIR) (sects : List (Sect N)) : List (Ev N) :=
  .sbB sb :: (sects.flatMap Sect.events ++ [.sbE, .eof])

/-- entries (thin block, data block and time) of a run -/
def runVals (r : Run) : List (Nat × Val) := r.entries.map fun e => (e.thin, .bt e.data e.time)

/-- definitions known so far -/
abbrev Env (N : Type) := N → Option (List (Nat × Val))

/-- entries of a segment -/
def Seg.vals (env : Env N) : Seg N → List (Nat × Val)
  | .run r => runVals r
  | .ref n => (env n).getD []

/-- one more definition -/
def Env.add (env : Env N) (n : N) (es : List (Nat × Val)) : Env N := fun m => if m = n then some es else env m

/-- the devices a document describes, each with all its mappings -/
def meaning : Env N → List (Sect N) → List (DevIR × List (Nat × Val))
  | _, [] => []
  | env, .def n runs :: l => meaning (env.add n (runs.flatMap runVals)) l
  | env, .dev d segs :: l => (d, segs.flatMap (Seg.vals env)) :: meaning env l

/-- Documents without contradictions: names are defined once and before they are used, thin blocks increase within a definition and within
a device, and an empty definition is only used by a device that has nothing else. -/
def Consistent : Env N → List (Sect N) → Prop
  | _, [] => True
  | env, .def n runs :: l => env n = none ∧ Sorted (runs.flatMap runVals) ∧ Consistent (env.add n (runs.flatMap runVals)) l
  | env, .dev _ segs :: l =>
    (∀ n, Seg.ref n ∈ segs → ∃ es, env n = some es ∧ (es ≠ [] ∨ segs = [.ref n])) ∧
    Sorted (segs.flatMap (Seg.vals env)) ∧ Consistent env l

/-! ## From events to the builder -/

/-- what a segment pushes -/
def Seg.items (subs : List (N × List Summary)) : Seg N → List (Item Val)
  | .run r => (runVals r).map fun e => .val e.1 e.2
  | .ref n =>
    match lookupName n subs with
    | some (m :: ms) => [.leaves m ms]
    | _ => []

theorem pushItems_append {V : Type} (io : NIO V V) (a b : List (Item V)) (nb : NB V) (s : St V) :
    Bld.pushItems io (a ++ b) nb s = (Bld.pushItems io a nb s >>= fun r => Bld.pushItems io b r.1 r.2) := by
  induction a generalizing nb s with
  | nil => rfl
  | cons i a ih =>
    show (Bld.pushItem io i nb s >>= fun r => Bld.pushItems io (a ++ b) r.1 r.2) =
      ((Bld.pushItem io i nb s >>= fun r => Bld.pushItems io a r.1 r.2) >>= fun r => Bld.pushItems io b r.1 r.2)
    cases Bld.pushItem io i nb s with
    | error e => rfl
    | ok r => exact ih r.1 r.2

theorem runVals_items (r : Run) : (runVals r).map (fun e => Item.val e.1 e.2) =
    (List.range' 0 r.len).map fun i => Item.val (r.thin + i) (.bt (r.data + i) r.time) := by
  simp [runVals, Dump.Run.entries, List.range_eq_range', Function.comp_def]

theorem pushRun_items (nrData : Nat) (r : Run) : ∀ (k i : Nat) (nb : NB Val) (s : St Val),
    pushRun nrData r k i nb s = Bld.pushItems (io nrData)
      ((List.range' i k).map fun i => Item.val (r.thin + i) (.bt (r.data + i) r.time)) nb s := by
  intro k
  induction k with
  | zero => intro i nb s; rfl
  | succ k ih =>
    intro i nb s
    rw [List.range'_succ, List.map_cons]
    show (Bld.pushValue (io nrData) (r.thin + i) (.bt (r.data + i) r.time) nb s >>= _) =
      (Bld.pushValue (io nrData) (r.thin + i) (.bt (r.data + i) r.time) nb s >>= _)
    cases Bld.pushValue (io nrData) (r.thin + i) (.bt (r.data + i) r.time) nb s with
    | error e => rfl
    | ok x => exact ih (i + 1) x.1 x.2

/-- the mappings and references of a section, as one sequence of pushes -/
theorem run_segs (segs : List (Seg N)) : ∀ (r : R N) (m : MS N) (nb : NB Val), r.cur = some (m, nb) →
    (∀ n, Seg.ref n ∈ segs → r.dev ≠ none ∧ ∃ q qs, lookupName n r.subs = some (q :: qs)) →
    run (segs.map Seg.ev) r = (lift (Bld.pushItems (io r.nrData) (segs.flatMap (Seg.items r.subs)) nb r.st) >>=
      fun x => .ok { r with cur := some (m, x.1), st := x.2 }) := by
  induction segs with
  | nil =>
    intro r m nb hc _
    show Except.ok r = Except.ok { r with cur := some (m, nb), st := r.st }
    rw [← hc]
  | cons g segs ih =>
    intro r m nb hc hr
    rw [List.flatMap_cons, pushItems_append]
    show (step g.ev r >>= fun r => run (segs.map Seg.ev) r) = _
    have hstep : step g.ev r = (lift (Bld.pushItems (io r.nrData) (g.items r.subs) nb r.st) >>=
        fun x => .ok { r with cur := some (m, x.1), st := x.2 }) := by
      cases g with
      | run q =>
        simp only [Seg.ev, step, hc, Seg.items]
        rw [pushRun_items, runVals_items]
      | ref n =>
        obtain ⟨h1, q, qs, h2⟩ := hr n (by simp)
        obtain ⟨det, h1⟩ := Option.ne_none_iff_exists'.mp h1
        simp only [Seg.ev, step, hc, Seg.items, h1, h2]
        show _ = (lift (Bld.pushNodes (io r.nrData) q qs nb r.st >>= fun x => Except.ok (x.1, x.2)) >>= _)
        cases Bld.pushNodes (io r.nrData) q qs nb r.st <;> rfl
    rw [hstep]
    cases Bld.pushItems (io r.nrData) (g.items r.subs) nb r.st with
    | error e => rfl
    | ok x =>
      exact ih { r with cur := some (m, x.1), st := x.2 } m x.1 rfl (fun n hn => hr n (by simp [hn]))

/-- between sections -/
structure Idle (r : R N) : Prop where
  cur : r.cur = none
  dev : r.dev = none
  sec : r.sec = .superblock

theorem run_def {r : R N} (hi : Idle r) (n : N) (runs : List Run) :
    run (Sect.events (.def n runs)) r =
      (lift (Bld.buildLeaves (io r.nrData) capBt true ((runs.flatMap runVals).map fun e => .val e.1 e.2) r.st) >>=
        fun x => .ok { r with subs := insertName n x.1 r.subs, st := x.2 }) := by
  have e0 : step (.defB n) r = .ok { r with sec := .def, cur := some (.def n, NB.new capBt true) } := by
    simp only [step, hi.sec, beginSection, hi.cur]
    simp
  show (step (.defB n) r >>= fun r => run (runs.map .map ++ [.defE]) r) = _
  rw [e0]
  show run (runs.map .map ++ [.defE]) _ = _
  rw [run_append]
  have e1 : runs.map (Ev.map (N := N)) = (runs.map Seg.run).map Seg.ev := by simp [Seg.ev, Function.comp_def]
  rw [e1, run_segs (runs.map Seg.run) _ (.def n) (NB.new capBt true) rfl (by simp)]
  have e2 : (runs.map Seg.run).flatMap (Seg.items r.subs) = (runs.flatMap runVals).map fun e => Item.val e.1 e.2 := by
    rw [List.flatMap_map, List.map_flatMap]; rfl
  simp only [e2]
  unfold Bld.buildLeaves
  cases Bld.pushItems (io r.nrData) ((runs.flatMap runVals).map fun e => Item.val e.1 e.2) (NB.new capBt true) r.st with
  | error e => rfl
  | ok x =>
    show (step .defE _ >>= fun r => Except.ok r) = (lift (Bld.complete (io r.nrData) x.1 x.2) >>= _)
    simp only [step, endSection]
    cases Bld.complete (io r.nrData) x.1 x.2 with
    | error e => rfl
    | ok y =>
      show Except.ok _ = Except.ok _
      congr 1
      simp only [R.mk.injEq, true_and, and_true]
      exact ⟨hi.cur.symm, hi.sec.symm⟩

theorem run_dev {r : R N} (hi : Idle r) (d : DevIR) (segs : List (Seg N))
    (hr : ∀ n, Seg.ref n ∈ segs → ∃ q qs, lookupName n r.subs = some (q :: qs)) :
    run (Sect.events (.dev d segs)) r =
      (lift (Bld.build (io r.nrData) capBt capI (segs.flatMap (Seg.items r.subs)) r.st) >>=
        fun x => .ok { r with devices := insertId d.id (d.detail, x.1) r.devices, st := x.2 }) := by
  have e0 : step (.devB d) r = .ok { r with dev := some d.detail, sec := .device, cur := some (.dev d.id, NB.new capBt false) } := by
    simp only [step, hi.sec, beginSection, hi.cur]
    simp
  show (step (.devB d) r >>= fun r => run (segs.map Seg.ev ++ [.devE]) r) = _
  rw [e0]
  show run (segs.map Seg.ev ++ [.devE]) _ = _
  rw [run_append]
  rw [run_segs segs { r with dev := some d.detail, sec := .device, cur := some (.dev d.id, NB.new capBt false) } (.dev d.id)
    (NB.new capBt false) rfl (fun n hn => ⟨by simp, hr n hn⟩)]
  unfold Bld.build Bld.buildLeaves
  show ((lift (Bld.pushItems (io r.nrData) (segs.flatMap (Seg.items r.subs)) (NB.new capBt false) r.st) >>= _) >>= _) = _
  cases Bld.pushItems (io r.nrData) (segs.flatMap (Seg.items r.subs)) (NB.new capBt false) r.st with
  | error e => rfl
  | ok x =>
    show (step .devE _ >>= fun r => Except.ok r) =
      (lift (Bld.complete (io r.nrData) x.1 x.2 >>= fun y => Bld.buildTree capI y.1 y.2) >>= _)
    simp only [step, endSection]
    cases Bld.complete (io r.nrData) x.1 x.2 with
    | error e => rfl
    | ok y =>
      show ((lift (Bld.buildTree capI y.1 y.2) >>= _) >>= _) = (lift (Bld.buildTree capI y.1 y.2) >>= _)
      cases Bld.buildTree capI y.1 y.2 with
      | error e => rfl
      | ok z =>
        show Except.ok _ = Except.ok _
        congr 1
        simp only [R.mk.injEq, true_and, and_true]
        exact ⟨hi.cur.symm, hi.dev.symm, hi.sec.symm⟩

/-! ## The invariant between sections -/

/-- outcomes: an error of the space maps (full device, counter range), or a result with `Q`; no other error -/
def PostR {α : Type} (x : Except RErr α) (Q : α → Prop) : Prop :=
  match x with
  | .ok a => Q a
  | .error (.bld e) => e.Resource
  | .error .ctl => False

theorem PostR.lift_bind {α β : Type} {x : Except Bld.Err α} {f : α → Except RErr β} {Q : α → Prop} {S : β → Prop}
    (h : Bld.Post x Q) (hf : ∀ a, Q a → PostR (f a) S) : PostR (lift x >>= f) S := by
  cases x with
  | ok a => exact hf a h
  | error e => exact h

theorem PostR.bind {α β : Type} {x : Except RErr α} {f : α → Except RErr β} {Q : α → Prop} {S : β → Prop}
    (h : PostR x Q) (hf : ∀ a, Q a → PostR (f a) S) : PostR (x >>= f) S := by
  cases x with
  | ok a => exact hf a h
  | error e => cases e <;> exact h

theorem PostR.mono {α : Type} {x : Except RErr α} {Q S : α → Prop} (h : PostR x Q) (hf : ∀ a, Q a → S a) : PostR x S := by
  cases x with
  | ok a => exact hf a h
  | error e => cases e <;> exact h

/-- a device and its tree -/
structure DevT where
  id : Nat
  det : Detail
  h : Nat
  t : Tree Val h

/-- the document's view of it -/
def DevT.means (d : DevT) : DevIR × List (Nat × Val) := (⟨d.id, d.det⟩, d.t.contents d.h)

/-- blocks of the shared leaves -/
def subBlocks (subs : List (N × List (NodeRec Val))) : List Nat := subs.flatMap fun p => p.2.map (·.sum.block)

/-- references of the leaf in a block -/
def leafRefs (mem : Nat → Option (Blk Val)) (b : Nat) : List Nat := (leafEntries mem b).flatMap fun e => refs e.2

/-- the blocks of the internal nodes of a tree -/
def innerBlocks {V : Type} : (h : Nat) → Tree V h → List Nat
  | 0, _ => []
  | h + 1, t => t.1 :: t.2.flatMap fun c => innerBlocks h c.2

/-- The state after some sections: `subs` are the definitions, `devs` the devices in order of their id, `seen` the same in any order. -/
structure Mid (n max : Nat) (sb : SbIR) (r : R N) (env : Env N) (subs : List (N × List (NodeRec Val))) (devs : List DevT)
    (seen : List (DevIR × List (Nat × Val))) : Prop where
  idle : Idle r
  rsb : r.sb = some sb
  out : r.out = none
  sm : r.st.sm.Inv n max
  hsubs : r.subs = subs.map fun p => (p.1, p.2.map (·.sum))
  henv : ∀ m, env m = (lookupName m subs).map fun ps => ps.flatMap (·.es)
  subsOK : ∀ p ∈ subs, p.2 ≠ [] ∧ ((∀ q ∈ p.2, capBt / 2 ≤ q.es.length) ∨ p.2.length = 1)
  recOK : ∀ p ∈ subs, ∀ q ∈ p.2, r.st.mem q.sum.block = some (.leaf q.es) ∧ q.sum.nr = q.es.length ∧
    q.sum.key = Bld.firstKey q.es ∧ q.sum.block < n ∧ q.sum.shared = true ∧ q.es.length ≤ capBt ∧ Sorted q.es
  nodup : (subBlocks subs).Nodup
  sub0 : 0 ∉ subBlocks subs
  hdev : r.devices = devs.map fun d => (d.id, (d.det, d.t.blk d.h))
  devOK : ∀ d ∈ devs, d.t.Stored (fun _ b => r.st.mem b) true d.h ∧ d.t.Ordered d.h 0 none ∧ Bld.RootFilled capBt capI d.h d.t
  sorted : devs.Pairwise fun a b => a.id < b.id
  seenP : (devs.map DevT.means).Perm seen
  rc : ∀ b, r.st.sm.abs b = (if b = 0 then 1 else 0) + (subBlocks subs).count b + (devs.flatMap fun d => d.t.blocks d.h).count b
  log : ∃ L : List Nat, L.Nodup ∧ (∀ b, b ∈ L ↔ b ∈ subBlocks subs ∨ ∃ d ∈ devs, b ∈ Bld.leafBlocks d.h d.t) ∧
    r.st.log.Perm (L.flatMap (leafRefs r.st.mem))
  inner : (devs.flatMap fun d => innerBlocks d.h d.t).Nodup
  dev0 : ∀ d ∈ devs, 0 ∉ d.t.blocks d.h

theorem lookup_none {α : Type} {k : N} {l : List (N × α)} (h : lookupName k l = none) (v : α) : insertName k v l = l ++ [(k, v)] := by
  induction l with
  | nil => rfl
  | cons p l ih =>
    by_cases e : p.1 = k
    · simp [lookupName, e] at h
    · have h' : lookupName k l = none := by
        simpa [lookupName, e] using h
      simp [insertName, e, ih h']

theorem lookup_map {α β : Type} (f : α → β) (k : N) (l : List (N × α)) :
    lookupName k (l.map fun p => (p.1, f p.2)) = (lookupName k l).map f := by
  induction l with
  | nil => rfl
  | cons p l ih =>
    by_cases e : p.1 = k
    · simp [lookupName, e]
    · simpa [lookupName, e] using ih

theorem lookup_mem {α : Type} {k : N} {l : List (N × α)} {v : α} (h : lookupName k l = some v) : ∃ k', (k', v) ∈ l := by
  unfold lookupName at h
  obtain ⟨p, h1, rfl⟩ := Option.map_eq_some_iff.mp h
  exact ⟨p.1, List.mem_of_find?_eq_some h1⟩

theorem lookup_snoc {α : Type} {k m : N} {l : List (N × α)} {v : α} (h : lookupName k l = none) :
    lookupName m (l ++ [(k, v)]) = if m = k then some v else lookupName m l := by
  induction l with
  | nil =>
    by_cases e : k = m
    · simp [lookupName, e]
    · simp [lookupName, e, Ne.symm e]
  | cons p l ih =>
    have hp : p.1 ≠ k := by
      intro e
      simp [lookupName, e] at h
    have h' : lookupName k l = none := by simpa [lookupName, hp] using h
    by_cases e : p.1 = m
    · have : m ≠ k := fun x => hp (e.trans x)
      simp [lookupName, e, this]
    · have := ih h'
      simpa [lookupName, e] using this

theorem val_contents (mem : Nat → Option (Blk Val)) (es : List (Nat × Val)) :
    (es.map fun e => Item.val e.1 e.2).flatMap (Bld.Item.contents mem) = es := by
  induction es with
  | nil => rfl
  | cons e es ih => simp only [List.map_cons, List.flatMap_cons, ih, Bld.Item.contents]; rfl

theorem val_blocks (es : List (Nat × Val)) : (es.map fun e => Item.val e.1 e.2).flatMap Bld.Item.blocks = [] := by
  induction es with
  | nil => rfl
  | cons e es ih => simp only [List.map_cons, List.flatMap_cons, ih, Bld.Item.blocks]; rfl

theorem used_of_sub {n max : Nat} {sb : SbIR} {r : R N} {env : Env N} {subs : List (N × List (NodeRec Val))} {devs : List DevT}
    {seen : List (DevIR × List (Nat × Val))} (h : Mid n max sb r env subs devs seen) {b : Nat} (hb : b ∈ subBlocks subs) :
    0 < r.st.sm.abs b := by
  have := List.count_pos_iff.mpr hb
  rw [h.rc b]; omega

theorem used_of_dev {n max : Nat} {sb : SbIR} {r : R N} {env : Env N} {subs : List (N × List (NodeRec Val))} {devs : List DevT}
    {seen : List (DevIR × List (Nat × Val))} (h : Mid n max sb r env subs devs seen) {d : DevT} (hd : d ∈ devs) {b : Nat}
    (hb : b ∈ d.t.blocks d.h) : 0 < r.st.sm.abs b := by
  have : 0 < (devs.flatMap fun d => d.t.blocks d.h).count b := List.count_pos_iff.mpr (List.mem_flatMap.mpr ⟨d, hd, hb⟩)
  rw [h.rc b]; omega

theorem leafRefs_congr {m m' : Nat → Option (Blk Val)} {L : List Nat} (h : ∀ b ∈ L, m' b = m b) :
    L.flatMap (leafRefs m') = L.flatMap (leafRefs m) :=
  Bld.flatMap_congr' fun b hb => by simp only [leafRefs, leafEntries, h b hb]

/-- a definition -/
theorem mid_def {n max : Nat} (hn : n < 2 ^ 64) {sb : SbIR} {r : R N} {env : Env N} {subs : List (N × List (NodeRec Val))} {devs : List DevT}
    {seen : List (DevIR × List (Nat × Val))} (h : Mid n max sb r env subs devs seen) (k : N) (runs : List Run) (hk : env k = none)
    (hs : Sorted (runs.flatMap runVals)) :
    PostR (run (Sect.events (.def k runs)) r) (fun r' =>
      ∃ subs', Mid n max sb r' (env.add k (runs.flatMap runVals)) subs' devs seen ∧ r'.nrData = r.nrData) := by
  rw [run_def h.idle]
  have hB := Bld.buildLeaves_post refs (rcOk r.nrData) hn h.sm (capL := capBt) (by decide) true
    ((runs.flatMap runVals).map fun e => .val e.1 e.2) (by
      intro i hi
      obtain ⟨e, -, rfl⟩ := List.mem_map.mp hi
      trivial) (by
      intro _ i hi
      obtain ⟨e, -, rfl⟩ := List.mem_map.mp hi
      exact ⟨_, _, rfl⟩) (by rw [val_contents]; exact hs)
  refine PostR.lift_bind hB ?_
  rintro ⟨ns, st⟩ ⟨ps, h1, h2⟩
  simp only at h1 h2 ⊢
  rw [val_contents, val_blocks] at h2
  subst h1
  have hlook : lookupName k subs = none := by
    have := h.henv k
    rw [hk] at this
    cases e : lookupName k subs with
    | none => rfl
    | some x => rw [e] at this; cases this
  have hown : ∀ p ∈ ps, p.own = true := by
    intro p hp
    cases e : p.own with
    | true => rfl
    | false => exact absurd ((h2.ok p hp).pre e).2.2 (by simp)
  have hfree : ∀ p ∈ ps, r.st.sm.abs p.sum.block = 0 := fun p hp => ((h2.ok p hp).own (hown p hp)).1
  have hmemP : ∀ p ∈ ps, st.mem p.sum.block = some (.leaf p.es) := fun p hp => (h2.ok p hp).mem
  have hownE : Bld.ownEntries ps = ps.flatMap (·.es) := by
    unfold Bld.ownEntries
    rw [List.filter_eq_self.mpr hown]
  have hpnd : (ps.map (·.sum.block)).Nodup := by
    have := Bld.leaves_nodup (mem := st.mem) (ps.map fun p => (p.sum.block, p.es)) (by
        intro l hl
        obtain ⟨p, hp, rfl⟩ := List.mem_map.mp hl
        exact hmemP p hp) (by
        rcases h2.half with hh | hh
        · refine Or.inl ?_
          intro l hl
          obtain ⟨p, hp, rfl⟩ := List.mem_map.mp hl
          intro e
          have := hh p hp
          simp only at e
          rw [e] at this
          simp [capBt] at this
        · exact Or.inr (by simpa using hh)) (by
        rw [List.flatMap_map]
        rw [h2.cont]; exact hs)
    simpa [Function.comp_def] using this
  have hold : ∀ b, b ∈ subBlocks subs → st.mem b = r.st.mem b := fun b hb => h2.mem b (used_of_sub h hb)
  have holdd : ∀ d ∈ devs, ∀ b ∈ d.t.blocks d.h, st.mem b = r.st.mem b := fun d hd b hb => h2.mem b (used_of_dev h hd hb)
  have hnewold : ∀ p ∈ ps, p.sum.block ∉ subBlocks subs := by
    intro p hp hb
    have := used_of_sub h hb
    rw [hfree p hp] at this
    omega
  have hsb : subBlocks (subs ++ [(k, ps)]) = subBlocks subs ++ ps.map (·.sum.block) := by simp [subBlocks]
  refine ⟨subs ++ [(k, ps)], ⟨⟨h.idle.cur, h.idle.dev, h.idle.sec⟩, h.rsb, h.out, h2.sm, ?_, ?_, ?_, ?_, ?_, ?_, h.hdev, ?_, h.sorted, h.seenP, ?_, ?_, h.inner, h.dev0⟩, rfl⟩
  · show insertName k (ps.map (·.sum)) r.subs = _
    rw [h.hsubs]
    have : lookupName k (subs.map fun p => (p.1, p.2.map (·.sum))) = none := by
      rw [lookup_map (fun ps : List (NodeRec Val) => ps.map (·.sum)), hlook]; rfl
    rw [lookup_none this]
    simp
  · intro m
    rw [lookup_snoc hlook]
    unfold Env.add
    by_cases e : m = k
    · rw [if_pos e, if_pos e]
      simp only [Option.map_some, h2.cont]
    · rw [if_neg e, if_neg e]; exact h.henv m
  · intro p hp
    rcases List.mem_append.mp hp with hp | hp
    · exact h.subsOK p hp
    · rw [List.mem_singleton] at hp
      subst hp
      exact ⟨h2.nonempty, h2.half⟩
  · intro p hp q hq
    rcases List.mem_append.mp hp with hp | hp
    · obtain ⟨a1, a2⟩ := h.recOK p hp q hq
      exact ⟨(hold _ (List.mem_flatMap.mpr ⟨p, hp, List.mem_map.mpr ⟨q, hq, rfl⟩⟩)).trans a1, a2⟩
    · rw [List.mem_singleton] at hp
      subst hp
      have hok := h2.ok q hq
      refine ⟨hok.mem, hok.nr, hok.key, hok.bnd, (hok.own (hown q hq)).2, h2.full q hq, ?_⟩
      obtain ⟨a, b, e⟩ := List.append_of_mem hq
      have e : ps = a ++ q :: b := e
      have hs' := hs
      rw [← h2.cont, e, List.flatMap_append, List.flatMap_cons] at hs'
      exact hs'.right.left
  · rw [hsb]
    refine List.nodup_append.mpr ⟨h.nodup, hpnd, ?_⟩
    intro b hb c hc e
    subst e
    obtain ⟨p, hp, rfl⟩ := List.mem_map.mp hc
    exact hnewold p hp hb
  · rw [hsb, List.mem_append]
    rintro (e | e)
    · exact h.sub0 e
    · obtain ⟨p, hp, e⟩ := List.mem_map.mp e
      have := hfree p hp
      have h0 := h.rc 0
      rw [e, h0, if_pos rfl] at this
      omega
  · intro d hd
    obtain ⟨a1, a2, a3⟩ := h.devOK d hd
    exact ⟨Bld.stored_frame _ _ d.h d.t (holdd d hd) a1, a2, a3⟩
  · intro b
    show st.sm.abs b = _
    rw [h2.rc b, h.rc b, hsb, List.count_append]
    omega
  · obtain ⟨L, l1, l2, l3⟩ := h.log
    have hLused : ∀ b ∈ L, 0 < r.st.sm.abs b := by
      intro b hb
      rcases (l2 b).mp hb with hb | ⟨d, hd, hb⟩
      · exact used_of_sub h hb
      · exact used_of_dev h hd (Bld.leaf_mem_blocks d.h d.t b hb)
    refine ⟨L ++ ps.map (·.sum.block), ?_, ?_, ?_⟩
    · refine List.nodup_append.mpr ⟨l1, hpnd, ?_⟩
      intro b hb c hc e
      subst e
      obtain ⟨p, hp, rfl⟩ := List.mem_map.mp hc
      have := hLused _ hb
      rw [hfree p hp] at this
      omega
    · intro b
      rw [hsb, List.mem_append, List.mem_append, l2 b]
      constructor
      · rintro ((h | h) | h)
        · exact Or.inl (Or.inl h)
        · exact Or.inr h
        · exact Or.inl (Or.inr h)
      · rintro ((h | h) | h)
        · exact Or.inl (Or.inl h)
        · exact Or.inr h
        · exact Or.inl (Or.inr h)
    · show st.log.Perm _
      refine h2.log.trans ?_
      rw [List.flatMap_append, leafRefs_congr (fun b hb => h2.mem b (hLused b hb)), hownE]
      refine (l3.append_right _).trans ?_
      have e : Bld.refsOf (leafIO refs (rcOk r.nrData)) (ps.flatMap (·.es)) = (ps.map (·.sum.block)).flatMap (leafRefs st.mem) := by
        unfold Bld.refsOf
        rw [List.flatMap_assoc, List.flatMap_map]
        refine Bld.flatMap_congr' fun p hp => ?_
        simp only [leafRefs, leafEntries, hmemP p hp]
        rfl
      rw [e]

/-- a device that consists of one pre-built leaf, whatever is in it -/
theorem lone_built {V : Type} (rf : V → List Nat) (ok : List Nat → V → Bool) {n max cap : Nat} (hn : n < 2 ^ 64) {s0 : St V}
    (hs0 : s0.sm.Inv n max) (m : Summary) (es : List (Nat × V)) (h1 : s0.mem m.block = some (.leaf es)) (h2 : m.nr = es.length)
    (h3 : m.key = Bld.firstKey es) (h4 : m.block < n) (h5 : 0 < s0.sm.abs m.block) (h6 : m.shared = true) (h7 : es.length ≤ cap) :
    Bld.Post (Bld.buildLeaves (leafIO rf ok) cap false [.leaves m []] s0) (fun r => ∃ ps, r.1 = ps.map (·.sum) ∧
      Bld.Built (fun b => b ∈ [Item.leaves (V := V) m []].flatMap Bld.Item.blocks) (leafIO rf ok) n max cap false s0 r.2 es ps) := by
  have e : Bld.buildLeaves (leafIO rf ok) cap false [.leaves m []] s0 =
      (Bld.incBlock m.block s0 >>= fun s => .ok ([m], s)) := by
    unfold Bld.buildLeaves
    simp only [Bld.pushItems, Bld.pushItem, Bld.pushNodes, NB.new]
    rw [if_pos ⟨trivial, trivial, trivial⟩]
    cases Bld.incBlock m.block s0 with
    | error e => rfl
    | ok s => rfl
  rw [e]
  refine (Bld.incBlock_post hs0 hn h4).bind ?_
  rintro t ⟨t1, t2, t3, t4⟩
  refine ⟨[⟨m, false, es⟩], rfl, t1, ?_, by simp, ?_, ?_, ?_, ?_, Or.inr rfl, by simp⟩
  · intro p hp
    rw [List.mem_singleton] at hp
    subst hp
    exact ⟨by show t.mem m.block = _; rw [t3]; exact h1, h2, h3, h4, by simp, fun _ => ⟨h5, h6, by simp [Bld.Item.blocks]⟩⟩
  · intro b
    show t.sm.abs b = _
    rw [t2]
    simp only [SM.Counts.upd, List.map_cons, List.map_nil, List.count_cons, List.count_nil, beq_iff_eq]
    by_cases hx : b = m.block
    · subst hx; simp
    · rw [if_neg hx, if_neg (Ne.symm hx)]; omega
  · intro b _; show t.mem b = _; rw [t3]
  · show t.log.Perm _
    rw [t4]
    simp [Bld.ownEntries, Bld.refsOf]
  · intro p hp
    rw [List.mem_singleton] at hp
    subst hp
    exact h7

theorem insertId_map {α β : Type} (f : α → β) (k : Nat) (v : α) (l : List (Nat × α)) :
    insertId k (f v) (l.map fun p => (p.1, f p.2)) = (insertId k v l).map fun p => (p.1, f p.2) := by
  induction l with
  | nil => rfl
  | cons p l ih =>
    simp only [List.map_cons, insertId]
    by_cases h1 : k < p.1
    · simp [h1]
    · by_cases h2 : k = p.1
      · simp [h2]
      · simp [h1, h2, ih]

/-- where a new device goes -/
def insertDev (d : DevT) : List DevT → List DevT
  | [] => [d]
  | p :: l => if d.id < p.id then d :: p :: l else p :: insertDev d l

theorem insertDev_perm (d : DevT) (l : List DevT) : (insertDev d l).Perm (d :: l) := by
  induction l with
  | nil => exact List.Perm.refl _
  | cons p l ih =>
    unfold insertDev
    by_cases h : d.id < p.id
    · rw [if_pos h]
    · rw [if_neg h]
      exact (ih.cons p).trans (List.Perm.swap _ _ _)

theorem insertDev_sorted (d : DevT) (l : List DevT) (hs : l.Pairwise fun a b => a.id < b.id) (hn : ∀ p ∈ l, p.id ≠ d.id) :
    (insertDev d l).Pairwise fun a b => a.id < b.id := by
  induction l with
  | nil => simp [insertDev]
  | cons p l ih =>
    obtain ⟨h1, h2⟩ := List.pairwise_cons.mp hs
    unfold insertDev
    by_cases h : d.id < p.id
    · rw [if_pos h]
      refine List.pairwise_cons.mpr ⟨?_, hs⟩
      intro q hq
      rcases List.mem_cons.mp hq with rfl | hq
      · exact h
      · have := h1 q hq; omega
    · rw [if_neg h]
      refine List.pairwise_cons.mpr ⟨?_, ih h2 (fun q hq => hn q (by simp [hq]))⟩
      intro q hq
      rcases List.mem_cons.mp ((insertDev_perm d l).mem_iff.mp hq) with rfl | hq
      · have := hn p (by simp); omega
      · exact h1 q hq

theorem insertDev_map (d : DevT) (l : List DevT) (hn : ∀ p ∈ l, p.id ≠ d.id) :
    insertId d.id (d.det, d.t.blk d.h) (l.map fun d => (d.id, (d.det, d.t.blk d.h))) =
      (insertDev d l).map fun d => (d.id, (d.det, d.t.blk d.h)) := by
  induction l with
  | nil => rfl
  | cons p l ih =>
    simp only [List.map_cons, insertId, insertDev]
    by_cases h : d.id < p.id
    · rw [if_pos h, if_pos h]; rfl
    · have h2 : d.id ≠ p.id := (hn p (by simp)).symm
      rw [if_neg h, if_neg h, if_neg h2, ih (fun q hq => hn q (by simp [hq]))]
      rfl

/-- what the references of a device give -/
theorem segs_ok {n max : Nat} {sb : SbIR} {r : R N} {env : Env N} {subs : List (N × List (NodeRec Val))} {devs : List DevT}
    {seen : List (DevIR × List (Nat × Val))} (h : Mid n max sb r env subs devs seen) {k : N} {es : List (Nat × Val)} (he : env k = some es) :
    ∃ (p : NodeRec Val) (ps : List (NodeRec Val)) (k' : N), (k', p :: ps) ∈ subs ∧ es = (p :: ps).flatMap (·.es) ∧
      lookupName k r.subs = some (p.sum :: ps.map (·.sum)) ∧
      (p :: ps).flatMap (fun q => leafEntries r.st.mem q.sum.block) = es ∧
      (∀ q ∈ p :: ps, q.sum.block ∈ subBlocks subs) := by
  have h1 := h.henv k
  rw [he] at h1
  obtain ⟨ps, h2, h3⟩ := Option.map_eq_some_iff.mp h1.symm
  obtain ⟨k', h4⟩ := lookup_mem h2
  have h5 : lookupName k r.subs = some (ps.map (·.sum)) := by
    rw [h.hsubs, lookup_map (fun ps : List (NodeRec Val) => ps.map (·.sum)), h2]; rfl
  obtain ⟨hne, -⟩ := h.subsOK _ h4
  have hblk : ∀ q ∈ ps, q.sum.block ∈ subBlocks subs := fun q hq => List.mem_flatMap.mpr ⟨_, h4, List.mem_map.mpr ⟨q, hq, rfl⟩⟩
  have hcon : ps.flatMap (fun q => leafEntries r.st.mem q.sum.block) = ps.flatMap (·.es) :=
    Bld.flatMap_congr' fun q hq => by simp only [leafEntries, (h.recOK _ h4 q hq).1]
  cases ps with
  | nil => exact absurd rfl hne
  | cons p ps => exact ⟨p, ps, k', h4, h3.symm, h5, hcon.trans h3, hblk⟩

theorem inner_mem {V : Type} : ∀ (h : Nat) (t : Tree V h), ∀ b ∈ innerBlocks h t, b ∈ t.blocks h := by
  intro h
  induction h with
  | zero => intro t b hb; cases hb
  | succ h ih =>
    intro t b hb
    show b ∈ t.1 :: t.2.flatMap fun c => c.2.blocks h
    rcases List.mem_cons.mp hb with e | hb
    · exact List.mem_cons.mpr (Or.inl e)
    · obtain ⟨c, hc, hb⟩ := List.mem_flatMap.mp hb
      exact List.mem_cons.mpr (Or.inr (List.mem_flatMap.mpr ⟨c, hc, ih c.2 b hb⟩))

theorem inner_stored {V : Type} {mem : Nat → Option (Blk V)} : ∀ (h : Nat) (t : Tree V h) (r : Bool), t.Stored (fun _ b => mem b) r h →
    ∀ b ∈ innerBlocks h t, ∃ ch, mem b = some (.internal ch) := by
  intro h
  induction h with
  | zero => intro t r _ b hb; cases hb
  | succ h ih =>
    intro t r hs b hb
    rcases List.mem_cons.mp hb with e | hb
    · exact ⟨_, by rw [e]; exact hs.1⟩
    · obtain ⟨c, hc, hb⟩ := List.mem_flatMap.mp hb
      exact ih c.2 false (hs.2 c hc) b hb

theorem inner_sublist {V : Type} : ∀ (h : Nat) (t : Tree V h), (innerBlocks h t).Sublist (t.blocks h) := by
  intro h
  induction h with
  | zero => intro t; exact List.nil_sublist _
  | succ h ih =>
    intro t
    show (t.1 :: t.2.flatMap fun c => innerBlocks h c.2).Sublist (t.1 :: t.2.flatMap fun c => c.2.blocks h)
    refine List.Sublist.cons_cons _ ?_
    generalize t.2 = l
    induction l with
    | nil => exact List.nil_sublist _
    | cons c l ihl => rw [List.flatMap_cons, List.flatMap_cons]; exact (ih c.2).append ihl

theorem filled_full {V : Type} : ∀ (h : Nat) (t : Tree V h), Bld.Filled capBt capI h t → t.NoEmpty h := by
  intro h
  induction h with
  | zero =>
    intro t hf e
    have h1 := hf.1
    have e : t.2 = [] := e
    rw [e] at h1
    simp [capBt] at h1
  | succ h ih =>
    intro t hf
    refine ⟨fun e => ?_, fun c hc => ih c.2 (hf.2.2 c hc)⟩
    have h1 := hf.1
    rw [e] at h1
    simp [capI] at h1

theorem inner_nodup {V : Type} {mem : Nat → Option (Blk V)} (h : Nat) (t : Tree V h) (hs : t.Stored (fun _ b => mem b) true h) (ho : t.Ordered h 0 none)
    (hf : Bld.RootFilled capBt capI h t) : (innerBlocks h t).Nodup := by
  refine (LW.blocks_nodup h t true 0 none hs ho ?_).sublist (inner_sublist h t)
  cases h with
  | zero => exact Or.inl rfl
  | succ h =>
    refine Or.inr ⟨fun e => ?_, fun c hc => filled_full h c.2 (hf.2.2 c hc)⟩
    have h1 := hf.1
    rw [e] at h1
    simp at h1

/-- a device -/
theorem mid_dev {n max : Nat} (hn : n < 2 ^ 64) {sb : SbIR} {r : R N} {env : Env N} {subs : List (N × List (NodeRec Val))} {devs : List DevT}
    {seen : List (DevIR × List (Nat × Val))} (h : Mid n max sb r env subs devs seen) (d : DevIR) (segs : List (Seg N))
    (href : ∀ k, Seg.ref k ∈ segs → ∃ es, env k = some es ∧ (es ≠ [] ∨ segs = [.ref k]))
    (hs : Sorted (segs.flatMap (Seg.vals env))) (hid : ∀ p ∈ seen, p.1.id ≠ d.id) :
    PostR (run (Sect.events (.dev d segs)) r) (fun r' =>
      ∃ devs', Mid n max sb r' env subs devs' ((d, segs.flatMap (Seg.vals env)) :: seen) ∧ r'.nrData = r.nrData) := by
  rw [run_dev h.idle d segs (fun k hk => by
    obtain ⟨es, he, -⟩ := href k hk
    obtain ⟨p, ps, k', -, -, h5, -⟩ := segs_ok h he
    exact ⟨_, _, h5⟩)]
  have hitem : ∀ g ∈ segs, (g.items r.subs).flatMap (Bld.Item.contents r.st.mem) = g.vals env ∧
      ∀ b ∈ (g.items r.subs).flatMap Bld.Item.blocks, b ∈ subBlocks subs := by
    intro g hg
    cases g with
    | run q =>
      simp only [Seg.items, Seg.vals]
      rw [val_contents, val_blocks]
      exact ⟨rfl, by simp⟩
    | ref k =>
      obtain ⟨es, he, -⟩ := href k hg
      obtain ⟨p, ps, k', h4, h3, h5, h6, h7⟩ := segs_ok h he
      simp only [Seg.items, Seg.vals, h5, he, Option.getD_some]
      constructor
      · simp only [List.flatMap_cons, List.flatMap_nil, List.append_nil, Bld.Item.contents]
        rw [← h6, List.flatMap_cons, List.flatMap_map]
      · intro b hb
        simp only [List.flatMap_cons, List.flatMap_nil, List.append_nil, Bld.Item.blocks] at hb
        have : b ∈ (p :: ps).map (·.sum.block) := by simpa [Function.comp_def] using hb
        obtain ⟨q, hq, rfl⟩ := List.mem_map.mp this
        exact h7 q hq
  have hcont : (segs.flatMap (Seg.items r.subs)).flatMap (Bld.Item.contents r.st.mem) = segs.flatMap (Seg.vals env) := by
    rw [List.flatMap_assoc]
    exact Bld.flatMap_congr' fun g hg => (hitem g hg).1
  have hblocks : ∀ b ∈ (segs.flatMap (Seg.items r.subs)).flatMap Bld.Item.blocks, b ∈ subBlocks subs := by
    intro b hb
    rw [List.flatMap_assoc] at hb
    obtain ⟨g, hg, hb⟩ := List.mem_flatMap.mp hb
    exact (hitem g hg).2 b hb
  have hbuild : Bld.Post (Bld.build (io r.nrData) capBt capI (segs.flatMap (Seg.items r.subs)) r.st) (fun x =>
      ∃ (hh : Nat) (t : Tree Val hh), Bld.Result (fun b => b ∈ (segs.flatMap (Seg.items r.subs)).flatMap Bld.Item.blocks) refs capBt capI n max
        r.st x.2 (segs.flatMap (Seg.vals env)) x.1 hh t) := by
    by_cases hempty : ∃ k, segs = [.ref k] ∧ env k = some []
    · obtain ⟨k, rfl, he⟩ := hempty
      obtain ⟨p, ps, k', h4, h3, h5, h6, h7⟩ := segs_ok h he
      have hps : ps = [] := by
        rcases (h.subsOK _ h4).2 with hh | hh
        · have h8 := hh p (by simp)
          have : p.es = [] := by
            have := h3.symm
            rw [List.flatMap_cons] at this
            exact (List.append_eq_nil_iff.mp this).1
          rw [this] at h8
          simp [capBt] at h8
        · simpa using hh
      subst hps
      have hes : p.es = [] := by simpa using h3.symm
      obtain ⟨a1, a2, a3, a4, a5, a6, a7⟩ := h.recOK _ h4 p (by simp)
      have hit : [Seg.ref k].flatMap (Seg.items r.subs) = [.leaves p.sum []] := by
        simp [Seg.items, h5]
      have hval : [Seg.ref k].flatMap (Seg.vals env) = [] := by simp [Seg.vals, he]
      rw [hit, hval]
      unfold Bld.build
      rw [hes] at a1 a2 a3 a6
      refine (lone_built refs (rcOk r.nrData) hn h.sm p.sum [] a1 a2 a3 a4 (used_of_sub h (h7 p (by simp))) a5 a6).bind ?_
      rintro ⟨ns, s⟩ ⟨qs, q1, q2⟩
      simp only at q1 q2 ⊢
      rw [q1]
      exact Bld.buildTree_correct refs (rcOk r.nrData) (by decide) (by decide) List.Pairwise.nil q2
    · have := Bld.build_correct refs (rcOk r.nrData) (capL := capBt) (capI := capI) (by decide) (by decide) hn r.st h.sm
        (segs.flatMap (Seg.items r.subs)) (by
          intro i hi
          obtain ⟨g, hg, hi⟩ := List.mem_flatMap.mp hi
          cases g with
          | run q =>
            obtain ⟨e, -, rfl⟩ := List.mem_map.mp hi
            trivial
          | ref k =>
            obtain ⟨es, he, hne⟩ := href k hg
            obtain ⟨p, ps, k', h4, h3, h5, h6, h7⟩ := segs_ok h he
            simp only [Seg.items, h5, List.mem_singleton] at hi
            subst hi
            have hes : es ≠ [] := by
              rcases hne with h | h
              · exact h
              · intro e; exact hempty ⟨k, h, by rw [he, e]⟩
            have hall : ∀ q ∈ p :: ps, q.es ≠ [] ∧ (ps ≠ [] → capBt / 2 ≤ q.es.length) := by
              intro q hq
              rcases (h.subsOK _ h4).2 with hh | hh
              · have := hh q hq
                exact ⟨fun e => by rw [e] at this; simp [capBt] at this, fun _ => this⟩
              · have hps : ps = [] := by simpa using hh
                subst hps
                obtain rfl : q = p := by simpa using hq
                exact ⟨fun e => hes (by rw [h3]; simp [e]), fun e => absurd rfl e⟩
            refine ⟨?_, ?_⟩
            · intro m hm
              have : m ∈ (p :: ps).map (·.sum) := hm
              obtain ⟨q, hq, rfl⟩ := List.mem_map.mp this
              obtain ⟨a1, a2, a3, a4, a5, a6, a7⟩ := h.recOK _ h4 q hq
              exact ⟨q.es, a1, a2, a3, a4, used_of_sub h (h7 q hq), a5, (hall q hq).1, a6⟩
            · intro hms m hm
              have : m ∈ (p :: ps).map (·.sum) := hm
              obtain ⟨q, hq, rfl⟩ := List.mem_map.mp this
              obtain ⟨a1, a2, a3, a4, a5, a6, a7⟩ := h.recOK _ h4 q hq
              rw [a2]
              exact (hall q hq).2 (fun e => hms (by rw [e]; rfl))) (by rw [hcont]; exact hs)
      rw [hcont] at this
      exact this
  refine PostR.lift_bind hbuild ?_
  rintro ⟨root, st⟩ ⟨hh, t, hR⟩
  simp only at hR ⊢
  have hold : ∀ b, b ∈ subBlocks subs → st.mem b = r.st.mem b := fun b hb => hR.mem b (used_of_sub h hb)
  have holdd : ∀ d ∈ devs, ∀ b ∈ d.t.blocks d.h, st.mem b = r.st.mem b := fun d hd b hb => hR.mem b (used_of_dev h hd hb)
  have hids : ∀ p ∈ devs, p.id ≠ d.id := by
    intro p hp
    exact hid p.means (h.seenP.mem_iff.mp (List.mem_map.mpr ⟨p, hp, rfl⟩))
  let nd : DevT := ⟨d.id, d.detail, hh, t⟩
  have hperm := insertDev_perm nd devs
  have hmem : ∀ p, p ∈ insertDev nd devs ↔ p = nd ∨ p ∈ devs := fun p => by rw [hperm.mem_iff, List.mem_cons]
  have hlnd : (Bld.leafBlocks hh t).Nodup :=
    Bld.leaves_nodup (mem := st.mem) _ (Bld.stored_leaves hh t true hR.stored) (Bld.rootFilled_leaves (by decide) hh t hR.filled)
      (by rw [← Bld.contents_leaves, hR.contents]; exact hs)
  refine ⟨insertDev nd devs, ⟨⟨h.idle.cur, h.idle.dev, h.idle.sec⟩, h.rsb, h.out, hR.sm, h.hsubs, h.henv, h.subsOK, ?_, h.nodup, h.sub0, ?_, ?_, ?_, ?_, ?_, ?_, ?_, ?_⟩, rfl⟩
  · intro p hp q hq
    obtain ⟨a1, a2⟩ := h.recOK p hp q hq
    exact ⟨(hold _ (List.mem_flatMap.mpr ⟨p, hp, List.mem_map.mpr ⟨q, hq, rfl⟩⟩)).trans a1, a2⟩
  · show insertId d.id (d.detail, root) r.devices = _
    rw [h.hdev, ← insertDev_map nd devs hids]
    show _ = insertId d.id (d.detail, t.blk hh) _
    rw [hR.blk]
  · intro p hp
    rcases (hmem p).mp hp with rfl | hp
    · exact ⟨hR.stored, hR.ordered, hR.filled⟩
    · obtain ⟨a1, a2, a3⟩ := h.devOK p hp
      exact ⟨Bld.stored_frame _ _ p.h p.t (holdd p hp) a1, a2, a3⟩
  · exact insertDev_sorted nd devs h.sorted hids
  · refine (hperm.map DevT.means).trans ?_
    rw [List.map_cons]
    have : nd.means = (d, segs.flatMap (Seg.vals env)) := by
      show ((⟨d.id, d.detail⟩ : DevIR), t.contents hh) = _
      rw [hR.contents]
    rw [this]
    exact h.seenP.cons _
  · intro b
    show st.sm.abs b = _
    rw [hR.rc b, h.rc b, (Pack.flatMap_perm hperm (f := fun d : DevT => d.t.blocks d.h)).count_eq, List.flatMap_cons, List.count_append]
    show _ = _ + (List.count b (t.blocks hh) + _)
    omega
  · obtain ⟨L, l1, l2, l3⟩ := h.log
    have hLused : ∀ b ∈ L, 0 < r.st.sm.abs b := by
      intro b hb
      rcases (l2 b).mp hb with hb | ⟨d, hd, hb⟩
      · exact used_of_sub h hb
      · exact used_of_dev h hd (Bld.leaf_mem_blocks d.h d.t b hb)
    refine ⟨L ++ (Bld.leafBlocks hh t).filter (fun b => r.st.sm.abs b == 0), ?_, ?_, ?_⟩
    · refine List.nodup_append.mpr ⟨l1, hlnd.filter _, ?_⟩
      intro b hb c hc e
      subst e
      have := hLused _ hb
      have h0 := (List.mem_filter.mp hc).2
      rw [beq_iff_eq] at h0
      omega
    · intro b
      rw [List.mem_append, l2 b, List.mem_filter]
      constructor
      · rintro ((h | ⟨p, hp, h⟩) | ⟨h, -⟩)
        · exact Or.inl h
        · exact Or.inr ⟨p, (hmem p).mpr (Or.inr hp), h⟩
        · exact Or.inr ⟨nd, (hmem nd).mpr (Or.inl rfl), h⟩
      · rintro (h' | ⟨p, hp, h'⟩)
        · exact Or.inl (Or.inl h')
        · rcases (hmem p).mp hp with rfl | hp
          · by_cases h0 : r.st.sm.abs b = 0
            · exact Or.inr ⟨h', by simp [h0]⟩
            · exact Or.inl (Or.inl (hblocks b (hR.fresh b (Bld.leaf_mem_blocks hh t b h') (by omega))))
          · exact Or.inl (Or.inr ⟨p, hp, h'⟩)
    · show st.log.Perm _
      refine hR.log.trans ?_
      rw [List.flatMap_append, leafRefs_congr (fun b hb => hR.mem b (hLused b hb))]
      refine (l3.append_right _).trans ?_
      have e : (Bld.entriesIn (fun b => r.st.sm.abs b == 0) hh t).flatMap (fun e => refs e.2) =
          ((Bld.leafBlocks hh t).filter (fun b => r.st.sm.abs b == 0)).flatMap (leafRefs st.mem) := by
        rw [Bld.entriesIn_leaves, List.flatMap_assoc]
        unfold Bld.leafBlocks
        rw [List.filter_map, List.flatMap_map]
        refine Bld.flatMap_congr' fun l hl => ?_
        have := Bld.stored_leaves hh t true hR.stored l (List.mem_filter.mp hl).1
        simp only [leafRefs, leafEntries, this]
      rw [e]
  · rw [(Pack.flatMap_perm hperm (f := fun d : DevT => innerBlocks d.h d.t)).nodup_iff, List.flatMap_cons]
    refine List.nodup_append.mpr ⟨inner_nodup hh t hR.stored hR.ordered hR.filled, h.inner, ?_⟩
    intro b hb c hc e
    subst e
    obtain ⟨d', hd', hb'⟩ := List.mem_flatMap.mp hc
    have hu := used_of_dev h hd' (inner_mem d'.h d'.t b hb')
    have hsub := hblocks b (hR.fresh b (inner_mem hh t b hb) hu)
    obtain ⟨p, hp, hx⟩ := List.mem_flatMap.mp hsub
    obtain ⟨q, hq, e⟩ := List.mem_map.mp hx
    obtain ⟨a1, -⟩ := h.recOK p hp q hq
    obtain ⟨ch, hch⟩ := inner_stored hh t true hR.stored b hb
    rw [e, ← hold b hsub, hch] at a1
    cases a1
  · intro p hp
    rcases (hmem p).mp hp with rfl | hp
    · intro h0
      exact h.sub0 (hblocks 0 (hR.fresh 0 h0 (by rw [h.rc 0]; simp only [if_true]; omega)))
    · exact h.dev0 p hp

theorem mid_sects {n max : Nat} (hn : n < 2 ^ 64) {sb : SbIR} (sects : List (Sect N)) : ∀ {r : R N} {env : Env N}
    {subs : List (N × List (NodeRec Val))} {devs : List DevT} {seen : List (DevIR × List (Nat × Val))},
    Mid n max sb r env subs devs seen → Consistent env sects →
    ((meaning env sects).map (fun p => p.1.id)).Nodup → (∀ p ∈ seen, ∀ q ∈ meaning env sects, p.1.id ≠ q.1.id) →
    PostR (run (sects.flatMap Sect.events) r) (fun r' => ∃ env' subs' devs',
      Mid n max sb r' env' subs' devs' ((meaning env sects).reverse ++ seen) ∧ r'.nrData = r.nrData) := by
  induction sects with
  | nil => intro r env subs devs seen h _ _ _; exact ⟨env, subs, devs, by simpa [meaning] using h, rfl⟩
  | cons x sects ih =>
    intro r env subs devs seen h hc hnd hsep
    rw [List.flatMap_cons, run_append]
    cases x with
    | «def» k runs =>
      obtain ⟨c1, c2, c3⟩ := hc
      refine (mid_def hn h k runs c1 c2).bind ?_
      rintro r1 ⟨subs1, m1, e1⟩
      refine (ih m1 c3 hnd hsep).mono ?_
      rintro r2 ⟨env2, subs2, devs2, m2, e2⟩
      exact ⟨env2, subs2, devs2, m2, e2.trans e1⟩
    | dev d segs =>
      obtain ⟨c1, c2, c3⟩ := hc
      simp only [meaning, List.map_cons, List.nodup_cons] at hnd hsep
      refine (mid_dev hn h d segs c1 c2 (fun p hp => hsep p hp (d, segs.flatMap (Seg.vals env)) (by simp))).bind ?_
      rintro r1 ⟨devs1, m1, e1⟩
      refine (ih m1 c3 hnd.2 ?_).mono ?_
      · intro p hp q hq
        rcases List.mem_cons.mp hp with rfl | hp
        · intro e
          exact hnd.1 (List.mem_map.mpr ⟨q, hq, e.symm⟩)
        · exact hsep p hp q (by simp [hq])
      · rintro r2 ⟨env2, subs2, devs2, m2, e2⟩
        refine ⟨env2, subs2, devs2, ?_, e2.trans e1⟩
        simpa [meaning] using m2

theorem leaf_block {V : Type} {mem : Nat → Option (Blk V)} {b : Nat} {es : List (Nat × V)} (hb : mem b = some (.leaf es)) :
    ∀ (h : Nat) (t : Tree V h) (r : Bool), t.Stored (fun _ b => mem b) r h → b ∈ t.blocks h → b ∈ Bld.leafBlocks h t := by
  intro h
  induction h with
  | zero =>
    intro t r _ hm
    simpa [Bld.leafBlocks, Bld.leavesOf, Tree.blocks] using hm
  | succ h ih =>
    intro t r hs hm
    have hm : b ∈ t.1 :: t.2.flatMap fun c => c.2.blocks h := hm
    rcases List.mem_cons.mp hm with e | hm
    · have := hs.1
      simp only at this
      rw [← e, hb] at this
      cases this
    · obtain ⟨c, hc, hm⟩ := List.mem_flatMap.mp hm
      have := ih c.2 false (hs.2 c hc) hm
      unfold Bld.leafBlocks
      rw [Bld.leavesOf, List.map_flatMap]
      exact List.mem_flatMap.mpr ⟨c, hc, this⟩

/-- What a successful restore leaves behind: `devices` is what the document means. -/
structure Restored (n max : Nat) (sb : SbIR) (devices : List (DevIR × List (Nat × Val))) (r : R N) : Prop where
  /-- the devices in order of their id, with their trees -/
  result : ∃ (devs : List DevT) (hm : Nat) (tm : Tree Val hm) (hd : Nat) (td : Tree Val hd),
    devs.Pairwise (fun a b => a.id < b.id) ∧ (devs.map DevT.means).Perm devices ∧
    /- the superblock points at a tree of devices ids and roots and at a tree of device details -/
    r.out = some ⟨sb.time, sb.transaction, sb.blockSize, tm.blk hm, td.blk hd⟩ ∧
    tm.Stored (fun _ b => r.st.mem b) true hm ∧ tm.Ordered hm 0 none ∧ Bld.RootFilled capBt capI hm tm ∧
    tm.contents hm = devs.map (fun d => (d.id, .root (d.t.blk d.h))) ∧
    td.Stored (fun _ b => r.st.mem b) true hd ∧ td.Ordered hd 0 none ∧ Bld.RootFilled capDet capI hd td ∧
    td.contents hd = devs.map (fun d => (d.id, .det d.det)) ∧
    /- every device's root is the root of a search tree with its mappings -/
    (∀ d ∈ devs, d.t.Stored (fun _ b => r.st.mem b) true d.h ∧ d.t.Ordered d.h 0 none ∧ Bld.RootFilled capBt capI d.h d.t) ∧
    /- reference counts of metadata blocks: the superblock, and every reference from a tree, nothing else -/
    (∀ b, r.st.sm.abs b = (if b = 0 then 1 else 0) + (devs.flatMap fun d => d.t.blocks d.h).count b + (tm.blocks hm).count b +
      (td.blocks hd).count b) ∧
    /- which are all inside the device -/
    (∀ b, n ≤ b → r.st.sm.abs b = 0) ∧
    /- devices share leaves only -/
    (devs.flatMap fun d => innerBlocks d.h d.t).Nodup ∧
    /- superblock and top level trees have their own blocks -/
    (0 :: (td.blocks hd ++ tm.blocks hm)).Nodup ∧ (∀ b ∈ 0 :: (td.blocks hd ++ tm.blocks hm), b ∉ devs.flatMap fun d => d.t.blocks d.h) ∧
    /- references to data blocks: one for every entry of every distinct leaf -/
    ∃ L : List Nat, L.Nodup ∧ (∀ b, b ∈ L ↔ ∃ d ∈ devs, b ∈ Bld.leafBlocks d.h d.t) ∧ r.st.log.Perm (L.flatMap (leafRefs r.st.mem))

theorem noref_entries {l : List (Nat × Val)} (h : ∀ e ∈ l, refs e.2 = []) : (l.flatMap fun e => refs e.2) = [] := by
  induction l with
  | nil => rfl
  | cons e l ih => rw [List.flatMap_cons, h e (by simp), ih (fun x hx => h x (by simp [hx]))]; rfl

theorem entriesIn_sub {V : Type} (p : Nat → Bool) (h : Nat) (t : Tree V h) : ∀ e ∈ Bld.entriesIn p h t, e ∈ t.contents h := by
  intro e he
  rw [Bld.entriesIn_leaves] at he
  obtain ⟨l, hl, he⟩ := List.mem_flatMap.mp he
  rw [Bld.contents_leaves]
  exact List.mem_flatMap.mpr ⟨l, (List.mem_filter.mp hl).1, he⟩

/-- a top level tree: nothing but new blocks, no references to data blocks -/
theorem build_top {nrData capL n max : Nat} (hL : 2 ≤ capL) (hn : n < 2 ^ 64) (s0 : St Val) (hs0 : s0.sm.Inv n max) (es : List (Nat × Val))
    (hs : Sorted es) (hr : ∀ e ∈ es, refs e.2 = []) :
    Bld.Post (Bld.build (io nrData) capL capI (es.map fun e => .val e.1 e.2) s0) (fun x => ∃ (h : Nat) (t : Tree Val h),
      t.blk h = x.1 ∧ t.Stored (fun _ b => x.2.mem b) true h ∧ t.contents h = es ∧ (t.Ordered h 0 none ∧ Bld.RootFilled capL capI h t) ∧
      (∀ b, x.2.sm.abs b = s0.sm.abs b + (t.blocks h).count b) ∧ (∀ b, 0 < s0.sm.abs b → x.2.mem b = s0.mem b) ∧
      x.2.log.Perm s0.log ∧ x.2.sm.Inv n max ∧ (∀ b ∈ t.blocks h, s0.sm.abs b = 0)) := by
  have := Bld.build_correct refs (rcOk nrData) (capL := capL) (capI := capI) hL (by decide) hn s0 hs0 (es.map fun e => .val e.1 e.2) (by
    intro i hi
    obtain ⟨e, -, rfl⟩ := List.mem_map.mp hi
    trivial) (by rw [val_contents]; exact hs)
  refine this.mono ?_
  rintro ⟨root, s⟩ ⟨h, t, hR⟩
  rw [val_contents, val_blocks] at hR
  refine ⟨h, t, hR.blk, hR.stored, hR.contents, ⟨hR.ordered, hR.filled⟩, hR.rc, hR.mem, ?_, hR.sm, ?_⟩
  · refine hR.log.trans ?_
    rw [noref_entries (fun e he => hr e (by rw [← hR.contents]; exact entriesIn_sub _ h t e he)), List.append_nil]
  · intro b hb
    by_cases h0 : s0.sm.abs b = 0
    · exact h0
    · exact absurd (hR.fresh b hb (by omega)) (by simp)

theorem top_noEmpty {V : Type} {capL : Nat} (hL : 2 ≤ capL) : ∀ (h : Nat) (t : Tree V h), Bld.RootFilled capL capI h t → h = 0 ∨ t.NoEmpty h := by
  have low : ∀ (h : Nat) (t : Tree V h), Bld.Filled capL capI h t → t.NoEmpty h := by
    intro h
    induction h with
    | zero =>
      intro t hf e
      have h1 := hf.1
      have e : t.2 = [] := e
      rw [e, List.length_nil] at h1
      omega
    | succ h ih =>
      intro t hf
      refine ⟨fun e => ?_, fun c hc => ih c.2 (hf.2.2 c hc)⟩
      have h1 := hf.1
      rw [e] at h1
      simp [capI] at h1
  intro h t hf
  cases h with
  | zero => exact Or.inl rfl
  | succ h =>
    refine Or.inr ⟨fun e => ?_, fun c hc => low h c.2 (hf.2.2 c hc)⟩
    have h1 := hf.1
    rw [e] at h1
    simp at h1

/-- the end of the superblock -/
theorem finalize_restored {n max : Nat} (hn : n < 2 ^ 64) {sb : SbIR} {r : R N} {env : Env N} {subs : List (N × List (NodeRec Val))}
    {devs : List DevT} {seen : List (DevIR × List (Nat × Val))} (h : Mid n max sb r env subs devs seen) :
    PostR (finalize r) (fun r' => Restored n max sb seen r' ∧ r'.sec = .finalized) := by
  unfold finalize
  rw [h.rsb]
  simp only
  have hsort : ∀ f : DevT → Val, Sorted (devs.map fun d => (d.id, f d)) := by
    intro f
    unfold Sorted
    rw [List.pairwise_map]
    exact h.sorted
  have e1 : r.devices.map (fun p => Item.val p.1 (.det p.2.1)) =
      (devs.map fun d => (d.id, Val.det d.det)).map fun e => Item.val e.1 e.2 := by
    rw [h.hdev, List.map_map, List.map_map]; rfl
  have e2 : r.devices.map (fun p => Item.val p.1 (.root p.2.2)) =
      (devs.map fun d => (d.id, Val.root (d.t.blk d.h))).map fun e => Item.val e.1 e.2 := by
    rw [h.hdev, List.map_map, List.map_map]; rfl
  have hB : PostR (buildDetails { r with sb := none }) (fun b => ∃ (hm : Nat) (tm : Tree Val hm) (hd : Nat) (td : Tree Val hd) (st : St Val),
      b = (td.blk hd, tm.blk hm, { r with sb := none, st := st }) ∧ st.sm.Inv n max ∧
      tm.Stored (fun _ b => st.mem b) true hm ∧ (tm.Ordered hm 0 none ∧ Bld.RootFilled capBt capI hm tm) ∧
      tm.contents hm = devs.map (fun d => (d.id, .root (d.t.blk d.h))) ∧
      td.Stored (fun _ b => st.mem b) true hd ∧ (td.Ordered hd 0 none ∧ Bld.RootFilled capDet capI hd td) ∧
      td.contents hd = devs.map (fun d => (d.id, .det d.det)) ∧
      (∀ b, st.sm.abs b = r.st.sm.abs b + (td.blocks hd).count b + (tm.blocks hm).count b) ∧
      (∀ b, 0 < r.st.sm.abs b → st.mem b = r.st.mem b ∧ b ∉ tm.blocks hm ∧ b ∉ td.blocks hd) ∧ st.log.Perm r.st.log ∧
      (td.blocks hd ++ tm.blocks hm).Nodup) := by
    unfold buildDetails
    simp only
    rw [e1, e2]
    refine PostR.lift_bind (build_top (by decide) hn r.st h.sm _ (hsort _) (by
      intro e he
      obtain ⟨d, -, rfl⟩ := List.mem_map.mp he
      rfl)) ?_
    rintro ⟨droot, s1⟩ ⟨hd, td, d1, d2, d3, d4, d5, d6, d7, d8, d9⟩
    simp only at d1 d2 d3 d4 d5 d6 d7 d8 d9 ⊢
    refine PostR.lift_bind (build_top (by decide) hn s1 d8 _ (hsort _) (by
      intro e he
      obtain ⟨d, -, rfl⟩ := List.mem_map.mp he
      rfl)) ?_
    rintro ⟨mroot, s2⟩ ⟨hm, tm, m1, m2, m3, m4, m5, m6, m7, m8, m9⟩
    simp only at m1 m2 m3 m4 m5 m6 m7 m8 m9 ⊢
    have hpos : ∀ b, 0 < r.st.sm.abs b → 0 < s1.sm.abs b := fun b hb => by rw [d5 b]; omega
    refine ⟨hm, tm, hd, td, s2, ?_, m8, m2, m4, m3, ?_, d4, d3, ?_, ?_, m7.trans d7, ?_⟩
    · rw [d1, m1]
    · refine Bld.stored_frame _ _ hd td (fun b hb => m6 b ?_) d2
      rw [d5 b]
      have := List.count_pos_iff.mpr hb
      omega
    · intro b; rw [m5 b, d5 b]
    · intro b hb
      refine ⟨(m6 b (hpos b hb)).trans (d6 b hb), ?_, ?_⟩
      · intro hx; have := m9 b hx; have := hpos b hb; omega
      · intro hx; have := d9 b hx; omega
    · refine List.nodup_append.mpr ⟨LW.blocks_nodup hd td true 0 none d2 d4.1 (top_noEmpty (by decide) hd td d4.2),
        LW.blocks_nodup hm tm true 0 none m2 m4.1 (top_noEmpty (by decide) hm tm m4.2), ?_⟩
      intro b hb c hc e
      subst e
      have := m9 b hc
      rw [d5 b] at this
      have := List.count_pos_iff.mpr hb
      omega
  refine hB.bind ?_
  rintro b ⟨hm, tm, hd, td, st, rfl, b1, b2, b3, b4, b5, b6, b7, b8, b9, b10, b11⟩
  simp only
  obtain ⟨L, l1, l2, l3⟩ := h.log
  have hsubU : ∀ b ∈ subBlocks subs, 0 < r.st.sm.abs b := fun b hb => used_of_sub h hb
  have hdevU : ∀ d ∈ devs, ∀ b ∈ d.t.blocks d.h, 0 < r.st.sm.abs b := fun d hd b hb => used_of_dev h hd hb
  have hLused : ∀ b ∈ L, 0 < r.st.sm.abs b := by
    intro b hb
    rcases (l2 b).mp hb with hb | ⟨d, hd, hb⟩
    · exact hsubU b hb
    · exact hdevU d hd b (Bld.leaf_mem_blocks d.h d.t b hb)
  -- the leaves of definitions
  let ns := r.subs.flatMap (·.2)
  have hns : ns = subs.flatMap fun p => p.2.map (·.sum) := by
    simp only [ns, h.hsubs, List.flatMap_map]
  have hnsb : ns.map (·.block) = subBlocks subs := by
    rw [hns]
    simp only [subBlocks, List.map_flatMap, List.map_map]
    rfl
  have hnsm : ∀ m ∈ ns, ∃ p ∈ subs, ∃ q ∈ p.2, q.sum = m := by
    intro m hm
    rw [hns] at hm
    obtain ⟨p, hp, hm⟩ := List.mem_flatMap.mp hm
    obtain ⟨q, hq, e⟩ := List.mem_map.mp hm
    exact ⟨p, hp, q, hq, e⟩
  -- a shared leaf is used by a device exactly if its count is above one
  have hcnt : ∀ b ∈ subBlocks subs, b ≠ 0 → st.sm.abs b = 1 + (devs.flatMap fun d => d.t.blocks d.h).count b := by
    intro b hb h0
    obtain ⟨-, g1, g2⟩ := b9 b (hsubU b hb)
    rw [b8 b, h.rc b, if_neg h0, List.count_eq_zero.mpr g1, List.count_eq_zero.mpr g2, h.nodup.count, if_pos hb]
    omega
  have hz : ∀ b ∈ subBlocks subs, b ≠ 0 := fun b hb e => h.sub0 (e ▸ hb)
  have hone : ∀ b ∈ subBlocks subs, (st.sm.abs b = 1 ↔ ¬ ∃ d ∈ devs, b ∈ Bld.leafBlocks d.h d.t) := by
    intro b hb
    rw [hcnt b hb (hz b hb)]
    constructor
    · rintro e ⟨d, hd, hx⟩
      have : 0 < (devs.flatMap fun d => d.t.blocks d.h).count b :=
        List.count_pos_iff.mpr (List.mem_flatMap.mpr ⟨d, hd, Bld.leaf_mem_blocks d.h d.t b hx⟩)
      omega
    · intro hno
      have : (devs.flatMap fun d => d.t.blocks d.h).count b = 0 := by
        refine List.count_eq_zero.mpr ?_
        intro hx
        obtain ⟨d, hd, hx⟩ := List.mem_flatMap.mp hx
        obtain ⟨p, hp, hx2⟩ := List.mem_flatMap.mp hb
        obtain ⟨q, hq, e⟩ := List.mem_map.mp hx2
        subst e
        exact hno ⟨d, hd, leaf_block (h.recOK p hp q hq).1 d.h d.t true (h.devOK d hd).1 hx⟩
      omega
  let live : Nat → Bool := fun b => devs.any fun d => (Bld.leafBlocks d.h d.t).contains b
  have hlive : ∀ b, live b = true ↔ ∃ d ∈ devs, b ∈ Bld.leafBlocks d.h d.t := by
    intro b
    simp only [live, List.any_eq_true, List.contains_iff_mem]
  have hblockmem : ∀ m ∈ ns, m.block ∈ subBlocks subs := fun m hm => by rw [← hnsb]; exact List.mem_map.mpr ⟨m, hm, rfl⟩
  have hperm : L.Perm (L.filter live ++ (ns.filter fun m => st.sm.abs m.block == 1).map (·.block)) := by
    refine Bld.perm_of_nodup l1 (List.nodup_append.mpr ⟨l1.filter _, ?_, ?_⟩) ?_
    · have : (ns.map (·.block)).Nodup := by rw [hnsb]; exact h.nodup
      exact this.sublist (List.filter_sublist.map _)
    · intro b hb c hc e
      subst e
      obtain ⟨m, hm, rfl⟩ := List.mem_map.mp hc
      obtain ⟨hm, h1⟩ := List.mem_filter.mp hm
      rw [beq_iff_eq] at h1
      exact (hone _ (hblockmem m hm)).mp h1 ((hlive _).mp (List.mem_filter.mp hb).2)
    · intro b
      rw [List.mem_append, List.mem_filter]
      constructor
      · intro hb
        by_cases hl : live b = true
        · exact Or.inl ⟨hb, hl⟩
        · have hno : ¬ ∃ d ∈ devs, b ∈ Bld.leafBlocks d.h d.t := fun e => hl ((hlive b).mpr e)
          rcases (l2 b).mp hb with hs | hs
          · have hs' := hs
            rw [← hnsb] at hs'
            obtain ⟨m, hm, rfl⟩ := List.mem_map.mp hs'
            exact Or.inr (List.mem_map.mpr ⟨m, List.mem_filter.mpr ⟨hm, by rw [beq_iff_eq]; exact (hone _ hs).mpr hno⟩, rfl⟩)
          · exact absurd hs hno
      · rintro (⟨hb, -⟩ | hb)
        · exact hb
        · obtain ⟨m, hm, rfl⟩ := List.mem_map.mp hb
          exact (l2 _).mpr (Or.inl (hblockmem m (List.mem_filter.mp hm).1))
  obtain ⟨s', r1, r2, r3, r4, r5⟩ := Bld.releaseLeaves_correct refs (rcOk r.nrData) ns st ((L.filter live).flatMap (leafRefs st.mem)) b1
    (by rw [hnsb]; exact h.nodup) (by
      intro m hm
      obtain ⟨p, hp, q, hq, rfl⟩ := hnsm m hm
      obtain ⟨a1, a2, a3, a4, a5, a6, a7⟩ := h.recOK p hp q hq
      have hu := hsubU _ (hblockmem _ hm)
      refine ⟨a4, by rw [b8]; omega, q.es, ?_, a7⟩
      rw [(b9 _ hu).1]; exact a1) (by
      refine b10.trans (l3.trans ?_)
      have e : L.flatMap (leafRefs r.st.mem) = L.flatMap (leafRefs st.mem) := (leafRefs_congr fun b hb => (b9 b (hLused b hb)).1).symm
      rw [e]
      refine (Pack.flatMap_perm hperm).trans ?_
      rw [List.flatMap_append, List.flatMap_map]
      exact List.Perm.refl _)
  have hrel : Bld.releaseLeaves (io r.nrData) (r.subs.flatMap (·.2)) st = .ok s' := r1
  rw [hrel]
  show Restored n max sb seen _ ∧ _
  refine ⟨⟨devs, hm, tm, hd, td, h.sorted, h.seenP, rfl, ?_, b3.1, b3.2, b4, ?_, b6.1, b6.2, b7, ?_, ?_, ?_, h.inner, ?_, ?_, L.filter live, l1.filter _, ?_, ?_⟩, rfl⟩
  · simp only [r3]; exact b2
  · simp only [r3]; exact b5
  · intro d hd
    obtain ⟨a1, a2, a3⟩ := h.devOK d hd
    refine ⟨?_, a2, a3⟩
    simp only [r3]
    exact Bld.stored_frame _ _ d.h d.t (fun b hb => (b9 b (hdevU d hd b hb)).1) a1
  · intro b
    simp only
    rw [r5 b, b8 b, h.rc b, hnsb]
    omega
  · intro b hb
    simp only [SM.Core.abs, List.getD_eq_getElem?_getD]
    rw [List.getElem?_eq_none (by rw [r2.len]; exact hb)]
    rfl
  · have h0 : 0 < r.st.sm.abs 0 := by rw [h.rc 0]; simp only [if_true]; omega
    refine List.nodup_cons.mpr ⟨?_, b11⟩
    rw [List.mem_append]
    exact fun hx => hx.elim (b9 0 h0).2.2 (b9 0 h0).2.1
  · intro b hb hx
    obtain ⟨d, hd', hx⟩ := List.mem_flatMap.mp hx
    rcases List.mem_cons.mp hb with rfl | hb
    · exact h.dev0 d hd' hx
    · have := b9 b (hdevU d hd' b hx)
      rw [List.mem_append] at hb
      exact hb.elim this.2.2 this.2.1
  · intro b
    rw [List.mem_filter, hlive, l2]
    constructor
    · exact fun e => e.2
    · exact fun e => ⟨Or.inr e, e⟩
  · simp only [r3]; exact r4

/-- the first block of a new metadata device is its block 0 -/
theorem alloc_first (max n : Nat) (hm : 1 ≤ max) (mem : Nat → Option (Blk Val)) :
    Bld.Post (Bld.alloc ⟨mem, SM.Core.new max n, [], []⟩) (fun a => a.1 = 0 ∧ a.2.sm.Inv n max ∧
      (a.2.sm.abs = SM.Counts.upd (fun _ => 0) 0 1) ∧ a.2.log = []) := by
  have key : Bld.Post (Bld.alloc (⟨mem, SM.Core.new max n, [], []⟩ : St Val)) (fun a => a.1 = 0) := by
    cases n with
    | zero => exact trivial
    | succ n => exact rfl
  have h := Bld.alloc_post (s := (⟨mem, SM.Core.new max n, [], []⟩ : St Val)) (SM.Core.new_inv n max hm)
  cases e : Bld.alloc (⟨mem, SM.Core.new max n, [], []⟩ : St Val) with
  | error e' => rw [e] at h; exact h
  | ok a =>
    rw [e] at h key
    obtain ⟨-, -, h3, h4, -, h6⟩ := h
    have k : a.1 = 0 := key
    rw [k, SM.Core.new_abs] at h4
    exact ⟨k, h3, h4, h6⟩

/-- C25, second half: every consistent document is restored completely; the only errors are that the metadata device is
full, that a data block is outside of the data device, or that a reference count reached its limit (`Bld.Err.Resource`). -/
theorem restore_correct (n max : Nat) (hmax : 1 ≤ max) (hn : n < 2 ^ 64) (mem : Nat → Option (Blk Val)) (sb : SbIR) (hsz : SizeOK sb)
    (sects : List (Sect N)) (hc : Consistent (fun _ => none) sects) (hid : ((meaning (fun _ => none) sects).map fun p => p.1.id).Nodup) :
    PostR (run (docEvents sb sects) (R.new N ⟨mem, SM.Core.new max n, [], []⟩)) (Restored n max sb (meaning (fun _ => none) sects)) := by
  unfold docEvents
  have hinv := SM.Core.new_inv n max hmax
  show PostR (step (.sbB sb) _ >>= fun r => run (sects.flatMap Sect.events ++ [.sbE, .eof]) r) _
  have hstep : PostR (step (.sbB sb) (R.new N ⟨mem, SM.Core.new max n, [], []⟩)) (fun r =>
      Mid n max sb r (fun _ => none) ([] : List (N × List (NodeRec Val))) [] []) := by
    simp only [step]
    rw [if_neg (by simp [R.new]), if_neg (by
      obtain ⟨h1, h2, h3⟩ := hsz
      have := Nat.mod_eq_zero_of_dvd h3
      omega)]
    refine PostR.lift_bind (alloc_first max n hmax mem) ?_
    rintro ⟨a, st⟩ ⟨h0, h1, h2, h3⟩
    simp only at h0 h1 h2 h3 ⊢
    subst h0
    rw [if_neg (by simp)]
    refine ⟨⟨rfl, rfl, rfl⟩, rfl, rfl, h1, rfl, fun m => rfl, by simp, by simp, by simp [subBlocks], by simp [subBlocks], rfl, by simp,
      by simp, List.Perm.refl _, ?_, ⟨[], by simp, by simp [subBlocks], ?_⟩, by simp, by simp⟩
    · intro b
      simp only [h2, subBlocks, List.flatMap_nil, List.count_nil, SM.Counts.upd, Nat.add_zero]
    · simp only [h3]; exact List.Perm.refl _
  refine hstep.bind ?_
  intro r0 m0
  rw [run_append]
  refine (mid_sects hn sects m0 hc hid (by simp)).bind ?_
  rintro r1 ⟨env, subs, devs, m1, -⟩
  show PostR (finalize r1 >>= fun r => (step .eof r >>= fun r => Except.ok r)) _
  refine (finalize_restored hn m1).bind ?_
  rintro r2 ⟨hr, hs⟩
  have : step .eof r2 = .ok r2 := by
    simp only [step, hs]
    rw [if_neg (by simp)]
  rw [this]
  obtain ⟨devs, hm, tm, hd, td, g1, g2, g3⟩ := hr.result
  refine ⟨⟨devs, hm, tm, hd, td, g1, g2.trans ?_, g3⟩⟩
  rw [List.append_nil]
  exact List.reverse_perm _

/-- A document with a shared definition, used by two devices, the second of which has mappings of its own: it is consistent, and its restore
on a device of 20 blocks succeeds. -/
def demoSects : List (Sect Nat) :=
  [.def 7 [⟨0, 10, 1, 3⟩, ⟨10, 20, 1, 2⟩], .dev ⟨1, ⟨5, 1, 1, 1⟩⟩ [.ref 7], .dev ⟨0, ⟨7, 1, 1, 1⟩⟩ [.ref 7, .run ⟨20, 30, 2, 2⟩]]

example : Consistent (fun _ => none) demoSects := by
  refine ⟨rfl, ?_, ?_, ?_, ?_, ?_, trivial⟩
  · unfold Sorted; decide
  · intro n hn
    simp only [List.mem_singleton, Seg.ref.injEq] at hn
    subst hn
    exact ⟨_, rfl, Or.inl (by decide)⟩
  · unfold Sorted; decide
  · intro n hn
    simp only [List.mem_cons, Seg.ref.injEq, reduceCtorEq, List.not_mem_nil, or_false] at hn
    subst hn
    exact ⟨_, rfl, Or.inl (by decide)⟩
  · unfold Sorted; decide

example : ((meaning (fun _ => none) demoSects).map fun p => p.1.id).Nodup := by decide
example : meaning (fun _ => none) demoSects =
    [(⟨1, ⟨5, 1, 1, 1⟩⟩, [(0, .bt 10 1), (1, .bt 11 1), (2, .bt 12 1), (10, .bt 20 1), (11, .bt 21 1)]),
     (⟨0, ⟨7, 1, 1, 1⟩⟩, [(0, .bt 10 1), (1, .bt 11 1), (2, .bt 12 1), (10, .bt 20 1), (11, .bt 21 1), (20, .bt 30 2), (21, .bt 31 2)])] := by
  decide
example : accepts (docEvents demoSb demoSects) = true := by decide

end Verif.Rst
