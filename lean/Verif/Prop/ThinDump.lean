import Verif.Model.ThinDump
import Verif.Prop.LeafWalker
import Verif.Prop.Gatherer
import Verif.Prop.ThinRestore

/-!
# C25: dumping metadata and restoring the dump

`Metadata` is the specification of consistent metadata in memory; `dump_document` says that a dump describes exactly its devices
(whatever they share), `dump_restore` that restoring the dump gives the same devices again.
-/

namespace Verif.TDump

open Verif.BT (Tree Blk)
open Verif.Bld (leafBlocks leavesOf Sorted)
open Verif.Rst
open Verif.LW (Clean)

/-! ## Specification -/

/-- consistent thin metadata: a tree of device ids and roots, a tree of device details, and a clean tree of mappings for every device;
trees of several devices may share any of their nodes. `nr` is the size of the metadata device. -/
structure Metadata (mem : Nat → Option (Blk Val)) (nr mappingRoot detailsRoot : Nat) (devs : List DevT) : Prop where
  sorted : devs.Pairwise fun a b => a.id < b.id
  ids : ∀ d ∈ devs, d.id < 2 ^ 32
  top : ∃ (hm : Nat) (tm : Tree Val hm), Clean mem nr hm tm ∧ tm.blk hm = mappingRoot ∧
    tm.contents hm = devs.map fun d => (d.id, .root (d.t.blk d.h))
  details : ∃ (hd : Nat) (td : Tree Val hd), Clean mem nr hd td ∧ td.blk hd = detailsRoot ∧
    td.contents hd = devs.map fun d => (d.id, .det d.det)
  dev : ∀ d ∈ devs, Clean mem nr d.h d.t ∧ ∀ e ∈ d.t.contents d.h, ∃ b t, e.2 = .bt b t

/-- whether a device is to be dumped -/
def selected (sel : Option (List Nat)) (d : DevT) : Bool :=
  match sel with
  | none => true
  | some ids => ids.contains d.id

/-! ## Proof -/

theorem collect_map {α β : Type} {f : α → Option β} {g : α → β} : ∀ (l : List α), (∀ a ∈ l, f a = some (g a)) →
    Gather.collect f l = some (l.map g) := by
  intro l
  induction l with
  | nil => intro _; rfl
  | cons a l ih =>
    intro h
    simp only [Gather.collect, h a (by simp), ih (fun b hb => h b (by simp [hb])), List.map_cons]

theorem zip_same {α β γ : Type} (f : α → β) (g : α → γ) (l : List α) : (l.map f).zip (l.map g) = l.map fun a => (f a, g a) := by
  induction l with
  | nil => rfl
  | cons a l ih => simp [ih]

theorem devicesIter_spec {mem : Nat → Option (Blk Val)} {nr mr dr : Nat} {devs : List DevT} (h : Metadata mem nr mr dr devs) :
    devicesIter mem nr mr dr = some (devs.map fun d => (d.id, d.t.blk d.h, d.det)) := by
  obtain ⟨hm, tm, m1, rfl, m3⟩ := h.top
  obtain ⟨hd, td, d1, rfl, d3⟩ := h.details
  unfold devicesIter
  rw [LW.btreeToMap_contents m1, LW.btreeToMap_contents d1, m3, d3]
  show Gather.collect _ ((devs.map _).zip ((devs.map _).map _)) = _
  rw [List.map_map, zip_same]
  have : (devs.map fun d => (d.id, d.t.blk d.h, d.det)) =
      (devs.map fun a => ((a.id, Val.root (Tree.blk a.h a.t)), Val.det a.det)).map fun p =>
        (p.1.1, (asRoot p.1.2).getD 0, (asDetail p.2).getD ⟨0, 0, 0, 0⟩) := by
    rw [List.map_map]; rfl
  rw [this]
  refine collect_map _ ?_
  intro a ha
  obtain ⟨d, -, rfl⟩ := List.mem_map.mp ha
  rfl

/-- a device as the dump first sees it -/
def toDev (d : DevT) : Dev := ⟨d.id, d.det, (leafBlocks d.h d.t).map .leaf⟩

theorem buildDevs_spec {mem : Nat → Option (Blk Val)} {nr : Nat} (devs : List DevT) (h : ∀ d ∈ devs, d.id < 2 ^ 32 ∧ Clean mem nr d.h d.t) :
    buildDevs mem nr (devs.map fun d => (d.id, d.t.blk d.h, d.det)) = some (devs.map toDev) := by
  unfold buildDevs
  induction devs with
  | nil => rfl
  | cons d l ih =>
    obtain ⟨h1, h2⟩ := h d (by simp)
    obtain ⟨w1, w2⟩ := LW.walk_leaves h2
    simp only [List.map_cons, Gather.collect, w1, ih (fun q hq => h q (by simp [hq])), Option.map_some]
    have e : (LW.leafRanges d.h ⟨none, none⟩ d.t).map (fun l => MEntry.leaf l.2) = (leafBlocks d.h d.t).map .leaf := by
      rw [← w2, List.map_map]; rfl
    rw [e, Nat.mod_eq_of_lt h1]
    rfl

theorem selectDevs_spec (sel : Option (List Nat)) (devs : List DevT) :
    selectDevs sel (devs.map fun d => (d.id, d.t.blk d.h, d.det)) = (devs.filter (selected sel)).map fun d => (d.id, d.t.blk d.h, d.det) := by
  cases sel with
  | none =>
    have : devs.filter (selected none) = devs := List.filter_eq_self.mpr (fun _ _ => rfl)
    rw [this]
    rfl
  | some ids =>
    show (devs.map _).filter _ = _
    rw [List.filter_map]
    rfl

theorem leafSeq_leaf (bs : List Nat) : leafSeq (bs.map .leaf) = bs := by
  induction bs with
  | nil => rfl
  | cons b bs ih =>
    show b :: leafSeq (bs.map .leaf) = _
    rw [ih]

/-! ### Runs of leaves -/

/-- the heads of the runs increase -/
abbrev HeadsInc (out : List (List Nat × Bool)) : Prop :=
  (out.map fun r => r.1.head?).Pairwise (fun a b => ∀ x y, a = some x → b = some y → x < y)

theorem findRun_mem {out : List (List Nat × Bool)} (hi : HeadsInc out) {p : List Nat × Bool} (hp : p ∈ out) {b : Nat}
    (hb : p.1.head? = some b) : findRun out b = some p := by
  unfold findRun
  unfold HeadsInc at hi
  induction out with
  | nil => cases hp
  | cons q out ih =>
    rw [List.map_cons, List.pairwise_cons] at hi
    rw [List.find?_cons]
    rcases List.mem_cons.mp hp with rfl | hp
    · simp [hb]
    · have hne : q.1.head? ≠ some b := by
        intro e
        have := hi.1 _ (List.mem_map.mpr ⟨p, hp, rfl⟩) b b e hb
        omega
      rw [show (q.1.head? == some b) = false by simpa using hne]
      exact ih hi.2 hp

/-- what a run becomes in a device -/
def runEntries (p : List Nat × Bool) : List MEntry :=
  if p.2 then [.ref (p.1.headD 0)] else p.1.map .leaf

theorem entriesToRuns_spec {out : List (List Nat × Bool)} (hi : HeadsInc out) (hne : ∀ r ∈ out, r.1 ≠ []) :
    ∀ (ps : List (List Nat × Bool)) (fuel : Nat), (∀ p ∈ ps, p ∈ out) → (ps.map (·.1)).flatten.length ≤ fuel →
    entriesToRuns out fuel ((ps.map (·.1)).flatten.map .leaf) = ps.flatMap runEntries := by
  intro ps
  induction ps with
  | nil => intro fuel _ _; cases fuel <;> rfl
  | cons p ps ih =>
    intro fuel hp hf
    have hpo := hp p (by simp)
    obtain ⟨run, sh⟩ := p
    cases run with
    | nil => exact absurd rfl (hne _ hpo)
    | cons b bs =>
      rw [List.map_cons, List.flatten_cons, List.length_append, List.length_cons] at hf
      obtain ⟨fuel, rfl⟩ : ∃ f, fuel = f + 1 := ⟨fuel - 1, by omega⟩
      rw [List.map_cons, List.flatten_cons, List.map_append, List.map_cons, List.cons_append]
      simp only [entriesToRuns]
      rw [findRun_mem hi hpo rfl]
      simp only
      have hd : (MEntry.leaf b :: (bs.map MEntry.leaf ++ (ps.map (·.1)).flatten.map MEntry.leaf)).drop (b :: bs).length =
          (ps.map (·.1)).flatten.map MEntry.leaf := by
        rw [List.length_cons, List.drop_succ_cons]
        exact List.drop_left' (by simp)
      rw [hd, ih fuel (fun q hq => hp q (by simp [hq])) (by omega), List.flatMap_cons]
      rfl

theorem same_run {out : List (List Nat × Bool)} (hn : (out.map (·.1)).flatten.Nodup) {p q : List Nat × Bool} (hp : p ∈ out) (hq : q ∈ out)
    {b : Nat} (h1 : b ∈ p.1) (h2 : b ∈ q.1) : p = q := by
  induction out with
  | nil => cases hp
  | cons r out ih =>
    rw [List.map_cons, List.flatten_cons, List.nodup_append] at hn
    have hin : ∀ p ∈ out, b ∈ p.1 → b ∈ (out.map (·.1)).flatten := fun p hp hb =>
      List.mem_flatten.mpr ⟨p.1, List.mem_map.mpr ⟨p, hp, rfl⟩, hb⟩
    rcases List.mem_cons.mp hp with e | hp' <;> rcases List.mem_cons.mp hq with e' | hq'
    · exact e.trans e'.symm
    · subst e; exact absurd rfl (hn.2.2 b h1 b (hin q hq' h2))
    · subst e'; exact absurd rfl (hn.2.2 b h2 b (hin p hp' h1))
    · exact ih hn.2.1 hp' hq'

/-! ### Emitting leaves -/

/-- the entries of the leaf in a block -/
def leafOf (mem : Nat → Option (Blk Val)) (b : Nat) : List Dump.Entry := (readLeaf mem b).getD []

/-- the same, as values -/
def valsOf (mem : Nat → Option (Blk Val)) (b : Nat) : List (Nat × Val) := (leafOf mem b).map fun e => (e.thin, .bt e.data e.time)

/-- a readable leaf -/
def Readable (mem : Nat → Option (Blk Val)) (b : Nat) : Prop := (readLeaf mem b).isSome

theorem readLeaf_spec {mem : Nat → Option (Blk Val)} {b : Nat} {es : List (Nat × Val)} (hm : mem b = some (.leaf es))
    (hv : ∀ e ∈ es, ∃ d t, e.2 = .bt d t) : Readable mem b ∧ valsOf mem b = es := by
  have key : ∀ es : List (Nat × Val), (∀ e ∈ es, ∃ d t, e.2 = Val.bt d t) → ∃ ls : List Dump.Entry,
      Gather.collect (fun e : Nat × Val => match e.2 with
        | .bt d t => some (⟨e.1, d, t⟩ : Dump.Entry)
        | _ => none) es = some ls ∧ (ls.map fun e => (e.thin, Val.bt e.data e.time)) = es := by
    intro es
    induction es with
    | nil => intro _; exact ⟨[], rfl, rfl⟩
    | cons e es ih =>
      intro h
      obtain ⟨d, t, e1⟩ := h e (by simp)
      obtain ⟨ls, l1, l2⟩ := ih (fun q hq => h q (by simp [hq]))
      obtain ⟨k, v⟩ := e
      simp only at e1
      subst e1
      refine ⟨⟨k, d, t⟩ :: ls, ?_, ?_⟩
      · simp only [Gather.collect, l1]
      · simp only [List.map_cons, l2]
  obtain ⟨ls, l1, l2⟩ := key es hv
  have : readLeaf mem b = some ls := by simp only [readLeaf, hm]; exact l1
  unfold Readable valsOf leafOf
  rw [this]
  exact ⟨rfl, l2⟩

theorem collect_readable {mem : Nat → Option (Blk Val)} (bs : List Nat) (h : ∀ b ∈ bs, Readable mem b) :
    Gather.collect (readLeaf mem) bs = some (bs.map (leafOf mem)) := by
  refine collect_map bs ?_
  intro b hb
  obtain ⟨x, hx⟩ := Option.isSome_iff_exists.mp (h b hb)
  unfold leafOf
  rw [hx]
  rfl

theorem dump_vals {mem : Nat → Option (Blk Val)} (bs : List Nat) :
    (Dump.dumpDevice (bs.map (leafOf mem))).flatMap runVals = bs.flatMap (valsOf mem) := by
  have h := (Dump.dump_runs_exact (bs.map (leafOf mem))).1
  have e : ∀ rs : List Dump.Run, rs.flatMap runVals = (rs.flatMap Dump.Run.entries).map fun e => (e.thin, Val.bt e.data e.time) := by
    intro rs
    rw [List.map_flatMap]
    rfl
  rw [e, h, List.map_flatten, List.map_map, List.flatMap_def]
  rfl

theorem flush_spec {mem : Nat → Option (Blk Val)} (bs : List Nat) (h : ∀ b ∈ bs, Readable mem b) :
    flush mem bs = some ((Dump.dumpDevice (bs.map (leafOf mem))).map .map) := by
  unfold flush
  by_cases e : bs = []
  · rw [if_pos e, e]; rfl
  · rw [if_neg e, emitLeaves, collect_readable bs h]; rfl

theorem emit_leaves {mem : Nat → Option (Blk Val)} : ∀ (bs buf : List Nat), emitEntries mem buf (bs.map .leaf) = flush mem (buf ++ bs) := by
  intro bs
  induction bs with
  | nil => intro buf; simp [emitEntries]
  | cons b bs ih => intro buf; rw [List.map_cons, emitEntries, ih]; simp

/-- what an entry stands for -/
def entryVals (mem : Nat → Option (Blk Val)) (env : Env Nat) : MEntry → List (Nat × Val)
  | .leaf b => valsOf mem b
  | .ref n => (env n).getD []

theorem emit_spec {mem : Nat → Option (Blk Val)} (env : Env Nat) : ∀ (es : List MEntry) (buf : List Nat),
    (∀ b ∈ buf, Readable mem b) → (∀ b, .leaf b ∈ es → Readable mem b) →
    ∃ segs : List (Seg Nat), emitEntries mem buf es = some (segs.map Seg.ev) ∧
      segs.flatMap (Seg.vals env) = buf.flatMap (valsOf mem) ++ es.flatMap (entryVals mem env) ∧
      (∀ n, Seg.ref n ∈ segs → .ref n ∈ es) ∧ (buf = [] → ∀ n, es = [.ref n] → segs = [.ref n]) := by
  have evs : ∀ rs : List Dump.Run, (rs.map Seg.run).map (Seg.ev (N := Nat)) = rs.map .map := by
    intro rs; rw [List.map_map]; rfl
  have vals : ∀ bs : List Nat, ((Dump.dumpDevice (bs.map (leafOf mem))).map Seg.run).flatMap (Seg.vals env) = bs.flatMap (valsOf mem) := by
    intro bs
    rw [List.flatMap_map, ← dump_vals]
    rfl
  intro es
  induction es with
  | nil =>
    intro buf hb _
    refine ⟨(Dump.dumpDevice (buf.map (leafOf mem))).map .run, ?_, ?_, ?_, ?_⟩
    · rw [emitEntries, flush_spec buf hb, evs]
    · rw [vals]; simp
    · intro n hn; simp at hn
    · intro _ n e; simp at e
  | cons e es ih =>
    intro buf hb hl
    cases e with
    | leaf b =>
      obtain ⟨segs, s1, s2, s3, s4⟩ := ih (buf ++ [b]) (by
        intro x hx
        rcases List.mem_append.mp hx with hx | hx
        · exact hb x hx
        · rw [List.mem_singleton] at hx; subst hx; exact hl x (by simp)) (fun x hx => hl x (by simp [hx]))
      refine ⟨segs, by rw [emitEntries, s1], ?_, fun n hn => by simp [s3 n hn], fun _ n e => by simp at e⟩
      rw [s2, List.flatMap_append, List.flatMap_cons, List.append_assoc]
      simp [entryVals]
    | ref n =>
      obtain ⟨segs, s1, s2, s3, s4⟩ := ih [] (by simp) (fun x hx => hl x (by simp [hx]))
      refine ⟨(Dump.dumpDevice (buf.map (leafOf mem))).map .run ++ .ref n :: segs, ?_, ?_, ?_, ?_⟩
      · simp only [emitEntries, flush_spec buf hb, s1, List.map_append, List.map_cons, evs]
        rfl
      · rw [List.flatMap_append, vals, List.flatMap_cons, s2, List.flatMap_cons]
        rfl
      · intro m hm
        rcases List.mem_append.mp hm with hm | hm
        · simp at hm
        · rcases List.mem_cons.mp hm with e | hm
          · cases e; simp
          · simp [s3 m hm]
      · intro e m he
        subst e
        simp only [List.cons.injEq, MEntry.ref.injEq] at he
        obtain ⟨rfl, rfl⟩ := he
        have : segs = [] := by
          have h1 := s1
          rw [emitEntries, flush, if_pos rfl] at h1
          have := Option.some.inj h1
          simpa using this.symm
        rw [this]
        rfl

/-! ### Definitions -/

/-- the document's section for a shared run -/
def defSect (mem : Nat → Option (Blk Val)) (p : List Nat × Bool) : Sect Nat :=
  .def (p.1.headD 0) (Dump.dumpDevice (p.1.map (leafOf mem)))

/-- the definitions known after the document's definitions -/
def addAll (mem : Nat → Option (Blk Val)) (env : Env Nat) (out : List (List Nat × Bool)) : Env Nat :=
  out.foldl (fun env p => env.add (p.1.headD 0) (p.1.flatMap (valsOf mem))) env

theorem meaning_defs (mem : Nat → Option (Blk Val)) : ∀ (out : List (List Nat × Bool)) (env : Env Nat) (D : List (Sect Nat)),
    meaning env (out.map (defSect mem) ++ D) = meaning (addAll mem env out) D := by
  intro out
  induction out with
  | nil => intro env D; rfl
  | cons p out ih =>
    intro env D
    rw [List.map_cons, List.cons_append]
    show meaning (env.add (p.1.headD 0) ((Dump.dumpDevice (p.1.map (leafOf mem))).flatMap runVals)) _ = _
    rw [dump_vals, ih]
    rfl

theorem consistent_defs (mem : Nat → Option (Blk Val)) : ∀ (out : List (List Nat × Bool)) (env : Env Nat) (D : List (Sect Nat)),
    (out.map fun p => p.1.headD 0).Nodup → (∀ p ∈ out, env (p.1.headD 0) = none) → (∀ p ∈ out, Sorted (p.1.flatMap (valsOf mem))) →
    Consistent (addAll mem env out) D → Consistent env (out.map (defSect mem) ++ D) := by
  intro out
  induction out with
  | nil => intro env D _ _ _ h; exact h
  | cons p out ih =>
    intro env D hnd he hs hD
    rw [List.map_cons, List.nodup_cons] at hnd
    refine ⟨he p (by simp), ?_, ?_⟩
    · rw [dump_vals]; exact hs p (by simp)
    · rw [dump_vals]
      refine ih _ D hnd.2 ?_ (fun q hq => hs q (by simp [hq])) hD
      intro q hq
      unfold Env.add
      rw [if_neg (fun e => hnd.1 (List.mem_map.mpr ⟨q, hq, e⟩))]
      exact he q (by simp [hq])

theorem addAll_other (mem : Nat → Option (Blk Val)) : ∀ (out : List (List Nat × Bool)) (env : Env Nat) (n : Nat),
    n ∉ (out.map fun p => p.1.headD 0) → addAll mem env out n = env n := by
  intro out
  induction out with
  | nil => intro env n _; rfl
  | cons p out ih =>
    intro env n hn
    rw [List.map_cons, List.mem_cons, not_or] at hn
    show addAll mem (env.add (p.1.headD 0) (p.1.flatMap (valsOf mem))) out n = _
    rw [ih _ n hn.2, Env.add, if_neg hn.1]

theorem addAll_mem (mem : Nat → Option (Blk Val)) : ∀ (out : List (List Nat × Bool)) (env : Env Nat),
    (out.map fun p => p.1.headD 0).Nodup → ∀ p ∈ out, addAll mem env out (p.1.headD 0) = some (p.1.flatMap (valsOf mem)) := by
  intro out
  induction out with
  | nil => intro env _ p hp; cases hp
  | cons q out ih =>
    intro env hnd p hp
    rw [List.map_cons, List.nodup_cons] at hnd
    show addAll mem (env.add (q.1.headD 0) (q.1.flatMap (valsOf mem))) out (p.1.headD 0) = _
    rcases List.mem_cons.mp hp with rfl | hp
    · rw [addAll_other mem out _ _ hnd.1, Env.add, if_pos rfl]
    · exact ih _ hnd.2 p hp

theorem heads_nodup {out : List (List Nat × Bool)} (hi : HeadsInc out) (hne : ∀ r ∈ out, r.1 ≠ []) :
    (out.map fun p => p.1.headD 0).Nodup := by
  unfold HeadsInc at hi
  unfold List.Nodup
  rw [List.pairwise_map] at hi ⊢
  refine hi.imp_of_mem ?_
  intro a b ha hb hab e
  obtain ⟨x, xs, ea⟩ := List.exists_cons_of_ne_nil (hne a ha)
  obtain ⟨y, ys, eb⟩ := List.exists_cons_of_ne_nil (hne b hb)
  rw [ea, eb] at hab e
  have := hab x y rfl rfl
  simp only [List.headD_cons] at e
  omega

theorem buildDefs_spec {out : List (List Nat × Bool)} (hne : ∀ r ∈ out, r.1 ≠ []) :
    buildDefs out = (out.filter (·.2)).map fun p => (p.1.headD 0, p.1.map .leaf) := by
  unfold buildDefs
  induction out with
  | nil => rfl
  | cons p out ih =>
    obtain ⟨run, sh⟩ := p
    obtain ⟨b, bs, e⟩ := List.exists_cons_of_ne_nil (hne _ List.mem_cons_self)
    simp only at e
    subst e
    have := ih (fun q hq => hne q (by simp [hq]))
    cases sh
    · rw [List.filterMap_cons, List.filter_cons]; simpa using this
    · rw [List.filterMap_cons, List.filter_cons]; simpa using this

/-! ### The whole dump -/

theorem flatMap_sublist {α β : Type} (f : α → List β) {l m : List α} (h : l.Sublist m) : (l.flatMap f).Sublist (m.flatMap f) := by
  induction h with
  | slnil => exact List.Sublist.refl _
  | cons a _ ih => rw [List.flatMap_cons]; exact ih.trans (List.sublist_append_right _ _)
  | cons_cons a _ ih => rw [List.flatMap_cons, List.flatMap_cons]; exact (List.Sublist.refl _).append ih

/-- what is known about a device's leaves -/
theorem dev_leaves {mem : Nat → Option (Blk Val)} {nr : Nat} {d : DevT} (hc : Clean mem nr d.h d.t)
    (hv : ∀ e ∈ d.t.contents d.h, ∃ b t, e.2 = .bt b t) :
    (∀ b ∈ leafBlocks d.h d.t, Readable mem b ∧ b < nr) ∧ (leafBlocks d.h d.t).flatMap (valsOf mem) = d.t.contents d.h ∧
    (∀ b ∈ leafBlocks d.h d.t, valsOf mem b = [] → leafBlocks d.h d.t = [b]) := by
  have hst := Bld.stored_leaves d.h d.t true hc.stored
  have hl : ∀ l ∈ leavesOf d.h d.t, Readable mem l.1 ∧ valsOf mem l.1 = l.2 := by
    intro l hl
    refine readLeaf_spec (hst l hl) ?_
    intro e he
    refine hv e ?_
    rw [Bld.contents_leaves]
    exact List.mem_flatMap.mpr ⟨l, hl, he⟩
  refine ⟨?_, ?_, ?_⟩
  · intro b hb
    have hb' := hc.bound b (Bld.leaf_mem_blocks d.h d.t b hb)
    obtain ⟨l, hl', rfl⟩ := List.mem_map.mp hb
    exact ⟨(hl l hl').1, hb'⟩
  · rw [Bld.contents_leaves]
    unfold leafBlocks
    rw [List.flatMap_map]
    exact Bld.flatMap_congr' fun l hl' => (hl l hl').2
  · intro b hb he
    obtain ⟨l, hl', rfl⟩ := List.mem_map.mp hb
    have hl2 : l.2 = [] := by rw [← (hl l hl').2]; exact he
    obtain ⟨id, det, h, t⟩ := d
    simp only at *
    cases h with
    | zero =>
      rw [leavesOf, List.mem_singleton] at hl'
      subst hl'
      rfl
    | succ h =>
      rcases hc.noEmpty with h0 | h0
      · omega
      · exfalso
        have : ∀ (h : Nat) (t : Tree Val h), t.NoEmpty h → ∀ l ∈ leavesOf h t, l.2 ≠ [] := by
          intro h
          induction h with
          | zero =>
            intro t hn l hl
            rw [leavesOf, List.mem_singleton] at hl
            subst hl
            exact hn
          | succ h ih =>
            intro t hn l hl
            obtain ⟨c, hc, hl⟩ := List.mem_flatMap.mp hl
            exact ih c.2 (hn.2 c hc) l hl
        exact this _ t h0 l hl' hl2

/-- The dump of devices with clean trees is a consistent document that describes exactly these devices; every definition holds only mappings of them. -/
theorem devs_document {mem : Nat → Option (Blk Val)} {nr : Nat} (D : List DevT) (hD : ∀ d ∈ D, Clean mem nr d.h d.t ∧ ∀ e ∈ d.t.contents d.h, ∃ b t, e.2 = .bt b t) (sb : SbIR) :
    ∃ sects : List (Sect Nat), (optimise nr (D.map toDev) >>= fun md => dumpMetadata mem sb md.1 md.2) = some (docEvents sb sects) ∧ Consistent (fun _ => none) sects ∧
      meaning (fun _ => none) sects = D.map DevT.means ∧
      ∀ n runs, Sect.def n runs ∈ sects → ∀ e ∈ runs.flatMap runVals, ∃ d ∈ D, e ∈ d.t.contents d.h := by
  have hdl := fun d (hd : d ∈ D) => dev_leaves (hD d hd).1 (hD d hd).2
  have hso := fun d (hd : d ∈ D) => LW.ordered_sorted d.h d.t 0 none (hD d hd).1.ordered
  obtain ⟨out, g1, g2, g3, g4, g5, -, -, g8⟩ := Gather.gather_correct nr (D.map fun d : DevT => leafBlocks d.h d.t) (by
    intro s hs b hb
    obtain ⟨d, hd, rfl⟩ := List.mem_map.mp hs
    exact ((hdl d hd).1 b hb).2)
  have hi : HeadsInc out := g4
  -- every device is a list of runs
  have hps : ∀ d ∈ D, ∃ ps : List (List Nat × Bool), leafBlocks d.h d.t = (ps.map (·.1)).flatten ∧ ∀ p ∈ ps, p ∈ out := by
    intro d hd
    obtain ⟨rs, e, hrs⟩ := g5 _ (List.mem_map.mpr ⟨d, hd, rfl⟩)
    rw [e]
    clear e
    induction rs with
    | nil => exact ⟨[], rfl, by simp⟩
    | cons r rs ih =>
      obtain ⟨ps, p1, p2⟩ := ih (fun r hr => hrs r (by simp [hr]))
      obtain ⟨p, hp, e⟩ := List.mem_map.mp (hrs r (by simp))
      refine ⟨p :: ps, ?_, ?_⟩
      · rw [List.flatten_cons, p1, List.map_cons, List.flatten_cons, e]
      · intro q hq
        rcases List.mem_cons.mp hq with rfl | hq
        · exact hp
        · exact p2 q hq
  -- every run belongs to a device
  have hrun : ∀ p ∈ out, ∃ d ∈ D, p.1.Sublist (leafBlocks d.h d.t) := by
    intro p hp
    obtain ⟨b, bs, eb⟩ := List.exists_cons_of_ne_nil (g2 p hp)
    have hbp : b ∈ p.1 := by rw [eb]; simp
    have hc := (g8 p hp b hbp).2.1
    have hb : b ∈ (D.map fun d : DevT => leafBlocks d.h d.t).flatten := List.count_pos_iff.mp (by omega)
    obtain ⟨s, hs, hb⟩ := List.mem_flatten.mp hb
    obtain ⟨d, hd, rfl⟩ := List.mem_map.mp hs
    obtain ⟨ps, e1, e2⟩ := hps d hd
    rw [e1] at hb
    obtain ⟨r, hr, hb⟩ := List.mem_flatten.mp hb
    obtain ⟨q, hq, rfl⟩ := List.mem_map.mp hr
    have := same_run g3 (e2 q hq) hp hb hbp
    subst this
    refine ⟨d, hd, ?_⟩
    rw [e1]
    exact List.sublist_flatten_of_mem (List.mem_map.mpr ⟨q, hq, rfl⟩)
  have hreadRun : ∀ p ∈ out, ∀ b ∈ p.1, Readable mem b := by
    intro p hp b hb
    obtain ⟨d, hd, hs⟩ := hrun p hp
    exact ((hdl d hd).1 b (hs.subset hb)).1
  let sh := out.filter (·.2)
  have hshm : ∀ p ∈ sh, p ∈ out ∧ p.2 = true := fun p hp => List.mem_filter.mp hp
  have hnd : (sh.map fun p => p.1.headD 0).Nodup := (heads_nodup hi g2).sublist (List.filter_sublist.map _)
  let env := addAll mem (fun _ => none) sh
  have henv : ∀ p ∈ sh, env (p.1.headD 0) = some (p.1.flatMap (valsOf mem)) := addAll_mem mem sh _ hnd
  -- the segments of a device
  have hseg : ∀ d ∈ D, ∃ segs : List (Seg Nat),
      emitEntries mem [] (entriesToRuns out (leafBlocks d.h d.t).length ((leafBlocks d.h d.t).map .leaf)) = some (segs.map Seg.ev) ∧
      segs.flatMap (Seg.vals env) = d.t.contents d.h ∧
      ∀ n, Seg.ref n ∈ segs → ∃ es, env n = some es ∧ (es ≠ [] ∨ segs = [.ref n]) := by
    intro d hd
    obtain ⟨ps, e1, e2⟩ := hps d hd
    obtain ⟨segs, s1, s2, s3, s4⟩ := emit_spec (mem := mem) env (ps.flatMap runEntries) [] (by simp) (by
      intro b hb
      obtain ⟨p, hp, hb⟩ := List.mem_flatMap.mp hb
      unfold runEntries at hb
      by_cases hsh : p.2 = true
      · rw [if_pos hsh] at hb; simp at hb
      · rw [if_neg hsh] at hb
        obtain ⟨b', hb', e⟩ := List.mem_map.mp hb
        cases e
        exact hreadRun p (e2 p hp) b hb')
    refine ⟨segs, ?_, ?_, ?_⟩
    · rw [e1, entriesToRuns_spec hi g2 ps _ e2 (Nat.le_refl _), s1]
    · rw [s2, ← (hdl d hd).2.1, e1, List.flatMap_nil, List.nil_append, List.flatMap_assoc]
      have : ∀ ps : List (List Nat × Bool), (∀ p ∈ ps, p ∈ out) →
          (ps.flatMap fun p => (runEntries p).flatMap (entryVals mem env)) = ((ps.map (·.1)).flatten).flatMap (valsOf mem) := by
        intro ps
        induction ps with
        | nil => intro _; rfl
        | cons p ps ih =>
          intro hp
          rw [List.flatMap_cons, ih (fun q hq => hp q (by simp [hq])), List.map_cons, List.flatten_cons, List.flatMap_append]
          congr 1
          unfold runEntries
          by_cases hsh : p.2 = true
          · rw [if_pos hsh]
            have := henv p (List.mem_filter.mpr ⟨hp p (by simp), hsh⟩)
            simp only [List.flatMap_cons, List.flatMap_nil, entryVals, this, Option.getD_some, List.append_nil]
          · rw [if_neg hsh, List.flatMap_map]
            rfl
      exact this ps e2
    · intro n hn
      obtain ⟨p, hp, hn'⟩ := List.mem_flatMap.mp (s3 n hn)
      unfold runEntries at hn'
      by_cases hsh : p.2 = true
      · rw [if_pos hsh, List.mem_singleton] at hn'
        cases hn'
        refine ⟨_, henv p (List.mem_filter.mpr ⟨e2 p hp, hsh⟩), ?_⟩
        by_cases hem : p.1.flatMap (valsOf mem) = []
        · right
          -- an empty leaf is the whole device
          obtain ⟨b, bs, eb⟩ := List.exists_cons_of_ne_nil (g2 p (e2 p hp))
          have hbp : b ∈ p.1 := by rw [eb]; simp
          have hbe : valsOf mem b = [] := List.flatMap_eq_nil_iff.mp hem b hbp
          have hbd : b ∈ leafBlocks d.h d.t := by
            rw [e1]; exact List.mem_flatten.mpr ⟨p.1, List.mem_map.mpr ⟨p, hp, rfl⟩, hbp⟩
          have hone := (hdl d hd).2.2 b hbd hbe
          rw [e1] at hone
          have hps1 : ps = [p] := by
            have hlen : (ps.map (·.1)).flatten.length = 1 := by rw [hone]; rfl
            obtain ⟨u, v, euv⟩ := List.append_of_mem hp
            rw [euv] at hlen
            simp only [List.map_append, List.map_cons, List.flatten_append, List.flatten_cons, List.length_append] at hlen
            have hp1 : 1 ≤ p.1.length := by rw [eb]; simp
            have hz : ∀ w : List (List Nat × Bool), (∀ q ∈ w, q ∈ out) → (w.map (·.1)).flatten.length = 0 → w = [] := by
              intro w hw h0
              cases w with
              | nil => rfl
              | cons q w =>
                rw [List.map_cons, List.flatten_cons, List.length_append] at h0
                exact absurd (List.length_eq_zero_iff.mp (by omega)) (g2 q (hw q (by simp)))
            have hu := hz u (fun q hq => e2 q (by rw [euv]; simp [hq])) (by omega)
            have hv := hz v (fun q hq => e2 q (by rw [euv]; simp [hq])) (by omega)
            rw [euv, hu, hv]
            rfl
          refine s4 rfl _ ?_
          rw [hps1]
          simp [runEntries, hsh]
        · exact Or.inl hem
      · rw [if_neg hsh] at hn'; simp at hn'
  -- collect the segments of all devices
  have hall : ∀ l : List DevT, (∀ d ∈ l, d ∈ D) → ∃ S : List (Sect Nat),
      Gather.collect (fun d : Dev => (emitEntries mem [] d.entries).map fun es => Ev.devB ⟨d.id, d.detail⟩ :: (es ++ [Ev.devE]))
        ((l.map toDev).map fun d => { d with entries := entriesToRuns out d.entries.length d.entries }) = some (S.map Sect.events) ∧
      Consistent env S ∧ meaning env S = l.map DevT.means ∧ ∀ n runs, Sect.def n runs ∉ S := by
    intro l
    induction l with
    | nil => intro _; exact ⟨[], rfl, trivial, rfl, by intro n runs h; cases h⟩
    | cons d l ih =>
      intro hl
      obtain ⟨S, i1, i2, i3, i4⟩ := ih (fun q hq => hl q (by simp [hq]))
      obtain ⟨segs, s1, s2, s3⟩ := hseg d (hl d (by simp))
      refine ⟨.dev ⟨d.id, d.det⟩ segs :: S, ?_, ⟨s3, ?_, i2⟩, ?_, ?_⟩
      · simp only [List.map_cons, Gather.collect, i1]
        simp only [toDev, List.length_map, s1, Option.map_some]
        rfl
      · rw [s2]; exact hso d (hl d (by simp))
      · simp only [meaning, List.map_cons, i3, s2]
        rfl
      · intro n runs hm
        rcases List.mem_cons.mp hm with hm | hm
        · cases hm
        · exact i4 n runs hm
  obtain ⟨S, c1, c2, c3, c4⟩ := hall D (fun _ h => h)
  have hdefs : Gather.collect (fun d : Nat × List MEntry => (emitEntries mem [] d.2).map fun es => Ev.defB d.1 :: (es ++ [Ev.defE]))
      (buildDefs out) = some ((sh.map (defSect mem)).map Sect.events) := by
    rw [buildDefs_spec g2]
    show Gather.collect _ (sh.map _) = _
    have : ∀ l : List (List Nat × Bool), (∀ p ∈ l, p ∈ out) →
        Gather.collect (fun d : Nat × List MEntry => (emitEntries mem [] d.2).map fun es => Ev.defB d.1 :: (es ++ [Ev.defE]))
          (l.map fun p => (p.1.headD 0, p.1.map MEntry.leaf)) = some ((l.map (defSect mem)).map Sect.events) := by
      intro l
      induction l with
      | nil => intro _; rfl
      | cons p l ih =>
        intro hl
        simp only [List.map_cons, Gather.collect, ih (fun q hq => hl q (by simp [hq])), emit_leaves, List.nil_append,
          flush_spec p.1 (hreadRun p (hl p (by simp))), Option.map_some]
        rfl
    exact this sh (fun p hp => (hshm p hp).1)
  refine ⟨sh.map (defSect mem) ++ S, ?_, ?_, ?_, ?_⟩
  · have hseqs : (D.map toDev).map (fun d => leafSeq d.entries) = D.map fun d : DevT => leafBlocks d.h d.t := by
      rw [List.map_map]
      refine List.map_congr_left ?_
      intro d _
      exact leafSeq_leaf _
    unfold optimise
    rw [hseqs, g1]
    show dumpMetadata mem sb (buildDefs out) _ = _
    unfold dumpMetadata
    rw [hdefs, c1]
    show some _ = some _
    rw [docEvents, List.flatMap_append, List.flatMap_def, List.flatMap_def]
  · refine consistent_defs mem sh _ S hnd (fun _ _ => rfl) ?_ c2
    intro p hp
    obtain ⟨d, hd, hs⟩ := hrun p (hshm p hp).1
    have := (hso d hd)
    rw [← (hdl d hd).2.1] at this
    exact List.Pairwise.sublist (flatMap_sublist _ hs) this
  · rw [meaning_defs]
    exact c3
  · intro n runs hm e he
    rcases List.mem_append.mp hm with hm | hm
    · obtain ⟨p, hp, e1⟩ := List.mem_map.mp hm
      obtain ⟨d, hd, hs⟩ := hrun p (hshm p hp).1
      refine ⟨d, hd, ?_⟩
      have e2 : runs = Dump.dumpDevice (p.1.map (leafOf mem)) := by cases e1; rfl
      rw [e2, dump_vals] at he
      rw [← (hdl d hd).2.1]
      exact (flatMap_sublist _ hs).subset he
    · exact absurd hm (c4 n runs)

/-- `dump_document`, and every definition holds only mappings of the selected devices -/
theorem dump_document_defs {mem : Nat → Option (Blk Val)} {nr mr dr : Nat} {devs : List DevT} (h : Metadata mem nr mr dr devs) (sb : SbIR)
    (sel : Option (List Nat)) :
    ∃ sects : List (Sect Nat), dump mem nr sb mr dr sel = some (docEvents sb sects) ∧ Consistent (fun _ => none) sects ∧
      meaning (fun _ => none) sects = (devs.filter (selected sel)).map DevT.means ∧
      ∀ n runs, Sect.def n runs ∈ sects → ∀ e ∈ runs.flatMap runVals, ∃ d ∈ devs.filter (selected sel), e ∈ d.t.contents d.h := by
  have hDm : ∀ d ∈ devs.filter (selected sel), d ∈ devs := fun d hd => (List.mem_filter.mp hd).1
  obtain ⟨sects, h1, h2⟩ := devs_document (devs.filter (selected sel)) (fun d hd => h.dev d (hDm d hd)) sb
  refine ⟨sects, ?_, h2⟩
  unfold dump
  rw [devicesIter_spec h]
  show (buildDevs mem nr (selectDevs sel _) >>= fun devs => optimise nr devs >>= fun md => dumpMetadata mem sb md.1 md.2) = _
  rw [selectDevs_spec, buildDevs_spec _ (fun d hd => ⟨h.ids d (hDm d hd), (h.dev d (hDm d hd)).1⟩)]
  exact h1

/-- C25, first half.  The dump of consistent metadata succeeds and is a consistent document that describes exactly the selected devices:
all their details and all their mappings, in order. -/
theorem dump_document {mem : Nat → Option (Blk Val)} {nr mr dr : Nat} {devs : List DevT} (h : Metadata mem nr mr dr devs) (sb : SbIR)
    (sel : Option (List Nat)) :
    ∃ sects : List (Sect Nat), dump mem nr sb mr dr sel = some (docEvents sb sects) ∧ Consistent (fun _ => none) sects ∧
      meaning (fun _ => none) sects = (devs.filter (selected sel)).map DevT.means := by
  obtain ⟨sects, h1, h2, h3, -⟩ := dump_document_defs h sb sel
  exact ⟨sects, h1, h2, h3⟩

/-- C25.  Dumping consistent metadata and restoring the dump into a metadata device of `n` blocks gives the same devices with the same
details and mappings (and reference counts as described by `Restored`), unless there is not enough space or a count is exhausted. -/
theorem dump_restore {mem : Nat → Option (Blk Val)} {nr mr dr : Nat} {devs : List DevT} (h : Metadata mem nr mr dr devs) (sb : SbIR)
    (hsz : SizeOK sb) (sel : Option (List Nat)) (n max : Nat) (hmax : 1 ≤ max) (hn : n < 2 ^ 64) (mem' : Nat → Option (Blk Val)) :
    ∃ evs, dump mem nr sb mr dr sel = some evs ∧
      PostR (run evs (R.new Nat ⟨mem', SM.Core.new max n, [], []⟩)) (Restored n max sb ((devs.filter (selected sel)).map DevT.means)) := by
  obtain ⟨sects, d1, d2, d3⟩ := dump_document h sb sel
  refine ⟨_, d1, ?_⟩
  rw [← d3]
  refine restore_correct n max hmax hn mem' sb hsz sects d2 ?_
  rw [d3, List.map_map]
  have hs : (devs.filter (selected sel)).Pairwise fun a b => a.id < b.id := h.sorted.sublist List.filter_sublist
  unfold List.Nodup
  rw [List.pairwise_map]
  refine hs.imp ?_
  intro a b hab e
  have e : a.id = b.id := e
  omega

/-! ### The restored metadata again -/

theorem filled_noEmpty {capL capI : Nat} (hL : 2 ≤ capL) (hI : 2 ≤ capI) : ∀ (h : Nat) (t : Tree Val h), Bld.Filled capL capI h t →
    t.NoEmpty h := by
  intro h
  induction h with
  | zero =>
    intro t hf e
    have h1 := hf.1
    have e : t.2 = [] := e
    rw [e, List.length_nil] at h1
    omega
  | succ h ih =>
    intro t hf
    refine ⟨?_, fun c hc => ih c.2 (hf.2.2 c hc)⟩
    intro e
    have h1 := hf.1
    rw [e, List.length_nil] at h1
    omega

theorem rootFilled_noEmpty {capL capI : Nat} (hL : 2 ≤ capL) (hI : 2 ≤ capI) (h : Nat) (t : Tree Val h) (hf : Bld.RootFilled capL capI h t) :
    h = 0 ∨ t.NoEmpty h := by
  cases h with
  | zero => exact Or.inl rfl
  | succ h =>
    refine Or.inr ⟨?_, fun c hc => filled_noEmpty hL hI h c.2 (hf.2.2 c hc)⟩
    intro e
    have h1 := hf.1
    rw [e, List.length_nil] at h1
    omega

/-- What a restore leaves behind is consistent metadata, so it can be dumped again. -/
theorem restored_metadata {N : Type} {n max : Nat} {sb : SbIR} {devices : List (DevIR × List (Nat × Val))} {r : R N}
    (h : Restored n max sb devices r) (hid : ∀ d ∈ devices, d.1.id < 2 ^ 32) (hbt : ∀ d ∈ devices, ∀ e ∈ d.2, ∃ b t, e.2 = .bt b t) :
    ∃ (o : SbOut) (devs : List DevT), r.out = some o ∧ o.time = sb.time ∧ o.transaction = sb.transaction ∧ o.blockSize = sb.blockSize ∧
      Metadata r.st.mem n o.mappingRoot o.detailsRoot devs ∧ (devs.map DevT.means).Perm devices := by
  obtain ⟨devs, hm, tm, hd, td, g1, g2, g3, g4, g5, g6, g7, g8, g9, g10, g11, g12, g13, g14, -⟩ := h.result
  have hb : ∀ b, 0 < r.st.sm.abs b → b < n := by
    intro b hb
    by_cases e : n ≤ b
    · have := g14 b e; omega
    · omega
  have hmem : ∀ d ∈ devs, d.means ∈ devices := fun d hd => g2.mem_iff.mp (List.mem_map.mpr ⟨d, hd, rfl⟩)
  refine ⟨_, devs, g3, rfl, rfl, rfl, ⟨g1, ?_, ?_, ?_, ?_⟩, g2⟩
  · intro d hd; exact hid _ (hmem d hd)
  · refine ⟨hm, tm, ⟨g4, g5, rootFilled_noEmpty (by decide) (by decide) hm tm g6, ?_⟩, rfl, g7⟩
    intro b hx
    refine hb b ?_
    rw [g13 b]
    have := List.count_pos_iff.mpr hx
    omega
  · refine ⟨hd, td, ⟨g8, g9, rootFilled_noEmpty (by decide) (by decide) hd td g10, ?_⟩, rfl, g11⟩
    intro b hx
    refine hb b ?_
    rw [g13 b]
    have := List.count_pos_iff.mpr hx
    omega
  · intro d hd
    obtain ⟨a1, a2, a3⟩ := g12 d hd
    refine ⟨⟨a1, a2, rootFilled_noEmpty (by decide) (by decide) d.h d.t a3, ?_⟩, ?_⟩
    · intro b hx
      refine hb b ?_
      rw [g13 b]
      have : 0 < (devs.flatMap fun d => d.t.blocks d.h).count b := List.count_pos_iff.mpr (List.mem_flatMap.mpr ⟨d, hd, hx⟩)
      omega
    · exact hbt _ (hmem d hd)

/-! ### A concrete case -/

/-- Two devices, 1 and 4: leaf 12 is shared, leaf 13 belongs to the second alone. -/
def demoMem : Nat → Option (Blk Val)
  | 1 => some (.leaf [(1, .root 10), (4, .root 11)])
  | 2 => some (.leaf [(1, .det ⟨2, 0, 0, 0⟩), (4, .det ⟨3, 1, 1, 1⟩)])
  | 10 => some (.internal [(0, 12)])
  | 11 => some (.internal [(0, 12), (9, 13)])
  | 12 => some (.leaf [(0, .bt 5 0), (1, .bt 6 0)])
  | 13 => some (.leaf [(9, .bt 7 1)])
  | _ => none

/-- the first device -/
def demoDev1 : DevT := ⟨1, ⟨2, 0, 0, 0⟩, 1, (10, [(0, ((12, [(0, .bt 5 0), (1, .bt 6 0)]) : Tree Val 0))])⟩
/-- the second device -/
def demoDev4 : DevT :=
  ⟨4, ⟨3, 1, 1, 1⟩, 1, (11, [(0, ((12, [(0, .bt 5 0), (1, .bt 6 0)]) : Tree Val 0)), (9, ((13, [(9, .bt 7 1)]) : Tree Val 0))])⟩

example : Metadata demoMem 20 1 2 [demoDev1, demoDev4] where
  sorted := by decide
  ids := by intro d hd; simp [demoDev1, demoDev4] at hd; rcases hd with rfl | rfl <;> decide
  top := ⟨0, (1, [(1, .root 10), (4, .root 11)]), ⟨rfl, by simp [Tree.Ordered, BT.Chain, BT.Below], Or.inl rfl,
    by simp [Tree.blocks]⟩, rfl, rfl⟩
  details := ⟨0, (2, [(1, .det ⟨2, 0, 0, 0⟩), (4, .det ⟨3, 1, 1, 1⟩)]), ⟨rfl, by simp [Tree.Ordered, BT.Chain, BT.Below], Or.inl rfl,
    by simp [Tree.blocks]⟩, rfl, rfl⟩
  dev := by
    intro d hd
    simp only [List.mem_cons, List.not_mem_nil, or_false] at hd
    rcases hd with rfl | rfl
    · refine ⟨⟨⟨rfl, ?_⟩, ?_, Or.inr ⟨by simp [demoDev1], ?_⟩, ?_⟩, ?_⟩
      · intro c hc; simp [demoDev1] at hc; subst hc; rfl
      · simp [demoDev1, Tree.Ordered, BT.Chain, BT.Below, BT.nextKey]
      · intro c hc; simp [demoDev1] at hc; subst hc; simp [Tree.NoEmpty]
      · simp [demoDev1, Tree.blocks]
      · simp [demoDev1, Tree.contents]
    · refine ⟨⟨⟨rfl, ?_⟩, ?_, Or.inr ⟨by simp [demoDev4], ?_⟩, ?_⟩, ?_⟩
      · intro c hc; simp [demoDev4] at hc; rcases hc with rfl | rfl <;> rfl
      · simp [demoDev4, Tree.Ordered, BT.Chain, BT.Below, BT.nextKey]
      · intro c hc; simp [demoDev4] at hc; rcases hc with rfl | rfl <;> simp [Tree.NoEmpty]
      · simp [demoDev4, Tree.blocks]
      · simp [demoDev4, Tree.contents]

/-- whether a dump is what is expected -/
def evEq : List (Ev Nat) → List (Ev Nat) → Bool
  | [], [] => true
  | .sbB a :: l, .sbB b :: m => decide (a = b) && evEq l m
  | .sbE :: l, .sbE :: m => evEq l m
  | .defB a :: l, .defB b :: m => decide (a = b) && evEq l m
  | .defE :: l, .defE :: m => evEq l m
  | .devB a :: l, .devB b :: m => decide (a = b) && evEq l m
  | .devE :: l, .devE :: m => evEq l m
  | .map a :: l, .map b :: m => decide (a = b) && evEq l m
  | .ref a :: l, .ref b :: m => decide (a = b) && evEq l m
  | .eof :: l, .eof :: m => evEq l m
  | _, _ => false

example : (match dump demoMem 20 demoSb 1 2 none with
    | none => false
    | some l => evEq l [.sbB demoSb, .defB 12, .map ⟨0, 5, 0, 2⟩, .defE, .devB ⟨1, ⟨2, 0, 0, 0⟩⟩, .ref 12, .devE,
        .devB ⟨4, ⟨3, 1, 1, 1⟩⟩, .ref 12, .map ⟨9, 7, 1, 1⟩, .devE, .sbE, .eof]) = true := by decide

/-- Details are matched with devices by position: if the details tree has another device than the mapping tree, the dump silently
gives a device the details of another one (here device 4 gets those of device 5). -/
def badMem : Nat → Option (Blk Val)
  | 2 => some (.leaf [(1, .det ⟨2, 0, 0, 0⟩), (5, .det ⟨9, 9, 9, 9⟩)])
  | b => demoMem b

theorem dump_details_by_position_refuted :
    BT.lookup (fun _ b => badMem b) 4 5 true 2 = .ok none ∧
    (match dump badMem 20 demoSb 1 2 (some [4]) with
      | none => false
      | some l => evEq l [.sbB demoSb, .devB ⟨4, ⟨9, 9, 9, 9⟩⟩, .map ⟨0, 5, 0, 2⟩, .map ⟨9, 7, 1, 1⟩, .devE, .sbE, .eof]) = true := by
  exact ⟨rfl, by decide⟩

end Verif.TDump
