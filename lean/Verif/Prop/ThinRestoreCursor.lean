import Verif.Prop.Cursor
import Verif.Prop.ThinRestoreNesting

/-!
# The batcher's record of allocations in `thin_restore`

Whatever events arrive, the recorded allocations are a prefix of the device that contains every block in use: references are only ever added to
blocks that were allocated before.
-/

namespace Verif.SMD

open Verif.Bld (St Err NB NIO Summary Item IfOk)

variable {V E : Type}

/-- the record is complete, and the blocks `U` and those of the nodes `ns` are in it -/
structure Rec (n max : Nat) (U : List Nat) (ns : List Summary) (s : St V) : Prop where
  cur : Cursor n max s
  old : ∀ b ∈ U, b ∈ s.allocs
  nodes : ∀ m ∈ ns, m.block ∈ s.allocs

theorem cursor_inc_of_mem {n max : Nat} (hn : n < 2 ^ 64 - 1) {s t : St V} {b : Nat} (h0 : Cursor n max s) (hb : b ∈ s.allocs) (h : Bld.incBlock b s = .ok t) :
    Cursor n max t := by
  obtain ⟨hi, k, hp, hc⟩ := h0
  have hle := hp.le
  have hi2 := inc_cursor s.sm b 1
  by_cases hbn : b < n
  · have hbk : b < k := (hp.mem b hbn).mp hb
    obtain ⟨h1, h2⟩ := SM.Core.inc_spec hi b 1 (by omega)
    unfold Bld.incBlock at h
    generalize s.sm.inc b 1 = r at h h1 h2 hi2
    obtain ⟨sm, o⟩ := r
    simp only at h h1 h2 hi2
    split at h
    · rename_i sm' he
      cases he
      cases h
      refine ⟨h1, k, ⟨hp.le, hp.mem, ?_⟩, ?_⟩
      · intro x hx
        show sm.abs x = 0
        generalize sm.abs = c' at h2
        cases h2 with
        | inc _ _ =>
          simp only [SM.Counts.incd]
          rw [if_neg (by omega)]
          exact hp.free x hx
      · show sm.allocBegin = k ∨ k = n
        rw [hi2]; exact hc
    · cases h
  · have e : s.sm.inc b 1 = (s.sm, .err) ∨ s.sm.inc b 1 = (s.sm, .unit) := by
      unfold SM.Core.inc
      simp only
      rw [hi.len]
      by_cases hc : (b + 1) % 2 ^ 64 > n
      · rw [if_pos hc]; exact .inl rfl
      · rw [if_neg hc]
        have : (b + 1) % 2 ^ 64 - b = 0 := by omega
        rw [this]
        exact .inr rfl
    unfold Bld.incBlock at h
    cases e with
    | inl e => rw [e] at h; cases h
    | inr e => rw [e] at h; cases h; exact ⟨hi, k, hp, hc⟩

section
variable {n max : Nat} {U : List Nat} {ns : List Summary} {s t : St V} {io : NIO V E}

theorem Rec.frame (h : Rec n max U ns s) (h1 : t.sm = s.sm) (h2 : t.allocs = s.allocs) : Rec n max U ns t :=
  ⟨cursor_frame h.cur h1 h2, by rw [h2]; exact h.old, by rw [h2]; exact h.nodes⟩

theorem Rec.sub (h : Rec n max U ns s) {ms : List Summary} (hs : ∀ m ∈ ms, m ∈ ns) : Rec n max U ms s := ⟨h.cur, h.old, fun m hm => h.nodes m (hs m hm)⟩

theorem Rec.more (h : Rec n max U ns s) {ms : List Summary} (hs : ∀ m ∈ ms, m ∈ ns ∨ m.block ∈ U) : Rec n max U ms s :=
  ⟨h.cur, h.old, fun m hm => (hs m hm).elim (h.nodes m) fun h' => h.old _ h'⟩

theorem Rec.alloc (h : Rec n max U ns s) {r : Nat × St V} (e : Bld.alloc s = .ok r) : Rec n max U ns r.2 ∧ r.1 ∈ r.2.allocs := by
  have G := alloc_grow h.cur.1 e
  refine ⟨⟨cursor_alloc h.cur e, ?_, ?_⟩, ?_⟩
  · intro b hb; rw [G.allocs]; simp [h.old b hb]
  · intro b hb; rw [G.allocs]; simp [h.nodes b hb]
  · rw [G.allocs]; simp

theorem Rec.dec (h : Rec n max U ns s) {b : Nat} {r : Bool × St V} (e : Bld.decBlock b s = .ok r) : Rec n max U ns r.2 := by
  have ha : r.2.allocs = s.allocs := by
    unfold Bld.decBlock at e
    split at e
    · cases e; rfl
    · cases e
  exact ⟨cursor_dec h.cur e, by rw [ha]; exact h.old, by rw [ha]; exact h.nodes⟩

theorem Rec.inc (hn : n < 2 ^ 64 - 1) (h : Rec n max U ns s) {b : Nat} (hb : b ∈ s.allocs) (e : Bld.incBlock b s = .ok t) : Rec n max U ns t := by
  have ha : t.allocs = s.allocs := by
    unfold Bld.incBlock at e
    split at e
    · cases e; rfl
    · cases e
  exact ⟨cursor_inc_of_mem hn h.cur hb e, by rw [ha]; exact h.old, by rw [ha]; exact h.nodes⟩

theorem rec_kept (n max : Nat) (U : List Nat) (ns : List Summary) : Kept (V := V) (Rec n max U ns) :=
  ⟨fun h h1 h2 => h.frame h1 h2, fun h e => (h.alloc e).1, fun h e => h.dec e⟩

/-- a builder and the device -/
abbrev RecB (n max : Nat) (U : List Nat) (a : NB E × St V) : Prop := Rec n max U a.1.nodes a.2

theorem emitValues_rec {k : Nat} {nb : NB E} (h : Rec n max U nb.nodes s) : IfOk (Bld.emitValues io k nb s) (RecB n max U) := by
  refine .ite (fun _ => ?_) (fun _ => .err)
  refine IfOk.bind (Q := fun a : Nat × St V => Rec n max U nb.nodes a.2 ∧ a.1 ∈ a.2.allocs) ?_ fun a ha => .ok ?_
  · exact IfOk.bind (Q := fun a : Nat × St V => Rec n max U nb.nodes a.2 ∧ a.1 ∈ a.2.allocs) (fun a ha => h.alloc ha) fun a ha => .ok ⟨ha.1.frame rfl rfl, ha.2⟩
  · refine ⟨ha.1.cur, ha.1.old, ?_⟩
    intro m hm
    rcases List.mem_append.mp hm with hm | hm
    · exact ha.1.nodes m hm
    · rw [List.mem_singleton.mp hm]; exact ha.2

theorem emitAll_rec {nb : NB E} (h : Rec n max U nb.nodes s) : IfOk (Bld.emitAll io nb s) (RecB n max U) := by
  unfold Bld.emitAll
  refine .ite (fun _ => .ok h) fun _ => .ite (fun _ => emitValues_rec h) fun _ => .ite (fun _ => ?_) fun _ => .err
  exact (emitValues_rec h).bind fun a ha => emitValues_rec ha

theorem unshiftNode_rec {nb : NB E} (h : Rec n max U nb.nodes s) : IfOk (Bld.unshiftNode io nb s) (RecB n max U) := by
  intro a ha
  have hk := unshiftNode_kept (rec_kept n max U nb.nodes) (io := io) (nb := nb) h a ha
  refine hk.sub ?_
  unfold Bld.unshiftNode at ha
  split at ha
  · cases ha
  · have := IfOk.bind (Q := fun _ => True) (S := fun a : NB E × St V => a.1.nodes = nb.nodes.dropLast) (x := Bld.readNode io _ s) (fun _ _ => trivial) (fun es _ =>
      IfOk.bind (Q := fun _ => True) (fun _ _ => trivial) fun r _ => by
        split
        · exact IfOk.bind (Q := fun _ => True) (fun _ _ => trivial) fun s _ => .ok rfl
        · exact IfOk.bind (Q := fun _ => True) (fun _ _ => trivial) fun s _ => .ok rfl) a ha
    intro m hm
    rw [this] at hm
    exact List.dropLast_subset _ hm

theorem pushValue_rec {k : Nat} {v : E} {nb : NB E} (h : Rec n max U nb.nodes s) : IfOk (Bld.pushValue io k v nb s) (RecB n max U) := by
  unfold Bld.pushValue
  refine IfOk.bind (Q := RecB n max U) ?_ fun a ha => ?_
  · exact .ite (fun _ => unshiftNode_rec h) fun _ => .ite (fun _ => emitValues_rec h) fun _ => .ok h
  · refine IfOk.bind (Q := fun nb : NB E => nb.nodes = a.1.nodes) ?_ fun nb' hnb => ?_
    · unfold Bld.checkKey
      split
      · exact .ite (fun _ => .err) fun _ => .ok rfl
      · exact .ok rfl
    · refine IfOk.bind (Q := fun s => Rec n max U nb'.nodes s) (fun s hs => ?_) fun s hs => .ok hs
      obtain ⟨h1, h2⟩ := incValue_sm hs
      rw [hnb]
      exact Rec.frame ha h1 h2

theorem incAll_rec {es : List (Nat × E)} (h : Rec n max U ns s) : IfOk (Bld.incAll io es s) (Rec n max U ns) := incAll_kept (rec_kept n max U ns) es s h

theorem appendValues_rec {m : Summary} {nb : NB E} (h : Rec n max U nb.nodes s) : IfOk (Bld.appendValues io m nb s) (RecB n max U) :=
  IfOk.bind (Q := fun _ => True) (fun _ _ => trivial) fun _ _ => (incAll_rec h).bind fun _ ha => .ok ha

theorem addNodes_rec (hn : n < 2 ^ 64 - 1) : ∀ (ms : List Summary) (nb : NB E) (s : St V), (∀ m ∈ ms, m.block ∈ U) → Rec n max U nb.nodes s →
    IfOk (Bld.addNodes ms nb s) (RecB n max U) := by
  intro ms
  induction ms with
  | nil => intro nb s _ h; exact .ok h
  | cons m ms ih =>
    intro nb s hm h
    refine IfOk.bind (Q := fun s => Rec n max U nb.nodes s) (fun t ht => h.inc hn (h.old _ (hm m (by simp))) ht) fun s hs => ?_
    refine ih _ s (fun x hx => hm x (by simp [hx])) (hs.more ?_)
    intro x hx
    rcases List.mem_append.mp hx with hx | hx
    · exact Or.inl hx
    · rw [List.mem_singleton.mp hx]; exact Or.inr (hm m (by simp))

theorem pushNodes_rec (hn : n < 2 ^ 64 - 1) {m : Summary} {ms : List Summary} {nb : NB E} (hm : ∀ q ∈ m :: ms, q.block ∈ U) (h : Rec n max U nb.nodes s) :
    IfOk (Bld.pushNodes io m ms nb s) (RecB n max U) := by
  unfold Bld.pushNodes
  refine .ite (fun _ => ?_) fun _ => .ite (fun _ => .err) fun _ => ?_
  · refine IfOk.bind (Q := fun s => Rec n max U nb.nodes s) (fun t ht => h.inc hn (h.old _ (hm m (by simp))) ht) fun s hs => .ok (hs.more ?_)
    intro x hx
    rw [List.mem_singleton.mp hx]
    exact Or.inr (hm m (by simp))
  · refine IfOk.bind (Q := fun _ => True) (fun _ _ => trivial) fun _ _ => ?_
    refine IfOk.bind (Q := RecB n max U) (.ite (fun _ => unshiftNode_rec h) fun _ => .ok h) fun a ha => ?_
    refine IfOk.bind (Q := RecB n max U) ?_ fun b hb => .ok hb
    refine .ite (fun _ => ?_) fun _ => ?_
    · refine (appendValues_rec ha).bind fun b hb => .ite (fun _ => .ok hb) fun _ => ?_
      exact (emitAll_rec hb).bind fun c hc => addNodes_rec hn ms _ _ (fun x hx => hm x (by simp [hx])) hc
    · refine (emitAll_rec ha).bind fun c hc => .ite (fun _ => appendValues_rec hc) fun _ => addNodes_rec hn _ _ _ hm hc

theorem complete_rec {nb : NB E} (h : Rec n max U nb.nodes s) : IfOk (Bld.complete io nb s) (fun a => Rec n max U a.1 a.2) := by
  unfold Bld.complete
  refine IfOk.bind (Q := RecB n max U) (.ite (fun _ => unshiftNode_rec h) fun _ => .ok h) fun a ha => ?_
  refine (emitAll_rec ha).bind fun b hb => ?_
  exact IfOk.bind (Q := RecB n max U) (.ite (fun _ => emitValues_rec hb) fun _ => .ok hb) fun c hc => .ok hc

theorem releaseLeaves_kept {P : St V → Prop} (hk : Kept P) {io : NIO V V} : ∀ (ms : List Summary) (s : St V), P s → IfOk (Bld.releaseLeaves io ms s) P := by
  intro ms
  induction ms with
  | nil => intro s h; exact .ok h
  | cons m ms ih =>
    intro s h
    refine IfOk.bind (Q := fun a : Bool × St V => P a.2) (fun a ha => hk.dec h ha) fun a ha => ?_
    refine .ite (fun _ => ?_) fun _ => ih _ ha
    exact IfOk.bind (Q := fun _ => True) (fun _ _ => trivial) fun es _ => IfOk.bind (Q := fun _ => True) (fun _ _ => trivial) fun l _ => ih _ (hk.frame ha rfl rfl)

end

end Verif.SMD

namespace Verif.Rst

open Verif.Bld (IfOk St NB Summary Item)
open Verif.SMD (Cursor Rec RecB Kept)

variable {N : Type} [DecidableEq N]

/-- blocks of the definitions -/
def defBlocks (r : R N) : List Nat := r.subs.flatMap fun p => p.2.map (·.block)

/-- the record is complete, and every node that may be referenced again is in it -/
def Hist (n max : Nat) (r : R N) : Prop := Rec n max (defBlocks r) (match r.cur with | some (_, nb) => nb.nodes | none => []) r.st

theorem IfOk.lift {α : Type} {x : Except Bld.Err α} {Q : α → Prop} (h : IfOk x Q) : IfOk (lift x) Q := by
  cases x with
  | error e => intro a ha; cases ha
  | ok a => intro b hb; cases hb; exact h a rfl

theorem insertName_mem {α : Type} {k : N} {v : α} {l : List (N × α)} {p : N × α} (h : p ∈ insertName k v l) : p = (k, v) ∨ p ∈ l := by
  induction l with
  | nil => exact Or.inl (by simpa [insertName] using h)
  | cons q l ih =>
    unfold insertName at h
    split at h
    · rcases List.mem_cons.mp h with h | h
      · exact Or.inl h
      · exact Or.inr (by simp [h])
    · rcases List.mem_cons.mp h with h | h
      · exact Or.inr (by simp [h])
      · exact (ih h).imp id fun h => by simp [h]

theorem pushRun_rec {n max : Nat} {U : List Nat} {nrData : Nat} (q : Dump.Run) : ∀ (k i : Nat) (nb : NB Val) (s : St Val), Rec n max U nb.nodes s →
    IfOk (pushRun nrData q k i nb s) (RecB n max U) := by
  intro k
  induction k with
  | zero => intro i nb s h; exact .ok h
  | succ k ih => intro i nb s h; exact (SMD.pushValue_rec h).bind fun a ha => ih (i + 1) a.1 a.2 ha

omit [DecidableEq N] in
theorem endSection_hist {n max : Nat} {r : R N} (h : Hist n max r) : IfOk (endSection r) (fun x => Rec n max (defBlocks x.2.2) x.2.1 x.2.2.st ∧ x.2.2.cur = none) := by
  unfold endSection
  unfold Hist at h
  split
  · exact .err
  · rename_i m nb e
    rw [e] at h
    refine (IfOk.lift (SMD.complete_rec h)).bind fun a ha => .ok ⟨ha, rfl⟩

theorem step_hist {n max : Nat} (hn : n < 2 ^ 64 - 1) {r : R N} (h : Hist n max r) (e : Ev N) : IfOk (step e r) (Hist n max) := by
  cases e with
  | sbB sb =>
    simp only [step]
    refine .ite (fun _ => .err) fun _ => .ite (fun _ => .err) fun _ => ?_
    exact (IfOk.lift (fun a ha => (Rec.alloc h ha).1)).bind fun a ha => .ite (fun _ => .err) fun _ => .ok ha
  | sbE =>
    simp only [step]
    unfold finalize
    split
    · exact .err
    · have hk := SMD.rec_kept (V := Val) n max (defBlocks r) (match r.cur with | some (_, nb) => nb.nodes | none => [])
      refine IfOk.bind (Q := fun b : Nat × Nat × R N => Hist n max b.2.2) ?_ fun b hb => ?_
      · unfold buildDetails
        refine (IfOk.lift (SMD.buildVals_kept hk (fun i hi => by obtain ⟨p, -, rfl⟩ := List.mem_map.mp hi; exact ⟨_, _, rfl⟩) h)).bind fun a ha => ?_
        refine (IfOk.lift (SMD.buildVals_kept hk (fun i hi => by obtain ⟨p, -, rfl⟩ := List.mem_map.mp hi; exact ⟨_, _, rfl⟩) ha)).bind fun b hb => .ok hb
      · refine (IfOk.lift (SMD.releaseLeaves_kept (SMD.rec_kept n max (defBlocks b.2.2) _) _ _ hb)).bind fun s hs => .ok hs
  | defB name =>
    simp only [step]
    refine .ite (fun _ => .err) fun _ => ?_
    unfold beginSection
    split
    · exact .err
    · exact .ok (Rec.sub h (fun m hm => by cases hm))
  | defE =>
    simp only [step]
    refine (endSection_hist h).bind fun x hx => ?_
    split
    · refine .ok ⟨hx.1.cur, ?_, ?_⟩
      · intro b hb
        obtain ⟨p, hp, hb⟩ := List.mem_flatMap.mp hb
        obtain ⟨m, hm, rfl⟩ := List.mem_map.mp hb
        rcases insertName_mem hp with rfl | hp
        · exact hx.1.nodes m hm
        · exact hx.1.old _ (List.mem_flatMap.mpr ⟨p, hp, List.mem_map.mpr ⟨m, hm, rfl⟩⟩)
      · simp only [hx.2]
        intro m hm
        cases hm
    · exact .err
  | devB d =>
    simp only [step]
    refine .ite (fun _ => .err) fun _ => ?_
    unfold beginSection
    split
    · exact .err
    · exact .ok (Rec.sub h (fun m hm => by cases hm))
  | devE =>
    simp only [step]
    split
    · exact .err
    · refine (endSection_hist (r := { r with dev := none }) h).bind fun x hx => ?_
      split
      · exact .err
      · refine (IfOk.lift (SMD.buildTree_kept (SMD.rec_kept n max _ _) (hx.1.sub (ms := []) fun m hm => by cases hm))).bind fun t ht => .ok ?_
        unfold Hist
        simp only [hx.2]
        exact ht
  | map q =>
    simp only [step]
    unfold Hist at h
    split
    · exact .err
    · rename_i m nb e
      rw [e] at h
      exact (IfOk.lift (pushRun_rec q _ _ _ _ h)).bind fun a ha => .ok ha
  | ref name =>
    simp only [step]
    split
    · exact .err
    · split
      · exact .err
      · rename_i leaves hl
        unfold Hist at h
        split
        · exact .err
        · rename_i m nb e
          rw [e] at h
          split
          · exact .err
          · rename_i q qs
            refine (IfOk.lift (SMD.pushNodes_rec hn (U := defBlocks r) ?_ h)).bind fun a ha => .ok ha
            intro x hx
            unfold lookupName at hl
            obtain ⟨p, hp, hq⟩ := Option.map_eq_some_iff.mp hl
            exact List.mem_flatMap.mpr ⟨p, List.mem_of_find?_eq_some hp, by rw [hq]; exact List.mem_map.mpr ⟨x, hx, rfl⟩⟩
  | eof =>
    simp only [step]
    exact .ite (fun _ => .err) fun _ => .ok h

/-- whatever a restore is given, the record of allocations is complete -/
theorem run_hist {n max : Nat} (hn : n < 2 ^ 64 - 1) : ∀ (evs : List (Ev N)) (r : R N), Hist n max r → IfOk (run evs r) (Hist n max) := by
  intro evs
  induction evs with
  | nil => intro r h; exact .ok h
  | cons e evs ih => intro r h; exact (step_hist hn h e).bind fun a ha => ih a ha

theorem run_cursor {n max : Nat} (hn : n < 2 ^ 64 - 1) (hm : 1 ≤ max) (mem : Nat → Option (BT.Blk Val)) (evs : List (Ev N)) :
    IfOk (run evs (R.new N ⟨mem, SM.Core.new max n, [], []⟩)) (fun r => Cursor n max r.st) :=
  (run_hist hn evs _ ⟨SMD.cursor_new hm rfl rfl, fun b hb => by simp [defBlocks, R.new] at hb, fun m hm => by cases hm⟩).mono fun _ h => h.cur

end Verif.Rst
