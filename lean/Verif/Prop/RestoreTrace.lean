import Verif.Prop.ThinRestoreCursor
import Verif.Prop.RestoreIo

/-!
# The calls behind a restore

The builders, space map writers and the restorer of the models change their device only by allocating a block, storing into
a block they allocated, and counting references of blocks they allocated.  This file names those steps (`Tr`) and follows
the functions of `Model/Builder.lean`.
-/

namespace Verif.RTr

open Verif.Bld (St Err NB NIO Summary Item IfOk)
open Verif.BT (Blk)

variable {C V E : Type}

/-- space map, blocks handed out so far, and what was last stored in each block -/
structure A (C : Type) where
  sm : SM.Core
  held : List Nat
  mem : Nat → Option C

/-- store `c` in block `b` -/
def A.put (a : A C) (b : Nat) (c : C) : A C := { a with mem := fun x => if x = b then some c else a.mem x }

/-- one step -/
inductive Stp : A C → A C → Prop where
  | alloc {a : A C} {sm b} : a.sm.alloc = (sm, .block (some b)) → Stp a { sm := sm, held := a.held ++ [b], mem := a.mem }
  | put {a : A C} {b : Nat} (c : C) : b ∈ a.held → Stp a (a.put b c)
  | inc {a : A C} {b sm} : b ∈ a.held → a.sm.inc b 1 = (sm, .unit) → Stp a { a with sm := sm }
  | dec {a : A C} {b sm d} : b ∈ a.held → a.sm.dec b = (sm, .bool d) → Stp a { a with sm := sm }

/-- any number of steps -/
inductive Tr : A C → A C → Prop where
  | refl (a : A C) : Tr a a
  | snoc {a b c : A C} : Tr a b → Stp b c → Tr a c

theorem Tr.trans {a b c : A C} (h : Tr a b) (h2 : Tr b c) : Tr a c := by
  induction h2 with
  | refl => exact h
  | snoc _ s ih => exact ih.snoc s

theorem Stp.held {a b : A C} (h : Stp a b) : ∀ x ∈ a.held, x ∈ b.held := by
  cases h with
  | alloc _ => intro x hx; exact List.mem_append_left _ hx
  | put _ _ => exact fun _ h => h
  | inc _ _ => exact fun _ h => h
  | dec _ _ => exact fun _ h => h

theorem Tr.held {a b : A C} (h : Tr a b) : ∀ x ∈ a.held, x ∈ b.held := by
  induction h with
  | refl => exact fun _ h => h
  | snoc _ s ih => exact fun x hx => s.held x (ih x hx)

/-- how the memory of a builder shows in the memory of the device: block by block -/
structure View (C V : Type) where
  node : Blk V → C
  rel : Nat → Option C → Option (Blk V) → Prop
  new : ∀ b n, rel b (some (node n)) (some n)

/-- the builder state `s` was reached from `a0`; the blocks `U` and those of the nodes `ns` are its own -/
def Own (w : View C V) (a0 : A C) (U : List Nat) (ns : List Summary) (s : St V) : Prop :=
  ∃ a, Tr a0 a ∧ a.sm = s.sm ∧ (∀ b, w.rel b (a.mem b) (s.mem b)) ∧ (∀ b ∈ U, b ∈ a.held) ∧ ∀ m ∈ ns, m.block ∈ a.held

section
variable {w : View C V} {a0 : A C} {U : List Nat} {ns : List Summary} {s t : St V} {io : NIO V E}

theorem Own.frame (h : Own w a0 U ns s) (h1 : t.sm = s.sm) (h2 : t.mem = s.mem) : Own w a0 U ns t := by
  obtain ⟨a, tr, e, m, u, v⟩ := h
  exact ⟨a, tr, by rw [h1]; exact e, by rw [h2]; exact m, u, v⟩

theorem Own.sub (h : Own w a0 U ns s) {ms : List Summary} (hs : ∀ m ∈ ms, m ∈ ns) : Own w a0 U ms s := by
  obtain ⟨a, tr, e, m, u, v⟩ := h
  exact ⟨a, tr, e, m, u, fun m hm => v m (hs m hm)⟩

theorem Own.more (h : Own w a0 U ns s) {ms : List Summary} (hs : ∀ m ∈ ms, m ∈ ns ∨ m.block ∈ U) : Own w a0 U ms s := by
  obtain ⟨a, tr, e, m, u, v⟩ := h
  exact ⟨a, tr, e, m, u, fun m hm => (hs m hm).elim (v m) fun h' => u _ h'⟩

theorem Own.alloc (h : Own w a0 U ns s) {r : Nat × St V} (e : Bld.alloc s = .ok r) : Own w a0 (U ++ [r.1]) ns r.2 := by
  obtain ⟨a, tr, e1, m, u, v⟩ := h
  unfold Bld.alloc at e
  split at e
  · rename_i sm b hb
    cases e
    refine ⟨_, tr.snoc (.alloc (by rw [e1]; exact hb)), rfl, m, ?_, ?_⟩
    · intro x hx
      rcases List.mem_append.mp hx with hx | hx
      · exact List.mem_append_left _ (u x hx)
      · exact List.mem_append_right _ hx
    · intro x hx
      exact List.mem_append_left _ (v x hx)
  · cases e

theorem Own.dec (h : Own w a0 U ns s) {b : Nat} (hb : b ∈ U ∨ ∃ m ∈ ns, m.block = b) {r : Bool × St V} (e : Bld.decBlock b s = .ok r) : Own w a0 U ns r.2 := by
  obtain ⟨a, tr, e1, m, u, v⟩ := h
  have hb' : b ∈ a.held := hb.elim (u b) fun ⟨m, hm, e⟩ => e ▸ v m hm
  unfold Bld.decBlock at e
  split at e
  · rename_i sm d he
    cases e
    exact ⟨_, tr.snoc (.dec hb' (by rw [e1]; exact he)), rfl, m, u, v⟩
  · cases e

theorem Own.inc (h : Own w a0 U ns s) {b : Nat} (hb : b ∈ U) (e : Bld.incBlock b s = .ok t) : Own w a0 U ns t := by
  obtain ⟨a, tr, e1, m, u, v⟩ := h
  unfold Bld.incBlock at e
  split at e
  · rename_i sm he
    cases e
    exact ⟨_, tr.snoc (.inc (u b hb) (by rw [e1]; exact he)), rfl, m, u, v⟩
  · cases e

theorem Own.weak (h : Own w a0 U ns s) {U' : List Nat} (hs : ∀ b ∈ U', b ∈ U) : Own w a0 U' ns s := by
  obtain ⟨a, tr, e, m, u, v⟩ := h
  exact ⟨a, tr, e, m, fun b hb => u b (hs b hb), v⟩

/-- a builder and the device -/
abbrev OwnB (w : View C V) (a0 : A C) (U : List Nat) (a : NB E × St V) : Prop := Own w a0 U a.1.nodes a.2

theorem writeNode_own {es : List (Nat × E)} (h : Own w a0 U ns s) : IfOk (Bld.writeNode io es s) (fun a => Own w a0 (U ++ [a.1]) ns a.2) := by
  refine IfOk.bind (Q := fun a : Nat × St V => Own w a0 (U ++ [a.1]) ns a.2) (fun a ha => h.alloc ha) fun r hr => .ok ?_
  obtain ⟨a, tr, e1, m, u, v⟩ := hr
  refine ⟨_, tr.snoc (.put (b := r.1) (w.node (io.pack es)) (u r.1 (by simp))), e1, ?_, u, v⟩
  intro b
  simp only [A.put]
  by_cases hb : b = r.1
  · rw [if_pos hb, if_pos hb]; exact w.new _ _
  · rw [if_neg hb, if_neg hb]; exact m b

theorem emitValues_own {k : Nat} {nb : NB E} (h : Own w a0 U nb.nodes s) : IfOk (Bld.emitValues io k nb s) (OwnB w a0 U) := by
  refine .ite (fun _ => ?_) (fun _ => .err)
  refine (writeNode_own h).bind fun r hr => .ok ?_
  obtain ⟨a, tr, e1, m, u, v⟩ := hr
  refine ⟨a, tr, e1, m, fun b hb => u b (by simp [hb]), ?_⟩
  intro x hx
  rcases List.mem_append.mp hx with hx | hx
  · exact v x hx
  · rw [List.mem_singleton.mp hx]; exact u _ (by simp)

theorem emitAll_own {nb : NB E} (h : Own w a0 U nb.nodes s) : IfOk (Bld.emitAll io nb s) (OwnB w a0 U) := by
  unfold Bld.emitAll
  refine .ite (fun _ => .ok h) fun _ => .ite (fun _ => emitValues_own h) fun _ => .ite (fun _ => ?_) fun _ => .err
  exact (emitValues_own h).bind fun a ha => emitValues_own ha

theorem incValue_own {v : E} (h : Own w a0 U ns s) : IfOk (Bld.incValue io v s) (Own w a0 U ns) := by
  unfold Bld.incValue
  exact .ite (fun _ => .ok (h.frame rfl rfl)) fun _ => .err

theorem incAll_own : ∀ (es : List (Nat × E)) (s : St V), Own w a0 U ns s → IfOk (Bld.incAll io es s) (Own w a0 U ns) := by
  intro es
  induction es with
  | nil => intro s h; exact .ok h
  | cons e es ih => intro s h; exact (incValue_own h).bind fun a ha => ih a ha

theorem unshiftNode_own {nb : NB E} (h : Own w a0 U nb.nodes s) : IfOk (Bld.unshiftNode io nb s) (OwnB w a0 U) := by
  unfold Bld.unshiftNode
  split
  · exact .err
  · rename_i ls hls
    have hm : ls ∈ nb.nodes := List.mem_of_getLast? hls
    refine IfOk.bind (Q := fun _ => True) (fun _ _ => trivial) fun es _ => ?_
    refine IfOk.bind (Q := fun a : Bool × St V => Own w a0 U nb.nodes a.2) (fun _ ha => h.dec (Or.inr ⟨ls, hm, rfl⟩) ha) fun a ha => ?_
    have hs : ∀ x : St V, Own w a0 U nb.nodes x → OwnB (E := E) w a0 U ({ nb with nodes := nb.nodes.dropLast, values := es ++ nb.values }, x) :=
      fun x hx => hx.sub fun m hm => List.dropLast_subset _ hm
    refine .ite (fun _ => ?_) (fun _ => .ok (hs _ ha))
    exact IfOk.bind (incAll_own es a.2 ha) fun b hb => .ok (hs _ hb)

theorem checkKey_nodes {k : Nat} {nb : NB E} : IfOk (Bld.checkKey k nb) (fun nb' => nb'.nodes = nb.nodes) := by
  unfold Bld.checkKey
  split
  · exact .ite (fun _ => .err) fun _ => .ok rfl
  · exact .ok rfl

theorem pushValue_own {k : Nat} {v : E} {nb : NB E} (h : Own w a0 U nb.nodes s) : IfOk (Bld.pushValue io k v nb s) (OwnB w a0 U) := by
  unfold Bld.pushValue
  refine IfOk.bind (Q := OwnB w a0 U) ?_ fun a ha => ?_
  · exact .ite (fun _ => unshiftNode_own h) fun _ => .ite (fun _ => emitValues_own h) fun _ => .ok h
  · refine checkKey_nodes.bind fun nb' hnb => ?_
    refine (incValue_own (ns := nb'.nodes) (by rw [hnb]; exact ha)).bind fun s hs => .ok hs

theorem appendValues_own {m : Summary} {nb : NB E} (h : Own w a0 U nb.nodes s) : IfOk (Bld.appendValues io m nb s) (OwnB w a0 U) :=
  IfOk.bind (Q := fun _ => True) (fun _ _ => trivial) fun es _ => (incAll_own es s h).bind fun _ ha => .ok ha

theorem addNodes_own : ∀ (ms : List Summary) (nb : NB E) (s : St V), (∀ m ∈ ms, m.block ∈ U) → Own w a0 U nb.nodes s →
    IfOk (Bld.addNodes ms nb s) (OwnB w a0 U) := by
  intro ms
  induction ms with
  | nil => intro nb s _ h; exact .ok h
  | cons m ms ih =>
    intro nb s hm h
    refine IfOk.bind (Q := fun s => Own w a0 U nb.nodes s) (fun t ht => h.inc (hm m (by simp)) ht) fun s hs => ?_
    refine ih _ s (fun x hx => hm x (by simp [hx])) (hs.more ?_)
    intro x hx
    rcases List.mem_append.mp hx with hx | hx
    · exact Or.inl hx
    · rw [List.mem_singleton.mp hx]; exact Or.inr (hm m (by simp))

theorem pushNodes_own {m : Summary} {ms : List Summary} {nb : NB E} (hm : ∀ q ∈ m :: ms, q.block ∈ U) (h : Own w a0 U nb.nodes s) :
    IfOk (Bld.pushNodes io m ms nb s) (OwnB w a0 U) := by
  unfold Bld.pushNodes
  refine .ite (fun _ => ?_) fun _ => .ite (fun _ => .err) fun _ => ?_
  · refine IfOk.bind (Q := fun s => Own w a0 U nb.nodes s) (fun t ht => h.inc (hm m (by simp)) ht) fun s hs => .ok (hs.more ?_)
    intro x hx
    rw [List.mem_singleton.mp hx]
    exact Or.inr (hm m (by simp))
  · refine IfOk.bind (Q := fun _ => True) (fun _ _ => trivial) fun _ _ => ?_
    refine IfOk.bind (Q := OwnB w a0 U) (.ite (fun _ => unshiftNode_own h) fun _ => .ok h) fun a ha => ?_
    refine IfOk.bind (Q := OwnB w a0 U) ?_ fun b hb => .ok hb
    refine .ite (fun _ => ?_) fun _ => ?_
    · refine (appendValues_own ha).bind fun b hb => .ite (fun _ => .ok hb) fun _ => ?_
      exact (emitAll_own hb).bind fun c hc => addNodes_own ms _ _ (fun x hx => hm x (by simp [hx])) hc
    · refine (emitAll_own ha).bind fun c hc => .ite (fun _ => appendValues_own hc) fun _ => addNodes_own _ _ _ hm hc

theorem complete_own {nb : NB E} (h : Own w a0 U nb.nodes s) : IfOk (Bld.complete io nb s) (fun a => Own w a0 U a.1 a.2) := by
  unfold Bld.complete
  refine IfOk.bind (Q := OwnB w a0 U) (.ite (fun _ => unshiftNode_own h) fun _ => .ok h) fun a ha => ?_
  refine (emitAll_own ha).bind fun b hb => ?_
  exact IfOk.bind (Q := OwnB w a0 U) (.ite (fun _ => emitValues_own hb) fun _ => .ok hb) fun c hc => .ok hc

theorem pushAll_own : ∀ (es : List (Nat × E)) (nb : NB E) (s : St V), Own w a0 U nb.nodes s → IfOk (Bld.pushAll io es nb s) (OwnB w a0 U) := by
  intro es
  induction es with
  | nil => intro nb s h; exact .ok h
  | cons e es ih => intro nb s h; exact (pushValue_own h).bind fun a ha => ih a.1 a.2 ha

theorem Own.nil (h : Own w a0 U ns s) : Own w a0 U [] s := h.sub fun _ hm => by cases hm

theorem buildLayer_own {capI : Nat} {nodes : List Summary} (h : Own w a0 U ns s) : IfOk (Bld.buildLayer capI nodes s) (fun a => Own w a0 U [] a.2) :=
  (pushAll_own _ (NB.new capI false) _ h.nil).bind fun _ ha => (complete_own ha).mono fun _ h => h.nil

theorem buildLoop_own {capI : Nat} : ∀ (fuel : Nat) (nodes : List Summary) (s : St V), Own w a0 U [] s →
    IfOk (Bld.buildLoop capI fuel nodes s) (fun a => Own w a0 U [] a.2) := by
  intro fuel
  induction fuel with
  | zero =>
    intro nodes s h
    match nodes with
    | [] => exact .err
    | [n] => exact .ok h
    | _ :: _ :: _ => exact .err
  | succ fuel ih =>
    intro nodes s h
    match nodes with
    | [] => exact .err
    | [n] => exact .ok h
    | a :: b :: l => exact (buildLayer_own h).bind fun r hr => ih r.1 r.2 hr

theorem buildTree_own {capI : Nat} {nodes : List Summary} (h : Own w a0 U ns s) : IfOk (Bld.buildTree capI nodes s) (fun a => Own w a0 U [] a.2) :=
  buildLoop_own _ _ _ h.nil

/-- building a tree from values -/
theorem buildVals_own {io : NIO V V} {capL capI : Nat} {items : List (Item V)} (hv : ∀ i ∈ items, ∃ k v, i = .val k v)
    (h : Own w a0 U ns s) : IfOk (Bld.build io capL capI items s) (fun a => Own w a0 U [] a.2) := by
  have hp : ∀ (items : List (Item V)) (nb : NB V) (s : St V), (∀ i ∈ items, ∃ k v, i = .val k v) → Own w a0 U nb.nodes s → IfOk (Bld.pushItems io items nb s) (OwnB w a0 U) := by
    intro items
    induction items with
    | nil => intro nb s _ h; exact .ok h
    | cons i is ih =>
      intro nb s hv h
      obtain ⟨k, v, rfl⟩ := hv i (by simp)
      exact IfOk.bind (x := Bld.pushValue io k v nb s) (pushValue_own h) fun a ha => ih a.1 a.2 (fun i hi => hv i (by simp [hi])) ha
  refine IfOk.bind (x := Bld.buildLeaves io capL false items s) (Q := fun a : List Summary × St V => Own w a0 U a.1 a.2) ?_ fun a ha => buildTree_own ha
  exact (hp items (NB.new capL false) s hv h.nil).bind fun a ha => complete_own ha

theorem releaseLeaves_own {io : NIO V V} : ∀ (ms : List Summary) (s : St V), (∀ m ∈ ms, m.block ∈ U) → Own w a0 U ns s → IfOk (Bld.releaseLeaves io ms s) (Own w a0 U ns) := by
  intro ms
  induction ms with
  | nil => intro s _ h; exact .ok h
  | cons m ms ih =>
    intro s hm h
    refine IfOk.bind (Q := fun a : Bool × St V => Own w a0 U ns a.2) (fun a ha => h.dec (Or.inl (hm m (by simp))) ha) fun a ha => ?_
    refine .ite (fun _ => ?_) fun _ => ih _ (fun x hx => hm x (by simp [hx])) ha
    exact IfOk.bind (Q := fun _ => True) (fun _ _ => trivial) fun es _ => IfOk.bind (Q := fun _ => True) (fun _ _ => trivial) fun l _ =>
      ih _ (fun x hx => hm x (by simp [hx])) (ha.frame rfl rfl)

end

end Verif.RTr
