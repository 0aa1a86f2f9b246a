import Verif.Prop.SpaceMapGrow

/-!
# The batcher's record of allocations

`write_metadata_sm` counts exactly the blocks that the batcher recorded.  On a device that the tools create, blocks are allocated from the
start of the device on, so the recorded blocks are a prefix of the device that contains every block in use.  This holds through all that the
builders do.
-/

namespace Verif.Bld

/-- about the result, if there is one -/
def IfOk {ε α : Type} (x : Except ε α) (Q : α → Prop) : Prop := ∀ a, x = .ok a → Q a

theorem IfOk.bind {ε α β : Type} {x : Except ε α} {f : α → Except ε β} {Q : α → Prop} {S : β → Prop} (h : IfOk x Q) (hf : ∀ a, Q a → IfOk (f a) S) :
    IfOk (x >>= f) S := by
  cases x with
  | error e => intro b hb; cases hb
  | ok a => exact hf a (h a rfl)

theorem IfOk.ok {ε α : Type} {Q : α → Prop} {a : α} (h : Q a) : IfOk (.ok a : Except ε α) Q := by
  intro b hb; cases hb; exact h

theorem IfOk.err {ε α : Type} {Q : α → Prop} {e : ε} : IfOk (.error e : Except ε α) Q := by
  intro b hb; cases hb

theorem IfOk.ite {ε α : Type} {Q : α → Prop} {c : Prop} [Decidable c] {x y : Except ε α} (h1 : c → IfOk x Q) (h2 : ¬ c → IfOk y Q) :
    IfOk (if c then x else y) Q := by
  by_cases h : c
  · rw [if_pos h]; exact h1 h
  · rw [if_neg h]; exact h2 h

theorem IfOk.mono {ε α : Type} {x : Except ε α} {Q S : α → Prop} (h : IfOk x Q) (hf : ∀ a, Q a → S a) : IfOk x S := fun a ha => hf a (h a ha)

end Verif.Bld

namespace Verif.SMD

open Verif.Bld (St Err NB NIO Summary Item IfOk)

variable {V E : Type}

/-- the recorded allocations are the first `k` blocks of the device, and nothing else is in use -/
structure Prefix (n k : Nat) (s : St V) : Prop where
  le : k ≤ n
  mem : ∀ b, b < n → (b ∈ s.allocs ↔ b < k)
  free : ∀ b, k ≤ b → s.sm.abs b = 0

/-- the record is complete, and the search for a free block starts after the last one or the device was once full -/
def Cursor (n max : Nat) (s : St V) : Prop := s.sm.Inv n max ∧ ∃ k, Prefix n k s ∧ (s.sm.allocBegin = k ∨ k = n)

theorem cursor_frame {W : Type} {n max : Nat} {s : St V} {t : St W} (h : Cursor n max s) (h1 : t.sm = s.sm) (h2 : t.allocs = s.allocs) : Cursor n max t := by
  obtain ⟨hi, k, hp, hc⟩ := h
  exact ⟨by rw [h1]; exact hi, k, ⟨hp.le, by rw [h2]; exact hp.mem, by rw [h1]; exact hp.free⟩, by rw [h1]; exact hc⟩

theorem cursor_new {n max : Nat} (hm : 1 ≤ max) {s : St V} (h1 : s.sm = SM.Core.new max n) (h2 : s.allocs = []) : Cursor n max s := by
  refine ⟨by rw [h1]; exact SM.Core.new_inv n max hm, 0, ⟨Nat.zero_le _, by simp [h2], ?_⟩, .inl (by rw [h1]; rfl)⟩
  intro b _
  rw [h1]
  simp only [SM.Core.abs, SM.Core.new, List.getD_eq_getElem?_getD, List.getElem?_replicate]
  split <;> rfl

theorem alloc_at_cursor {n max : Nat} {s : St V} (hi : s.sm.Inv n max) (hk : s.sm.allocBegin < n) (h0 : s.sm.abs s.sm.allocBegin = 0)
    {r : Nat × St V} (h : Bld.alloc s = .ok r) : r.1 = s.sm.allocBegin ∧ r.2.sm.allocBegin = s.sm.allocBegin + 1 := by
  have e : s.sm.alloc = s.sm.take s.sm.allocBegin := by
    unfold SM.Core.alloc SM.Core.findFree
    rw [hi.len, show n - s.sm.allocBegin = (n - s.sm.allocBegin - 1) + 1 by omega]
    unfold SM.Core.scan
    rw [SM.Core.getElem?_abs, hi.len, if_pos hk]
    simp only [h0, if_true]
  unfold Bld.alloc at h
  rw [e, SM.Core.take] at h
  simp only at h
  cases h
  exact ⟨rfl, rfl⟩

theorem cursor_alloc {n max : Nat} {s : St V} (hs : Cursor n max s) {r : Nat × St V} (h : Bld.alloc s = .ok r) : Cursor n max r.2 := by
  obtain ⟨hi, k, hp, hc⟩ := hs
  have G := alloc_grow hi h
  refine ⟨G.sm, ?_⟩
  have hb : r.1 < n := G.bnd r.1 (by simp)
  have habs : ∀ b, b ≠ r.1 → r.2.sm.abs b = s.sm.abs b := by
    intro b hb
    have := G.abs b
    rw [List.count_eq_zero.mpr (by simpa using hb)] at this
    exact this
  by_cases hkn : k = n
  · subst hkn
    refine ⟨k, ⟨Nat.le_refl _, ?_, ?_⟩, .inr rfl⟩
    · intro b hb'
      rw [G.allocs, List.mem_append]
      have := hp.mem b hb'
      constructor
      · intro _; exact hb'
      · intro h; exact .inl (this.mpr h)
    · intro b hb'
      rw [habs b (by omega)]; exact hp.free b hb'
  · have hlt : k < n := by have := hp.le; omega
    have hc' : s.sm.allocBegin = k := by rcases hc with h | h; exact h; exact absurd h hkn
    obtain ⟨e1, e2⟩ := alloc_at_cursor hi (by omega) (by rw [hc']; exact hp.free k (Nat.le_refl _)) h
    rw [hc'] at e1 e2
    refine ⟨k + 1, ⟨hlt, ?_, ?_⟩, .inl e2⟩
    · intro b hb'
      rw [G.allocs, List.mem_append, hp.mem b hb', e1, List.mem_singleton]
      omega
    · intro b hb'
      rw [habs b (by omega)]; exact hp.free b (by omega)

theorem inc_cursor (s : SM.Core) (b l : Nat) : (s.inc b l).1.allocBegin = s.allocBegin := by
  have key : ∀ (l b : Nat) (s : SM.Core), (s.incLoop b l).1.allocBegin = s.allocBegin := by
    intro l
    induction l with
    | zero => intro b s; rfl
    | succ l ih =>
      intro b s
      unfold SM.Core.incLoop
      split
      · rfl
      · split
        · split
          · rw [ih]
          · rw [ih]
        · rfl
  unfold SM.Core.inc
  simp only
  split
  · rfl
  · exact key _ _ _

theorem dec_cursor (s : SM.Core) (b : Nat) : (s.dec b).1.allocBegin = s.allocBegin := by
  have hset : ∀ v, (s.set b v).1.allocBegin = s.allocBegin := by
    intro v
    unfold SM.Core.set
    split
    · rfl
    · split
      · simp only
        split
        · rfl
        · split <;> rfl
      · rfl
  unfold SM.Core.dec
  split
  · rfl
  · rename_i old _
    have h := hset (old - 1)
    split
    · split
      · rename_i he; rw [he] at h; exact h
      · rename_i he; rw [he] at h; exact h
    · rfl

theorem cursor_inc {n max : Nat} (hn : n < 2 ^ 64 - 1) {s t : St V} {b : Nat} (h0 : Cursor n max s) (hb : 0 < s.sm.abs b) (h : Bld.incBlock b s = .ok t) :
    Cursor n max t := by
  obtain ⟨hi, k, hp, hc⟩ := h0
  have hbk : b < k := by
    by_cases hbk : b < k
    · exact hbk
    · have := hp.free b (by omega); omega
  have hle := hp.le
  obtain ⟨h1, h2⟩ := SM.Core.inc_spec hi b 1 (by omega)
  have h3 := inc_cursor s.sm b 1
  unfold Bld.incBlock at h
  generalize s.sm.inc b 1 = r at h h1 h2 h3
  obtain ⟨sm, o⟩ := r
  simp only at h h1 h2 h3
  split at h
  · rename_i sm' he
    cases he
    cases h
    refine ⟨h1, k, ⟨hp.le, hp.mem, ?_⟩, ?_⟩
    · intro x hx
      show sm.abs x = 0
      generalize sm.abs = c' at h2
      cases h2 with
      | inc _ _ =>
        simp only [SM.Counts.incd]
        rw [if_neg (by omega)]
        exact hp.free x hx
    · show sm.allocBegin = k ∨ k = n
      rw [h3]; exact hc
  · cases h

theorem cursor_dec {n max : Nat} {s : St V} {b : Nat} {r : Bool × St V} (h0 : Cursor n max s) (h : Bld.decBlock b s = .ok r) :
    Cursor n max r.2 := by
  obtain ⟨hi, k, hp, hc⟩ := h0
  obtain ⟨h1, h2⟩ := SM.Core.dec_spec hi b
  have h3 := dec_cursor s.sm b
  unfold Bld.decBlock at h
  generalize s.sm.dec b = q at h h1 h2 h3
  obtain ⟨sm, o⟩ := q
  simp only at h h1 h2 h3
  split at h
  · rename_i sm' d he
    cases he
    cases h
    refine ⟨h1, k, ⟨hp.le, hp.mem, ?_⟩, ?_⟩
    · intro x hx
      show sm.abs x = 0
      generalize sm.abs = c' at h2
      cases h2 with
      | dec _ h0 =>
        simp only [SM.Counts.upd]
        have := hp.free x hx
        split
        · rename_i e; subst e; omega
        · exact this
    · show sm.allocBegin = k ∨ k = n
      rw [h3]; exact hc
  · cases h

/-! ## Through the builders -/

/-- a property of the space map and the record of allocations that allocating and dropping references keep -/
structure Kept (P : St V → Prop) : Prop where
  frame : ∀ {s t : St V}, P s → t.sm = s.sm → t.allocs = s.allocs → P t
  alloc : ∀ {s : St V} {r : Nat × St V}, P s → Bld.alloc s = .ok r → P r.2
  dec : ∀ {s : St V} {b : Nat} {r : Bool × St V}, P s → Bld.decBlock b s = .ok r → P r.2

theorem cursor_kept (n max : Nat) : Kept (V := V) (Cursor n max) := ⟨fun h h1 h2 => cursor_frame h h1 h2, fun h e => cursor_alloc h e, fun h e => cursor_dec h e⟩

section
variable {P : St V → Prop} {io : NIO V E} (hk : Kept P)
include hk

theorem writeNode_kept {es : List (Nat × E)} {s : St V} (h : P s) : IfOk (Bld.writeNode io es s) (fun a => P a.2) :=
  IfOk.bind (Q := fun a : Nat × St V => P a.2) (fun _ ha => hk.alloc h ha) fun _ ha => .ok (hk.frame ha rfl rfl)

theorem incValue_kept {v : E} {s : St V} (h : P s) : IfOk (Bld.incValue io v s) P := by
  intro a ha
  obtain ⟨h1, h2⟩ := incValue_sm ha
  exact hk.frame h h1 h2

theorem incAll_kept : ∀ (es : List (Nat × E)) (s : St V), P s → IfOk (Bld.incAll io es s) P := by
  intro es
  induction es with
  | nil => intro s h; exact .ok h
  | cons e es ih => intro s h; exact (incValue_kept hk h).bind fun a ha => ih a ha

theorem emitValues_kept {n : Nat} {nb : NB E} {s : St V} (h : P s) : IfOk (Bld.emitValues io n nb s) (fun a => P a.2) :=
  .ite (fun _ => (writeNode_kept hk h).bind fun _ ha => .ok ha) (fun _ => .err)

theorem emitAll_kept {nb : NB E} {s : St V} (h : P s) : IfOk (Bld.emitAll io nb s) (fun a => P a.2) := by
  unfold Bld.emitAll
  refine .ite (fun _ => .ok h) fun _ => .ite (fun _ => emitValues_kept hk h) fun _ => .ite (fun _ => ?_) fun _ => .err
  exact (emitValues_kept hk h).bind fun a ha => emitValues_kept hk ha

theorem unshiftNode_kept {nb : NB E} {s : St V} (h : P s) : IfOk (Bld.unshiftNode io nb s) (fun a => P a.2) := by
  unfold Bld.unshiftNode
  split
  · exact .err
  · refine IfOk.bind (Q := fun _ => True) (fun _ _ => trivial) fun es _ => ?_
    refine IfOk.bind (Q := fun a : Bool × St V => P a.2) (fun _ ha => hk.dec h ha) fun a ha => ?_
    refine .ite (fun _ => ?_) (fun _ => .ok ha)
    exact IfOk.bind (incAll_kept hk es a.2 ha) fun b hb => .ok hb

theorem pushValue_kept {k : Nat} {v : E} {nb : NB E} {s : St V} (h : P s) : IfOk (Bld.pushValue io k v nb s) (fun a => P a.2) := by
  unfold Bld.pushValue
  refine IfOk.bind (Q := fun a : NB E × St V => P a.2) ?_ fun a ha => ?_
  · exact .ite (fun _ => unshiftNode_kept hk h) fun _ => .ite (fun _ => emitValues_kept hk h) fun _ => .ok h
  · refine IfOk.bind (Q := fun _ => True) (fun _ _ => trivial) fun nb _ => ?_
    exact (incValue_kept hk ha).bind fun s hs => .ok hs

theorem complete_kept {nb : NB E} {s : St V} (h : P s) : IfOk (Bld.complete io nb s) (fun a => P a.2) := by
  unfold Bld.complete
  refine IfOk.bind (Q := fun a : NB E × St V => P a.2) ?_ fun a ha => ?_
  · exact .ite (fun _ => unshiftNode_kept hk h) fun _ => .ok h
  refine (emitAll_kept hk ha).bind fun b hb => ?_
  refine IfOk.bind (Q := fun a : NB E × St V => P a.2) ?_ fun a ha => .ok ha
  exact .ite (fun _ => emitValues_kept hk hb) fun _ => .ok hb

theorem pushAll_kept : ∀ (es : List (Nat × E)) (nb : NB E) (s : St V), P s → IfOk (Bld.pushAll io es nb s) (fun a => P a.2) := by
  intro es
  induction es with
  | nil => intro nb s h; exact .ok h
  | cons e es ih => intro nb s h; exact (pushValue_kept hk h).bind fun a ha => ih a.1 a.2 ha

omit hk in
theorem buildLayer_kept {P : St V → Prop} (hk : Kept P) {capI : Nat} {nodes : List Summary} {s : St V} (h : P s) : IfOk (Bld.buildLayer capI nodes s) (fun a => P a.2) :=
  (pushAll_kept hk _ _ _ h).bind fun _ ha => complete_kept hk ha

omit hk in
theorem buildLoop_kept {P : St V → Prop} (hk : Kept P) {capI : Nat} : ∀ (fuel : Nat) (nodes : List Summary) (s : St V), P s →
    IfOk (Bld.buildLoop capI fuel nodes s) (fun a => P a.2) := by
  intro fuel
  induction fuel with
  | zero =>
    intro nodes s h
    match nodes with
    | [] => exact .err
    | [n] => exact .ok h
    | _ :: _ :: _ => exact .err
  | succ fuel ih =>
    intro nodes s h
    match nodes with
    | [] => exact .err
    | [n] => exact .ok h
    | a :: b :: l => exact (buildLayer_kept hk h).bind fun r hr => ih r.1 r.2 hr

omit hk in
theorem buildTree_kept {P : St V → Prop} (hk : Kept P) {capI : Nat} {nodes : List Summary} {s : St V} (h : P s) : IfOk (Bld.buildTree capI nodes s) (fun a => P a.2) :=
  buildLoop_kept hk _ _ _ h
end

/-- building a tree from values -/
theorem buildVals_kept {P : St V → Prop} (hk : Kept P) {io : NIO V V} {capL capI : Nat} {items : List (Item V)} (hv : ∀ i ∈ items, ∃ k v, i = .val k v)
    {s : St V} (h : P s) : IfOk (Bld.build io capL capI items s) (fun a => P a.2) := by
  have hp : ∀ (items : List (Item V)) (nb : NB V) (s : St V), (∀ i ∈ items, ∃ k v, i = .val k v) → P s → IfOk (Bld.pushItems io items nb s) (fun a => P a.2) := by
    intro items
    induction items with
    | nil => intro nb s _ h; exact .ok h
    | cons i is ih =>
      intro nb s hv h
      obtain ⟨k, v, rfl⟩ := hv i (by simp)
      exact IfOk.bind (x := Bld.pushValue io k v nb s) (pushValue_kept hk h) fun a ha => ih a.1 a.2 (fun i hi => hv i (by simp [hi])) ha
  refine IfOk.bind (x := Bld.buildLeaves io capL false items s) (Q := fun a : List Summary × St V => P a.2) ?_ fun a ha => buildTree_kept hk ha
  exact (hp items _ s hv h).bind fun a ha => complete_kept hk ha

end Verif.SMD
