import Verif.Prop.ThinRestore
import Verif.Prop.Cursor

/-!
# Data blocks of a restored pool

Whatever the document, a restore that succeeds has counted only data blocks that exist, and none more often than the counters allow.
-/

namespace Verif.Bld

variable {V E : Type}

/-- counting a value keeps the property `G` of the counters -/
def Keeps (G : List Nat → Prop) (io : NIO V E) : Prop := ∀ log v, io.ok log v = true → G log → G (log ++ io.refs v)

section
variable {G : List Nat → Prop} {io : NIO V E} (hk : Keeps G io)

theorem alloc_log {s : St V} : IfOk (alloc s) (fun a => a.2.log = s.log) := by
  intro a ha
  unfold alloc at ha
  split at ha
  · cases ha; rfl
  · cases ha

theorem writeNode_log {es : List (Nat × E)} {s : St V} : IfOk (writeNode io es s) (fun a => a.2.log = s.log) :=
  alloc_log.bind fun a ha => .ok ha

theorem incBlock_log {b : Nat} {s : St V} : IfOk (incBlock b s) (fun a => a.log = s.log) := by
  intro a ha
  unfold incBlock at ha
  split at ha
  · cases ha; rfl
  · cases ha

theorem decBlock_log {b : Nat} {s : St V} : IfOk (decBlock b s) (fun a => a.2.log = s.log) := by
  intro a ha
  unfold decBlock at ha
  split at ha
  · cases ha; rfl
  · cases ha

include hk

theorem incValue_log {v : E} {s : St V} (h : G s.log) : IfOk (incValue io v s) (fun a => G a.log) := by
  intro a ha
  unfold incValue at ha
  split at ha
  · rename_i ho
    cases ha
    exact hk _ _ ho h
  · cases ha

theorem incAll_log : ∀ (es : List (Nat × E)) (s : St V), G s.log → IfOk (incAll io es s) (fun a => G a.log) := by
  intro es
  induction es with
  | nil => intro s h; exact .ok h
  | cons e es ih => intro s h; exact (incValue_log hk h).bind fun a ha => ih a ha

omit hk in
theorem emitValues_log {n : Nat} {nb : NB E} {s : St V} (h : G s.log) : IfOk (emitValues io n nb s) (fun a => G a.2.log) := by
  refine .ite (fun _ => ?_) (fun _ => .err)
  exact writeNode_log.bind fun a ha => .ok (by show G a.2.log; rw [ha]; exact h)

omit hk in
theorem emitAll_log {nb : NB E} {s : St V} (h : G s.log) : IfOk (emitAll io nb s) (fun a => G a.2.log) := by
  unfold emitAll
  refine .ite (fun _ => .ok h) fun _ => .ite (fun _ => emitValues_log h) fun _ => .ite (fun _ => ?_) fun _ => .err
  exact (emitValues_log h).bind fun a ha => emitValues_log ha

theorem unshiftNode_log {nb : NB E} {s : St V} (h : G s.log) : IfOk (unshiftNode io nb s) (fun a => G a.2.log) := by
  unfold unshiftNode
  split
  · exact .err
  · refine IfOk.bind (Q := fun _ => True) (fun _ _ => trivial) fun es _ => ?_
    refine decBlock_log.bind fun a ha => ?_
    refine .ite (fun _ => ?_) (fun _ => .ok (by show G a.2.log; rw [ha]; exact h))
    exact IfOk.bind (incAll_log hk es a.2 (by rw [ha]; exact h)) fun b hb => .ok hb

theorem pushValue_log {k : Nat} {v : E} {nb : NB E} {s : St V} (h : G s.log) : IfOk (pushValue io k v nb s) (fun a => G a.2.log) := by
  unfold pushValue
  refine IfOk.bind (Q := fun a : NB E × St V => G a.2.log) ?_ fun a ha => ?_
  · exact .ite (fun _ => unshiftNode_log hk h) fun _ => .ite (fun _ => emitValues_log h) fun _ => .ok h
  · refine IfOk.bind (Q := fun _ => True) (fun _ _ => trivial) fun nb _ => ?_
    exact (incValue_log hk ha).bind fun s hs => .ok hs

theorem appendValues_log {n : Summary} {nb : NB E} {s : St V} (h : G s.log) : IfOk (appendValues io n nb s) (fun a => G a.2.log) := by
  unfold appendValues
  refine IfOk.bind (Q := fun _ => True) (fun _ _ => trivial) fun es _ => ?_
  exact (incAll_log hk es s h).bind fun s hs => .ok hs

omit hk in
theorem addNodes_log : ∀ (ns : List Summary) (nb : NB E) (s : St V), G s.log → IfOk (addNodes ns nb s) (fun a => G a.2.log) := by
  intro ns
  induction ns with
  | nil => intro nb s h; exact .ok h
  | cons n ns ih => intro nb s h; exact incBlock_log.bind fun a ha => ih _ a (by rw [ha]; exact h)

theorem pushNodes_log {n : Summary} {ns : List Summary} {nb : NB E} {s : St V} (h : G s.log) : IfOk (pushNodes io n ns nb s) (fun a => G a.2.log) := by
  unfold pushNodes
  refine .ite (fun _ => ?_) fun _ => .ite (fun _ => .err) fun _ => ?_
  · exact incBlock_log.bind fun a ha => .ok (by show G a.log; rw [ha]; exact h)
  · refine IfOk.bind (Q := fun _ => True) (fun _ _ => trivial) fun _ _ => ?_
    refine IfOk.bind (Q := fun a : NB E × St V => G a.2.log) ?_ fun a ha => ?_
    · exact .ite (fun _ => unshiftNode_log hk h) fun _ => .ok h
    refine IfOk.bind (Q := fun a : NB E × St V => G a.2.log) ?_ fun a ha => .ok ha
    refine .ite (fun _ => ?_) fun _ => ?_
    · refine (appendValues_log hk ha).bind fun b hb => .ite (fun _ => .ok hb) fun _ => ?_
      exact (emitAll_log hb).bind fun c hc => addNodes_log ns _ _ hc
    · refine (emitAll_log ha).bind fun b hb => .ite (fun _ => appendValues_log hk hb) fun _ => addNodes_log _ _ _ hb

theorem complete_log {nb : NB E} {s : St V} (h : G s.log) : IfOk (complete io nb s) (fun a => G a.2.log) := by
  unfold complete
  refine IfOk.bind (Q := fun a : NB E × St V => G a.2.log) ?_ fun a ha => ?_
  · exact .ite (fun _ => unshiftNode_log hk h) fun _ => .ok h
  refine (emitAll_log ha).bind fun b hb => ?_
  refine IfOk.bind (Q := fun a : NB E × St V => G a.2.log) ?_ fun a ha => .ok ha
  exact .ite (fun _ => emitValues_log hb) fun _ => .ok hb

theorem pushAll_log : ∀ (es : List (Nat × E)) (nb : NB E) (s : St V), G s.log → IfOk (pushAll io es nb s) (fun a => G a.2.log) := by
  intro es
  induction es with
  | nil => intro nb s h; exact .ok h
  | cons e es ih => intro nb s h; exact (pushValue_log hk h).bind fun a ha => ih _ _ ha
end

theorem keeps_internal (G : List Nat → Prop) : Keeps G (internalIO (V := V)) := by
  intro log v _ h
  show G (log ++ [])
  rw [List.append_nil]
  exact h

theorem buildLoop_log {G : List Nat → Prop} {capI : Nat} : ∀ (fuel : Nat) (nodes : List Summary) (s : St V), G s.log →
    IfOk (buildLoop capI fuel nodes s) (fun a => G a.2.log) := by
  intro fuel
  induction fuel with
  | zero =>
    intro nodes s h
    match nodes with
    | [] => exact .err
    | [n] => exact .ok h
    | _ :: _ :: _ => exact .err
  | succ fuel ih =>
    intro nodes s h
    match nodes with
    | [] => exact .err
    | [n] => exact .ok h
    | a :: b :: l =>
      refine IfOk.bind (Q := fun a : List Summary × St V => G a.2.log) ?_ fun r hr => ih _ _ hr
      exact (pushAll_log (keeps_internal G) _ _ _ h).bind fun r hr => complete_log (keeps_internal G) hr

theorem build_log {G : List Nat → Prop} {io : NIO V V} (hk : Keeps G io) {capL capI : Nat} {items : List (Item V)} {s : St V} (h : G s.log) :
    IfOk (build io capL capI items s) (fun a => G a.2.log) := by
  have hitems : ∀ (is : List (Item V)) (nb : NB V) (s : St V), G s.log → IfOk (pushItems io is nb s) (fun a => G a.2.log) := by
    intro is
    induction is with
    | nil => intro nb s h; exact .ok h
    | cons i is ih =>
      intro nb s h
      refine IfOk.bind (Q := fun a : NB V × St V => G a.2.log) ?_ fun a ha => ih _ _ ha
      cases i with
      | val k v => exact pushValue_log hk h
      | leaves n ns => exact pushNodes_log hk h
  refine IfOk.bind (Q := fun a : List Summary × St V => G a.2.log) ?_ fun a ha => buildLoop_log _ _ _ ha
  exact (hitems _ _ _ h).bind fun a ha => complete_log hk ha

theorem releaseLeaves_log {G : List Nat → Prop} (herase : ∀ log r, G log → G (log.erase r)) {io : NIO V V} :
    ∀ (ns : List Summary) (s : St V), G s.log → IfOk (releaseLeaves io ns s) (fun a => G a.log) := by
  have hdec : ∀ (rs log : List Nat), G log → IfOk (decRefs rs log) G := by
    intro rs
    induction rs with
    | nil => intro log h; exact .ok h
    | cons r rs ih => intro log h; exact .ite (fun _ => ih _ (herase _ _ h)) fun _ => .err
  intro ns
  induction ns with
  | nil => intro s h; exact .ok h
  | cons n ns ih =>
    intro s h
    refine decBlock_log.bind fun a ha => ?_
    have h' : G a.2.log := by rw [ha]; exact h
    refine .ite (fun _ => ?_) fun _ => ih _ h'
    refine IfOk.bind (Q := fun _ => True) (fun _ _ => trivial) fun es _ => ?_
    exact (hdec _ _ h').bind fun log hl => ih _ hl

end Verif.Bld

namespace Verif.Rst

open Verif.Bld (St NB Summary IfOk Keeps)
open Verif.Dump (Run)

variable {N : Type} [DecidableEq N]

/-- the counters of a data device of `n` blocks: nothing outside of it, no counter above its limit -/
def InData (n : Nat) (log : List Nat) : Prop := ∀ x, x ∈ log → x < n ∧ log.count x ≤ 2 ^ 32 - 1

theorem keeps_data (n : Nat) : Keeps (InData n) (io n) := by
  intro log v hok h x hx
  cases v with
  | bt b t =>
    have hok : (decide (b < n) && decide (log.count b < 2 ^ 32 - 1)) = true := hok
    simp only [Bool.and_eq_true, decide_eq_true_eq] at hok
    have e : (io n).refs (.bt b t) = [b] := rfl
    rw [e] at hx ⊢
    rw [List.count_append]
    by_cases hb : x = b
    · subst hb
      rw [List.count_singleton_self]
      exact ⟨hok.1, by omega⟩
    · rcases List.mem_append.mp hx with hx | hx
      · rw [show List.count x [b] = 0 from List.count_eq_zero.mpr (by simpa using hb), Nat.add_zero]
        exact h x hx
      · exact absurd (List.mem_singleton.mp hx) hb
  | det d => exact h x (by simpa [io, Bld.leafIO, refs] using hx) |>.imp id (by intro h; simpa [io, Bld.leafIO, refs] using h)
  | root b => exact h x (by simpa [io, Bld.leafIO, refs] using hx) |>.imp id (by intro h; simpa [io, Bld.leafIO, refs] using h)

theorem erase_data (n : Nat) (log : List Nat) (r : Nat) (h : InData n log) : InData n (log.erase r) := by
  intro x hx
  obtain ⟨h1, h2⟩ := h x (List.mem_of_mem_erase hx)
  exact ⟨h1, Nat.le_trans (List.Sublist.count_le x List.erase_sublist) h2⟩

theorem lift_ifOk {α : Type} {x : Except Bld.Err α} {Q : α → Prop} (h : IfOk x Q) : IfOk (lift x) Q := by
  intro a ha
  cases x with
  | error e => cases ha
  | ok b => cases ha; exact h _ rfl

/-- what stays true of the restorer -/
def DataOk (r : R N) : Prop := InData r.nrData r.st.log

omit [DecidableEq N] in
theorem endSection_data {r : R N} (h : DataOk r) : IfOk (endSection r) (fun x => DataOk x.2.2) := by
  unfold endSection
  split
  · exact .err
  · exact (lift_ifOk (Bld.complete_log (keeps_data r.nrData) h)).bind fun c hc => .ok hc

omit [DecidableEq N] in
theorem finalize_data {r : R N} (h : DataOk r) : IfOk (finalize r) DataOk := by
  unfold finalize
  split
  · exact .err
  · rename_i sb hsb
    refine IfOk.bind (Q := fun x : Nat × Nat × R N => DataOk x.2.2) ?_ fun b hb => ?_
    · unfold buildDetails
      refine (lift_ifOk (Bld.build_log (keeps_data r.nrData) (s := r.st) h)).bind fun d hd => ?_
      exact (lift_ifOk (Bld.build_log (keeps_data r.nrData) hd)).bind fun m hm => .ok hm
    · exact (lift_ifOk (Bld.releaseLeaves_log (erase_data b.2.2.nrData) _ _ hb)).bind fun st hst => .ok hst

omit [DecidableEq N] in
theorem finalize_sec {r : R N} : IfOk (finalize r) (fun x => x.sec = .finalized) := by
  unfold finalize
  split
  · exact .err
  · exact IfOk.bind (Q := fun _ => True) (fun _ _ => trivial) fun b _ => IfOk.bind (Q := fun _ => True) (fun _ _ => trivial) fun st _ => .ok rfl

/-- before the superblock there is nothing -/
def Start (r : R N) : Prop := r.sec = .none → r.st.log = [] ∧ r.sb = none ∧ r.cur = none ∧ r.dev = none

theorem step_data {r : R N} (e : Ev N) (h : DataOk r) (h0 : Start r) : IfOk (step e r) (fun r' => DataOk r' ∧ Start r') := by
  cases e with
  | sbB sb =>
    simp only [step]
    refine .ite (fun _ => .err) fun hs => .ite (fun _ => .err) fun _ => ?_
    obtain ⟨l0, -⟩ := h0 (Classical.not_not.mp hs)
    refine (lift_ifOk Bld.alloc_log).bind fun a ha => .ite (fun _ => .err) fun _ => .ok ⟨?_, fun h => by cases h⟩
    show InData sb.nrData a.2.log
    rw [ha, l0]
    intro x hx
    cases hx
  | sbE =>
    simp only [step]
    intro r' hr'
    refine ⟨finalize_data h r' hr', fun hs => ?_⟩
    exfalso
    rw [finalize_sec r' hr'] at hs
    cases hs
  | defB name =>
    simp only [step]
    refine .ite (fun _ => .err) fun _ => ?_
    unfold beginSection
    split
    · exact .err
    · exact .ok ⟨h, fun h => by cases h⟩
  | defE =>
    simp only [step]
    refine (endSection_data h).bind fun x hx => ?_
    split
    · exact .ok ⟨hx, fun h => by cases h⟩
    · exact .err
  | devB d =>
    simp only [step]
    refine .ite (fun _ => .err) fun _ => ?_
    unfold beginSection
    split
    · exact .err
    · exact .ok ⟨h, fun h => by cases h⟩
  | devE =>
    simp only [step]
    split
    · exact .err
    · refine (endSection_data (r := { r with dev := none }) h).bind fun x hx => ?_
      split
      · exact .err
      · exact (lift_ifOk (Bld.buildLoop_log _ _ _ hx)).bind fun t ht => .ok ⟨ht, fun h => by cases h⟩
  | map run =>
    simp only [step]
    split
    · exact .err
    · rename_i m nb hcur
      have hpush : ∀ (n i : Nat) (nb : NB Val) (s : St Val), InData r.nrData s.log → IfOk (pushRun r.nrData run n i nb s) (fun a => InData r.nrData a.2.log) := by
        intro n
        induction n with
        | zero => intro i nb s h; exact .ok h
        | succ n ih => intro i nb s h; exact (Bld.pushValue_log (keeps_data r.nrData) h).bind fun a ha => ih _ _ _ ha
      refine (lift_ifOk (hpush _ _ _ _ h)).bind fun x hx => .ok ⟨hx, fun hs => ?_⟩
      rw [(h0 hs).2.2.1] at hcur
      cases hcur
  | ref name =>
    simp only [step]
    split
    · exact .err
    · split
      · exact .err
      · split
        · exact .err
        · rename_i m nb hcur
          split
          · exact .err
          · refine (lift_ifOk (Bld.pushNodes_log (keeps_data r.nrData) h)).bind fun x hx => .ok ⟨hx, fun hs => ?_⟩
            rw [(h0 hs).2.2.1] at hcur
            cases hcur
  | eof =>
    simp only [step]
    exact .ite (fun _ => .err) fun _ => .ok ⟨h, h0⟩

/-- **C25**: whatever the document says, and however far a restore of it gets: the data space map has no counts for blocks outside of the data
device, and no counter has overflowed. -/
theorem run_data : ∀ (evs : List (Ev N)) {r r' : R N}, DataOk r → Start r → run evs r = .ok r' → InData r'.nrData r'.st.log := by
  intro evs
  induction evs with
  | nil => intro r r' h h0 hr; cases hr; exact h
  | cons e evs ih =>
    intro r r' h h0 hr
    have := IfOk.bind (step_data e h h0) (S := fun r' => InData r'.nrData r'.st.log) (f := run evs) fun x hx => fun y hy => ih hx.1 hx.2 hy
    exact this r' hr

/-- the data device has the size the superblock of the document gives -/
theorem step_nrData {r r' : R N} {e : Ev N} (he : ∀ sb, e ≠ .sbB sb) (h : step e r = .ok r') : r'.nrData = r.nrData := by
  have hend : ∀ q : R N, IfOk (endSection q) (fun x => x.2.2.nrData = q.nrData) := by
    intro q
    unfold endSection
    split
    · exact .err
    · exact IfOk.bind (Q := fun _ => True) (fun _ _ => trivial) fun c _ => .ok rfl
  have hbegin : ∀ sh m (q : R N), IfOk (beginSection sh m q) (fun x => x.nrData = q.nrData) := by
    intro sh m q
    unfold beginSection
    split
    · exact .err
    · exact .ok rfl
  have : IfOk (step e r) (fun r' => r'.nrData = r.nrData) := by
    cases e with
    | sbB sb => exact absurd rfl (he sb)
    | sbE =>
      simp only [step]
      unfold finalize
      split
      · exact .err
      · refine IfOk.bind (Q := fun x : Nat × Nat × R N => x.2.2.nrData = r.nrData) ?_ fun b hb =>
          IfOk.bind (Q := fun _ => True) (fun _ _ => trivial) fun st _ => .ok hb
        unfold buildDetails
        exact IfOk.bind (Q := fun _ => True) (fun _ _ => trivial) fun d _ => IfOk.bind (Q := fun _ => True) (fun _ _ => trivial) fun m _ => .ok rfl
    | defB name =>
      simp only [step]
      exact .ite (fun _ => .err) fun _ => hbegin _ _ _
    | defE =>
      simp only [step]
      refine (hend r).bind fun x hx => ?_
      split
      · exact .ok hx
      · exact .err
    | devB d =>
      simp only [step]
      exact .ite (fun _ => .err) fun _ => hbegin _ _ _
    | devE =>
      simp only [step]
      split
      · exact .err
      · refine (hend _).bind fun x hx => ?_
        split
        · exact .err
        · exact IfOk.bind (Q := fun _ => True) (fun _ _ => trivial) fun t _ => .ok hx
    | map run =>
      simp only [step]
      split
      · exact .err
      · exact IfOk.bind (Q := fun _ => True) (fun _ _ => trivial) fun t _ => .ok rfl
    | ref name =>
      simp only [step]
      split
      · exact .err
      · split
        · exact .err
        · split
          · exact .err
          · split
            · exact .err
            · exact IfOk.bind (Q := fun _ => True) (fun _ _ => trivial) fun t _ => .ok rfl
    | eof =>
      simp only [step]
      exact .ite (fun _ => .err) fun _ => .ok rfl
  exact this r' h

/-- the document has one superblock, at its start -/
theorem run_nrData : ∀ (evs : List (Ev N)) {r r' : R N}, (∀ e ∈ evs, ∀ sb, e ≠ Ev.sbB sb) → run evs r = .ok r' → r'.nrData = r.nrData := by
  intro evs
  induction evs with
  | nil => intro r r' _ h; cases h; rfl
  | cons e evs ih =>
    intro r r' he h
    have := IfOk.bind (x := step e r) (Q := fun x => x.nrData = r.nrData) (f := run evs) (S := fun x => x.nrData = r.nrData)
      (fun x hx => step_nrData (he e (by simp)) hx) fun x hx y hy => (ih (fun e h => he e (by simp [h])) hy).trans hx
    exact this r' h

theorem sects_nosb (sects : List (Sect N)) : ∀ e ∈ sects.flatMap Sect.events ++ [.sbE, .eof], ∀ sb, e ≠ Ev.sbB sb := by
  intro e he sb h
  subst h
  rcases List.mem_append.mp he with h | h
  · obtain ⟨s, -, h⟩ := List.mem_flatMap.mp h
    cases s with
    | «def» k runs => simp [Sect.events] at h
    | dev d segs =>
      simp [Sect.events] at h
      obtain ⟨g, -, hg⟩ := h
      cases g <;> cases hg
  · simp at h

/-- the size of the data device is that in the document -/
theorem doc_nrData {n max : Nat} {mem : Nat → Option (BT.Blk Val)} {sb : SbIR} {sects : List (Sect N)} {r : R N}
    (h : run (docEvents sb sects) (R.new N ⟨mem, SM.Core.new max n, [], []⟩) = .ok r) : r.nrData = sb.nrData := by
  unfold docEvents at h
  have := IfOk.bind (x := step (.sbB sb) (R.new N ⟨mem, SM.Core.new max n, [], []⟩)) (Q := fun x => x.nrData = sb.nrData)
    (f := run (sects.flatMap Sect.events ++ [.sbE, .eof])) (S := fun x => x.nrData = sb.nrData)
    (by
      simp only [step]
      exact .ite (fun _ => .err) fun _ => .ite (fun _ => .err) fun _ => IfOk.bind (Q := fun _ => True) (fun _ _ => trivial) fun a _ =>
        .ite (fun _ => .err) fun _ => .ok rfl)
    fun x hx y hy => (run_nrData _ (sects_nosb sects) hy).trans hx
  exact this r h

/-- **C25**: a mapping to a data block that does not exist is never restored.  In the pool that a successful restore leaves behind every mapping of
every device is to a block below the size in the document's superblock. -/
theorem restore_in_range (n max : Nat) (hmax : 1 ≤ max) (hn : n < 2 ^ 64) (mem : Nat → Option (BT.Blk Val)) (sb : SbIR) (hsz : SizeOK sb)
    (sects : List (Sect N)) (hc : Consistent (fun _ => none) sects) (hid : ((meaning (fun _ => none) sects).map fun p => p.1.id).Nodup) {r : R N}
    (h : run (docEvents sb sects) (R.new N ⟨mem, SM.Core.new max n, [], []⟩) = .ok r) :
    ∀ p ∈ meaning (fun _ => none) sects, ∀ k b t, (k, Val.bt b t) ∈ p.2 → b < sb.nrData := by
  have hres := restore_correct n max hmax hn mem sb hsz sects hc hid
  rw [h] at hres
  have hres : Restored n max sb (meaning (fun _ => none) sects) r := hres
  have hlog := run_data _ (r := R.new N ⟨mem, SM.Core.new max n, [], []⟩) (fun x hx => by cases hx) (fun _ => ⟨rfl, rfl, rfl, rfl⟩) h
  have hnr : r.nrData = sb.nrData := doc_nrData h
  rw [hnr] at hlog
  obtain ⟨devs, hm, tm, hd, td, -, hperm, -, -, -, -, -, -, -, -, -, htrees, -, -, -, -, -, L, -, hL, hperm2⟩ := hres.result
  intro p hp k b t hk
  obtain ⟨d, hd1, hd2⟩ := List.mem_map.mp (hperm.mem_iff.mpr hp)
  subst hd2
  obtain ⟨hs, -, -⟩ := htrees d hd1
  have hk : (k, Val.bt b t) ∈ d.t.contents d.h := hk
  rw [Bld.contents_leaves] at hk
  obtain ⟨l, hl1, hl2⟩ := List.mem_flatMap.mp hk
  have hin : l.1 ∈ L := (hL _).mpr ⟨d, hd1, List.mem_map.mpr ⟨l, hl1, rfl⟩⟩
  refine (hlog b (hperm2.mem_iff.mpr (List.mem_flatMap.mpr ⟨l.1, hin, ?_⟩))).1
  have hleaf : Bld.leafEntries r.st.mem l.1 = l.2 := by
    unfold Bld.leafEntries
    rw [Bld.stored_leaves d.h d.t true hs l hl1]
  unfold leafRefs
  rw [hleaf]
  exact List.mem_flatMap.mpr ⟨_, hl2, by simp [refs]⟩

/-- the document of `demoSects` maps blocks up to 31: it cannot be restored to a data device of 31 blocks -/
example (r : R Nat) : run (docEvents ⟨0, 1, 128, 31⟩ demoSects) (R.new Nat ⟨fun _ => none, SM.Core.new 255 20, [], []⟩) ≠ .ok r := by
  intro h
  have hc : Consistent (fun _ => none) demoSects := by
    refine ⟨rfl, ?_, ?_, ?_, ?_, ?_, trivial⟩
    · unfold Bld.Sorted; decide
    · intro n hn
      simp only [List.mem_singleton, Seg.ref.injEq] at hn
      subst hn
      exact ⟨_, rfl, Or.inl (by decide)⟩
    · unfold Bld.Sorted; decide
    · intro n hn
      simp only [List.mem_cons, Seg.ref.injEq, reduceCtorEq, List.not_mem_nil, or_false] at hn
      subst hn
      exact ⟨_, rfl, Or.inl (by decide)⟩
    · unfold Bld.Sorted; decide
  have := restore_in_range 20 255 (by decide) (by decide) _ _ ⟨by decide, by decide, by decide⟩ demoSects hc (by decide) h
    (⟨0, ⟨7, 1, 1, 1⟩⟩, [(0, .bt 10 1), (1, .bt 11 1), (2, .bt 12 1), (10, .bt 20 1), (11, .bt 21 1), (20, .bt 30 2), (21, .bt 31 2)]) (by decide) 21 31 2 (by decide)
  exact absurd this (by decide)

end Verif.Rst
