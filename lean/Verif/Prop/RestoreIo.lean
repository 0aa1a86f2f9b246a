import Verif.Model.RestoreIo
import Verif.Prop.Batcher
import Verif.Prop.SpaceMap

/-!
# C78: what a restore leaves on the device if it is interrupted
-/

namespace Verif.RIo

open Verif.Batch

variable {D K : Type}

/-! ## Specification -/

/-- the batcher calls a program makes, with the locations of its handles filled in; a program stops at its first error -/
def calls (stamp : K → D → Option D) (s : St D) : List (Op D K) → List (Call D K)
  | [] => []
  | o :: os =>
    let rest := if (s.step stamp o).2 then calls stamp (s.step stamp o).1 os else []
    match o with
    | .write i x k r => (s.held[i]?.map fun b => Call.write b x k r).toList ++ rest
    | .read l => .read l :: rest
    | .flush r => .flush r :: rest
    | _ => rest

/-- the engine answers this call without a fault -/
def Op.Good : Op D K → Prop
  | .write _ _ _ r => r = Resp.good
  | .flush r => r = Resp.good
  | _ => True

/-- the program state after block 0 was reserved -/
def ready (d : Disk D) (bs n max : Nat) : St D := ((reserve (start d bs n max)).getD (start d bs n max))

/-- The devices a crash can leave.  Before the crash the engine stores what it is given; the call in progress when the
crash comes may have stored any subset of its blocks (and its caller never sees an answer). -/
inductive Crash (stamp : K → D → Option D) (d : Disk D) (bs n max : Nat) (body : List (Op D K)) (sb : D) : Disk D → Prop where
  /-- between two calls of the body, or while one of them runs -/
  | inBody (done : List (Op D K)) (o : Op D K) (rest : List (Op D K)) (o' : Op D K) : body = done ++ o :: rest →
      ((∃ i x k r r', o = .write i x k r ∧ o' = .write i x k r') ∨ (∃ r r', o = .flush r ∧ o' = .flush r') ∨ o' = o) →
      Crash stamp d bs n max body sb ((ready d bs n max).run stamp (done ++ [o'])).1.bt.disk
  /-- while the final flush runs -/
  | inFlush (r : Resp) : Crash stamp d bs n max body sb ((ready d bs n max).run stamp (body ++ [.flush r])).1.bt.disk
  /-- while the superblock is being written (one block, stored or not), or later -/
  | inSb (stored ok : Bool) : ((ready d bs n max).run stamp (body ++ [.flush Resp.good])).2 = true →
      Crash stamp d bs n max body sb
      (((ready d bs n max).run stamp (body ++ [.flush Resp.good])).1.writeSb sb ⟨stored, ok⟩).bt.disk

/-! ## Block 0 is out of reach of the batcher -/

/-- the invariant -/
structure Safe (n max : Nat) (d : Disk D) (s : St D) : Prop where
  inv : s.sm.Inv n max
  zero : s.sm.abs 0 ≠ 0
  held : ∀ b ∈ s.held, b ≠ 0 ∧ b < n
  queue : ∀ p ∈ s.bt.queue, p.1 ≠ 0
  data : s.bt.disk.data 0 = d.data 0
  nr : s.bt.disk.nr = d.nr

theorem putMany_zero (skip : Nat → Bool) (q : List (Nat × D)) (hq : ∀ p ∈ q, p.1 ≠ 0) :
    ∀ (i : Nat) (d : Disk D), (d.putMany skip i q).data 0 = d.data 0 ∧ (d.putMany skip i q).nr = d.nr := by
  induction q with
  | nil => intro i d; exact ⟨rfl, rfl⟩
  | cons p q ih =>
    obtain ⟨l, x⟩ := p
    intro i d
    have hl : l ≠ 0 := hq (l, x) (by simp)
    simp only [Disk.putMany]
    obtain ⟨a, b⟩ := ih (fun p hp => hq p (by simp [hp])) (i + 1) (if skip i then d else d.put l x)
    rw [a, b]
    by_cases hs : skip i = true
    · simp [hs]
    · simp [hs, Disk.put, Ne.symm hl]

theorem hit_locs {loc : Nat} {x : D} : ∀ {q q' : List (Nat × D)}, hit loc x q = some q' → q'.map (·.1) = q.map (·.1)
  | [], _, h => by simp [hit] at h
  | (l, y) :: q, q', h => by
    simp only [hit] at h
    cases e : hit loc x q with
    | some r =>
      rw [e] at h
      simp only [Option.some.injEq] at h
      subst h
      simp [hit_locs e]
    | none =>
      rw [e] at h
      by_cases hl : l = loc
      · simp only [hl, if_true, Option.some.injEq] at h
        subst h
        simp [hl]
      · simp [hl] at h

theorem flush__safe {n max : Nat} {d : Disk D} {s : St D} (h : Safe n max d s) (r : Resp) :
    Safe n max d { s with bt := (s.bt.flush_ r).1 } := by
  obtain ⟨a, b⟩ := putMany_zero r.skip s.bt.queue h.queue 0 s.bt.disk
  refine ⟨h.inv, h.zero, h.held, ?_, a.trans h.data, b.trans h.nr⟩
  intro p hp
  simp [Batcher.flush_] at hp

theorem flush_safe {n max : Nat} {d : Disk D} {s : St D} (h : Safe n max d s) (r : Resp) :
    Safe n max d { s with bt := (s.bt.flush r).1 } := by
  unfold Batcher.flush
  by_cases hq : s.bt.queue = []
  · rw [if_pos hq]; exact h
  · rw [if_neg hq]; exact flush__safe h r

theorem write_safe (stamp : K → D → Option D) {n max : Nat} {d : Disk D} {s : St D} (h : Safe n max d s) (b : Nat) (hb : b ≠ 0)
    (x : D) (k : K) (r : Resp) : Safe n max d { s with bt := (s.bt.write stamp b x k r).1 } := by
  unfold Batcher.write
  cases e : stamp k x with
  | none => exact h
  | some y =>
    simp only
    cases e2 : hit b y s.bt.queue with
    | some q =>
      refine ⟨h.inv, h.zero, h.held, ?_, h.data, h.nr⟩
      intro p hp
      have hm : p.1 ∈ q.map (·.1) := List.mem_map_of_mem hp
      rw [hit_locs e2] at hm
      obtain ⟨p', hp', e'⟩ := List.mem_map.mp hm
      rw [← e']
      exact h.queue p' hp'
    | none =>
      simp only
      by_cases hl : s.bt.queue.length = s.bt.batchSize
      · rw [if_pos hl]
        have hf := flush__safe h r
        by_cases hok : (s.bt.flush_ r).2 = true
        · rw [if_pos hok]
          refine ⟨hf.inv, hf.zero, hf.held, ?_, hf.data, hf.nr⟩
          intro p hp
          rcases List.mem_append.mp hp with h1 | h1
          · exact hf.queue p h1
          · simp at h1; rw [h1]; exact hb
        · rw [if_neg hok]
          exact hf
      · rw [if_neg hl]
        refine ⟨h.inv, h.zero, h.held, ?_, h.data, h.nr⟩
        intro p hp
        rcases List.mem_append.mp hp with h1 | h1
        · exact h.queue p h1
        · simp at h1; rw [h1]; exact hb

theorem alloc_safe {n max : Nat} {d : Disk D} {s : St D} (h : Safe n max d s) : Safe n max d s.alloc.1 := by
  obtain ⟨hi, hs⟩ := SM.Core.alloc_spec h.inv
  unfold St.alloc
  generalize hp : s.sm.alloc = p at hi hs
  obtain ⟨sm, o⟩ := p
  simp only at hi hs
  generalize hc : sm.abs = c at hs
  cases hs with
  | alloc hb h0 =>
    rename_i b
    have hb0 : b ≠ 0 := fun e => h.zero (e ▸ h0)
    refine ⟨hi, ?_, ?_, h.queue, h.data, h.nr⟩
    · show sm.abs 0 ≠ 0
      rw [hc]
      simp [SM.Counts.upd, Ne.symm hb0, h.zero]
    · intro x hx
      rcases List.mem_append.mp hx with h1 | h1
      · exact h.held x h1
      · simp at h1; rw [h1]; exact ⟨hb0, hb⟩
  | allocFull hf => exact ⟨hi, by show sm.abs 0 ≠ 0; rw [hc]; exact h.zero, h.held, h.queue, h.data, h.nr⟩

theorem step_safe (stamp : K → D → Option D) {n max : Nat} (hn : n < 2 ^ 64) {d : Disk D} {s : St D} (h : Safe n max d s)
    (o : Op D K) : Safe n max d (s.step stamp o).1 := by
  cases o with
  | alloc => exact alloc_safe h
  | inc i =>
    simp only [St.step]
    cases e : s.held[i]? with
    | none => exact h
    | some b =>
      obtain ⟨hb0, hbn⟩ := h.held b (List.mem_of_getElem? e)
      obtain ⟨hi, hs⟩ := SM.Core.inc_spec h.inv b 1 (by omega)
      refine ⟨hi, ?_, h.held, h.queue, h.data, h.nr⟩
      show (s.sm.inc b 1).1.abs 0 ≠ 0
      have hz := h.zero
      generalize (s.sm.inc b 1).1.abs = c at hs
      generalize (s.sm.inc b 1).2 = oo at hs
      cases hs with
      | inc => simp only [SM.Counts.incd]; rw [if_neg (by omega)]; exact hz
      | incFull => simp only [SM.Counts.incd]; rw [if_neg (by omega)]; exact hz
      | incOut => exact hz
  | dec i =>
    simp only [St.step]
    cases e : s.held[i]? with
    | none => exact h
    | some b =>
      obtain ⟨hb0, hbn⟩ := h.held b (List.mem_of_getElem? e)
      obtain ⟨hi, hs⟩ := SM.Core.dec_spec h.inv b
      refine ⟨hi, ?_, h.held, h.queue, h.data, h.nr⟩
      show (s.sm.dec b).1.abs 0 ≠ 0
      have hz := h.zero
      generalize (s.sm.dec b).1.abs = c at hs
      generalize (s.sm.dec b).2 = oo at hs
      cases hs with
      | dec => simp only [SM.Counts.upd]; rw [if_neg (Ne.symm hb0)]; exact hz
      | decOut => exact hz
  | write i x k r =>
    simp only [St.step]
    cases e : s.held[i]? with
    | none => exact h
    | some b => exact write_safe stamp h b (h.held b (List.mem_of_getElem? e)).1 x k r
  | read l => exact h
  | flush r => exact flush_safe h r

theorem run_safe (stamp : K → D → Option D) {n max : Nat} (hn : n < 2 ^ 64) {d : Disk D} (os : List (Op D K)) :
    ∀ {s : St D}, Safe n max d s → Safe n max d (s.run stamp os).1 := by
  induction os with
  | nil => intro s h; exact h
  | cons o os ih =>
    intro s h
    have h1 := step_safe stamp hn h o
    simp only [St.run]
    by_cases hk : (s.step stamp o).2 = true
    · rw [if_pos hk]; exact ih h1
    · rw [if_neg hk]; exact h1

theorem reserve_some (d : Disk D) (bs n max : Nat) (hn : 0 < n) :
    ∃ sm, (SM.Core.new max n).alloc = (sm, .block (some 0)) ∧
      reserve (start d bs n max) = some { bt := Batcher.new d bs, sm := sm, held := [] } := by
  obtain ⟨m, rfl⟩ : ∃ m, n = m + 1 := ⟨n - 1, by omega⟩
  have : (SM.Core.new max (m + 1)).alloc = (SM.Core.new max (m + 1)).take 0 := by
    simp [SM.Core.alloc, SM.Core.findFree, SM.Core.new, SM.Core.scan]
  refine ⟨_, this, ?_⟩
  simp only [reserve, St.alloc, start, this, SM.Core.take]

theorem ready_safe (d : Disk D) (bs n max : Nat) (hn : 0 < n) (hm : 1 ≤ max) : Safe n max d (ready d bs n max) := by
  obtain ⟨sm, h1, h2⟩ := reserve_some d bs n max hn
  unfold ready
  rw [h2]
  obtain ⟨hi, hs⟩ := SM.Core.alloc_spec (SM.Core.new_inv n max hm)
  rw [h1] at hi hs
  simp only at hi hs
  refine ⟨hi, ?_, by intro b hb; simp at hb, by intro p hp; simp [Batcher.new] at hp, rfl, rfl⟩
  show sm.abs 0 ≠ 0
  generalize sm.abs = c at hs
  cases hs with
  | alloc => simp [SM.Counts.upd]

theorem drop_safe {n max : Nat} {d : Disk D} {s : St D} (h : Safe n max d s) (r : Resp) : Safe n max d (s.drop r) :=
  flush_safe h r

/-! ## The batcher's view of a program -/

theorem run_calls (stamp : K → D → Option D) (os : List (Op D K)) :
    ∀ s : St D, (s.run stamp os).1.bt = (s.bt.run stamp (calls stamp s os)).1 := by
  induction os with
  | nil => intro s; rfl
  | cons o os ih =>
    intro s
    simp only [St.run, calls]
    have ih1 := ih (s.step stamp o).1
    by_cases hk : (s.step stamp o).2 = true
    · rw [if_pos hk, if_pos hk, ih1]
      cases o with
      | alloc =>
        simp only [St.step, St.alloc]
        generalize s.sm.alloc = p
        obtain ⟨sm, oo⟩ := p
        cases oo with
        | block b => cases b <;> rfl
        | _ => rfl
      | inc i => simp only [St.step]; cases e : s.held[i]? <;> rfl
      | dec i => simp only [St.step]; cases e : s.held[i]? <;> rfl
      | write i x k r => simp only [St.step]; cases e : s.held[i]? <;> rfl
      | read l => rfl
      | flush r => rfl
    · rw [if_neg hk, if_neg hk]
      cases o with
      | alloc =>
        simp only [St.step, St.alloc]
        generalize s.sm.alloc = p
        obtain ⟨sm, oo⟩ := p
        cases oo with
        | block b => cases b <;> rfl
        | _ => rfl
      | inc i => simp only [St.step]; cases e : s.held[i]? <;> rfl
      | dec i => simp only [St.step]; cases e : s.held[i]? <;> rfl
      | write i x k r => simp only [St.step]; cases e : s.held[i]? <;> rfl
      | read l => rfl
      | flush r => rfl

theorem calls_good (stamp : K → D → Option D) {n max : Nat} (hn : n < 2 ^ 64) {d : Disk D} (hd : n ≤ d.nr) (os : List (Op D K))
    (hg : ∀ o ∈ os, o.Good) : ∀ {s : St D}, Safe n max d s → ∀ c ∈ calls stamp s os, c.Good d.nr := by
  induction os with
  | nil => intro s _ c hc; simp [calls] at hc
  | cons o os ih =>
    intro s h c hc
    have hrest : ∀ c ∈ (if (s.step stamp o).2 then calls stamp (s.step stamp o).1 os else []), c.Good d.nr := by
      intro c hc
      by_cases hk : (s.step stamp o).2 = true
      · rw [if_pos hk] at hc
        exact ih (fun o ho => hg o (by simp [ho])) (step_safe stamp hn h o) c hc
      · rw [if_neg hk] at hc; simp at hc
    simp only [calls] at hc
    cases o with
    | alloc => exact hrest c hc
    | inc i => exact hrest c hc
    | dec i => exact hrest c hc
    | write i x k r =>
      rcases List.mem_append.mp hc with h1 | h1
      · cases e : s.held[i]? with
        | none => rw [e] at h1; simp at h1
        | some b =>
          rw [e] at h1
          simp only [Option.map_some, Option.toList_some, List.mem_singleton] at h1
          subst h1
          exact ⟨Nat.lt_of_lt_of_le (h.held b (List.mem_of_getElem? e)).2 hd, hg (.write i x k r) (by simp)⟩
      · exact hrest c h1
    | read l =>
      rcases List.mem_cons.mp hc with h1 | h1
      · subst h1; trivial
      · exact hrest c h1
    | flush r =>
      rcases List.mem_cons.mp hc with h1 | h1
      · subst h1; exact hg (.flush r) (by simp)
      · exact hrest c h1

theorem run_append_ok (stamp : K → D → Option D) (os ps : List (Op D K)) : ∀ s : St D, (s.run stamp os).2 = true →
    s.run stamp (os ++ ps) = (s.run stamp os).1.run stamp ps := by
  induction os with
  | nil => intro s _; rfl
  | cons o os ih =>
    intro s h
    simp only [St.run, List.cons_append] at h ⊢
    by_cases hk : (s.step stamp o).2 = true
    · rw [if_pos hk] at h ⊢; rw [if_pos hk]; exact ih _ h
    · rw [if_neg hk] at h; simp at h

theorem run_append_bad (stamp : K → D → Option D) (os ps : List (Op D K)) : ∀ s : St D, (s.run stamp os).2 = false →
    s.run stamp (os ++ ps) = s.run stamp os := by
  induction os with
  | nil => intro s h; simp [St.run] at h
  | cons o os ih =>
    intro s h
    simp only [St.run, List.cons_append] at h ⊢
    by_cases hk : (s.step stamp o).2 = true
    · rw [if_pos hk] at h ⊢; rw [if_pos hk]; exact ih _ h
    · rw [if_neg hk, if_neg hk]

/-- after the body and a flush on a device without faults: everything written is on the device -/
theorem flushed (stamp : K → D → Option D) (d : Disk D) (bs n max : Nat) (hn0 : 0 < n) (hn : n < 2 ^ 64) (hm : 1 ≤ max)
    (hd : n ≤ d.nr) (body : List (Op D K)) (hg : ∀ o ∈ body, o.Good) (hok : ((ready d bs n max).run stamp body).2 = true) :
    let f := ((ready d bs n max).run stamp (body ++ [.flush Resp.good])).1
    f.bt.disk.data = applyAll stamp d.nr d.data (calls stamp (ready d bs n max) body) ∧ f.bt.queue = [] ∧ f.bt.disk.nr = d.nr := by
  intro f
  have hs := ready_safe d bs n max hn0 hm
  have hbt : (ready d bs n max).bt = Batcher.new d bs := by
    obtain ⟨sm, h1, h2⟩ := reserve_some d bs n max hn0
    unfold ready; rw [h2]; rfl
  have hf : f.bt = (((ready d bs n max).run stamp body).1.bt.flush Resp.good).1 := by
    show ((ready d bs n max).run stamp (body ++ [.flush Resp.good])).1.bt = _
    rw [run_append_ok stamp body _ _ hok]
    simp only [St.run]
    by_cases hk : (((ready d bs n max).run stamp body).1.step stamp (.flush Resp.good)).2 = true
    · rw [if_pos hk]; rfl
    · rw [if_neg hk]; rfl
  have hc := calls_good stamp hn hd body hg hs
  have := batcher_flush_complete stamp d bs _ hc
  simp only [run_append] at this
  have e : f.bt = ((((Batcher.new d bs).run stamp (calls stamp (ready d bs n max) body)).1).run stamp [.flush Resp.good]).1 := by
    rw [hf, run_calls, hbt]; rfl
  rw [e]
  refine ⟨this.1, this.2, ?_⟩
  rw [← e]
  exact (run_safe stamp hn (body ++ [.flush Resp.good]) hs).nr

/-! ## Theorems -/

/-- C78, the superblock comes last.  Whatever the calls, whatever the engine answers and wherever the run stops, the
batcher never stores anything in block 0. -/
theorem restore_block0 (stamp : K → D → Option D) (d : Disk D) (bs n max : Nat) (hn0 : 0 < n) (hn : n < 2 ^ 64) (hm : 1 ≤ max)
    (os : List (Op D K)) : ((ready d bs n max).run stamp os).1.bt.disk.data 0 = d.data 0 :=
  (run_safe stamp hn os (ready_safe d bs n max hn0 hm)).data

/-- C78, a restore that reports an error before it comes to the superblock leaves block 0 alone, for all answers of the
engine, including the flush when the batcher is dropped. -/
theorem restore_error_keeps_block0 (stamp : K → D → Option D) (d : Disk D) (bs n max : Nat) (hn : n < 2 ^ 64) (hm : 1 ≤ max)
    (body : List (Op D K)) (fl : Resp) (sb : D) (q : SbResp) (hq : q.stored = false ∨ q.ok = true) (last : Resp)
    (herr : (restore stamp d bs n max body fl sb q last).2 = false) :
    (restore stamp d bs n max body fl sb q last).1.data 0 = d.data 0 := by
  by_cases hn0 : 0 < n
  · have hs := ready_safe d bs n max hn0 hm
    obtain ⟨sm, h1, h2⟩ := reserve_some d bs n max hn0
    have er : ready d bs n max = { bt := Batcher.new d bs, sm := sm, held := [] } := by unfold ready; rw [h2]; rfl
    unfold restore at herr ⊢
    rw [h2, ← er] at herr ⊢
    simp only at herr ⊢
    have hb := run_safe stamp hn body hs
    by_cases hk : ((ready d bs n max).run stamp body).2 = true
    · rw [if_pos hk] at herr ⊢
      have hf := step_safe stamp hn hb (.flush fl : Op D K)
      by_cases hk2 : (((ready d bs n max).run stamp body).1.step stamp (.flush fl)).2 = true
      · rw [if_pos hk2] at herr ⊢
        simp only at herr
        have hst : q.stored = false := by
          rcases hq with h | h
          · exact h
          · rw [h] at herr; simp at herr
        have e : (((ready d bs n max).run stamp body).1.step stamp (.flush fl)).1.writeSb sb q =
            (((ready d bs n max).run stamp body).1.step stamp (.flush fl)).1 := by
          simp [St.writeSb, hst]
        simp only [e]
        exact (drop_safe hf last).data
      · rw [if_neg hk2]
        exact (drop_safe hf last).data
    · rw [if_neg hk]
      exact (drop_safe hb last).data
  · have : n = 0 := by omega
    subst this
    rfl

/-- C78, success means complete.  On a device that stores what it is given, a restore that reports success has put the
superblock in block 0 and, in every other block, what the program last wrote there (its old contents if it did not). -/
theorem restore_ok_complete (stamp : K → D → Option D) (d : Disk D) (bs n max : Nat) (hn0 : 0 < n) (hn : n < 2 ^ 64) (hm : 1 ≤ max)
    (hd : n ≤ d.nr) (body : List (Op D K)) (hg : ∀ o ∈ body, o.Good) (sb : D) (last : Resp)
    (hok : (restore stamp d bs n max body Resp.good sb ⟨true, true⟩ last).2 = true) (l : Nat) :
    (restore stamp d bs n max body Resp.good sb ⟨true, true⟩ last).1.data l =
      if l = 0 then sb else applyAll stamp d.nr d.data (calls stamp (ready d bs n max) body) l := by
  obtain ⟨sm, h1, h2⟩ := reserve_some d bs n max hn0
  have er : ready d bs n max = { bt := Batcher.new d bs, sm := sm, held := [] } := by unfold ready; rw [h2]; rfl
  unfold restore at hok ⊢
  rw [h2, ← er] at hok ⊢
  simp only at hok ⊢
  by_cases hk : ((ready d bs n max).run stamp body).2 = true
  · rw [if_pos hk] at hok ⊢
    obtain ⟨f1, f2, f3⟩ := flushed stamp d bs n max hn0 hn hm hd body hg hk
    rw [run_append_ok stamp body _ _ hk] at f1 f2 f3
    have es : (((ready d bs n max).run stamp body).1.run stamp [.flush Resp.good]).1 =
        (((ready d bs n max).run stamp body).1.step stamp (.flush Resp.good)).1 := by
      simp only [St.run]
      by_cases hk3 : (((ready d bs n max).run stamp body).1.step stamp (.flush Resp.good)).2 = true
      · rw [if_pos hk3]
      · rw [if_neg hk3]
    rw [es] at f1 f2 f3
    by_cases hk2 : (((ready d bs n max).run stamp body).1.step stamp (.flush Resp.good)).2 = true
    · rw [if_pos hk2]
      simp only [St.drop, St.writeSb, Batcher.flush, f2, if_true, Disk.put, f1, f3]
      by_cases hl : l = 0
      · subst hl; simp; omega
      · simp [hl]
    · rw [if_neg hk2] at hok; simp at hok
  · rw [if_neg hk] at hok; simp at hok

/-- C78, crash points.  Wherever the tool is interrupted on a device that keeps what it was given, block 0 still holds
what it held before the restore, or else the restored metadata is complete. -/
theorem restore_crash_partial (stamp : K → D → Option D) (d : Disk D) (bs n max : Nat) (hn0 : 0 < n) (hn : n < 2 ^ 64) (hm : 1 ≤ max)
    (hd : n ≤ d.nr) (body : List (Op D K)) (hg : ∀ o ∈ body, o.Good) (sb : D) (dk : Disk D)
    (hc : Crash stamp d bs n max body sb dk) :
    dk.data 0 = d.data 0 ∨
      ∀ l, dk.data l = if l = 0 then sb else applyAll stamp d.nr d.data (calls stamp (ready d bs n max) body) l := by
  cases hc with
  | inBody done o rest o' _ _ => exact Or.inl (restore_block0 stamp d bs n max hn0 hn hm _)
  | inFlush r => exact Or.inl (restore_block0 stamp d bs n max hn0 hn hm _)
  | inSb stored ok hok =>
    cases stored with
    | false =>
      left
      exact restore_block0 stamp d bs n max hn0 hn hm _
    | true =>
      right
      have hk : ((ready d bs n max).run stamp body).2 = true := by
        cases e : ((ready d bs n max).run stamp body).2 with
        | true => rfl
        | false => rw [run_append_bad stamp body _ _ e, e] at hok; simp at hok
      obtain ⟨f1, f2, f3⟩ := flushed stamp d bs n max hn0 hn hm hd body hg hk
      intro l
      simp only [St.writeSb, if_true, Disk.put, f1, f3]
      by_cases hl : l = 0
      · subst hl; simp; omega
      · simp [hl]

/-- a run only succeeds if every call in it did -/
theorem run_ok_prefix (stamp : K → D → Option D) (os ps : List (Op D K)) (s : St D) (h : (s.run stamp (os ++ ps)).2 = true) : (s.run stamp os).2 = true := by
  cases e : (s.run stamp os).2 with
  | true => rfl
  | false => rw [run_append_bad stamp os ps s e, e] at h; cases h

/-- C78, errors of whole calls are not lost: if the engine fails the `write_many` of a flush while blocks wait to be
written, in the body or at the end, the restore reports an error (and so, by `restore_error_keeps_block0`, block 0 is as
it was). -/
theorem restore_flush_error (stamp : K → D → Option D) (d : Disk D) (bs n max : Nat) (hn0 : 0 < n) (pre post : List (Op D K)) (fl r : Resp) (hr : r.fail = true)
    (hq : ((ready d bs n max).run stamp pre).1.bt.queue ≠ []) (sb : D) (q : SbResp) (last : Resp) :
    (restore stamp d bs n max (pre ++ .flush r :: post) fl sb q last).2 = false ∧ (restore stamp d bs n max pre r sb q last).2 = false := by
  obtain ⟨sm, h1, h2⟩ := reserve_some d bs n max hn0
  have er : ready d bs n max = { bt := Batcher.new d bs, sm := sm, held := [] } := by unfold ready; rw [h2]; rfl
  have hf : (((ready d bs n max).run stamp pre).1.step stamp (.flush r)).2 = false := by
    show (Batcher.flush _ r).2 = false
    unfold Batcher.flush
    rw [if_neg hq]
    simp [Batcher.flush_, hr]
  constructor
  · have hb : ((ready d bs n max).run stamp (pre ++ .flush r :: post)).2 = false := by
      cases e : ((ready d bs n max).run stamp (pre ++ .flush r :: post)).2 with
      | false => rfl
      | true =>
        have hp := run_ok_prefix stamp pre _ _ e
        rw [run_append_ok stamp pre _ _ hp] at e
        simp only [St.run] at e
        rw [hf] at e
        simp [hf] at e
    unfold restore
    rw [h2, ← er]
    simp only
    rw [hb]
    rfl
  · unfold restore
    rw [h2, ← er]
    simp only
    by_cases hk : ((ready d bs n max).run stamp pre).2 = true
    · rw [if_pos hk, hf]
      rfl
    · rw [if_neg hk]

/-! ## What does not hold -/

/-- a small program: one node, written and flushed -/
def demoBody (r : Resp) : List (Op Nat Unit) := [.alloc, .write 0 7 () Resp.good, .flush r]

/-- Per-block write errors are dropped (`src/write_batcher.rs:118-121`): the restore reports success, the new superblock
is in place and the node it needs is not. -/
theorem restore_block_error_refuted :
    let p := restore (K := Unit) (fun _ x => some x) (⟨4, fun _ => 0⟩ : Disk Nat) 8 4 100 (demoBody ⟨false, fun _ => true⟩)
      Resp.good 99 ⟨true, true⟩ Resp.good
    p.2 = true ∧ p.1.data 0 = 99 ∧ p.1.data 1 = 0 ∧
      applyAll (K := Unit) (fun _ x => some x) 4 (fun _ => 0) (calls (fun _ x => some x) (ready ⟨4, fun _ => 0⟩ 8 4 100) (demoBody Resp.good)) 1 = 7 := by
  refine ⟨rfl, rfl, rfl, rfl⟩

/-- Over old metadata, a crash leaves the old superblock with its nodes overwritten: block 0 is as before, and nothing on
the device says that the rest is not. -/
theorem restore_over_old_refuted :
    ∃ dk, Crash (K := Unit) (fun _ x => some x) (⟨4, fun b => 50 + b⟩ : Disk Nat) 8 4 100 (demoBody Resp.good) 99 dk ∧
      dk.data 0 = 50 ∧ dk.data 1 = 7 :=
  ⟨_, .inFlush Resp.good, rfl, rfl⟩

/-- No barrier separates the flush from the superblock (`sync_all` or `fsync` is called nowhere in `src`), so a device with
a volatile cache may keep the superblock and lose the node: `putMany` with an answer that skips the first of the two
writes the tool made.  All writes kept gives what `restore` reports. -/
theorem restore_no_barrier_refuted :
    let d : Disk Nat := ⟨4, fun _ => 0⟩
    let writes := [(1, 7), (0, 99)]
    (∀ l, (restore (K := Unit) (fun _ x => some x) d 8 4 100 (demoBody Resp.good) Resp.good 99 ⟨true, true⟩ Resp.good).1.data l =
      (d.putMany (fun _ => false) 0 writes).data l) ∧
    (d.putMany (fun i => i == 0) 0 writes).data 0 = 99 ∧ (d.putMany (fun i => i == 0) 0 writes).data 1 = 0 := by
  refine ⟨?_, rfl, rfl⟩
  intro l
  rfl

/-- non-vacuity: two nodes, one rewritten through its handle after the batch of one was written out -/
def demoBody2 : List (Op Nat Unit) :=
  [.alloc, .write 0 7 () Resp.good, .alloc, .write 1 8 () Resp.good, .write 0 9 () Resp.good, .read 1, .dec 1, .alloc]

example : (∀ o ∈ demoBody2, o.Good) ∧
    (restore (K := Unit) (fun _ x => some x) (⟨5, fun _ => 0⟩ : Disk Nat) 1 5 100 demoBody2 Resp.good 99 ⟨true, true⟩ Resp.good).2 = true ∧
    calls (K := Unit) (fun _ x => some x) (ready (⟨5, fun _ => 0⟩ : Disk Nat) 1 5 100) demoBody2 =
      [.write 1 7 () Resp.good, .write 2 8 () Resp.good, .write 1 9 () Resp.good, .read 1] := by
  refine ⟨?_, rfl, rfl⟩
  intro o ho
  simp [demoBody2] at ho
  rcases ho with rfl | rfl | rfl | rfl | rfl | rfl | rfl | rfl <;> simp [Op.Good]

/-- non-vacuity of `restore_flush_error`: a node waits in the queue when the flush comes -/
example : ((ready (⟨5, fun _ => 0⟩ : Disk Nat) 8 5 100).run (K := Unit) (fun _ x => some x) [.alloc, .write 0 7 () Resp.good]).1.bt.queue = [(1, 7)] := rfl

end Verif.RIo
